import Verif.Source.PyLoc
import Verif.Source.Held
import Verif.Props.SourceRange
/-!
# Property C108: locations and offsets made in Python are values

The specification: a location is what it was made of, changed by the assignments that were aimed at it, in their order,
and by nothing else (`aimed`, `Applied`).
-/

namespace Verif.Props
open Verif Verif.PyLoc Verif.Held

/-! ## Specification -/

/-- The number is one that `unsigned` has. -/
def natOf (n : Int) : Option Nat := if 0 ≤ n ∧ n < 2 ^ 32 then some n.toNat else none

/-- The changes a statement makes to location `i`, if the variables refer to `vars`. -/
def aimed (vars : List Handle) (i : Nat) : Stmt → List Change
  | .setPath v p => if vars[v]? = some (.loc i) then [.path p] else []
  | .setCategory v c => if vars[v]? = some (.loc i) then [.category c] else []
  | .setLine v n =>
    if vars[v]? = some (.start i) then (natOf n).toList.map .startLine
    else if vars[v]? = some (.stop i) then (natOf n).toList.map .endLine else []
  | .setColumn v n =>
    if vars[v]? = some (.start i) then (natOf n).toList.map .startColumn
    else if vars[v]? = some (.stop i) then (natOf n).toList.map .endColumn else []
  | _ => []

/-- The changes a statement makes to the offset `i`: line and column, each if it is changed. -/
def aimedOffset (vars : List Handle) (i : Nat) : Stmt → Loc → Loc
  | .setLine v n, l => if vars[v]? = some (.off i) then { l with line := (natOf n).getD l.line } else l
  | .setColumn v n, l => if vars[v]? = some (.off i) then { l with column := (natOf n).getD l.column } else l
  | _, l => l

/-- Changes in order; each concerns something that is there. -/
inductive Applied : List Change → Range → Range → Prop
  | nil {r} : Applied [] r r
  | cons {c cs r r1 r2} : c.on r = some r1 → Applied cs r1 r2 → Applied (c :: cs) r r2

theorem Applied.append {a b : List Change} {r r1 r2 : Range} (h : Applied a r r1) (g : Applied b r1 r2) : Applied (a ++ b) r r2 := by
  induction h with
  | nil => exact g
  | cons h1 _ ih => exact .cons h1 (ih g)

/-! ## Every variable refers to something -/

def Refers (s : State) : Handle → Prop
  | .none => True
  | .off i => i < s.offs.length
  | .loc i => i < s.locs.length
  | .start i => ∃ r, s.locs[i]? = some r ∧ r.start.isSome = true
  | .stop i => ∃ r, s.locs[i]? = some r ∧ r.stop.isSome = true

structure Sound (s : State) : Prop where
  refers : ∀ h ∈ s.vars, Refers s h
  plain : ∀ r ∈ s.locs, r.member = none ∧ r.revision = none

theorem sound_empty : Sound {} := ⟨by simp, by simp⟩

/-- What one statement does, as a whole: the variables only grow, and every object is changed as aimed. -/
structure Step (s s' : State) (q : Stmt) : Prop where
  vars : ∃ t, s'.vars = s.vars ++ t
  offs : ∀ (i : Nat) (l : Loc), s.offs[i]? = some l → s'.offs[i]? = some (aimedOffset s.vars i q l)
  locs : ∀ (i : Nat) (r : Range), s.locs[i]? = some r → ∃ r' : Range, s'.locs[i]? = some r' ∧ Applied (aimed s.vars i q) r r'
  sound : Sound s'

theorem var_refers {s : State} (hs : Sound s) {v : Nat} {h : Handle} (hv : s.vars[v]? = some h) : Refers s h :=
  hs.refers h (List.mem_of_getElem? hv)

theorem natOf_eq (n : Int) : pyUnsigned n = natOf n := by
  unfold pyUnsigned natOf
  by_cases h : 0 ≤ n ∧ n ≤ 4294967295
  · rw [if_pos h, if_pos ⟨h.1, by omega⟩]
  · rw [if_neg h, if_neg (fun g => h ⟨g.1, by omega⟩)]

/-- A statement that changes no object and adds no variable. -/
theorem step_same {s : State} (hs : Sound s) {q : Stmt} (h1 : ∀ i l, aimedOffset s.vars i q l = l) (h2 : ∀ i, aimed s.vars i q = []) :
    Step s s q :=
  ⟨⟨[], by simp⟩, fun i l h => by rw [h1]; exact h, fun i r h => ⟨r, h, by rw [h2]; exact .nil⟩, hs⟩

theorem refers_mono {s : State} (s' : State) (ho : s.offs.length ≤ s'.offs.length)
    (hl : ∀ (i : Nat) (r : Range), s.locs[i]? = some r → ∃ r' : Range, s'.locs[i]? = some r' ∧ (r.start.isSome → r'.start.isSome) ∧
      (r.stop.isSome → r'.stop.isSome)) {h : Handle} (g : Refers s h) : Refers s' h := by
  cases h with
  | none => trivial
  | off i => exact Nat.lt_of_lt_of_le g ho
  | loc i =>
    obtain ⟨r', h1, _⟩ := hl i _ (List.getElem?_eq_getElem g)
    exact (List.getElem?_eq_some_iff.1 h1).1
  | start i =>
    obtain ⟨r, h1, h2⟩ := g
    obtain ⟨r', g1, g2, _⟩ := hl i r h1
    exact ⟨r', g1, g2 h2⟩
  | stop i =>
    obtain ⟨r, h1, h2⟩ := g
    obtain ⟨r', g1, _, g2⟩ := hl i r h1
    exact ⟨r', g1, g2 h2⟩

/-- Overwriting a location with one that has what it had. -/
theorem sound_set {s : State} (hs : Sound s) {i : Nat} {r r' : Range} (hr : s.locs[i]? = some r)
    (h1 : r.start.isSome → r'.start.isSome) (h2 : r.stop.isSome → r'.stop.isSome) (h3 : r'.member = none ∧ r'.revision = none) :
    Sound { s with locs := s.locs.set i r' } := by
  refine ⟨fun h hh => refers_mono (s := s) (h := h) (g := hs.refers h hh) { s with locs := s.locs.set i r' } (Nat.le_refl _) ?_, ?_⟩
  · intro j x hx
    by_cases hj : i = j
    · subst hj
      rw [hr] at hx
      cases hx
      exact ⟨r', by simp [(List.getElem?_eq_some_iff.1 hr).1], h1, h2⟩
    · exact ⟨x, by simp [List.getElem?_set_ne hj, hx], id, id⟩
  · intro x hx
    rcases List.mem_or_eq_of_mem_set hx with hx | rfl
    · exact hs.plain x hx
    · exact h3

/-- An assignment to a location. -/
theorem step_set {s : State} (hs : Sound s) {q : Stmt} {i : Nat} {r r' : Range} {c : Change} (hr : s.locs[i]? = some r)
    (hc : c.on r = some r') (h1 : aimed s.vars i q = [c]) (h2 : ∀ j, j ≠ i → aimed s.vars j q = [])
    (h3 : ∀ j l, aimedOffset s.vars j q l = l) : Step s { s with locs := s.locs.set i r' } q := by
  have hp := hs.plain r (List.mem_of_getElem? hr)
  have key : (r.start.isSome → r'.start.isSome) ∧ (r.stop.isSome → r'.stop.isSome) ∧ (r'.member = none ∧ r'.revision = none) := by
    cases c <;> simp only [Change.on, Option.map_eq_some_iff] at hc
    · cases hc; exact ⟨id, id, hp⟩
    · cases hc; exact ⟨id, id, hp⟩
    all_goals
      obtain ⟨l, hl, rfl⟩ := hc
      simp_all
  refine ⟨⟨[], by simp⟩, fun j l h => by rw [h3]; exact h, ?_, sound_set hs hr key.1 key.2.1 key.2.2⟩
  intro j x hx
  by_cases hj : j = i
  · subst hj
    rw [hr] at hx
    cases hx
    exact ⟨r', by simp [(List.getElem?_eq_some_iff.1 hr).1], by rw [h1]; exact .cons hc .nil⟩
  · exact ⟨x, by simp [List.getElem?_set_ne (Ne.symm hj), hx], by rw [h2 j hj]; exact .nil⟩

theorem offset_some {s : State} {h : Handle} (g : Refers s h) : ∃ x, s.offset h = some x := by
  cases h with
  | none => exact ⟨_, rfl⟩
  | loc i => exact ⟨_, rfl⟩
  | off i => exact ⟨.ok s.offs[i], by simp [State.offset, List.getElem?_eq_getElem g]⟩
  | start i =>
    obtain ⟨r, h1, h2⟩ := g
    obtain ⟨l, hl⟩ := Option.isSome_iff_exists.1 h2
    exact ⟨.ok l, by simp [State.offset, h1, hl]⟩
  | stop i =>
    obtain ⟨r, h1, h2⟩ := g
    obtain ⟨l, hl⟩ := Option.isSome_iff_exists.1 h2
    exact ⟨.ok l, by simp [State.offset, h1, hl]⟩

theorem argument_some {s : State} (hs : Sound s) (a : Option Nat) : ∃ x, s.argument a = some x := by
  cases a with
  | none => exact ⟨_, rfl⟩
  | some v =>
    cases hv : s.vars[v]? with
    | none => exact ⟨.error .name, by simp [State.argument, hv]⟩
    | some h =>
      obtain ⟨x, hx⟩ := offset_some (var_refers hs hv)
      cases h with
      | none => exact ⟨.ok none, by simp [State.argument, hv]⟩
      | loc i => exact ⟨.error .type, by simp [State.argument, hv]⟩
      | off i => exact ⟨x.map some, by simp [State.argument, hv, hx]⟩
      | start i => exact ⟨x.map some, by simp [State.argument, hv, hx]⟩
      | stop i => exact ⟨x.map some, by simp [State.argument, hv, hx]⟩

theorem location_some {s : State} (hs : Sound s) (v : Nat) :
    (∃ e, s.location v = some (.error e) ∧ ∀ i, s.vars[v]? ≠ some (.loc i)) ∨
    ∃ i r, s.location v = some (.ok (i, r)) ∧ s.vars[v]? = some (.loc i) ∧ s.locs[i]? = some r := by
  unfold State.location
  cases hv : s.vars[v]? with
  | none => exact .inl ⟨_, rfl, by simp⟩
  | some h =>
    have g := var_refers hs hv
    cases h with
    | loc i => exact .inr ⟨i, s.locs[i], by simp [List.getElem?_eq_getElem g], rfl, List.getElem?_eq_getElem g⟩
    | none => exact .inl ⟨_, rfl, by simp⟩
    | off i => exact .inl ⟨_, rfl, by simp⟩
    | start i => exact .inl ⟨_, rfl, by simp⟩
    | stop i => exact .inl ⟨_, rfl, by simp⟩

theorem see_some {s : State} (hs : Sound s) (v : Nat) : ∃ x, s.see v = some x := by
  unfold State.see
  cases hv : s.vars[v]? with
  | none => exact ⟨_, rfl⟩
  | some h =>
    have g := var_refers hs hv
    obtain ⟨x, hx⟩ := offset_some g
    cases h with
    | none => exact ⟨_, rfl⟩
    | loc i => exact ⟨.ok (.location s.locs[i]), by simp only [List.getElem?_eq_getElem (show i < s.locs.length from g)]; rfl⟩
    | off i => exact ⟨_, by simp only [hx]; rfl⟩
    | start i => exact ⟨_, by simp only [hx]; rfl⟩
    | stop i => exact ⟨_, by simp only [hx]; rfl⟩

/-- A new variable. -/
theorem step_var {s : State} (hs : Sound s) {q : Stmt} {h : Handle} (g : Refers s h)
    (h1 : ∀ i l, aimedOffset s.vars i q l = l) (h2 : ∀ i, aimed s.vars i q = []) :
    Step s { s with vars := s.vars ++ [h] } q := by
  refine ⟨⟨[h], rfl⟩, fun i l e => by rw [h1]; exact e, fun i r e => ⟨r, e, by rw [h2]; exact .nil⟩, ?_, hs.plain⟩
  have mono : ∀ h', Refers s h' → Refers { s with vars := s.vars ++ [h] } h' := fun h' g' => by
    cases h' <;> exact g'
  intro h' hh
  rcases List.mem_append.1 hh with hh | hh
  · exact mono h' (hs.refers h' hh)
  · simp only [List.mem_cons, List.not_mem_nil, or_false] at hh
    subst hh
    exact mono _ g

/-- An assignment to a line or a column. -/
theorem step_assign {s : State} (hs : Sound s) {q : Stmt} {v : Nat} {n : Int} {f : Loc → Option Loc} {upd : Loc → Nat → Loc}
    {cs cp : Nat → Change} (hf : ∀ l, f l = (pyUnsigned n).map (upd l))
    (hcs : ∀ (k : Nat) (r : Range) (l : Loc), r.start = some l → (cs k).on r = some { r with start := some (upd l k) })
    (hcp : ∀ (k : Nat) (r : Range) (l : Loc), r.stop = some l → (cp k).on r = some { r with stop := some (upd l k) })
    (ha : ∀ vars i, aimed vars i q = if vars[v]? = some (.start i) then (natOf n).toList.map cs
      else if vars[v]? = some (.stop i) then (natOf n).toList.map cp else [])
    (hao : ∀ vars i l, aimedOffset vars i q l = if vars[v]? = some (.off i) then ((natOf n).map (upd l)).getD l else l) :
    ∃ r s', assign s v f = some (r, s') ∧ Step s s' q ∧ (∀ e, r = .raised e → s' = s) := by
  unfold assign
  cases hv : s.vars[v]? with
  | none =>
    refine ⟨_, s, rfl, step_same hs (fun i l => by rw [hao, hv]; simp) (fun i => by rw [ha, hv]; simp), fun _ _ => rfl⟩
  | some h =>
    have g := var_refers hs hv
    cases h with
    | none => exact ⟨_, s, rfl, step_same hs (fun i l => by rw [hao, hv]; simp) (fun i => by rw [ha, hv]; simp), fun _ _ => rfl⟩
    | loc i => exact ⟨_, s, rfl, step_same hs (fun i l => by rw [hao, hv]; simp) (fun i => by rw [ha, hv]; simp), fun _ _ => rfl⟩
    | off i =>
      have hi : s.offs[i]? = some s.offs[i] := List.getElem?_eq_getElem g
      simp only [State.offset, hi, Option.map_some, hf, natOf_eq]
      cases hn : natOf n with
      | none =>
        refine ⟨_, s, rfl, step_same hs (fun j l => by rw [hao, hn]; simp) (fun i => by rw [ha, hv]; simp), fun _ _ => rfl⟩
      | some k =>
        refine ⟨_, _, rfl, ⟨⟨[], by simp [State.putOffset]⟩, ?_, fun j r e => ⟨r, e, by rw [ha, hv]; simp; exact .nil⟩, ?_, hs.plain⟩,
          fun e he => by cases he⟩
        · intro j l hl
          rw [hao, hv, hn]
          by_cases hj : i = j
          · subst hj
            rw [hi] at hl
            cases hl
            simp [State.putOffset, (show i < s.offs.length from g)]
          · simp [State.putOffset, List.getElem?_set_ne hj, hl, hj]
        · intro h hh
          exact refers_mono (s := s) (h := h) (g := hs.refers h hh) (s.putOffset (upd s.offs[i] k) (.off i)) (by simp [State.putOffset]) (fun j r e => ⟨r, e, id, id⟩)
    | start i =>
      obtain ⟨r, hr, h2⟩ := g
      obtain ⟨l, hl⟩ := Option.isSome_iff_exists.1 h2
      simp only [State.offset, hr, Option.bind_some, hl, Option.map_some, hf, natOf_eq]
      cases hn : natOf n with
      | none =>
        refine ⟨_, s, rfl, step_same hs (fun j l => by rw [hao, hv]; simp) (fun i => by rw [ha, hn]; simp), fun _ _ => rfl⟩
      | some k =>
        refine ⟨_, _, rfl, ?_, fun e he => by cases he⟩
        simp only [State.putOffset, hr]
        refine step_set hs hr (hcs k r l hl) (by rw [ha, hv, hn]; simp) ?_ (fun j l => by rw [hao, hv]; simp)
        intro j hj
        rw [ha, hv]
        simp [Ne.symm hj]
    | stop i =>
      obtain ⟨r, hr, h2⟩ := g
      obtain ⟨l, hl⟩ := Option.isSome_iff_exists.1 h2
      simp only [State.offset, hr, Option.bind_some, hl, Option.map_some, hf, natOf_eq]
      cases hn : natOf n with
      | none =>
        refine ⟨_, s, rfl, step_same hs (fun j l => by rw [hao, hv]; simp) (fun i => by rw [ha, hn]; simp), fun _ _ => rfl⟩
      | some k =>
        refine ⟨_, _, rfl, ?_, fun e he => by cases he⟩
        simp only [State.putOffset, hr]
        refine step_set hs hr (hcp k r l hl) (by rw [ha, hv, hn]; simp) ?_ (fun j l => by rw [hao, hv]; simp)
        intro j hj
        rw [ha, hv]
        simp [Ne.symm hj]

/-- Every statement is defined and does what it is aimed at; one that raises does nothing. -/
theorem step_spec {s : State} (hs : Sound s) (q : Stmt) :
    ∃ r s', step s q = some (r, s') ∧ Step s s' q ∧ (∀ e, r = .raised e → s' = s) := by
  cases q with
  | newOffset l c =>
    simp only [step]
    cases pyOffset l c with
    | none => exact ⟨_, s, rfl, step_same hs (fun _ _ => rfl) (fun _ => rfl), fun _ _ => rfl⟩
    | some o =>
      refine ⟨_, _, rfl, ⟨⟨_, rfl⟩, ?_, fun i r e => ⟨r, e, .nil⟩, ?_, hs.plain⟩, fun e he => by cases he⟩
      · intro i l hl
        show (s.offs ++ [o])[i]? = some l
        rw [List.getElem?_append_left (List.getElem?_eq_some_iff.1 hl).1, hl]
      · intro h hh
        rcases List.mem_append.1 hh with hh | hh
        · exact refers_mono (s := s) (h := h) (g := hs.refers h hh) { s with offs := s.offs ++ [o], vars := s.vars ++ [.off s.offs.length] } (by simp) (fun j r e => ⟨r, e, id, id⟩)
        · simp only [List.mem_cons, List.not_mem_nil, or_false] at hh
          subst hh
          simp [Refers]
  | newLocation p a b c =>
    obtain ⟨x, hx⟩ := argument_some hs a
    obtain ⟨y, hy⟩ := argument_some hs b
    simp only [step, hx, hy]
    cases x with
    | error e => exact ⟨_, s, rfl, step_same hs (fun _ _ => rfl) (fun _ => rfl), fun _ _ => rfl⟩
    | ok x =>
      cases y with
      | error e => exact ⟨_, s, rfl, step_same hs (fun _ _ => rfl) (fun _ => rfl), fun _ _ => rfl⟩
      | ok y =>
        have hap : ∀ (i : Nat) (r z : Range), s.locs[i]? = some r → (s.locs ++ [z])[i]? = some r := by
          intro i r z hr
          rw [List.getElem?_append_left (List.getElem?_eq_some_iff.1 hr).1, hr]
        refine ⟨_, _, rfl, ⟨⟨_, rfl⟩, fun i l hl => hl, fun i r e => ⟨r, hap i r _ e, .nil⟩, ?_, ?_⟩, fun e he => by cases he⟩
        · intro h hh
          rcases List.mem_append.1 hh with hh | hh
          · exact refers_mono (s := s) (h := h) (g := hs.refers h hh) { s with locs := s.locs ++ [⟨p, x, y, c.getD .necessary, none, none⟩], vars := s.vars ++ [.loc s.locs.length] } (Nat.le_refl _) (fun j r e => ⟨r, hap j r _ e, id, id⟩)
          · simp only [List.mem_cons, List.not_mem_nil, or_false] at hh
            subst hh
            simp [Refers]
        · intro r hr
          rcases List.mem_append.1 hr with hr | hr
          · exact hs.plain r hr
          · simp only [List.mem_cons, List.not_mem_nil, or_false] at hr
            subst hr
            exact ⟨rfl, rfl⟩
  | start v =>
    rcases location_some hs v with ⟨e, h1, _⟩ | ⟨i, r, h1, h2, h3⟩
    · simp only [step, h1]
      exact ⟨_, s, rfl, step_same hs (fun _ _ => rfl) (fun _ => rfl), fun _ _ => rfl⟩
    · simp only [step, h1]
      refine ⟨_, _, rfl, step_var hs ?_ (fun _ _ => rfl) (fun _ => rfl), fun e he => by cases he⟩
      cases hi : r.start.isSome with
      | true => exact ⟨r, h3, hi⟩
      | false => trivial
  | stop v =>
    rcases location_some hs v with ⟨e, h1, _⟩ | ⟨i, r, h1, h2, h3⟩
    · simp only [step, h1]
      exact ⟨_, s, rfl, step_same hs (fun _ _ => rfl) (fun _ => rfl), fun _ _ => rfl⟩
    · simp only [step, h1]
      refine ⟨_, _, rfl, step_var hs ?_ (fun _ _ => rfl) (fun _ => rfl), fun e he => by cases he⟩
      cases hi : r.stop.isSome with
      | true => exact ⟨r, h3, hi⟩
      | false => trivial
  | setLine v n =>
    exact step_assign hs (upd := fun l k => { l with line := k }) (cs := .startLine) (cp := .endLine) (fun _ => rfl)
      (fun k r l h => by simp [Change.on, h]) (fun k r l h => by simp [Change.on, h]) (fun _ _ => rfl)
      (fun vars i l => by simp only [aimedOffset]; cases natOf n <;> simp)
  | setColumn v n =>
    exact step_assign hs (upd := fun l k => { l with column := k }) (cs := .startColumn) (cp := .endColumn) (fun _ => rfl)
      (fun k r l h => by simp [Change.on, h]) (fun k r l h => by simp [Change.on, h]) (fun _ _ => rfl)
      (fun vars i l => by simp only [aimedOffset]; cases natOf n <;> simp)
  | setPath v p =>
    rcases location_some hs v with ⟨e, h1, h2⟩ | ⟨i, r, h1, h2, h3⟩
    · simp only [step, h1]
      exact ⟨_, s, rfl, step_same hs (fun _ _ => rfl) (fun i => by simp [aimed, h2 i]), fun _ _ => rfl⟩
    · simp only [step, h1]
      refine ⟨_, _, rfl, step_set hs h3 (c := .path p) rfl (by simp [aimed, h2]) ?_ (fun _ _ => rfl), fun e he => by cases he⟩
      intro j hj
      simp [aimed, h2, Ne.symm hj]
  | setCategory v c =>
    rcases location_some hs v with ⟨e, h1, h2⟩ | ⟨i, r, h1, h2, h3⟩
    · simp only [step, h1]
      exact ⟨_, s, rfl, step_same hs (fun _ _ => rfl) (fun i => by simp [aimed, h2 i]), fun _ _ => rfl⟩
    · simp only [step, h1]
      refine ⟨_, _, rfl, step_set hs h3 (c := .category c) rfl (by simp [aimed, h2]) ?_ (fun _ _ => rfl), fun e he => by cases he⟩
      intro j hj
      simp [aimed, h2, Ne.symm hj]
  | equal v w =>
    obtain ⟨x, hx⟩ := see_some hs v
    obtain ⟨y, hy⟩ := see_some hs w
    simp only [step, hx, hy]
    cases x with
    | error e => exact ⟨_, s, rfl, step_same hs (fun _ _ => rfl) (fun _ => rfl), fun _ _ => rfl⟩
    | ok x =>
      cases y with
      | error e => exact ⟨_, s, rfl, step_same hs (fun _ _ => rfl) (fun _ => rfl), fun _ _ => rfl⟩
      | ok y => exact ⟨_, s, rfl, step_same hs (fun _ _ => rfl) (fun _ => rfl), fun _ _ => rfl⟩
  | text v =>
    obtain ⟨x, hx⟩ := see_some hs v
    simp only [step, hx]
    rcases x with e | (_ | _ | _)
    all_goals exact ⟨_, s, rfl, step_same hs (fun _ _ => rfl) (fun _ => rfl), fun _ _ => rfl⟩

/-! ## C108 -/

/-- A program, statement by statement. -/
theorem run_spec {s : State} (hs : Sound s) (qs : List Stmt) :
    ∃ rs s', run s qs = some (rs, s') ∧ Sound s' ∧ (∃ t, s'.vars = s.vars ++ t) := by
  induction qs generalizing s with
  | nil => exact ⟨[], s, rfl, hs, [], by simp⟩
  | cons q qs ih =>
    obtain ⟨r, s1, h1, h2, _⟩ := step_spec hs q
    obtain ⟨rs, s', g1, g2, t, g3⟩ := ih h2.sound
    obtain ⟨t0, h0⟩ := h2.vars
    exact ⟨r :: rs, s', by simp [run, h1, g1], g2, t0 ++ t, by rw [g3, h0, List.append_assoc]⟩

/-- No program that makes locations and offsets, reads, assigns and compares them is undefined: every variable refers to
    something that is there. -/
theorem C108_defined (qs : List Stmt) : ∃ rs s, run {} qs = some (rs, s) ∧ Sound s := by
  obtain ⟨rs, s, h1, h2, _⟩ := run_spec sound_empty qs
  exact ⟨rs, s, h1, h2⟩

/-- A variable that is used was assigned before, so it refers to the same at the end. -/
theorem aimed_later {s : State} {q : Stmt} {r : Reply} {s' : State} (h : step s q = some (r, s')) (hr : r ≠ .raised .name)
    (t : List Handle) (i : Nat) :
    aimed (s.vars ++ t) i q = aimed s.vars i q ∧ ∀ l, aimedOffset (s.vars ++ t) i q l = aimedOffset s.vars i q l := by
  have key : ∀ v : Nat, s.vars[v]? ≠ none → (s.vars ++ t)[v]? = s.vars[v]? := by
    intro v hv
    rw [List.getElem?_append_left]
    exact Nat.lt_of_not_le fun hn => hv (List.getElem?_eq_none hn)
  cases q with
  | setLine v n =>
    have hv : s.vars[v]? ≠ none := by
      intro e
      simp only [step, assign, e, Option.some.injEq, Prod.mk.injEq] at h
      exact hr h.1.symm
    exact ⟨by simp only [aimed, key v hv], fun l => by simp only [aimedOffset, key v hv]⟩
  | setColumn v n =>
    have hv : s.vars[v]? ≠ none := by
      intro e
      simp only [step, assign, e, Option.some.injEq, Prod.mk.injEq] at h
      exact hr h.1.symm
    exact ⟨by simp only [aimed, key v hv], fun l => by simp only [aimedOffset, key v hv]⟩
  | setPath v p =>
    have hv : s.vars[v]? ≠ none := by
      intro e
      simp only [step, State.location, e, Option.map_some, Option.some.injEq, Prod.mk.injEq] at h
      exact hr h.1.symm
    exact ⟨by simp only [aimed, key v hv], fun l => rfl⟩
  | setCategory v c =>
    have hv : s.vars[v]? ≠ none := by
      intro e
      simp only [step, State.location, e, Option.map_some, Option.some.injEq, Prod.mk.injEq] at h
      exact hr h.1.symm
    exact ⟨by simp only [aimed, key v hv], fun l => rfl⟩
  | newOffset _ _ => exact ⟨rfl, fun _ => rfl⟩
  | newLocation _ _ _ _ => exact ⟨rfl, fun _ => rfl⟩
  | start _ => exact ⟨rfl, fun _ => rfl⟩
  | stop _ => exact ⟨rfl, fun _ => rfl⟩
  | equal _ _ => exact ⟨rfl, fun _ => rfl⟩
  | text _ => exact ⟨rfl, fun _ => rfl⟩

/-- From any point of a program on, a location is what it was, changed by exactly the assignments aimed at it: through a
    variable for it, or for its start or end. In particular later changes of the offsets it was made from, and of other
    locations made from the same offsets, do not reach it. -/
theorem C108_locations {s : State} (hs : Sound s) {qs : List Stmt} {rs : List Reply} {s' : State}
    (h : run s qs = some (rs, s')) (hn : Reply.raised .name ∉ rs) {i : Nat} {r : Range} (hr : s.locs[i]? = some r) :
    ∃ r', s'.locs[i]? = some r' ∧ Applied (qs.flatMap (aimed s'.vars i)) r r' := by
  induction qs generalizing s rs r with
  | nil => cases h; exact ⟨r, hr, .nil⟩
  | cons q qs ih =>
    obtain ⟨x, s1, h1, h2, _⟩ := step_spec hs q
    obtain ⟨rs1, s2, g1, _, t, g3⟩ := run_spec h2.sound qs
    simp only [run, h1, g1, Option.bind_some, Option.map_some, Option.some.injEq, Prod.mk.injEq] at h
    obtain ⟨rfl, rfl⟩ := h
    simp only [List.mem_cons, not_or] at hn
    obtain ⟨r1, k1, k2⟩ := h2.locs i r hr
    obtain ⟨r', m1, m2⟩ := ih h2.sound g1 hn.2 k1
    obtain ⟨t0, h0⟩ := h2.vars
    refine ⟨r', m1, ?_⟩
    rw [List.flatMap_cons]
    refine Applied.append ?_ m2
    rw [g3, h0, List.append_assoc, (aimed_later h1 (Ne.symm hn.1) (t0 ++ t) i).1]
    exact k2

/-- The same for offsets that the program made itself. -/
theorem C108_offsets {s : State} (hs : Sound s) {qs : List Stmt} {rs : List Reply} {s' : State}
    (h : run s qs = some (rs, s')) (hn : Reply.raised .name ∉ rs) {i : Nat} {l : Loc} (hl : s.offs[i]? = some l) :
    s'.offs[i]? = some (qs.foldl (fun l q => aimedOffset s'.vars i q l) l) := by
  induction qs generalizing s rs l with
  | nil => cases h; exact hl
  | cons q qs ih =>
    obtain ⟨x, s1, h1, h2, _⟩ := step_spec hs q
    obtain ⟨rs1, s2, g1, _, t, g3⟩ := run_spec h2.sound qs
    simp only [run, h1, g1, Option.bind_some, Option.map_some, Option.some.injEq, Prod.mk.injEq] at h
    obtain ⟨rfl, rfl⟩ := h
    simp only [List.mem_cons, not_or] at hn
    obtain ⟨t0, h0⟩ := h2.vars
    rw [List.foldl_cons, ih h2.sound g1 hn.2 (h2.offs i l hl)]
    rw [g3, h0, List.append_assoc, (aimed_later h1 (Ne.symm hn.1) (t0 ++ t) i).2]

/-- What a variable shows, as an argument for an offset. -/
inductive Shows (s : State) : Option Nat → Option Loc → Prop
  | missing : Shows s none none
  | none {v} : s.vars[v]? = some .none → Shows s (some v) none
  | own {v i l} : s.vars[v]? = some (.off i) → s.offs[i]? = some l → Shows s (some v) (some l)
  | start {v i r l} : s.vars[v]? = some (.start i) → s.locs[i]? = some r → r.start = some l → Shows s (some v) (some l)
  | stop {v i r l} : s.vars[v]? = some (.stop i) → s.locs[i]? = some r → r.stop = some l → Shows s (some v) (some l)

theorem argument_shows {s : State} {a : Option Nat} {o : Option Loc} (h : Shows s a o) : s.argument a = some (.ok o) := by
  cases h with
  | missing => rfl
  | none hv => simp [State.argument, hv]
  | own hv hl => simp [State.argument, hv, State.offset, hl]; rfl
  | start hv hr hl => simp [State.argument, hv, State.offset, hr, hl]; rfl
  | stop hv hr hl => simp [State.argument, hv, State.offset, hr, hl]; rfl

/-- A new location has the path, the offsets and the category it was made with (`necessary` if none is given), and no
    member offset and no revisions; all other objects stay as they are. -/
theorem C108_made {s : State} {p : List Str} {a b : Option Nat} {x y : Option Loc} (ha : Shows s a x) (hb : Shows s b y)
    (c : Option Category) :
    ∃ s', step s (.newLocation p a b c) = some (.done, s') ∧ s'.vars = s.vars ++ [.loc s.locs.length] ∧
      s'.locs = s.locs ++ [⟨p, x, y, c.getD .necessary, none, none⟩] ∧ s'.offs = s.offs := by
  refine ⟨{ s with locs := s.locs ++ [⟨p, x, y, c.getD .necessary, none, none⟩], vars := s.vars ++ [.loc s.locs.length] }, ?_,
    rfl, rfl, rfl⟩
  simp [step, argument_shows ha, argument_shows hb]

/-- Two location objects compare equal exactly if they have the same path, category, start and end. -/
theorem C108_equal {s : State} (hs : Sound s) {v w i j : Nat} {a b : Range} (hv : s.vars[v]? = some (.loc i))
    (hw : s.vars[w]? = some (.loc j)) (ha : s.locs[i]? = some a) (hb : s.locs[j]? = some b) :
    ∃ e, step s (.equal v w) = some (.bool e, s) ∧
      (e = true ↔ a.path = b.path ∧ a.category = b.category ∧ a.start = b.start ∧ a.stop = b.stop) := by
  refine ⟨a.eq b, by simp [step, State.see, hv, hw, ha, hb, Seen.equal], ?_⟩
  rw [C14_range_eq_partial]
  have h1 := (hs.plain a (List.mem_of_getElem? ha)).1
  have h2 := (hs.plain b (List.mem_of_getElem? hb)).1
  rw [h1, h2]
  constructor
  · rintro ⟨h1, h2, h3, h4, _⟩
    exact ⟨h1, h4, h2, h3⟩
  · rintro ⟨h1, h2, h3, h4⟩
    exact ⟨h1, h3, h4, h2, rfl⟩

/-- A location is not equal to `None`. -/
theorem C108_not_none {s : State} {v w i : Nat} {a : Range} (hv : s.vars[v]? = some (.loc i)) (ha : s.locs[i]? = some a)
    (hw : s.vars[w]? = some .none) :
    step s (.equal v w) = some (.bool false, s) ∧ step s (.equal w v) = some (.bool false, s) := by
  constructor <;> simp [step, State.see, hv, hw, ha, Seen.equal]

/-- Refuted for objects of different classes: instead of being different, comparing them raises. -/
theorem C108_other_class {s : State} {v w i j : Nat} {a : Range} {l : Loc} (hv : s.vars[v]? = some (.loc i))
    (ha : s.locs[i]? = some a) (hw : s.vars[w]? = some (.off j)) (hl : s.offs[j]? = some l) :
    step s (.equal v w) = some (.raised .type, s) ∧ step s (.equal w v) = some (.raised .type, s) := by
  constructor <;> simp [step, State.see, State.offset, hv, hw, ha, hl, Seen.equal] <;> rfl

/-- A statement that raises changes nothing. -/
theorem C108_raises {s : State} (hs : Sound s) {q : Stmt} {e : Exc} {s' : State} (h : step s q = some (.raised e, s')) : s' = s := by
  obtain ⟨r, s1, h1, _, h3⟩ := step_spec hs q
  rw [h] at h1
  cases h1
  exact h3 e rfl

/-- Two locations made from one offset, of which one is moved through its start; the offset itself is changed too. -/
example : ∃ s, run {} [.newOffset 1 2, .newLocation [c!"f"] (some 0) none none, .newLocation [c!"f"] (some 0) (some 0) (some .inessential),
      .start 1, .setLine 3 7, .setLine 0 9, .setColumn 3 (-1), .stop 1, .equal 1 2, .equal 0 3, .equal 1 0] =
    some ([.done, .done, .done, .done, .done, .done, .raised .type, .done, .bool false, .bool false, .raised .type], s) ∧
    s.locs = [⟨[c!"f"], some ⟨7, 2⟩, none, .necessary, none, none⟩,
      ⟨[c!"f"], some ⟨1, 2⟩, some ⟨1, 2⟩, .inessential, none, none⟩] ∧ s.offs = [⟨9, 2⟩] := ⟨_, rfl, rfl, rfl⟩

end Verif.Props

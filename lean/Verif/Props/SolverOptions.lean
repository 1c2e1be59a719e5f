import Verif.Props.Solver
/-!
# Property C38: what any model that is loaded has as options, and models that are never loaded

No hypothesis on constraints, ranges, groups or names here.
-/

namespace Verif.Props
open Spec FModel Z3Solver

/-- Neither the feature nor anything above it is of unknown kind. -/
def Supported (m : FModel) (i : Id) : Prop :=
  ∀ k g, Below m k i → data m k = some (.feat g) → g.attr.kind ≠ .unknown

theorem supported_child {m : FModel} {i p : Id} {f : Feat} (hp : FParent m i p) (hf : data m i = some (.feat f)) :
    Supported m i ↔ f.attr.kind ≠ .unknown ∧ Supported m p := by
  constructor
  · intro h
    exact ⟨h i f .refl hf, fun k g hk hg => h k g (hk.trans (fparent_isBelow hp)) hg⟩
  · rintro ⟨h1, h2⟩ k g hk hg
    by_cases hki : k = i
    · subst hki; rw [hf] at hg; cases hg; exact h1
    · exact h2 k g (fparent_above hp hk hki ⟨g, hg⟩) hg

theorem supported_root {m : FModel} {i : Id} {f : Feat} (hp : par m i = none) (hf : data m i = some (.feat f)) :
    Supported m i ↔ f.attr.kind ≠ .unknown := by
  constructor
  · intro h; exact h i f .refl hf
  · intro h k g hk hg
    cases hk with
    | refl => rw [hf] at hg; cases hg; exact h
    | step hp' _ => rw [hp] at hp'; cases hp'

/-- The variable of a feature. -/
def varOf (f : Feat) : ZTerm :=
  match f.attr.kind with
  | .numeric _ _ => .intConst (cstr f.attr.name)
  | _ => .boolConst (cstr f.attr.name)

/-- What the options are after some features. -/
structure Loaded (m : FModel) (done : List Id) (s : Z3Solver) : Prop where
  has : ∀ n, n ∈ s.options.map Prod.fst ↔ ∃ j f, j ∈ done ∧ data m j = some (.feat f) ∧ f.attr.name = n ∧ Supported m j
  term : ∀ j f, j ∈ done → data m j = some (.feat f) → Supported m j → s.options.lookup f.attr.name = some (varOf f)

theorem lookup_end {α β} [BEq α] [LawfulBEq α] (l : List (α × β)) (k : α) (v : β) (h : k ∉ l.map Prod.fst) :
    (l ++ [(k, v)]).lookup k = some v := by
  induction l with
  | nil => simp
  | cons e l ih =>
    obtain ⟨a, b⟩ := e
    simp only [List.map_cons, List.mem_cons, not_or] at h
    rw [List.cons_append, List.lookup_cons]
    have : (k == a) = false := by simpa using h.1
    rw [this]
    exact ih h.2

theorem lookup_append_of_some {α β} [BEq α] [LawfulBEq α] (l l' : List (α × β)) {k : α} {v : β} (h : l.lookup k = some v) :
    (l ++ l').lookup k = some v := by
  induction l with
  | nil => cases h
  | cons e l ih =>
    obtain ⟨a, b⟩ := e
    rw [List.lookup_cons] at h
    rw [List.cons_append, List.lookup_cons]
    split
    · rename_i hc; rw [hc] at h; exact h
    · rename_i hc; rw [hc] at h; exact ih h

theorem Loaded.more {m : FModel} {done : List Id} {s s' : Z3Solver} (h : Loaded m done s) {i : Id} {f : Feat}
    (hf : data m i = some (.feat f)) (hs : Supported m i) (hn : f.attr.name ∉ s.options.map Prod.fst)
    (e : s'.options = s.options ++ [(f.attr.name, varOf f)]) : Loaded m (done ++ [i]) s' := by
  constructor
  · intro n
    rw [e, List.map_append, List.mem_append, h.has]
    constructor
    · rintro (⟨j, g, h1, h2, h3, h4⟩ | hm)
      · exact ⟨j, g, List.mem_append_left _ h1, h2, h3, h4⟩
      · exact ⟨i, f, by simp, hf, by simpa using (List.mem_singleton.1 hm).symm, hs⟩
    · rintro ⟨j, g, h1, h2, h3, h4⟩
      rcases List.mem_append.1 h1 with h1 | h1
      · exact .inl ⟨j, g, h1, h2, h3, h4⟩
      · cases List.mem_singleton.1 h1
        rw [hf] at h2; cases h2
        exact .inr (by simp [h3])
  · intro j g h1 h2 h3
    rw [e]
    rcases List.mem_append.1 h1 with h1 | h1
    · exact lookup_append_of_some _ _ (h.term j g h1 h2 h3)
    · cases List.mem_singleton.1 h1
      rw [hf] at h2; cases h2
      exact lookup_end _ _ _ hn

theorem Loaded.same {m : FModel} {done : List Id} {s : Z3Solver} (h : Loaded m done s) {i : Id} (hs : ¬ Supported m i) :
    Loaded m (done ++ [i]) s := by
  constructor
  · intro n
    rw [h.has]
    constructor
    · rintro ⟨j, g, h1, h2, h3, h4⟩
      exact ⟨j, g, List.mem_append_left _ h1, h2, h3, h4⟩
    · rintro ⟨j, g, h1, h2, h3, h4⟩
      rcases List.mem_append.1 h1 with h1 | h1
      · exact ⟨j, g, h1, h2, h3, h4⟩
      · cases List.mem_singleton.1 h1; exact absurd h4 hs
  · intro j g h1 h2 h3
    rcases List.mem_append.1 h1 with h1 | h1
    · exact h.term j g h1 h2 h3
    · cases List.mem_singleton.1 h1; exact absurd h3 hs

theorem Loaded.not_has {m : FModel} (w : WF m) {done : List Id} (hk : ∀ j ∈ done, Known m j) {s : Z3Solver} (h : Loaded m done s)
    {i : Id} {f : Feat} (hi : Known m i) (hni : i ∉ done) (hf : data m i = some (.feat f)) :
    f.attr.name ∉ s.options.map Prod.fst := by
  rw [h.has]
  rintro ⟨j, g, h1, h2, h3, _⟩
  cases w.name_inj (hk j h1) hi h2 hf h3
  exact hni h1

theorem Loaded.has_iff {m : FModel} (w : WF m) {done : List Id} (hk : ∀ j ∈ done, Known m j) {s : Z3Solver} (h : Loaded m done s)
    {p : Id} {g : Feat} (hp : p ∈ done) (hg : data m p = some (.feat g)) : s.has g.attr.name = true ↔ Supported m p := by
  rw [Verif.has_iff, h.has]
  constructor
  · rintro ⟨j, g', h1, h2, h3, h4⟩
    cases w.name_inj (hk j h1) (hk p hp) h2 hg h3
    exact h4
  · intro hs
    exact ⟨p, g, hp, hg, rfl, hs⟩

/-- Linking with the parent changes no option. -/
theorem linkParent_options {s s' : Z3Solver} {n pn : Str} {b : Bool} (h : s.linkParent n pn b = .ok s') : s'.options = s.options := by
  have ha : ∀ {s s' : Z3Solver} {t : ZTerm}, s.assert t = some s' → s'.options = s.options := by
    intro s s' t h
    unfold Z3Solver.assert at h
    split at h
    · cases h; rfl
    · cases h
  unfold linkParent at h
  split at h
  · split at h
    · cases h
    · split at h
      · cases h
      · rename_i s1 h1
        split at h
        · split at h
          · cases h
          · split at h
            · cases h
            · rename_i h2
              cases h
              rw [ha h2, ha h1]
        · cases h; exact ha h1
  · cases h

theorem linkParent_not_err {s s' : Z3Solver} {n pn : Str} {b : Bool} {e : SolverErr} : s.linkParent n pn b ≠ .err e s' := by
  unfold linkParent
  intro h
  split at h
  · split at h
    · cases h
    · split at h
      · cases h
      · split at h
        · split at h
          · cases h
          · split at h <;> cases h
        · cases h
  · cases h

/-- One more feature. -/
theorem addFeature_loaded {F : IntFloats} {m : FModel} (w : WF m) {fuel : Nat} {s s' : Z3Solver} {done : List Id}
    (hk : ∀ j ∈ done, Known m j) (L : Loaded m done s) {i : Id} (hi : Known m i) (hni : i ∉ done)
    (hp : ∀ p, FParent m i p → p ∈ done) (g : Bool)
    (h : addFeature F fuel m s i g = .ok s' ∨ ∃ e, addFeature F fuel m s i g = .err e s') :
    Loaded m (done ++ [i]) s' := by
  obtain ⟨f, hf⟩ := w.known_data hi
  obtain ⟨q, hq, hqs⟩ := parentFeature_spec w (.inl hi)
  have hn := L.not_has w hk hi hni hf
  have hn' : s.has f.attr.name = false := by
    cases hh : s.has f.attr.name with
    | false => rfl
    | true => exact absurd (Verif.has_iff.1 hh) hn
  unfold addFeature at h
  simp only [feat?_of_data hf, hq] at h
  -- what happens once the parent is there
  have body : (Supported m i ↔ f.attr.kind ≠ .unknown) → ∀ pn : Option Str,
      (∀ r, (if s.has f.attr.name then SRes.err .alreadyPresent s
      else
        match f.attr.kind with
        | .numeric (.list vs) _ => s.addInt f.attr.name vs
        | .numeric (.range lo hi) step =>
          match rangeLoop F step hi fuel lo [] with
          | .values vs => s.addInt f.attr.name vs
          | .crash => .crash
          | .endless => .endless
        | .binary =>
          match s.addBool f.attr.name with
          | .ok s =>
            match pn with
            | none => .crash
            | some pn => s.linkParent f.attr.name pn (!g && !f.attr.opt)
          | r => r
        | .root =>
          match s.addBool f.attr.name with
          | .ok s =>
            match s.options.lookup f.attr.name with
            | none => .crash
            | some x =>
              match s.assert x with
              | none => .crash
              | some s => .ok s
          | r => r
        | .unknown => .err .notSupported s) = r → r = .ok s' ∨ (∃ e, r = .err e s') → Loaded m (done ++ [i]) s') := by
    intro hsup pn r hr h
    rw [hn'] at hr
    simp only [Bool.false_eq_true, if_false] at hr
    have addI : ∀ vs, f.attr.kind ≠ .unknown → varOf f = .intConst (cstr f.attr.name) → s.addInt f.attr.name vs = r →
        Loaded m (done ++ [i]) s' := by
      intro vs hku hv hr
      unfold addInt at hr
      rw [hn'] at hr
      simp only [Bool.false_eq_true, if_false] at hr
      subst hr
      rcases h with h | ⟨e, h⟩
      · cases h
        exact L.more hf (hsup.2 hku) hn (by simp [hv])
      · cases h
    cases hkd : f.attr.kind with
    | unknown =>
      rw [hkd] at hr
      dsimp only at hr
      subst hr
      rcases h with h | ⟨e, h⟩
      · cases h
      · cases h
        exact L.same (fun hs => hsup.1 hs hkd)
    | numeric vs st =>
      rw [hkd] at hr
      have hv : varOf f = .intConst (cstr f.attr.name) := by simp [varOf, hkd]
      cases vs with
      | list vs => exact addI vs (by rw [hkd]; simp) hv hr
      | range lo hi =>
        dsimp only at hr
        split at hr
        · exact addI _ (by rw [hkd]; simp) hv hr
        · subst hr; rcases h with h | ⟨e, h⟩ <;> cases h
        · subst hr; rcases h with h | ⟨e, h⟩ <;> cases h
    | binary =>
      rw [hkd] at hr
      have hv : varOf f = .boolConst (cstr f.attr.name) := by simp [varOf, hkd]
      simp only [addBool, hn', Bool.false_eq_true, if_false] at hr
      cases pn with
      | none => subst hr; rcases h with h | ⟨e, h⟩ <;> cases h
      | some pn =>
        dsimp only at hr
        rcases h with h | ⟨e, h⟩
        · subst h
          exact L.more hf (hsup.2 (by rw [hkd]; simp)) hn (by rw [linkParent_options hr, hv])
        · subst h; exact absurd hr linkParent_not_err
    | root =>
      rw [hkd] at hr
      have hv : varOf f = .boolConst (cstr f.attr.name) := by simp [varOf, hkd]
      simp only [addBool, hn', Bool.false_eq_true, if_false, lookup_end _ _ _ hn, Z3Solver.assert, ZTerm.sort, if_true] at hr
      subst hr
      rcases h with h | ⟨e, h⟩
      · cases h
        exact L.more hf (hsup.2 (by rw [hkd]; simp)) hn (by simp [hv])
      · cases h
  cases q with
  | none =>
    have hpar : par m i = none := by
      apply Classical.byContradiction
      intro hne
      have hr : m.root ≠ some i := by
        intro hr
        exact hne (w.root_par hr)
      obtain ⟨p, hp', _⟩ := w.has_fparent (.inl hi) hr
      cases (hqs p).2 hp'
    simp only [parentPresent] at h
    exact body (supported_root hpar hf) none _ rfl h
  | some p =>
    have hfp := (hqs p).1 rfl
    have hpd := hp p hfp
    obtain ⟨gp, hgp⟩ := w.known_data (hk p hpd)
    simp only [parentPresent, nameOf_of_data hgp, Option.map_some] at h
    cases hh : s.has gp.attr.name with
    | false =>
      rw [hh] at h
      rcases h with h | ⟨e, h⟩
      · cases h
      · cases h
        refine L.same (fun hs => ?_)
        have := (L.has_iff w hk hpd hgp).2 ((supported_child hfp hf).1 hs).2
        rw [hh] at this; cases this
    | true =>
      rw [hh] at h
      dsimp only at h
      have hsp := (L.has_iff w hk hpd hgp).1 hh
      exact body (by rw [supported_child hfp hf]; exact ⟨fun h => h.1, fun h => ⟨h, hsp⟩⟩) (some gp.attr.name) _ rfl h

/-- A Boolean feature below a numeric one. -/
theorem addFeature_numeric_parent {F : IntFloats} {m : FModel} (w : WF m) {fuel : Nat} {s : Z3Solver} {done : List Id}
    (hk : ∀ j ∈ done, Known m j) (L : Loaded m done s) {i p : Id} {f gp : Feat} (hi : Known m i) (hni : i ∉ done)
    (hf : data m i = some (.feat f)) (hb : f.attr.kind = .binary) (hfp : FParent m i p) (hp : p ∈ done)
    (hgp : data m p = some (.feat gp)) {vs : Values} {st : Option StepFn} (hnum : gp.attr.kind = .numeric vs st)
    (hs : Supported m p) (g : Bool) : addFeature F fuel m s i g = .crash := by
  obtain ⟨q, hq, hqs⟩ := parentFeature_spec w (.inl hi)
  have := (hqs p).2 hfp
  subst this
  have hn := L.not_has w hk hi hni hf
  have hn' : s.has f.attr.name = false := by
    cases hh : s.has f.attr.name with
    | false => rfl
    | true => exact absurd (Verif.has_iff.1 hh) hn
  have hhp := (L.has_iff w hk hp hgp).2 hs
  have hlp := lookup_append_of_some s.options [(f.attr.name, .boolConst (cstr f.attr.name))] (L.term p gp hp hgp hs)
  have hv : varOf gp = .intConst (cstr gp.attr.name) := by simp [varOf, hnum]
  unfold addFeature
  simp only [feat?_of_data hf, hq, parentPresent, nameOf_of_data hgp, Option.map_some, hhp, hn', Bool.false_eq_true,
    if_false, hb, addBool, linkParent, lookup_end _ _ _ hn, hlp, hv, ZTerm.mk, ZOp.accepts, ZTerm.sort]

/-- The loop over the features. -/
theorem forEach_loaded {F : IntFloats} {m : FModel} (w : WF m) {fuel : Nat} (g : Id → Bool) (l : List Id) :
    ∀ (done : List Id) (s s' : Z3Solver), (∀ j ∈ done ++ l, Known m j) → (done ++ l).Nodup →
      (∀ d i r, l = d ++ i :: r → ∀ p, FParent m i p → p ∈ done ++ d) → Loaded m done s →
      forEach (fun s i => addFeature F fuel m s i (g i)) s l = .ok s' →
      Loaded m (done ++ l) s' ∧ ∀ i ∈ l, ∀ p f gp vs st, data m i = some (.feat f) → f.attr.kind = .binary →
        FParent m i p → data m p = some (.feat gp) → gp.attr.kind = .numeric vs st → ¬ Supported m p := by
  induction l with
  | nil =>
    intro done s s' _ _ _ L h
    cases h
    exact ⟨by simpa using L, fun i hi => nomatch hi⟩
  | cons i l ih =>
    intro done s s' hk hnd hp L h
    have hni : i ∉ done := by
      intro h
      have := List.nodup_append.1 hnd
      exact this.2.2 i h i (List.mem_cons_self ..) rfl
    have hkd : ∀ j ∈ done, Known m j := fun j hj => hk j (List.mem_append_left _ hj)
    have ki := hk i (List.mem_append_right _ (List.mem_cons_self ..))
    have hpi : ∀ p, FParent m i p → p ∈ done := fun p h => by simpa using hp [] i l rfl p h
    have next : ∀ s1, (addFeature F fuel m s i (g i) = .ok s1 ∨ ∃ e, addFeature F fuel m s i (g i) = .err e s1) →
        forEach (fun s i => addFeature F fuel m s i (g i)) s1 l = .ok s' →
        Loaded m (done ++ i :: l) s' ∧ ∀ i ∈ l, ∀ p f gp vs st, data m i = some (.feat f) → f.attr.kind = .binary →
        FParent m i p → data m p = some (.feat gp) → gp.attr.kind = .numeric vs st → ¬ Supported m p := by
      intro s1 h1 h2
      have L1 := addFeature_loaded w hkd L ki hni hpi (g i) h1
      have := ih (done ++ [i]) s1 s' (by simpa using hk) (by simpa using hnd)
        (fun d j r e p h => by
          have := hp (i :: d) j r (by rw [e]; rfl) p h
          simpa using this) L1 h2
      simpa using this
    have first : addFeature F fuel m s i (g i) ≠ .crash → ∀ p f gp vs st, data m i = some (.feat f) →
        f.attr.kind = .binary → FParent m i p → data m p = some (.feat gp) → gp.attr.kind = .numeric vs st → ¬ Supported m p := by
      intro hc p f gp vs st h1 h2 h3 h4 h5 hs
      exact hc (addFeature_numeric_parent w hkd L ki hni h1 h2 h3 (hpi p h3) h4 h5 hs (g i))
    have fin : ∀ s1, (addFeature F fuel m s i (g i) = .ok s1 ∨ ∃ e, addFeature F fuel m s i (g i) = .err e s1) →
        forEach (fun s i => addFeature F fuel m s i (g i)) s1 l = .ok s' →
        Loaded m (done ++ i :: l) s' ∧ ∀ j ∈ i :: l, ∀ p f gp vs st, data m j = some (.feat f) → f.attr.kind = .binary →
        FParent m j p → data m p = some (.feat gp) → gp.attr.kind = .numeric vs st → ¬ Supported m p := by
      intro s1 h1 h2
      obtain ⟨a, b⟩ := next s1 h1 h2
      refine ⟨a, fun j hj => ?_⟩
      rcases List.mem_cons.1 hj with rfl | hj
      · refine first ?_
        intro hc
        rcases h1 with h1 | ⟨e, h1⟩ <;> rw [hc] at h1 <;> cases h1
      · exact b j hj
    unfold forEach at h
    split at h
    · rename_i s1 h1; exact fin s1 (.inl h1) h
    · rename_i e s1 h1; exact fin s1 (.inr ⟨e, h1⟩) h
    · cases h
    · cases h

theorem forEach_options {α} {f : Z3Solver → α → SRes} (hf : ∀ s x s', (f s x = .ok s' ∨ ∃ e, f s x = .err e s') → s'.options = s.options) :
    ∀ (l : List α) (s s' : Z3Solver), forEach f s l = .ok s' → s'.options = s.options ∧ ∀ x ∈ l, ∃ s1, f s1 x ≠ .crash := by
  intro l
  induction l with
  | nil => intro s s' h; cases h; exact ⟨rfl, fun x hx => nomatch hx⟩
  | cons x l ih =>
    intro s s' h
    have fin : ∀ s1, (f s x = .ok s1 ∨ ∃ e, f s x = .err e s1) → forEach f s1 l = .ok s' →
        s'.options = s.options ∧ ∀ y ∈ x :: l, ∃ s1, f s1 y ≠ .crash := by
      intro s1 h1 h2
      obtain ⟨a, b⟩ := ih s1 s' h2
      refine ⟨a.trans (hf s x s1 h1), fun y hy => ?_⟩
      rcases List.mem_cons.1 hy with rfl | hy
      · refine ⟨s, fun hc => ?_⟩
        rcases h1 with h1 | ⟨e, h1⟩ <;> rw [hc] at h1 <;> cases h1
      · exact b y hy
    unfold forEach at h
    split at h
    · rename_i s1 h1; exact fin s1 (.inl h1) h
    · rename_i e s1 h1; exact fin s1 (.inr ⟨e, h1⟩) h
    · cases h
    · cases h

theorem addVisited_options {m : FModel} {s s' : Z3Solver} {mixed negate req : Bool} {c : Stored}
    (h : addVisited m s mixed negate req c = .ok s' ∨ ∃ e, addVisited m s mixed negate req c = .err e s') :
    s'.options = s.options := by
  have key : ∀ r, addVisited m s mixed negate req c = r → (r = .ok s' ∨ ∃ e, r = .err e s') → s'.options = s.options := by
    intro r hr h
    unfold addVisited at hr
    split at hr
    · subst hr; rcases h with h | ⟨e, h⟩ <;> cases h
    · split at hr
      · subst hr; rcases h with h | ⟨e, h⟩ <;> cases h
      · split at hr
        · subst hr; rcases h with h | ⟨e, h⟩ <;> cases h
        · split at hr
          · subst hr; rcases h with h | ⟨e, h⟩ <;> cases h
          · rename_i s1 h1
            subst hr
            rcases h with h | ⟨e, h⟩
            · cases h
              unfold Z3Solver.assert at h1
              split at h1
              · cases h1; rfl
              · cases h1
            · cases h
  exact key _ rfl h

theorem addRelationship_options {m : FModel} {s s' : Z3Solver} {r : Id}
    (h : addRelationship m s r = .ok s' ∨ ∃ e, addRelationship m s r = .err e s') : s'.options = s.options := by
  have key : ∀ x, addRelationship m s r = x → (x = .ok s' ∨ ∃ e, x = .err e s') → s'.options = s.options := by
    intro x hx h
    unfold addRelationship at hx
    split at hx
    · split at hx
      · dsimp only at hx
        split at hx
        · split at hx
          · subst hx; rcases h with h | ⟨e, h⟩ <;> cases h
          · subst hx; rcases h with h | ⟨e, h⟩ <;> cases h; rfl
        · subst hx; rcases h with h | ⟨e, h⟩ <;> cases h; rfl
      · subst hx; rcases h with h | ⟨e, h⟩ <;> cases h
    · subst hx; rcases h with h | ⟨e, h⟩ <;> cases h
  exact key _ rfl h

theorem andThen_ok {r : SRes} {f : Z3Solver → SRes} {s : Z3Solver} (h : SRes.andThen r f = .ok s) :
    ∃ s1, r = .ok s1 ∧ f s1 = .ok s := by
  cases r with
  | ok s1 => exact ⟨s1, rfl, h⟩
  | _ => cases h

/-- What holds of a model that was loaded. -/
theorem initSolver_loaded {F : IntFloats} {m : FModel} (w : WF m) {E : Env} {fuel : Nat} {s : Z3Solver}
    (h : initSolver E F fuel m = .ok s) :
    (∀ n, n ∈ s.options.map Prod.fst ↔ ∃ i f, Known m i ∧ data m i = some (.feat f) ∧ f.attr.name = n ∧ Supported m i) ∧
    (∀ i p f gp vs st, Known m i → data m i = some (.feat f) → f.attr.kind = .binary → FParent m i p →
      data m p = some (.feat gp) → gp.attr.kind = .numeric vs st → ¬ Supported m p) ∧
    (∀ r ∈ m.rels, data m r = some (.rel .alternative) → edg m r ≠ []) := by
  obtain ⟨root, l, hroot, hit, _, hnd, hmem, hord⟩ := Props.C25_preorder w E
  have hpar : ∀ d i r, l = d ++ i :: r → ∀ p, FParent m i p → p ∈ [] ++ d := by
    intro d i r e p hp
    have hkp := fparent_fst w (.inl ((hmem i).1 (by rw [e]; simp))) hp
    have hpl : p ∈ l := (hmem p).2 hkp
    rw [e] at hpl hord
    rw [List.nil_append]
    rcases List.mem_append.1 hpl with h | h
    · exact h
    · exfalso
      rcases List.mem_cons.1 h with rfl | h
      · have hlt := (w.via_known hkp ((via_iff_fparent w (.inl hkp) (w.known_data hkp)).2 ⟨hkp, hp⟩)).2.2.2
        omega
      · have := (List.pairwise_append.1 hord).2.1
        exact (List.pairwise_cons.1 this).1 p h (fparent_isBelow hp)
  unfold initSolver applyModel at h
  rw [hit] at h
  split at h
  · rename_i V fs hV e
    cases e
    obtain ⟨s1, h1, h⟩ := andThen_ok h
    obtain ⟨s2, h2, h⟩ := andThen_ok h
    obtain ⟨s3, h3, h⟩ := andThen_ok h
    obtain ⟨s4, h4, h⟩ := andThen_ok h
    obtain ⟨L, hnum⟩ := forEach_loaded w (inNames m V) l [] {} s1 (by simpa using fun j hj => (hmem j).1 hj)
      (by simpa using hnd) hpar ⟨by intro n; simp, by intro j f hj; cases hj⟩ h1
    have o2 := (forEach_options (fun s x s' h => addVisited_options h) m.booleans s1 s2 h2).1
    have o3 := (forEach_options (fun s x s' h => addVisited_options h) m.nonBooleans s2 s3 h3).1
    have o4 := (forEach_options (f := addMixed m) (fun s x s' h => by
      unfold addMixed at h
      split at h
      · exact addVisited_options h
      · rcases h with h | ⟨e, h⟩ <;> cases h) m.mixeds s3 s4 h4).1
    obtain ⟨o5, hr⟩ := forEach_options (f := addRelationship m) (fun s x s' h => addRelationship_options h) m.rels s4 s h
    refine ⟨?_, ?_, ?_⟩
    · intro n
      rw [o5, o4, o3, o2, L.has n]
      constructor
      · rintro ⟨i, f, a, b, c, d⟩
        exact ⟨i, f, (hmem i).1 (by simpa using a), b, c, d⟩
      · rintro ⟨i, f, a, b, c, d⟩
        exact ⟨i, f, by simpa using (hmem i).2 a, b, c, d⟩
    · intro i p f gp vs st hk h1 h2 h3 h4 h5
      exact hnum i ((hmem i).2 hk) p f gp vs st h1 h2 h3 h4 h5
    · intro r hrm hd he
      obtain ⟨s0, hs0⟩ := hr r hrm
      refine hs0 ?_
      unfold addRelationship
      split
      · rename_i k p es hh
        have e1 : edg m r = es := by simp [edg, hh]
        have e2 : data m r = some (.rel k) := by simp [data, hh]
        rw [he] at e1
        rw [hd] at e2
        cases e1; cases e2
        split
        · rename_i ns _ e3
          cases e3
          rfl
        · rfl
      · rfl
  · cases h

/-- Whenever a well-formed model is loaded, the options of the solver are exactly the features that are
    neither of unknown kind nor below such a feature. -/
theorem C38_options {F : IntFloats} {m : FModel} (w : WF m) {E : Env} {fuel : Nat} {s : Z3Solver}
    (h : initSolver E F fuel m = .ok s) (n : Str) :
    n ∈ s.options.map Prod.fst ↔ ∃ i f, Known m i ∧ data m i = some (.feat f) ∧ f.attr.name = n ∧ Supported m i :=
  (initSolver_loaded w h).1 n

/-- No model is loaded in which a Boolean feature has a numeric feature as its parent, neither of unknown kind nor
    below such a feature. -/
theorem C38_numeric_parent {F : IntFloats} {m : FModel} (w : WF m) (E : Env) (fuel : Nat) {i p : Id} {f g : Feat}
    {vs : Values} {st : Option StepFn} (hi : Known m i) (hf : data m i = some (.feat f)) (hb : f.attr.kind = .binary)
    (hp : FParent m i p) (hg : data m p = some (.feat g)) (hn : g.attr.kind = .numeric vs st) (hs : Supported m p)
    (s : Z3Solver) : initSolver E F fuel m ≠ .ok s :=
  fun h => (initSolver_loaded w h).2.1 i p f g vs st hi hf hb hp hg hn hs

/-- No model is loaded with an alternative group without members. -/
theorem C38_empty_alternative {F : IntFloats} {m : FModel} (w : WF m) (E : Env) (fuel : Nat) {r : Id} (hr : r ∈ m.rels)
    (hd : data m r = some (.rel .alternative)) (he : edg m r = []) (s : Z3Solver) : initSolver E F fuel m ≠ .ok s :=
  fun h => (initSolver_loaded w h).2.2 r hr hd he

example : ∃ s, initSolver (stdEnv true) exactFloats 1 withUnknown = .ok s ∧
    ∀ n, n ∈ s.options.map Prod.fst ↔ ∃ i f, Known withUnknown i ∧ data withUnknown i = some (.feat f) ∧ f.attr.name = n ∧
      Supported withUnknown i := by
  obtain ⟨w, s, h, _⟩ := C38_unknown_left_out
  exact ⟨s, h, C38_options w h⟩

/-- With a numeric parent deep in the tree and any layout. -/
example (E : Env) (fuel : Nat) (s : Z3Solver) : initSolver E exactFloats fuel numericParent ≠ .ok s := by
  refine C38_numeric_parent C38_cannot_be_loaded.1.1 E fuel (i := 2) (p := 1) (by decide) rfl rfl
    (.direct rfl ⟨_, rfl⟩) rfl rfl ?_ s
  refine (supported_child (p := 0) (.direct rfl ⟨_, rfl⟩) rfl).2 ⟨by decide, ?_⟩
  exact (supported_root rfl rfl).2 (by decide)

example (E : Env) (fuel : Nat) (s : Z3Solver) : initSolver E exactFloats fuel emptyGroup ≠ .ok s :=
  C38_empty_alternative C38_cannot_be_loaded.2.1 E fuel (r := 1) (by decide) rfl rfl s

end Verif.Props

import Verif.Solver.Kept
import Verif.Props.Iteration
/-! Loading a model with a range but without a step function fails. -/

namespace Verif
open Verif.Spec Verif.Z3Solver

variable {F : IntFloats} {m : FModel}

theorem addBool_has {s s' : Z3Solver} {n : Str} (h : s.addBool n = .ok s') (x : Str) : s'.has x = true ↔ s.has x = true ∨ x = n := by
  unfold addBool at h
  split at h
  · cases h
  · cases h
    simp only [has_iff, List.map_append, List.mem_append, List.map_cons, List.map_nil, List.mem_cons, List.not_mem_nil, or_false]

theorem addInt_has {s s' : Z3Solver} {n : Str} {vs : List Int} (h : s.addInt n vs = .ok s') (x : Str) :
    s'.has x = true ↔ s.has x = true ∨ x = n := by
  unfold addInt at h
  split at h
  · cases h
  · cases h
    simp only [has_iff, List.map_append, List.mem_append, List.map_cons, List.map_nil, List.mem_cons, List.not_mem_nil, or_false]

theorem assert_options {s s' : Z3Solver} {t : ZTerm} (h : s.assert t = some s') : s'.options = s.options := by
  unfold Z3Solver.assert at h
  split at h
  · cases h; rfl
  · cases h

theorem linkParent_outcome (s : Z3Solver) (n p : Str) (b : Bool) :
    s.linkParent n p b = .crash ∨ ∃ s', s.linkParent n p b = .ok s' ∧ s'.options = s.options := by
  unfold linkParent
  split
  · split
    · exact .inl rfl
    · split
      · exact .inl rfl
      · next hs =>
        split
        · split
          · exact .inl rfl
          · split
            · exact .inl rfl
            · next hs' => exact .inr ⟨_, rfl, (assert_options hs').trans (assert_options hs)⟩
        · exact .inr ⟨_, rfl, assert_options hs⟩
  · exact .inl rfl

/-- Adding a feature whose parent is present and which is not present itself. -/
theorem addFeature_outcome {s : Z3Solver} {i : Id} {f : Feat} {q : Option Id} {pn : Option Str} {g : Bool} (fuel : Nat)
    (hf : m.feat? i = some f) (hq : m.parentFeature i = some q) (hp : s.parentPresent m q = some (pn, true))
    (hn : s.has f.attr.name = false) (hk : f.attr.kind ≠ .unknown) :
    addFeature F fuel m s i g = .crash ∨
    (addFeature F fuel m s i g = .endless ∧
      ∃ lo hi st, f.attr.kind = .numeric (.range lo hi) st ∧ rangeLoop F st hi fuel lo [] = .endless) ∨
    ((∀ lo hi st, f.attr.kind = .numeric (.range lo hi) st → ∃ vs, rangeLoop F st hi fuel lo [] = .values vs) ∧
      ∃ s', addFeature F fuel m s i g = .ok s' ∧ ∀ x, s'.has x = true ↔ s.has x = true ∨ x = f.attr.name) := by
  unfold addFeature
  rw [hf, hq]
  dsimp only
  rw [hp]
  dsimp only
  rw [hn]
  simp only [Bool.false_eq_true, if_false]
  have hbool : ∃ s', s.addBool f.attr.name = .ok s' := by simp [addBool, hn]
  have hint : ∀ vs, ∃ s', s.addInt f.attr.name vs = .ok s' := by intro vs; simp [addInt, hn]
  cases e : f.attr.kind with
  | unknown => exact absurd e hk
  | numeric v st =>
    cases v with
    | list vs =>
      obtain ⟨s', h⟩ := hint vs
      exact .inr (.inr ⟨nofun, s', h, addInt_has h⟩)
    | range lo hi =>
      dsimp only
      cases er : rangeLoop F st hi fuel lo [] with
      | crash => exact .inl rfl
      | endless => exact .inr (.inl ⟨rfl, lo, hi, st, rfl, er⟩)
      | values vs =>
        obtain ⟨s', h⟩ := hint vs
        refine .inr (.inr ⟨?_, s', h, addInt_has h⟩)
        intro lo' hi' st' e'
        cases e'
        exact ⟨vs, er⟩
  | binary =>
    obtain ⟨s', h⟩ := hbool
    dsimp only
    rw [h]
    dsimp only
    cases pn with
    | none => exact .inl rfl
    | some pn =>
      rcases linkParent_outcome s' f.attr.name pn (!g && !f.attr.opt) with h' | ⟨s'', h', ho⟩
      · exact .inl h'
      · refine .inr (.inr ⟨nofun, s'', h', fun x => ?_⟩)
        rw [← addBool_has h x, has_iff, has_iff, ho]
  | root =>
    obtain ⟨s', h⟩ := hbool
    dsimp only
    rw [h]
    dsimp only
    split
    · exact .inl rfl
    · split
      · exact .inl rfl
      · next hs' =>
        refine .inr (.inr ⟨nofun, _, rfl, fun x => ?_⟩)
        rw [← addBool_has h x, has_iff, has_iff, assert_options hs']

/-- If stepping through some range does not end with its values, loading does not end well: it crashes, or does not
    end if some range does not.  No feature is of unknown kind. -/
theorem load_bad_range (w : WF m) (E : Env) (fuel : Nat)
    (hk : ∀ i f, Known m i → data m i = some (.feat f) → f.attr.kind ≠ .unknown)
    {t : Id} {tf : Feat} {lo hi : Int} {st : Option StepFn} (ht : Known m t) (htf : data m t = some (.feat tf))
    (htk : tf.attr.kind = .numeric (.range lo hi) st) (hbad : ∀ vs, rangeLoop F st hi fuel lo [] ≠ .values vs) :
    initSolver E F fuel m = .crash ∨ (initSolver E F fuel m = .endless ∧
      ∃ i f lo hi st, Known m i ∧ data m i = some (.feat f) ∧ f.attr.kind = .numeric (.range lo hi) st ∧
        rangeLoop F st hi fuel lo [] = .endless) := by
  obtain ⟨r, full, hr, hit, _, hnd, hmem, hpw⟩ := Props.C25_preorder w E
  unfold initSolver applyModel
  cases hg : groupNames m with
  | none => exact .inl rfl
  | some V =>
    rw [hit]
    dsimp only
    have key : ∀ (l pre : List Id) (s : Z3Solver), full = pre ++ l → (∀ n, s.has n = true ↔ ∃ j ∈ pre, m.nameOf j = some n) → t ∈ l →
        forEach (fun s i => addFeature F fuel m s i (inNames m V i)) s l = .crash ∨
        (forEach (fun s i => addFeature F fuel m s i (inNames m V i)) s l = .endless ∧
          ∃ i f lo hi st, Known m i ∧ data m i = some (.feat f) ∧ f.attr.kind = .numeric (.range lo hi) st ∧
            rangeLoop F st hi fuel lo [] = .endless) := by
      intro l
      induction l with
      | nil => intro pre s _ _ h; cases h
      | cons x l ih =>
        intro pre s hfull hhas htl
        have hx : Known m x := (hmem x).1 (by rw [hfull]; simp)
        obtain ⟨f, hf⟩ := w.known_data hx
        have hxn := nameOf_of_data hf
        have hmine : (f.attr.name, x) ∈ m.features := w.entry_mem hx hf
        have hnot : x ∉ pre := by
          intro hxp
          rw [hfull] at hnd
          exact (List.nodup_append.1 hnd).2.2 x hxp x (by simp) rfl
        have hfresh : s.has f.attr.name = false := by
          cases hh : s.has f.attr.name with
          | false => rfl
          | true =>
            obtain ⟨j, hj, hjn⟩ := (hhas _).1 hh
            have hjk : Known m j := (hmem j).1 (by rw [hfull]; simp [hj])
            obtain ⟨jf, hjf⟩ := w.known_data hjk
            rw [nameOf_of_data hjf] at hjn
            have hje := w.entry_mem hjk hjf
            rw [Option.some.inj hjn] at hje
            exact absurd (w.entry_unique hmine hje ▸ hj) hnot
        obtain ⟨q, hq, hqp⟩ := parentFeature_spec w (.inl hx)
        have hpres : ∃ pn, s.parentPresent m q = some (pn, true) := by
          cases q with
          | none => exact ⟨none, rfl⟩
          | some p =>
            have hfp := (hqp p).1 rfl
            have hpk : Known m p := fparent_fst w (.inl hx) hfp
            obtain ⟨pf, hpf⟩ := w.known_data hpk
            have hpn := nameOf_of_data hpf
            refine ⟨some pf.attr.name, ?_⟩
            have : s.has pf.attr.name = true := by
              refine (hhas _).2 ⟨p, ?_, hpn⟩
              have hpm : p ∈ full := (hmem p).2 hpk
              rw [hfull] at hpm hpw
              rcases List.mem_append.1 hpm with h | h
              · exact h
              · rcases List.mem_cons.1 h with rfl | h
                · have := fparent_level w (.inl hx) hfp
                  omega
                · have := (List.pairwise_cons.1 (List.pairwise_append.1 hpw).2.1).1 p h
                  exact absurd (fparent_isBelow hfp) this
            simp [parentPresent, hpn, this]
        obtain ⟨pn, hpres⟩ := hpres
        unfold forEach
        rcases addFeature_outcome (F := F) (g := inNames m V x) fuel (feat?_of_data hf) hq hpres hfresh (hk x f hx hf)
          with h | ⟨h, lo', hi', st', e', er⟩ | ⟨hno, s', h, hhas'⟩
        · rw [h]; exact .inl rfl
        · rw [h]; exact .inr ⟨rfl, x, f, lo', hi', st', hx, hf, e', er⟩
        · rw [h]
          dsimp only
          have htl' : t ∈ l := by
            rcases List.mem_cons.1 htl with rfl | h
            · rw [hf] at htf; cases htf
              obtain ⟨vs, hv⟩ := hno lo hi st htk
              exact absurd hv (hbad vs)
            · exact h
          refine ih (pre ++ [x]) s' (by rw [hfull]; simp) ?_ htl'
          intro n
          rw [hhas', hhas]
          constructor
          · rintro (⟨j, hj, e⟩ | rfl)
            · exact ⟨j, by simp [hj], e⟩
            · exact ⟨x, by simp, hxn⟩
          · rintro ⟨j, hj, e⟩
            rcases List.mem_append.1 hj with hj | hj
            · exact .inl ⟨j, hj, e⟩
            · simp only [List.mem_cons, List.not_mem_nil, or_false] at hj
              subst hj
              rw [hxn] at e
              exact .inr (Option.some.inj e).symm
    rcases key full [] {} rfl (by intro n; simp [has_iff]) ((hmem t).2 ht) with h | ⟨h, hx⟩
    · rw [h]; exact .inl rfl
    · rw [h]; exact .inr ⟨rfl, hx⟩

/-- Loading fails if there is a range that is not empty, no range has a step function and no feature is of
    unknown kind. -/
theorem load_no_step (w : WF m) (E : Env) (fuel : Nat)
    (hk : ∀ i f, Known m i → data m i = some (.feat f) → f.attr.kind ≠ .unknown)
    (hs : ∀ i f lo hi st, Known m i → data m i = some (.feat f) → f.attr.kind = .numeric (.range lo hi) st → st = none)
    {t : Id} {tf : Feat} {lo hi : Int} {st : Option StepFn} (ht : Known m t) (htf : data m t = some (.feat tf))
    (htk : tf.attr.kind = .numeric (.range lo hi) st) (hle : lo ≤ hi) :
    initSolver E F (fuel + 1) m = .crash := by
  have hst := hs _ _ _ _ _ ht htf htk
  subst hst
  rcases load_bad_range w E (fuel + 1) hk ht htf htk (by intro vs; simp [rangeLoop, hle]) with h | ⟨_, i, f, lo', hi', st', h1, h2, h3, h4⟩
  · exact h
  · have := hs _ _ _ _ _ h1 h2 h3
    subst this
    simp only [rangeLoop] at h4
    split at h4 <;> cases h4

end Verif

import Verif.Props.Transactions
import Verif.Xml.Model
import Verif.Solver.Model
/-!
# C24: what a dangling constraint does to the rest of the library
-/

namespace Verif.Props
open Verif Verif.Spec FModel Z3Solver

variable {m : FModel}

theorem cloneStored_stale {i : Id} (hi : m.heap i = none) {s : Stored} (hs : some i ∈ s.binds) : m.cloneStored s = none := by
  unfold FModel.cloneStored
  rw [if_neg]
  intro h
  have := List.all_eq_true.1 h _ hs
  simp [FModel.feat?, hi] at this

theorem cloneConstraints_stale {i : Id} (hi : m.heap i = none) (kind : Stored → CKind) {l : List Stored} {s : Stored} (hs : s ∈ l)
    (hb : some i ∈ s.binds) (b : ModelBuilder) : m.cloneConstraints kind b l = none := by
  unfold FModel.cloneConstraints
  induction l generalizing b with
  | nil => cases hs
  | cons x xs ih =>
    rw [List.foldlM_cons]
    rcases List.mem_cons.1 hs with rfl | hs
    · rw [cloneStored_stale hi hb]; rfl
    · cases m.cloneStored x with
      | none => rfl
      | some c => exact ih hs _

/-- A model in which a constraint refers to a removed feature cannot be cloned, and so not be used for a copy
    transaction, without undefined behaviour; whatever else is in it. -/
theorem C24_dangling_clone (E : Env) {i : Id} (hi : m.heap i = none) (hm : Mentioned m i) : m.clone E = .ub := by
  obtain ⟨s, hs, hb⟩ := hm
  have : m.cloneCalls E = none := by
    unfold FModel.cloneCalls
    simp only [Option.bind_eq_bind]
    cases (E.mapOrder m.features).foldlM (fun b e => m.cloneFeature b e.2)
      (((({} : ModelBuilder).setVmName m.name).setCommit m.commit).setPath m.path) with
    | none => rfl
    | some b =>
      show (m.rels.foldlM (fun b r => m.cloneRel b r) b).bind _ = none
      cases m.rels.foldlM (fun b r => m.cloneRel b r) b with
      | none => rfl
      | some b =>
        show (m.cloneConstraints _ b m.booleans).bind _ = none
        unfold allStored at hs
        rcases List.mem_append.1 hs with hs | hs
        · rcases List.mem_append.1 hs with hs | hs
          · rw [cloneConstraints_stale hi _ hs hb]; rfl
          · cases m.cloneConstraints (fun _ => .boolean) b m.booleans with
            | none => rfl
            | some b =>
              show (m.cloneConstraints _ b m.nonBooleans).bind _ = none
              rw [cloneConstraints_stale hi _ hs hb]; rfl
        · cases m.cloneConstraints (fun _ => .boolean) b m.booleans with
          | none => rfl
          | some b =>
            show (m.cloneConstraints _ b m.nonBooleans).bind _ = none
            cases m.cloneConstraints (fun _ => .nonBoolean) b m.nonBooleans with
            | none => rfl
            | some b => exact cloneConstraints_stale hi _ hs hb b
  unfold FModel.clone
  rw [this]

theorem constraintElems_stale {i : Id} (hi : m.heap i = none) (cl : CClass) {l : List Stored} {s : Stored} (hs : s ∈ l)
    (hb : some i ∈ s.binds) (hw : ¬ (cl = .boolean ∧ Xml.isSimple s.tree = true)) : Xml.constraintElems m cl l = none := by
  induction l with
  | nil => cases hs
  | cons x xs ih =>
    unfold Xml.constraintElems
    rcases List.mem_cons.1 hs with rfl | hs
    · rw [if_neg hw, cloneStored_stale hi hb]
    · rw [ih hs]
      by_cases hx : cl = .boolean ∧ Xml.isSimple x.tree = true
      · rw [if_pos hx]
      · rw [if_neg hx]
        cases m.cloneStored x with
        | none => rfl
        | some c =>
          show (match Xml.constraintElem cl x c with | none => none | some y => _) = none
          cases Xml.constraintElem cl x c with
          | none => rfl
          | some y => rfl

/-- Nor be written, unless the constraint is one of the simple ones that are written as lists of options. -/
theorem C24_dangling_write (E : Env) {i : Id} (hi : m.heap i = none) {cl : CClass} {s : Stored} (hs : s ∈ m.store cl)
    (hb : some i ∈ s.binds) (hw : ¬ (cl = .boolean ∧ Xml.isSimple s.tree = true)) : Xml.write E m = none := by
  have hne : m.store cl ≠ [] := by intro h; rw [h] at hs; cases hs
  have key : ∀ n, Xml.constraintGroup m n cl = none := by
    intro n
    unfold Xml.constraintGroup
    rw [if_neg hne, constraintElems_stale hi cl hs hb hw]; rfl
  unfold Xml.write
  cases m.iterate E with
  | none => rfl
  | some is =>
    simp only
    cases cl with
    | boolean => rw [key]; split <;> simp_all
    | nonBoolean => rw [key]; split <;> simp_all
    | mixed => rw [key]; split <;> simp_all

theorem visit_live {mixed : Bool} : ∀ {c : Constraint} {bs bs' : List (Option Id)} {v v' t : ZTerm},
    visit m mixed c bs v = some (t, bs', v') →
    ∃ pre, bs = pre ++ bs' ∧ pre.length = c.features.length ∧ ∀ i, some i ∈ pre → m.heap i ≠ none := by
  intro c
  induction c with
  | bin op l r ihl ihr =>
    intro bs bs' v v' t h
    simp only [visit] at h
    cases hl : visit m mixed l bs v with
    | none => simp [hl] at h
    | some x =>
      obtain ⟨tl, bl, vl⟩ := x
      simp only [hl] at h
      cases hr : visit m mixed r bl vl with
      | none => simp [hr] at h
      | some y =>
        obtain ⟨tr, br, vr⟩ := y
        simp only [hr] at h
        cases hv : visitBin op tl tr with
        | none => simp [hv] at h
        | some tt =>
          simp only [hv, Option.map_some, Option.some.injEq, Prod.mk.injEq] at h
          obtain ⟨_, rfl, _⟩ := h
          obtain ⟨p1, e1, n1, a1⟩ := ihl hl
          obtain ⟨p2, e2, n2, a2⟩ := ihr hr
          refine ⟨p1 ++ p2, by rw [e1, e2, List.append_assoc], by simp [Constraint.features, n1, n2], ?_⟩
          intro i hi
          rcases List.mem_append.1 hi with hi | hi
          · exact a1 i hi
          · exact a2 i hi
  | un op c ih =>
    intro bs bs' v v' t h
    simp only [visit] at h
    cases hl : visit m mixed c bs v with
    | none => simp [hl] at h
    | some x =>
      obtain ⟨tl, bl, vl⟩ := x
      simp only [hl] at h
      obtain ⟨p1, e1, n1, a1⟩ := ih hl
      have : bl = bs' := by
        simp only [Option.map_eq_some_iff, Prod.mk.injEq] at h
        obtain ⟨_, _, _, h, _⟩ := h
        exact h
      subst this
      exact ⟨p1, e1, by simp [Constraint.features, n1], a1⟩
  | int n =>
    intro bs bs' v v' t h
    simp only [visit, Option.some.injEq, Prod.mk.injEq] at h
    obtain ⟨_, rfl, _⟩ := h
    exact ⟨[], rfl, by simp [Constraint.features], by simp⟩
  | feature n =>
    intro bs bs' v v' t h
    cases bs with
    | nil => simp [visit] at h
    | cons b bs =>
      simp only [visit] at h
      cases hv : visitFeature m mixed n b v with
      | none => simp [hv] at h
      | some x =>
        simp only [hv, Option.map_some, Option.some.injEq, Prod.mk.injEq] at h
        obtain ⟨_, rfl, _⟩ := h
        refine ⟨[b], rfl, by simp [Constraint.features], ?_⟩
        intro i hi hn
        simp only [List.mem_singleton] at hi
        subst hi
        simp [visitFeature, FModel.feat?, hn] at hv

theorem addVisited_crash {s : Z3Solver} {a b c : Bool} {x : Stored} {i : Id} (hi : m.heap i = none) (hx : some i ∈ x.binds)
    (hl : x.binds.length = x.tree.features.length) : s.addVisited m a b c x = .crash := by
  unfold addVisited
  cases h : visit m a x.tree x.binds (.boolVal false) with
  | none => rfl
  | some y =>
    obtain ⟨t, bs, v⟩ := y
    obtain ⟨pre, e1, n1, a1⟩ := visit_live h
    have : bs = [] := by
      have := congrArg List.length e1
      rw [List.length_append, hl, n1] at this
      exact List.length_eq_zero_iff.1 (by omega)
    subst this
    rw [List.append_nil] at e1
    exact absurd hi (a1 i (e1 ▸ hx))

/-- Neither a result nor an error code. -/
def Stuck : SRes → Prop
  | .crash => True
  | .endless => True
  | _ => False

theorem stuck_andThen {r : SRes} {f : Z3Solver → SRes} (h : ∀ s, r = .ok s → Stuck (f s)) (he : ∀ e s, r ≠ .err e s) : Stuck (SRes.andThen r f) := by
  cases r with
  | ok s => exact h s rfl
  | err e s => exact absurd rfl (he e s)
  | crash => trivial
  | endless => trivial

theorem forEach_noErr {α} {f : Z3Solver → α → SRes} {l : List α} (s : Z3Solver) : ∀ e s', forEach f s l ≠ .err e s' := by
  induction l generalizing s with
  | nil => intro e s' h; cases h
  | cons x xs ih =>
    intro e s' h
    unfold forEach at h
    cases hx : f s x with
    | ok s1 => rw [hx] at h; exact ih s1 e s' h
    | err e1 s1 => rw [hx] at h; exact ih s1 e s' h
    | crash => rw [hx] at h; cases h
    | endless => rw [hx] at h; cases h

theorem forEach_stuck {α} {f : Z3Solver → α → SRes} {l : List α} {x : α} (hx : x ∈ l) (h : ∀ s, f s x = .crash) (s : Z3Solver) :
    Stuck (forEach f s l) := by
  induction l generalizing s with
  | nil => cases hx
  | cons y ys ih =>
    unfold forEach
    rcases List.mem_cons.1 hx with rfl | hx
    · rw [h]; trivial
    · cases f s y with
      | ok s1 => exact ih hx s1
      | err e1 s1 => exact ih hx s1
      | crash => trivial
      | endless => trivial

/-- Nor be given to a solver: setting one up, and with it counting, enumerating and checking, is undefined. -/
theorem C24_dangling_solver (E : Env) (F : IntFloats) (fuel : Nat) {i : Id} (hi : m.heap i = none) {s : Stored} (hs : s ∈ allStored m)
    (hb : some i ∈ s.binds) (hl : s.binds.length = s.tree.features.length) :
    initSolver E F fuel m = .crash ∨ initSolver E F fuel m = .endless := by
  suffices h : Stuck (initSolver E F fuel m) by
    revert h
    cases initSolver E F fuel m <;> simp [Stuck]
  have ha : ∀ st, addConstraint m st s = .crash := fun st => addVisited_crash hi hb hl
  have hx : ∀ st, addMixed m st s = .crash := by
    intro st
    unfold addMixed
    cases s.info with
    | none => rfl
    | some j => exact addVisited_crash hi hb hl
  unfold initSolver applyModel
  cases groupNames m with
  | none => trivial
  | some V =>
    cases m.iterate E with
    | none => trivial
    | some fs =>
      refine stuck_andThen (fun s1 _ => ?_) (forEach_noErr _)
      unfold allStored at hs
      rcases List.mem_append.1 hs with hs | hs
      · rcases List.mem_append.1 hs with hs | hs
        · have := forEach_stuck hs ha s1
          revert this
          cases forEach (addConstraint m) s1 m.booleans <;> simp [Stuck, SRes.andThen]
        · refine stuck_andThen (fun s2 _ => ?_) (forEach_noErr _)
          have := forEach_stuck hs ha s2
          revert this
          cases forEach (addConstraint m) s2 m.nonBooleans <;> simp [Stuck, SRes.andThen]
      · refine stuck_andThen (fun s2 _ => ?_) (forEach_noErr _)
        refine stuck_andThen (fun s3 _ => ?_) (forEach_noErr _)
        have := forEach_stuck hs hx s3
        revert this
        cases forEach (addMixed m) s3 m.mixeds <;> simp [Stuck, SRes.andThen]

/-- Together: in every model with a leaf mentioned by a constraint, removing the leaf succeeds, and afterwards neither a
    clone nor a solver can be made. -/
theorem C24_dangling_all (w : WF m) (hbd : Bound m) (E : Env) (F : IntFloats) (fuel : Nat) {f : Ref} {i : Id} (hres : m.resolve f = some i)
    (hi : Known m i) (hr : m.root ≠ some i) (he : edg m i = []) (hm : Mentioned m i) (recursive : Bool) :
    ∃ m', m.exec E (.removeFeature f recursive) = .ok m' ∧ m'.clone E = .ub ∧
      (initSolver E F fuel m' = .crash ∨ initSolver E F fuel m' = .endless) := by
  obtain ⟨m', h1, h2, h3, hst⟩ : ∃ m', m.exec E (.removeFeature f recursive) = .ok m' ∧ m'.heap i = none ∧ Mentioned m' i ∧
      allStored m' = allStored m := by
    obtain ⟨m', h1, h2, h3⟩ := C24_dangling w E hres hi hr he hm recursive
    refine ⟨m', h1, h2, h3, ?_⟩
    -- the same removal, seen as removal of nodes
    cases recursive with
    | false =>
      obtain ⟨m2, g1, g2⟩ := removeRec_leaf w E m.next hi hr he
      have : m.exec E (.removeFeature f false) = .ok m2 := by
        show m.execRemoveFeature E f false = _
        unfold FModel.execRemoveFeature; rw [hres]; exact g1
      rw [h1] at this; cases this
      exact allStored_eq g2.booleans g2.nonBooleans g2.mixeds
    | true =>
      have hflat : ∀ j, Owned m j → Below m i j → IsRel m j → ∀ c ∈ edg m j, IsFeat m c := by
        intro j ho hb hj c hc
        rcases w.below_down hb ho with h | ⟨x, hx, _⟩
        · subst h; rw [he] at hc; cases hc
        · rw [he] at hx; cases hx
      obtain ⟨m2, g1, g2⟩ := removeRec_ok E (m.next + 1) m i w hi hr hflat (by omega)
      have : m.exec E (.removeFeature f true) = .ok m2 := by
        show m.execRemoveFeature E f true = _
        unfold FModel.execRemoveFeature; rw [hres]; exact g1
      rw [h1] at this; cases this
      exact allStored_eq g2.booleans g2.nonBooleans g2.mixeds
  refine ⟨m', h1, C24_dangling_clone E h2 h3, ?_⟩
  obtain ⟨s, hs, hb⟩ := h3
  exact C24_dangling_solver E F fuel h2 hs hb (hbd.len s (by rw [← hst]; exact hs))

/-- Not vacuous: the leaf `C` of root(A(B), C) with the constraint `A => C`. -/
example : WF chainC ∧ Bound chainC ∧ chainC.resolve (.name c!"C") = some 3 ∧ Known chainC 3 ∧ chainC.root ≠ some 3 ∧ edg chainC 3 = [] ∧
    Mentioned chainC 3 := by
  refine ⟨wf_of_sameTree chain_wf ⟨rfl, rfl, rfl, rfl, rfl, rfl, fun _ => .refl _⟩, ?_, by decide,
    by simp [Known, chainC, chain, ofNodes], by simp [chainC, chain, ofNodes], by decide, ?_⟩
  · constructor
    · intro s hs
      simp [allStored, chainC, chain, ofNodes] at hs
      subst hs
      rfl
    · intro s hs k i hk
      simp [allStored, chainC, chain, ofNodes] at hs
      subst hs
      match k with
      | 0 => simp at hk; subst hk; exact ⟨c!"A", rfl, by simp [chainC, chain, ofNodes]⟩
      | 1 => simp at hk; subst hk; exact ⟨c!"C", rfl, by simp [chainC, chain, ofNodes]⟩
      | k + 2 => simp at hk
  · exact ⟨_, List.mem_singleton.2 rfl, by decide⟩

end Verif.Props

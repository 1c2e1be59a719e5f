import Verif.Solver.Enumerate
import Verif.FM.Examples
/-!
# Concrete models for the solver
-/

namespace Verif
open Verif.Spec

/-- Numbers without rounding errors, as an instance of the floating-point interface. -/
def exactFloats : IntFloats where
  D := Int
  round d := (d.mantissa / 10 ^ d.scale : Nat)
  add x y := x + y
  mul x y := x * y
  pow x y := x ^ y.toNat
  ofInt x := x
  toInt x := some x

/-- An oracle that always answers. -/
noncomputable def idealOracle : Oracle where
  check _ ts := open Classical in if h : ∃ a, Sat a ts then .sat h.choose else .unsat
  sound k ts a h := by
    split at h
    · rename_i hs
      cases h
      exact hs.choose_spec
    · cases h
  complete k ts h a ha := by
    split at h
    · cases h
    · rename_i hs
      exact hs ⟨a, ha⟩

theorem idealOracle_answers (k : Nat) (ts : List ZTerm) : idealOracle.check k ts ≠ .unknown := by
  simp only [idealOracle]
  split <;> simp

/-- `IsNum` by evaluation. -/
def isNumB (m : FModel) (n : Str) : Bool :=
  m.features.any (fun e => decide (e.1 = n) &&
    (match data m e.2 with | some (.feat f) => (match f.attr.kind with | .numeric _ _ => true | _ => false) | _ => false))

theorem isNumB_iff {m : FModel} {n : Str} : isNumB m n = true ↔ IsNum m n := by
  simp only [isNumB, List.any_eq_true, Bool.and_eq_true, decide_eq_true_eq]
  constructor
  · rintro ⟨⟨n', i⟩, he, rfl, h⟩
    simp only at h he
    split at h
    · rename_i f hf
      split at h
      · rename_i vs st hk
        exact ⟨i, f, vs, st, he, hf, hk⟩
      · cases h
    · cases h
  · rintro ⟨i, f, vs, st, he, hf, hk⟩
    exact ⟨(n, i), he, rfl, by simp only [hf, hk]⟩

theorem sortIn_eq (m : FModel) : sortIn m = fun n => if isNumB m n = true then .int else .bool := by
  funext n
  simp only [sortIn]
  by_cases h : IsNum m n
  · rw [if_pos h, if_pos (isNumB_iff.2 h)]
  · rw [if_neg h, if_neg (fun e => h (isNumB_iff.1 e))]

def noXorB : Constraint → Bool
  | .bin op l r => decide (op ≠ .xor) && noXorB l && noXorB r
  | .un _ c => noXorB c
  | _ => true

theorem noXorB_iff {c : Constraint} : noXorB c = true ↔ NoXor c := by
  induction c with
  | bin op l r ihl ihr => simp only [noXorB, NoXor, Bool.and_eq_true, decide_eq_true_eq, ihl, ihr, and_assoc]
  | un op c ih => simpa only [noXorB, NoXor] using ih
  | int v => simp [noXorB, NoXor]
  | feature n => simp [noXorB, NoXor]

def bindsB (m : FModel) : List Str → List (Option Id) → Bool
  | [], [] => true
  | n :: ns, b :: bs => (match b with | some i => decide ((n, i) ∈ m.features) | none => !isNumB m n) && bindsB m ns bs
  | _, _ => false

theorem bindsB_iff {m : FModel} {ns : List Str} {bs : List (Option Id)} (h : bindsB m ns bs = true) : BindsOk m ns bs := by
  induction ns generalizing bs with
  | nil => cases bs with | nil => trivial | cons _ _ => cases h
  | cons n ns ih =>
    cases bs with
    | nil => cases h
    | cons b bs =>
      simp only [bindsB, Bool.and_eq_true] at h
      refine ⟨?_, ih h.2⟩
      cases b with
      | some i => simpa using h.1
      | none =>
        intro hn
        have := isNumB_iff.2 hn
        simp [this] at h

/-- The kind of the node at an address. -/
def kindB (m : FModel) (i : Id) : Option FKind := match data m i with | some (.feat f) => some f.attr.kind | _ => none

def numericB : FKind → Bool
  | .numeric _ _ => true
  | _ => false

/-- `Clear` by evaluation, except for the ranges. -/
def clearCheck (m : FModel) : Bool :=
  m.features.all (fun e => decide (Char.ofNat 0 ∉ e.1) &&
    (match kindB m e.2 with
     | some .unknown => false
     | some .binary => (match m.parentFeature e.2 with
       | some (some p) => (match kindB m p with | some k => !numericB k | none => false)
       | _ => false)
     | _ => true)) &&
  (allStored m).all (fun c => c.tree.features.all (fun n => decide (Char.ofNat 0 ∉ n)) &&
    bindsB m c.tree.features c.binds) &&
  m.rels.all (fun r =>
    (match par m r with | some p => (match kindB m p with | some k => !numericB k | none => false) | none => true) &&
    (edg m r).all (fun c => decide (kindB m c = some .binary)) && decide (edg m r ≠ [])) &&
  (m.booleans ++ m.nonBooleans).all (fun c =>
    decide (sortOf (fun n => if isNumB m n = true then .int else .bool) c.tree = some .bool)) &&
  m.mixeds.all (fun c => decide (sortOf (fun _ => .int) c.tree = some .bool) && decide (c.info ≠ none))

/-- `Loadable` by evaluation, except for the ranges. -/
def loadCheck (m : FModel) : Bool := clearCheck m && (allStored m).all (fun c => noXorB c.tree)

theorem kindB_data {m : FModel} {i : Id} {f : Feat} (h : data m i = some (.feat f)) : kindB m i = some f.attr.kind := by
  simp [kindB, h]

theorem clear_of_check {F : IntFloats} {m : FModel} (w : WF m)
    (hr : ∀ i f lo hi st, Known m i → data m i = some (.feat f) → f.attr.kind = .numeric (.range lo hi) st → Ends (stepOf F st) hi lo)
    (h : clearCheck m = true) : Clear F m := by
  simp only [clearCheck, Bool.and_eq_true, List.all_eq_true, decide_eq_true_eq] at h
  obtain ⟨⟨⟨⟨h1, h2⟩, h3⟩, h4⟩, h5⟩ := h
  have hk1 : ∀ i f, Known m i → data m i = some (.feat f) → _ := fun i f hi hf => (h1 _ (w.entry_mem hi hf)).2
  refine
    { names := fun n i he => (h1 _ he).1
      leaves := fun c hc n hn => by have := (h2 c hc).1 n hn; simpa using this
      known := ?_
      ranges := hr
      parents := ?_
      owner := ?_
      members := ?_
      nonempty := fun r hr _ => (h3 r hr).2
      binds := fun c hc => bindsB_iff (h2 c hc).2
      sorts := fun c hc => by rw [sortIn_eq]; exact h4 c hc
      mixedSorts := fun c hc => (h5 c hc).1
      infos := fun c hc => (h5 c hc).2 }
  · intro i f hi hf hk
    have := hk1 i f hi hf
    simp only [kindB_data hf, hk] at this
    cases this
  · intro i f p g vs st hi hf hk hp hg hn
    have := hk1 i f hi hf
    obtain ⟨r, e1, e2⟩ := parentFeature_spec w (.inl hi)
    rw [(e2 p).2 hp] at e1
    simp only [kindB_data hf, hk, e1, kindB_data hg, hn, numericB] at this
    cases this
  · intro r p hr hp
    have := (h3 r hr).1.1
    rw [hp] at this
    simp only at this
    cases hd : data m p with
    | none => simp [kindB, hd] at this
    | some d =>
      cases d with
      | rel k => simp [kindB, hd] at this
      | feat g =>
        refine ⟨g, rfl, fun vs st hk => ?_⟩
        simp [kindB, hd, hk, numericB] at this
  · intro r c hr hc
    have := (h3 r hr).1.2 c hc
    cases hd : data m c with
    | none => simp [kindB, hd] at this
    | some d =>
      cases d with
      | rel k => simp [kindB, hd] at this
      | feat g => exact ⟨g, rfl, by simpa [kindB, hd] using this⟩

theorem loadable_of_check {F : IntFloats} {m : FModel} (w : WF m)
    (hr : ∀ i f lo hi st, Known m i → data m i = some (.feat f) → f.attr.kind = .numeric (.range lo hi) st → Ends (stepOf F st) hi lo)
    (h : loadCheck m = true) : Loadable F m := by
  simp only [loadCheck, Bool.and_eq_true, List.all_eq_true] at h
  exact { clear_of_check w hr h.1 with noXor := fun c hc => noXorB_iff.1 (h.2 c hc) }

/-- The step function `x + 2`. -/
def plusTwo : StepFn := ⟨.var c!"x", .addition, .num (some ⟨2, 0⟩)⟩

/-- root with an alternative group of `A` and `B`, the optional `O` and the numeric `N` from 1 to 6 in
    steps of 2; `A` implies `O`, and if `O` is selected then `N` plus `O` is more than 2. -/
def shop : FModel :=
  { ofNodes
      [featNode "root" none [1, 4, 5] .root,
       { data := .rel .alternative, parent := some 0, edges := [2, 3] },
       featNode "A" (some 1) [], featNode "B" (some 1) [],
       { data := .feat { attr := { name := c!"O", kind := .binary, opt := true } }, parent := some 0, edges := [] },
       featNode "N" (some 0) [] (.numeric (.range 1 6) (some plusTwo))]
      (some 0) [(c!"root", 0), (c!"A", 2), (c!"B", 3), (c!"O", 4), (c!"N", 5)] [1]
      [⟨.bin .implies (.feature c!"A") (.feature c!"O"), [some 2, some 4], none⟩] with
    mixeds := [⟨.bin .greater (.bin .add (.feature c!"N") (.feature c!"O")) (.int 2), [some 5, some 4], some ⟨true, true⟩⟩] }

theorem fresh_with {m m' : FModel} (h : m'.heap = m.heap) (hn : m'.next = m.next) (hf : ∀ i, m.heap i ≠ none → i < m.next) :
    ∀ i, m'.heap i ≠ none → i < m'.next := by
  intro i hi
  rw [h] at hi
  rw [hn]
  exact hf i hi

theorem shop_wf : WF shop := wf_of_check (fun i => i) (fresh_with rfl rfl (ofNodes_fresh _ (some 0) [] [] [])) (by decide)

theorem plusTwo_step (x : Int) : stepOf exactFloats (some plusTwo) x = some (x + 2) := by
  simp [stepOf, StepFn.nextInt, StepFn.next, plusTwo, exactFloats, Floats.apply]

theorem shop_loadable : Loadable exactFloats shop := by
  refine loadable_of_check shop_wf ?_ (by decide)
  intro i f lo hi st hk hd hkind
  have : i ∈ [0, 2, 3, 4, 5] := hk
  simp only [List.mem_cons, List.not_mem_nil, or_false] at this
  rcases this with rfl | rfl | rfl | rfl | rfl <;> cases hd <;> cases hkind
  refine .step (y := 3) (by decide) (plusTwo_step 1) ?_
  refine .step (y := 5) (by decide) (plusTwo_step 3) ?_
  refine .step (y := 7) (by decide) (plusTwo_step 5) ?_
  exact .out (by decide)

end Verif

import Verif.FM.Bulk
import Verif.FM.Examples
/-!
# Property C31: removing several features
-/

namespace Verif.Props
open Spec FModel

/-- `removeFeatures` does not recurse without end, whatever the model and the list. -/
theorem C31_terminates (E : Env) (B : Bulk) (recursive : Bool) (m : FModel) (vs : List Ref) {fuel : Nat}
    (h : vs.length < fuel) : removeFeatures E B recursive fuel m vs ≠ .endless :=
  removeFeatures_ends E B recursive fuel m vs h

/-- Without recursion, for references to different features other than the root or to no feature:
    every element of the list is either removed or returned; what is returned is missing or not a
    leaf; exactly the removed features are gone and nothing else changes. -/
theorem C31_leaves_partial (E : Env) (B : Bulk) {m : FModel} (w : WF m) {vs : List Ref} (ha : Apart m vs) {fuel : Nat}
    (hf : vs.length < fuel) :
    ∃ m' gone rest, removeFeatures E B false fuel m vs = .done m' rest ∧ WF m' ∧ (gone ++ rest).Perm vs ∧
      (∀ v ∈ gone, ∃ i, m.resolve v = some i ∧ m'.heap i = none ∧ ¬ Known m' i) ∧
      (∀ v ∈ rest, m'.resolve v = none ∨ ∃ i, m'.resolve v = some i ∧ Known m' i ∧ edg m' i ≠ []) ∧
      Without m m' (fun j => ∃ v ∈ gone, m.resolve v = some j) := by
  obtain ⟨m', rest, h1, w', ⟨gone, h2, h3, h4⟩, h5⟩ := removeFeatures_leaves E B fuel m vs hf w ha
  refine ⟨m', gone, rest, h1, w', h2, ?_, ?_, h4⟩
  · intro v hv
    obtain ⟨i, hi⟩ := h3 v hv
    refine ⟨i, hi, h4.gone i ⟨v, hv, hi⟩, ?_⟩
    intro hk
    exact ((h4.known i).1 hk).2 ⟨v, hv, hi⟩
  · intro v hv
    cases hr : m'.resolve v with
    | none => exact .inl rfl
    | some i =>
      refine .inr ⟨i, rfl, ?_, h5 v hv i hr⟩
      have ha2 : Apart m (gone ++ rest) := ha.perm h2
      have hS : ∀ i, m.resolve v = some i → Known m i ∧ ¬ ∃ u ∈ gone, m.resolve u = some i := by
        intro i hi
        refine ⟨(ha2.known v (List.mem_append_right _ hv) i hi).1, ?_⟩
        rintro ⟨u, hu, hui⟩
        exact (List.pairwise_append.1 ha2.distinct).2.2 u hu v hv i hui hi
      rw [resolve_without w w' h4 hS] at hr
      exact (h4.known i).2 ⟨(hS i hr).1, (hS i hr).2⟩

/-- With recursion, for features none of which is below another: exactly their subtrees are removed,
    and exactly the references to no feature are returned. -/
theorem C31_trees_partial (E : Env) (B : Bulk) {m : FModel} (w : WF m) (hflat : NoNestedRel m) {vs : List Ref}
    (ha : Apart m vs) (hin : Independent m vs) :
    ∃ m' rest, (∀ fuel, vs.length + 1 < fuel → removeFeatures E B true fuel m vs = .done m' rest) ∧ WF m' ∧
      (∀ v, v ∈ rest ↔ v ∈ vs ∧ m.resolve v = none) ∧
      Without m m' (fun j => Owned m j ∧ ∃ v ∈ vs, ∃ i, m.resolve v = some i ∧ Below m i j) :=
  removeFeatures_trees E B w hflat ha hin

/-- Addresses in the order of allocation, stable partition. -/
def plain : Bulk := ⟨id, fun _ _ h => h, id, fun _ => .refl _, id, fun _ => .refl _⟩

/-- The conclusions, by evaluation. -/
def BulkRes.passes (r : BulkRes) (p : FModel → List Ref → Bool) : Bool :=
  match r with
  | .done m rest => p m rest
  | _ => false

theorem BulkRes.of_passes {r : BulkRes} {p : FModel → List Ref → Bool} (h : BulkRes.passes r p = true) :
    ∃ m rest, r = .done m rest ∧ p m rest = true := by
  cases r with
  | done m rest => exact ⟨m, rest, rfl, h⟩
  | ub => cases h
  | endless => cases h

theorem apart_chain : Apart chain [.name c!"A", .name c!"none", .ptr (some 2)] := by
  constructor
  · intro v hv i hi
    simp only [List.mem_cons, List.not_mem_nil, or_false] at hv
    rcases hv with rfl | rfl | rfl
    · have : chain.resolve (.name c!"A") = some 1 := by decide
      rw [this] at hi; cases hi
      exact ⟨by simp [Known, chain, ofNodes], by decide⟩
    · have : chain.resolve (.name c!"none") = none := by decide
      rw [this] at hi; cases hi
    · have : chain.resolve (.ptr (some 2)) = some 2 := by decide
      rw [this] at hi; cases hi
      exact ⟨by simp [Known, chain, ofNodes], by decide⟩
  · have h1 : chain.resolve (.name c!"A") = some 1 := by decide
    have h2 : chain.resolve (.name c!"none") = none := by decide
    have h3 : chain.resolve (.ptr (some 2)) = some 2 := by decide
    refine .cons ?_ (.cons ?_ (.cons ?_ .nil))
    · intro v hv i hi
      rw [h1] at hi; cases hi
      simp only [List.mem_cons, List.not_mem_nil, or_false] at hv
      rcases hv with rfl | rfl
      · rw [h2]; simp
      · rw [h3]; decide
    · intro v hv i hi; rw [h2] at hi; cases hi
    · intro v hv; cases hv

/-- B goes first, then A has become a leaf; the missing one is returned. -/
example : ∃ m' rest, removeFeatures (stdEnv true) plain false 4 chain [.name c!"A", .name c!"none", .ptr (some 2)] = .done m' rest ∧
    rest = [.name c!"none"] ∧ m'.features = [(c!"root", 0), (c!"C", 3)] := by
  obtain ⟨m', rest, h1, h2⟩ := BulkRes.of_passes
    (r := removeFeatures (stdEnv true) plain false 4 chain [.name c!"A", .name c!"none", .ptr (some 2)])
    (p := fun m rest => decide (rest = [.name c!"none"]) && decide (m.features = [(c!"root", 0), (c!"C", 3)])) (by decide)
  simp only [Bool.and_eq_true, decide_eq_true_eq] at h2
  exact ⟨m', rest, h1, h2⟩

/-- Refuted for a feature that is named twice: the second removal fails, which ends the transaction;
    the third feature is neither removed nor returned. -/
theorem C31_twice (asserts : Bool) :
    ∃ m', removeFeatures (stdEnv asserts) plain false 4 chain [.name c!"B", .name c!"B", .name c!"C"] = .done m' [] ∧
      m'.getFeature c!"C" = some 3 := by
  obtain ⟨m', rest, h1, h2⟩ := BulkRes.of_passes
    (r := removeFeatures (stdEnv asserts) plain false 4 chain [.name c!"B", .name c!"B", .name c!"C"])
    (p := fun m rest => decide (rest = []) && decide (m.getFeature c!"C" = some 3)) (by cases asserts <;> decide)
  simp only [Bool.and_eq_true, decide_eq_true_eq] at h2
  exact ⟨m', by rw [h1, h2.1], h2.2⟩

/-- Through pointers the second removal reads a freed object. -/
theorem C31_twice_pointer (asserts : Bool) :
    removeFeatures (stdEnv asserts) plain false 4 chain [.ptr (some 2), .ptr (some 2)] = .ub := by
  have h : (match removeFeatures (stdEnv asserts) plain false 4 chain [.ptr (some 2), .ptr (some 2)] with
    | .ub => true | _ => false) = true := by cases asserts <;> decide
  split at h
  · assumption
  · cases h

/-- root -- A -- B -- C, and D below the root. -/
def longChain : FModel :=
  ofNodes [featNode "root" none [1, 4] .root, featNode "A" (some 0) [2], featNode "B" (some 1) [3],
           featNode "C" (some 2) [], featNode "D" (some 0) []]
    (some 0) [(c!"root", 0), (c!"A", 1), (c!"B", 2), (c!"C", 3), (c!"D", 4)] []

theorem longChain_wf : WF longChain := wf_of_check (fun i => i) (ofNodes_fresh _ _ _ _ _) (by decide)

/-- Refuted in recursive mode for a feature and one below its children: only direct children are
    looked at, so both are removed in one transaction, which fails at the second. -/
theorem C31_grandchild (asserts : Bool) :
    ∃ m', removeFeatures (stdEnv asserts) plain true 4 longChain [.name c!"A", .name c!"C", .name c!"D"] = .done m' [] ∧
      m'.getFeature c!"D" = some 4 := by
  obtain ⟨m', rest, h1, h2⟩ := BulkRes.of_passes
    (r := removeFeatures (stdEnv asserts) plain true 4 longChain [.name c!"A", .name c!"C", .name c!"D"])
    (p := fun m rest => decide (rest = []) && decide (m.getFeature c!"D" = some 4)) (by cases asserts <;> decide)
  simp only [Bool.and_eq_true, decide_eq_true_eq] at h2
  exact ⟨m', by rw [h1, h2.1], h2.2⟩

/-- root -- P -- {A, B}, and D below the root. -/
def twoKids : FModel :=
  ofNodes [featNode "root" none [1, 4] .root, featNode "P" (some 0) [2, 3], featNode "A" (some 1) [],
           featNode "B" (some 1) [], featNode "D" (some 0) []]
    (some 0) [(c!"root", 0), (c!"P", 1), (c!"A", 2), (c!"B", 3), (c!"D", 4)] []

/-- Refuted in recursive mode even for a parent and its child: the intersection is computed on a
    pointer set that is not sorted, and misses the child when the set is visited in descending order
    of addresses. -/
theorem C31_unsorted (asserts : Bool) : WF twoKids ∧
    ∃ m', removeFeatures (revEnv asserts) plain true 4 twoKids [.name c!"P", .name c!"A", .name c!"D"] = .done m' [] ∧
      m'.getFeature c!"D" = some 4 := by
  refine ⟨wf_of_check (fun i => i) (ofNodes_fresh _ _ _ _ _) (by decide), ?_⟩
  obtain ⟨m', rest, h1, h2⟩ := BulkRes.of_passes
    (r := removeFeatures (revEnv asserts) plain true 4 twoKids [.name c!"P", .name c!"A", .name c!"D"])
    (p := fun m rest => decide (rest = []) && decide (m.getFeature c!"D" = some 4)) (by cases asserts <;> decide)
  simp only [Bool.and_eq_true, decide_eq_true_eq] at h2
  exact ⟨m', by rw [h1, h2.1], h2.2⟩

/-- When everything is removed the root becomes a leaf, and its removal is undefined. -/
theorem C31_root (asserts : Bool) :
    removeFeatures (stdEnv asserts) plain false 9 chain [.name c!"A", .name c!"B", .name c!"C", .name c!"root"] = .ub := by
  have h : (match removeFeatures (stdEnv asserts) plain false 9 chain
      [.name c!"A", .name c!"B", .name c!"C", .name c!"root"] with
    | .ub => true | _ => false) = true := by cases asserts <;> decide
  split at h
  · assumption
  · cases h

/-- The hypotheses of `C31_trees_partial` hold for the subtrees of A and C in `chain`. -/
example : NoNestedRel chain ∧ Apart chain [.ptr (some 1), .ptr (some 3)] ∧ Independent chain [.ptr (some 1), .ptr (some 3)] := by
  have h1 : chain.resolve (.ptr (some 1)) = some 1 := rfl
  have h3 : chain.resolve (.ptr (some 3)) = some 3 := rfl
  have hk : ∀ i, i = 1 ∨ i = 3 → Known chain i ∧ chain.root ≠ some i := by
    rintro i (rfl | rfl) <;> exact ⟨by simp [Known, chain, ofNodes], by decide⟩
  refine ⟨?_, ⟨?_, ?_⟩, ?_⟩
  · intro j ho hj
    obtain ⟨k, hk⟩ := hj
    have hr := chain_wf.owned_rel ho ⟨k, hk⟩
    simp [chain, ofNodes] at hr
  · intro v hv i hi
    simp only [List.mem_cons, List.not_mem_nil, or_false] at hv
    rcases hv with rfl | rfl
    · rw [h1] at hi; cases hi; exact hk 1 (.inl rfl)
    · rw [h3] at hi; cases hi; exact hk 3 (.inr rfl)
  · refine .cons ?_ (.cons (by intro v hv; cases hv) .nil)
    intro v hv i hi
    rw [h1] at hi; cases hi
    simp only [List.mem_cons, List.not_mem_nil, or_false] at hv
    subst hv; rw [h3]; decide
  · refine .cons ?_ (.cons (by intro v hv; cases hv) .nil)
    intro v hv i j hi hj
    simp only [List.mem_cons, List.not_mem_nil, or_false] at hv
    subst hv
    rw [h1] at hi; cases hi
    rw [h3] at hj; cases hj
    have key : ∀ a b, Below chain a b → (b = 1 → a = 1 ∨ a = 0) ∧ (b = 3 → a = 3 ∨ a = 0) ∧ (b = 0 → a = 0) := by
      intro a b hb
      induction hb with
      | refl => exact ⟨fun h => .inl h, fun h => .inl h, fun h => h⟩
      | step hp _ ih =>
        refine ⟨?_, ?_, ?_⟩
        · rintro rfl
          have : par chain 1 = some 0 := by decide
          rw [this] at hp; cases hp; exact .inr (ih.2.2 rfl)
        · rintro rfl
          have : par chain 3 = some 0 := by decide
          rw [this] at hp; cases hp; exact .inr (ih.2.2 rfl)
        · rintro rfl
          have : par chain 0 = none := by decide
          rw [this] at hp; cases hp
    constructor
    · intro hb; rcases (key _ _ hb).2.1 rfl with h | h <;> cases h
    · intro hb; rcases (key _ _ hb).1 rfl with h | h <;> cases h

end Verif.Props

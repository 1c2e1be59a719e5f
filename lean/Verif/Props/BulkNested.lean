import Verif.Props.BulkTwice
/-!
# Property C31: a feature and one far below it in one list

General forms of the witness `C31_grandchild`.  `canBeDeletedRecursively`
(/repo/lib/Feature/FeatureModelTransaction.cpp:68-86) looks only at the direct children of a node, and the
members of a group are not direct children of the feature the group is below.
-/

namespace Verif.Props
open Spec FModel

/-- No listed feature is directly below a listed feature. -/
def NoChildListed (m : FModel) (vs : List Ref) : Prop :=
  ∀ u ∈ vs, ∀ v ∈ vs, ∀ i j, m.resolve u = some i → m.resolve v = some j → j ∉ edg m i

/-- Then all are removed in one transaction. -/
theorem all_at_once (E : Env) (B : Bulk) {m : FModel} (w : WF m) {vs : List Ref} (hne : vs ≠ [])
    (hk : ∀ u ∈ vs, ∃ i, m.resolve u = some i ∧ Known m i) (hc : NoChildListed m vs) (fuel : Nat) :
    removeFeatures E B true (fuel + 1) m vs =
      match m.commitOps E ((B.first vs).map (fun u => .removeFeature u true)) with
      | .ok m' => removeFeatures E B true fuel m' []
      | .err _ m' => removeFeatures E B true fuel m' []
      | .ub => .ub := by
  have hdel : ∀ u ∈ vs, (m.deletable E B true (m.otherFeatures B vs) u).map (fun b => (u, b)) = some (u, true) := by
    intro u hu
    obtain ⟨i, hr, ki⟩ := hk u hu
    obtain ⟨d, hd⟩ := w.owned_data (.inl ki)
    obtain ⟨n, hn, hne⟩ := data_edges hd
    simp only [deletable, hr, hn, hne]
    by_cases he : edg m i = []
    · simp [he]
    · rw [if_neg he]
      obtain ⟨cs, h1, _, h3⟩ := children_spec w E (isT := fun _ => true) (T := fun _ => true) (fun _ => rfl) (-1) (.inl ki)
      have hemp : setIntersection B.addr cs (m.otherFeatures B vs) = [] := by
        cases hs : setIntersection B.addr cs (m.otherFeatures B vs) with
        | nil => rfl
        | cons x xs =>
          exfalso
          obtain ⟨hx1, hx2⟩ := setIntersection_sub B.addr_inj cs (m.otherFeatures B vs) x (by rw [hs]; simp)
          obtain ⟨v, hv, hvx⟩ := otherFeatures_mem hx2
          have hv' : Via m (fun _ => true) i x := by simpa [Reached] using (h3 x).1 hx1
          cases hv' with
          | here hce _ _ => exact hc u hu v hv i x hr hvx hce
          | skip _ _ hf _ => simp at hf
      simp [h1, hemp]
  have hmap := mapM_some (g := fun u => (u, true)) hdel
  obtain ⟨t1, t2⟩ := tagged_filter (l := vs) (fun _ => true)
  have e1 : vs.filter (fun _ => true) = vs := List.filter_eq_self.2 (by simp)
  have e2 : vs.filter (fun _ => !true) = [] := List.filter_eq_nil_iff.2 (by simp)
  have e3 : B.second [] = [] := List.perm_nil.1 (B.second_perm [])
  have hy : B.first vs ≠ [] := fun h => hne (List.nil_perm.1 (h ▸ B.first_perm vs))
  rw [e1] at t1
  rw [e2] at t2
  cases vs with
  | nil => exact absurd rfl hne
  | cons v vs =>
    simp only [removeFeatures, hmap, t1, t2, e3, if_neg hy]
    rw [if_neg (by rw [consistent_of_WF w]; simp)]
    cases m.commitOps E ((B.first (v :: vs)).map (fun u => .removeFeature u true)) <;> rfl

/-- The removals of one transaction up to one of a feature that is gone by then. -/
theorem removals_to_gone (E : Env) {m : FModel} (w : WF m) (hflat : NoNestedRel m) {xs zs : List Ref} {v : Ref}
    (ha : Apart m xs) (hin : Independent m xs) (hx : ∀ u ∈ xs, ∃ i, m.resolve u = some i) :
    ∃ m1, outFold (exec E) m ((xs ++ v :: zs).map (fun u => .removeFeature u true)) =
        outFold (exec E) m1 ((v :: zs).map (fun u => .removeFeature u true)) ∧ WF m1 ∧
      Without m m1 (fun j => Owned m j ∧ ∃ u ∈ xs, ∃ i, m.resolve u = some i ∧ Below m i j) := by
  obtain ⟨m1, h1, w1, h2⟩ := removeTrees_ok E xs m w hflat ha hin hx
  exact ⟨m1, by rw [List.map_append]; exact outFold_append h1, w1, h2⟩

/-- Refuted in recursive mode, in any well-formed model, for every list with a feature and, behind it, the
    name of one that is below it but not its child (or is a member of its group): both are removed in one
    transaction, which ends at the second. The features listed behind it are neither removed nor returned. -/
theorem C31_nested_listed (E : Env) (B : Bulk) (hB : ∀ l, B.first l = l) {m : FModel} (w : WF m) (hflat : NoNestedRel m)
    {n : Str} {a d : Id} {u : Ref} {xs zs : List Ref} (ha : Apart m (xs ++ .name n :: zs)) (hin : Independent m xs)
    (hres : ∀ v ∈ xs ++ .name n :: zs, ∃ i, m.resolve v = some i) (hc : NoChildListed m (xs ++ .name n :: zs))
    (hu : u ∈ xs) (hua : m.resolve u = some a) (hd : m.getFeature n = some d) (hb : Below m a d)
    {fuel : Nat} (hf : 0 < fuel) :
    ∃ m', removeFeatures E B true (fuel + 1) m (xs ++ .name n :: zs) = .done m' [] ∧ WF m' ∧
      Without m m' (fun j => Owned m j ∧ ∃ x ∈ xs, ∃ i, m.resolve x = some i ∧ Below m i j) ∧
      ∀ z ∈ zs, ∀ j, m.resolve z = some j → (∀ x ∈ xs, ∀ i, m.resolve x = some i → ¬ Below m i j) →
        m'.resolve z = some j ∧ Known m' j := by
  have hk : ∀ v ∈ xs ++ Ref.name n :: zs, ∃ i, m.resolve v = some i ∧ Known m i := by
    intro v hv
    obtain ⟨i, hi⟩ := hres v hv
    exact ⟨i, hi, (ha.known v hv i hi).1⟩
  obtain ⟨m1, h1, w1, h2⟩ := removals_to_gone E w hflat (v := .name n) (zs := zs)
    (ha.sub (List.sublist_append_left _ _)) hin (fun v hv => hres v (List.mem_append_left _ hv))
  have hkd : Known m d := by
    obtain ⟨i, hi, ki⟩ := hk (.name n) (by simp)
    have : m.getFeature n = some i := hi
    rw [hd] at this
    cases this
    exact ki
  have hgone : m1.getFeature n = none := by
    rw [getFeature_none]
    intro hm
    obtain ⟨e, he, hen⟩ := List.mem_map.1 hm
    obtain ⟨he1, he2⟩ := (h2.features.2 e).1 he
    have : m.getFeature e.1 = some e.2 := getFeature_mem w.names he1
    rw [hen, hd] at this
    cases this
    exact he2 ⟨.inl hkd, u, hu, a, hua, hb⟩
  have hcommit : m.commitOps E ((xs ++ Ref.name n :: zs).map (fun u => .removeFeature u true)) = .err .missingFeature m1 := by
    rw [commitOps, h1]
    simp only [List.map_cons, outFold, exec, execRemoveFeature, resolve, hgone]
  rw [all_at_once E B w (by simp) hk hc fuel, hB, hcommit]
  obtain ⟨k, rfl⟩ : ∃ k, fuel = k + 1 := ⟨fuel - 1, by omega⟩
  refine ⟨m1, rfl, w1, h2, ?_⟩
  intro z hz j hj hfree
  have hkz := (ha.known z (by simp [hz]) j hj).1
  have hS : ¬ (Owned m j ∧ ∃ x ∈ xs, ∃ i, m.resolve x = some i ∧ Below m i j) := by
    rintro ⟨_, x, hx, i, hi, hbi⟩
    exact hfree x hx i hi hbi
  refine ⟨?_, (h2.known j).2 ⟨hkz, hS⟩⟩
  rw [resolve_without w w1 h2 (fun k hk => by rw [hj] at hk; cases hk; exact ⟨hkz, hS⟩), hj]

/-- The same list with the address in place of the name: the removal reads a freed feature. -/
theorem C31_nested_pointer (E : Env) (B : Bulk) (hB : ∀ l, B.first l = l) {m : FModel} (w : WF m) (hflat : NoNestedRel m)
    {a d : Id} {u : Ref} {xs zs : List Ref} (ha : Apart m (xs ++ .ptr (some d) :: zs)) (hin : Independent m xs)
    (hres : ∀ v ∈ xs ++ .ptr (some d) :: zs, ∃ i, m.resolve v = some i) (hc : NoChildListed m (xs ++ .ptr (some d) :: zs))
    (hu : u ∈ xs) (hua : m.resolve u = some a) (hb : Below m a d) (fuel : Nat) :
    removeFeatures E B true (fuel + 1) m (xs ++ .ptr (some d) :: zs) = .ub := by
  have hk : ∀ v ∈ xs ++ Ref.ptr (some d) :: zs, ∃ i, m.resolve v = some i ∧ Known m i := by
    intro v hv
    obtain ⟨i, hi⟩ := hres v hv
    exact ⟨i, hi, (ha.known v hv i hi).1⟩
  obtain ⟨m1, h1, _, h2⟩ := removals_to_gone E w hflat (v := .ptr (some d)) (zs := zs)
    (ha.sub (List.sublist_append_left _ _)) hin (fun v hv => hres v (List.mem_append_left _ hv))
  have hkd : Known m d := (ha.known (.ptr (some d)) (by simp) d rfl).1
  have hfree : m1.heap d = none := h2.gone d ⟨.inl hkd, u, hu, a, hua, hb⟩
  have : m.commitOps E ((xs ++ Ref.ptr (some d) :: zs).map (fun u => .removeFeature u true)) = .ub := by
    rw [commitOps, h1]
    simp only [List.map_cons, outFold, removeFeature_freed E hfree]
  rw [all_at_once E B w (by simp) hk hc fuel, hB, this]

/-- The hypotheses, for `C31_grandchild`. -/
example : WF longChain ∧ NoNestedRel longChain ∧ Apart longChain ([.name c!"A"] ++ .name c!"C" :: [.name c!"D"]) ∧
    Independent longChain [.name c!"A"] ∧ NoChildListed longChain ([.name c!"A"] ++ .name c!"C" :: [.name c!"D"]) ∧
    longChain.resolve (.name c!"A") = some 1 ∧ longChain.getFeature c!"C" = some 3 ∧ Below longChain 1 3 ∧
    ¬ Below longChain 1 4 := by
  have hA : longChain.resolve (.name c!"A") = some 1 := by decide
  have hC : longChain.resolve (.name c!"C") = some 3 := by decide
  have hD : longChain.resolve (.name c!"D") = some 4 := by decide
  have hr : ∀ v ∈ [Ref.name c!"A"] ++ .name c!"C" :: [.name c!"D"], ∀ i, longChain.resolve v = some i → i = 1 ∨ i = 3 ∨ i = 4 := by
    intro v hv i hi
    simp only [List.cons_append, List.nil_append, List.mem_cons, List.not_mem_nil, or_false] at hv
    rcases hv with rfl | rfl | rfl
    · rw [hA] at hi; cases hi; exact .inl rfl
    · rw [hC] at hi; cases hi; exact .inr (.inl rfl)
    · rw [hD] at hi; cases hi; exact .inr (.inr rfl)
  refine ⟨longChain_wf, ?_, ⟨?_, ?_⟩, .cons (by simp) .nil, ?_, hA, by decide, ?_, ?_⟩
  · intro j ho hj
    have hr := longChain_wf.owned_rel ho hj
    simp [longChain, ofNodes] at hr
  · intro v hv i hi
    rcases hr v hv i hi with rfl | rfl | rfl <;> exact ⟨by simp [Known, longChain, ofNodes], by decide⟩
  · simp [hA, hC, hD]
  · intro u hu v hv i j hi hj
    rcases hr u hu i hi with rfl | rfl | rfl <;> rcases hr v hv j hj with rfl | rfl | rfl <;> decide
  · exact .step (p := 2) (by decide) (.step (p := 1) (by decide) .refl)
  · intro h
    cases h with
    | step hp hb =>
      have : par longChain 4 = some 0 := by decide
      rw [this] at hp
      cases hp
      cases hb with
      | step hp _ =>
        have : par longChain 0 = none := by decide
        rw [this] at hp
        cases hp

end Verif.Props

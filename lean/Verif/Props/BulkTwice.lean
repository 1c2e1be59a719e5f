import Verif.Props.BulkRemoval
import Verif.FM.AddMany
/-!
# Property C31: a feature that is listed twice

General forms of the witnesses `C31_twice` and `C31_twice_pointer`.
-/

namespace Verif.Props
open Spec FModel

/-- The reference names a feature without children. -/
def NamesLeaf (m : FModel) (u : Ref) : Prop := ∃ i, m.resolve u = some i ∧ edg m i = []

/-- What the first round of `removeFeatures` does. -/
theorem round_one (E : Env) (B : Bulk) {m : FModel} (w : WF m) (b : Ref → Bool)
    (hb : ∀ u, b u = true ↔ NamesLeaf m u) {us : List Ref}
    (hk : ∀ u ∈ us, ∀ i, m.resolve u = some i → Known m i) (hy : us.filter b ≠ []) (fuel : Nat) :
    removeFeatures E B false (fuel + 1) m us =
      match m.commitOps E ((B.first (us.filter b)).map (fun u => .removeFeature u false)) with
      | .ok m' => removeFeatures E B false fuel m' (B.second (us.filter (fun u => !b u)))
      | .err _ m' => removeFeatures E B false fuel m' (B.second (us.filter (fun u => !b u)))
      | .ub => .ub := by
  have hdel : ∀ u ∈ us, (m.deletable E B false (m.otherFeatures B us) u).map (fun b => (u, b)) = some (u, b u) := by
    intro u hu
    have hbu := hb u
    unfold deletable
    cases hr : m.resolve u with
    | none =>
      have : b u = false := by
        cases h : b u with
        | false => rfl
        | true => obtain ⟨i, hi, _⟩ := hbu.1 h; rw [hr] at hi; cases hi
      simp [this]
    | some i =>
      obtain ⟨d, hd⟩ := w.owned_data (.inl (hk u hu i hr))
      obtain ⟨n, hn, hne⟩ := data_edges hd
      simp only [hn, hne]
      by_cases he : edg m i = []
      · have : b u = true := hbu.2 ⟨i, hr, he⟩
        simp [this, he]
      · have : b u = false := by
          cases h : b u with
          | false => rfl
          | true => obtain ⟨j, hj, hje⟩ := hbu.1 h; rw [hr] at hj; cases hj; exact absurd hje he
        simp [this, he]
  have hmap := mapM_some hdel
  obtain ⟨t1, t2⟩ := tagged_filter (l := us) b
  have hy' : B.first (us.filter b) ≠ [] := by
    intro h
    have := B.first_perm (us.filter b)
    rw [h] at this
    exact hy (List.nil_perm.1 this)
  cases us with
  | nil => simp at hy
  | cons v vs =>
    simp only [removeFeatures, hmap, t1, t2, if_neg hy']
    rw [if_neg (by rw [consistent_of_WF w]; simp)]
    cases m.commitOps E ((B.first ((v :: vs).filter b)).map (fun u => .removeFeature u false)) <;> rfl

/-- The removals of one transaction up to the second mention of a feature. -/
theorem removals_to_second (E : Env) {m : FModel} (w : WF m) {p : Ref} {xs ys zs : List Ref}
    (ha : Apart m (p :: (xs ++ ys))) (hl : ∀ u ∈ p :: (xs ++ ys), NamesLeaf m u) :
    ∃ m1, outFold (exec E) m ((xs ++ p :: (ys ++ p :: zs)).map (fun u => .removeFeature u false)) =
        outFold (exec E) m1 ((p :: zs).map (fun u => .removeFeature u false)) ∧ WF m1 ∧
      Without m m1 (fun j => ∃ u ∈ p :: (xs ++ ys), m.resolve u = some j) := by
  have hperm : (xs ++ p :: ys).Perm (p :: (xs ++ ys)) := List.perm_middle
  obtain ⟨m1, h1, w1, h2⟩ := removeLeaves_ok E (xs ++ p :: ys) m w (ha.perm hperm)
    (fun u hu => hl u (hperm.mem_iff.1 hu))
  refine ⟨m1, ?_, w1, without_congr h2 ?_⟩
  · rw [show xs ++ p :: (ys ++ p :: zs) = (xs ++ p :: ys) ++ p :: zs from by simp, List.map_append]
    exact outFold_append h1
  · intro j
    constructor
    · rintro ⟨u, hu, hj⟩
      exact ⟨u, hperm.mem_iff.2 hu, hj⟩
    · rintro ⟨u, hu, hj⟩
      exact ⟨u, hperm.mem_iff.1 hu, hj⟩

/-- The removal of a feature that is gone, through a pointer. -/
theorem removeFeature_freed (E : Env) {m : FModel} {i : Id} (h : m.heap i = none) (r : Bool) :
    exec E m (.removeFeature (.ptr (some i)) r) = .ub := by
  cases r <;> simp [exec, execRemoveFeature, resolve, removeRec, children, childrenImpl, h]

/-- A list with an element twice. -/
theorem split_twice {α} {p : α} {l L : List α} (h : L.Perm (p :: p :: l)) :
    ∃ xs ys zs, L = xs ++ p :: (ys ++ p :: zs) ∧ (xs ++ ys ++ zs).Perm l := by
  obtain ⟨s, t, rfl⟩ := List.append_of_mem (h.mem_iff.2 (List.mem_cons_self ..))
  have h2 : (s ++ t).Perm (p :: l) := List.Perm.cons_inv (List.perm_middle.symm.trans h)
  rcases List.mem_append.1 (h2.mem_iff.2 (List.mem_cons_self ..)) with hm | hm
  · obtain ⟨xs, ys, rfl⟩ := List.append_of_mem hm
    refine ⟨xs, ys, t, by simp, ?_⟩
    refine List.Perm.cons_inv (List.Perm.trans ?_ h2)
    simpa using (List.perm_middle (l₁ := xs) (a := p) (l₂ := ys ++ t)).symm
  · obtain ⟨ys, zs, rfl⟩ := List.append_of_mem hm
    refine ⟨s, ys, zs, rfl, ?_⟩
    refine List.Perm.cons_inv (List.Perm.trans ?_ h2)
    simpa using (List.perm_middle (l₁ := s ++ ys) (a := p) (l₂ := zs)).symm

/-- Refuted, in any well-formed model, for every list that mentions a leaf twice through its address:
    the second removal of the transaction reads the freed feature. The other elements of the list name
    different features other than the root, or nothing. -/
theorem C31_pointer_listed_twice (E : Env) (B : Bulk) {m : FModel} (w : WF m) {i : Id} {us vs : List Ref}
    (hvs : vs.Perm (.ptr (some i) :: .ptr (some i) :: us)) (ha : Apart m (.ptr (some i) :: us))
    (hi : edg m i = []) (fuel : Nat) : removeFeatures E B false (fuel + 1) m vs = .ub := by
  classical
  have hli : NamesLeaf m (.ptr (some i)) := ⟨i, rfl, hi⟩
  let b : Ref → Bool := fun u => decide (NamesLeaf m u)
  have hb : ∀ u, b u = true ↔ NamesLeaf m u := fun u => decide_eq_true_iff
  have hmem : ∀ u ∈ vs, u ∈ Ref.ptr (some i) :: us := by
    intro u hu
    have := hvs.mem_iff.1 hu
    simp only [List.mem_cons] at this ⊢
    rcases this with h | h | h
    · exact .inl h
    · exact .inl h
    · exact .inr h
  have hy : vs.filter b ≠ [] := by
    intro h
    have : Ref.ptr (some i) ∈ vs.filter b := List.mem_filter.2 ⟨hvs.mem_iff.2 (List.mem_cons_self ..), (hb _).2 hli⟩
    rw [h] at this
    cases this
  rw [round_one E B w b hb (fun u hu j hj => (ha.known u (hmem u hu) j hj).1) hy fuel]
  have hp : (B.first (vs.filter b)).Perm (.ptr (some i) :: .ptr (some i) :: us.filter b) := by
    refine (B.first_perm _).trans ((hvs.filter b).trans ?_)
    rw [List.filter_cons_of_pos ((hb _).2 hli), List.filter_cons_of_pos ((hb _).2 hli)]
  obtain ⟨xs, ys, zs, hL, hp2⟩ := split_twice hp
  rw [hL]
  have hsub : ∀ u ∈ xs ++ ys, u ∈ us.filter b := fun u hu => hp2.mem_iff.1 (List.mem_append_left _ hu)
  have haf : Apart m (Ref.ptr (some i) :: (xs ++ ys ++ zs)) :=
    (ha.sub (List.Sublist.cons_cons _ List.filter_sublist)).perm (hp2.cons _)
  obtain ⟨m1, h1, _, h2⟩ := removals_to_second E (zs := zs) w
    (haf.sub (List.Sublist.cons_cons _ (List.sublist_append_left _ _))) (by
      intro u hu
      rcases List.mem_cons.1 hu with rfl | hu
      · exact hli
      · exact (hb u).1 (List.mem_filter.1 (hsub u hu)).2)
  have hfree : m1.heap i = none := h2.gone i ⟨_, List.mem_cons_self .., rfl⟩
  have : m.commitOps E ((xs ++ Ref.ptr (some i) :: (ys ++ Ref.ptr (some i) :: zs)).map (fun u => .removeFeature u false)) = .ub := by
    rw [commitOps, h1]
    simp only [List.map_cons, outFold, removeFeature_freed E hfree]
  rw [this]

/-- Refuted, in any well-formed model, for every list that mentions a leaf twice by its name, where the
    partition keeps the order: the second removal fails, which ends the transaction; every leaf
    mentioned behind it is neither removed nor returned. -/
theorem C31_name_listed_twice (E : Env) (B : Bulk) (hB : ∀ l, B.first l = l) {m : FModel} (w : WF m) {n : Str} {i : Id}
    {xs ys zs : List Ref} (ha : Apart m (.name n :: (xs ++ ys ++ zs))) (hn : m.getFeature n = some i) (hi : edg m i = [])
    {fuel : Nat} (hf : (xs ++ ys ++ zs).length < fuel) :
    ∃ m' rest, removeFeatures E B false (fuel + 1) m (xs ++ .name n :: (ys ++ .name n :: zs)) = .done m' rest ∧ WF m' ∧
      m'.heap i = none ∧
      ∀ z ∈ zs, ∀ j, m.resolve z = some j → edg m j = [] → z ∉ rest ∧ m'.resolve z = some j ∧ Known m' j := by
  classical
  have hli : NamesLeaf m (.name n) := ⟨i, hn, hi⟩
  let b : Ref → Bool := fun u => decide (NamesLeaf m u)
  have hb : ∀ u, b u = true ↔ NamesLeaf m u := fun u => decide_eq_true_iff
  have hbn : b (.name n) = true := (hb _).2 hli
  have hmem : ∀ u ∈ xs ++ Ref.name n :: (ys ++ Ref.name n :: zs), u ∈ Ref.name n :: (xs ++ ys ++ zs) := by
    intro u hu
    simp only [List.mem_append, List.mem_cons] at hu ⊢
    rcases hu with h | h | h | h | h
    · exact .inr (.inl (.inl h))
    · exact .inl h
    · exact .inr (.inl (.inr h))
    · exact .inl h
    · exact .inr (.inr h)
  have hfil : (xs ++ Ref.name n :: (ys ++ Ref.name n :: zs)).filter b =
      xs.filter b ++ Ref.name n :: (ys.filter b ++ Ref.name n :: zs.filter b) := by
    simp [List.filter_cons_of_pos hbn]
  have hfil2 : (xs ++ Ref.name n :: (ys ++ Ref.name n :: zs)).filter (fun u => !b u) =
      (xs ++ ys ++ zs).filter (fun u => !b u) := by
    simp [List.filter_cons, hbn]
  rw [round_one E B w b hb (fun u hu j hj => (ha.known u (hmem u hu) j hj).1) (by rw [hfil]; simp) fuel, hB, hfil, hfil2]
  have hsub : (xs.filter b ++ ys.filter b).Sublist (xs ++ ys ++ zs) :=
    (List.Sublist.append List.filter_sublist List.filter_sublist).trans (List.sublist_append_left _ _)
  obtain ⟨m1, h1, w1, h2⟩ := removals_to_second E (zs := zs.filter b) w
    (ha.sub (List.Sublist.cons_cons _ hsub)) (by
      intro u hu
      rcases List.mem_cons.1 hu with rfl | hu
      · exact hli
      · rcases List.mem_append.1 hu with hu | hu <;> exact (hb u).1 (List.mem_filter.1 hu).2)
  have hgone : m1.getFeature n = none := by
    rw [getFeature_none]
    intro hm
    obtain ⟨e, he, hen⟩ := List.mem_map.1 hm
    obtain ⟨he1, he2⟩ := (h2.features.2 e).1 he
    have : m.getFeature e.1 = some e.2 := getFeature_mem w.names he1
    rw [hen, hn] at this
    cases this
    exact he2 ⟨.name n, List.mem_cons_self .., hn⟩
  have hcommit : m.commitOps E ((xs.filter b ++ Ref.name n :: (ys.filter b ++ Ref.name n :: zs.filter b)).map
      (fun u => .removeFeature u false)) = .err .missingFeature m1 := by
    rw [commitOps, h1]
    simp only [List.map_cons, outFold, exec, execRemoveFeature, resolve, hgone]
  rw [hcommit]
  have hsplit : (Ref.name n :: (xs ++ ys ++ zs)).Pairwise (fun a b => ∀ i, m.resolve a = some i → m.resolve b ≠ some i) := ha.distinct
  -- what is left to do
  have hno : Apart m ((xs ++ ys ++ zs).filter (fun u => !b u)) :=
    ha.sub ((List.filter_sublist).trans (List.sublist_cons_self _ _))
  have hS : ∀ u ∈ (xs ++ ys ++ zs).filter (fun u => !b u), ∀ j, m.resolve u = some j →
      ¬ ∃ v ∈ Ref.name n :: (xs.filter b ++ ys.filter b), m.resolve v = some j := by
    rintro u hu j hj ⟨v, hv, hvj⟩
    have hl : NamesLeaf m v := by
      rcases List.mem_cons.1 hv with rfl | hv
      · exact hli
      · rcases List.mem_append.1 hv with hv | hv <;> exact (hb v).1 (List.mem_filter.1 hv).2
    obtain ⟨j', hj', he⟩ := hl
    rw [hvj] at hj'
    cases hj'
    have : b u = true := (hb u).2 ⟨j, hj, he⟩
    simpa [this] using (List.mem_filter.1 hu).2
  have hp2 := B.second_perm ((xs ++ ys ++ zs).filter (fun u => !b u))
  have hno1 : Apart m1 (B.second ((xs ++ ys ++ zs).filter (fun u => !b u))) :=
    (hno.without w w1 h2 hS).perm hp2
  have hlen : (B.second ((xs ++ ys ++ zs).filter (fun u => !b u))).length < fuel := by
    rw [hp2.length_eq]
    exact Nat.lt_of_le_of_lt (List.length_filter_le _ _) hf
  obtain ⟨m', rest, g1, w', ⟨gone, g2, _, g4⟩, _⟩ := removeFeatures_leaves E B fuel m1 _ hlen w1 hno1
  have hr : ∀ u ∈ (xs ++ ys ++ zs).filter (fun u => !b u), m1.resolve u = m.resolve u := fun u hu =>
    resolve_without w w1 h2 (fun j hj => ⟨(hno.known u hu j hj).1, hS u hu j hj⟩)
  have hgn : ∀ v ∈ gone, v ∈ (xs ++ ys ++ zs).filter (fun u => !b u) := fun v hv =>
    hp2.mem_iff.1 (g2.mem_iff.1 (List.mem_append_left _ hv))
  have hrn : ∀ v ∈ rest, v ∈ (xs ++ ys ++ zs).filter (fun u => !b u) := fun v hv =>
    hp2.mem_iff.1 (g2.mem_iff.1 (List.mem_append_right _ hv))
  refine ⟨m', rest, g1, w', ?_, ?_⟩
  · by_cases hS2 : ∃ v ∈ gone, m1.resolve v = some i
    · exact g4.gone i hS2
    · have := g4.data i hS2
      have h3 : m1.heap i = none := h2.gone i ⟨.name n, List.mem_cons_self .., hn⟩
      cases hh : m'.heap i with
      | none => rfl
      | some nd => simp [data, hh, h3] at this
  · intro z hz j hj he
    have hbz : b z = true := (hb z).2 ⟨j, hj, he⟩
    have hzmem : z ∈ Ref.name n :: (xs ++ ys ++ zs) := List.mem_cons_of_mem _ (List.mem_append_right _ hz)
    have hkz := ha.known z hzmem j hj
    have hz1 : ¬ ∃ v ∈ Ref.name n :: (xs.filter b ++ ys.filter b), m.resolve v = some j := by
      rintro ⟨v, hv, hvj⟩
      rcases List.mem_cons.1 hv with rfl | hv
      · exact (List.pairwise_cons.1 hsplit).1 z (List.mem_append_right _ hz) j hvj hj
      · have hv' : v ∈ xs ++ ys := by
          rcases List.mem_append.1 hv with hv | hv
          · exact List.mem_append_left _ (List.mem_filter.1 hv).1
          · exact List.mem_append_right _ (List.mem_filter.1 hv).1
        exact (List.pairwise_append.1 (List.pairwise_cons.1 hsplit).2).2.2 v hv' z hz j hvj hj
    have hz2 : ¬ ∃ v ∈ gone, m1.resolve v = some j := by
      rintro ⟨v, hv, hvj⟩
      have hvn := hgn v hv
      rw [hr v hvn] at hvj
      have : b v = true := (hb v).2 ⟨j, hvj, he⟩
      simpa [this] using (List.mem_filter.1 hvn).2
    have r1 : m1.resolve z = some j := by
      rw [resolve_without w w1 h2 (fun k hk => by rw [hj] at hk; cases hk; exact ⟨hkz.1, hz1⟩), hj]
    have k1 : Known m1 j := (h2.known j).2 ⟨hkz.1, hz1⟩
    refine ⟨?_, ?_, (g4.known j).2 ⟨k1, hz2⟩⟩
    · intro hzr
      simpa [hbz] using (List.mem_filter.1 (hrn z hzr)).2
    · rw [resolve_without w1 w' g4 (fun k hk => by rw [r1] at hk; cases hk; exact ⟨k1, hz2⟩), r1]

/-- Refuted for a root without children: its removal is undefined, in any well-formed model and in
    both modes. -/
theorem C31_root_leaf (E : Env) (B : Bulk) (recursive : Bool) {m : FModel} (w : WF m) {r : Id} (hr : m.root = some r)
    (he : edg m r = []) {u : Ref} (hu : m.resolve u = some r) (fuel : Nat) :
    removeFeatures E B recursive (fuel + 1) m [u] = .ub := by
  obtain ⟨r', f, hr', hkr, hd, _, hpar⟩ := w.root_ok
  rw [hr] at hr'
  cases hr'
  obtain ⟨nd, hn, hne⟩ := data_edges hd
  rw [he] at hne
  have hp : nd.parent = none := by simpa [par, hn] using hpar
  have hc : ∀ isT, m.children E isT r = some [] := by
    intro isT
    have : E.setOrder [] = [] := List.perm_nil.1 (E.setOrder_perm [])
    simp [children, childrenImpl, hn, hne, this]
  have hx : exec E m (.removeFeature u recursive) = .ub := by
    cases recursive <;> simp [exec, execRemoveFeature, hu, removeRec, hc, outFold, removeFinish, hn, hp]
  have hf : B.first [u] = [u] := List.perm_singleton.1 (B.first_perm [u])
  have hco : m.commitOps E [.removeFeature u recursive] = .ub := by
    simp [commitOps, outFold, hx]
  simp [removeFeatures, deletable, hu, hn, hne, hf, hco]

/-- The hypotheses of both theorems, for `C31_twice` and `C31_twice_pointer`. -/
example : WF chain ∧ Apart chain (.name c!"B" :: ([] ++ [] ++ [.name c!"C"])) ∧ Apart chain (.ptr (some 2) :: []) ∧
    chain.getFeature c!"B" = some 2 ∧ edg chain 2 = [] := by
  have hB : chain.resolve (.name c!"B") = some 2 := by decide
  have hC : chain.resolve (.name c!"C") = some 3 := by decide
  have hp : chain.resolve (.ptr (some 2)) = some 2 := rfl
  have hk : ∀ i, i = 2 ∨ i = 3 → Known chain i ∧ chain.root ≠ some i := by
    rintro i (rfl | rfl) <;> exact ⟨by simp [Known, chain, ofNodes], by decide⟩
  refine ⟨chain_wf, ⟨?_, ?_⟩, ⟨?_, ?_⟩, by decide, by decide⟩
  · intro v hv i hi
    simp only [List.nil_append, List.mem_cons, List.not_mem_nil, or_false] at hv
    rcases hv with rfl | rfl
    · rw [hB] at hi; cases hi; exact hk 2 (.inl rfl)
    · rw [hC] at hi; cases hi; exact hk 3 (.inr rfl)
  · simp [hB, hC]
  · intro v hv i hi
    simp only [List.mem_cons, List.not_mem_nil, or_false] at hv
    subst hv
    rw [hp] at hi; cases hi; exact hk 2 (.inl rfl)
  · simp

end Verif.Props

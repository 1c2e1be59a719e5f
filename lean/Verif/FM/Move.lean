import Verif.FM.Add
/-! Lemmas: `addChild`, and the modifications that leave the tree alone. -/

namespace Verif
open Verif.Spec

/-! ### addChild -/

/-- `c` has been moved below `p` (as last child), nothing else changed. -/
structure Moved (m m' : FModel) (p c : Id) : Prop where
  rest : SameMeta m m'
  data : data m' = data m
  par : par m' = upd (par m) c (some p)
  /-- other nodes lose the edge to `c` -/
  edge : ∀ j, Owned m j → j ≠ p → edg m' j = (edg m j).erase c
  edge_new : edg m' p = (edg m p).erase c ++ [c]
  foreign : ∀ j, ¬ Owned m j → edg m' j = edg m j

theorem insertSet_erase {l : List Id} (h : l.Nodup) (c : Id) :
    FModel.insertSet (l.erase c) c = l.erase c ++ [c] := by
  unfold FModel.insertSet
  rw [if_neg]
  intro hm
  exact (h.mem_erase_iff.1 hm).1 rfl

theorem execAddChild_ok {m : FModel} (w : WF m) {pr cr : Ref} {p c : Id} (hpr : m.resolve pr = some p)
    (hcr : m.resolve cr = some c) (hp : Owned m p) (hc : Owned m c) (hroot : m.root ≠ some c) (hne : c ≠ p) :
    ∃ m', m.execAddChild pr cr = .ok m' ∧ Moved m m' p c := by
  obtain ⟨q, hq⟩ : ∃ q, par m c = some q := by
    cases h : par m c with
    | none => exact absurd (w.orphan c hc h) hroot
    | some q => exact ⟨q, rfl⟩
  obtain ⟨hoq, hcq⟩ := w.par_edge c q hc hq
  obtain ⟨dp, hdp⟩ := w.owned_data hp
  obtain ⟨dc, hdc⟩ := w.owned_data hc
  obtain ⟨dq, hdq⟩ := w.owned_data hoq
  obtain ⟨m1, h1, r1⟩ := removeEdge_ok (c := c) hdq
  have hdp1 : data m1 p = some dp := by rw [r1.data, hdp]
  obtain ⟨m2, h2, r2⟩ := addEdge_ok (c := c) hdp1
  have hdc2 : data m2 c = some dc := by rw [r2.data, r1.data, hdc]
  obtain ⟨m3, h3, r3⟩ := setParent_ok (p := some p) hdc2
  have hothers : ∀ j, Owned m j → j ≠ q → (edg m j).erase c = edg m j := by
    intro j hj hjq
    apply List.erase_of_not_mem
    intro hm
    have := (w.edge_par j c hj hm).2
    rw [hq] at this
    exact hjq (Option.some.inj this).symm
  have hedge : edg m3 = upd (upd (edg m) q ((edg m q).erase c)) p
      (FModel.insertSet (upd (edg m) q ((edg m q).erase c) p) c) := by
    rw [r3.edg, r2.edg, r1.edg]
  have hq1 : ∀ j, Owned m j → upd (edg m) q ((edg m q).erase c) j = (edg m j).erase c := by
    intro j hj
    by_cases hjq : j = q
    · subst hjq; simp
    · rw [upd_ne _ _ hjq, hothers j hj hjq]
  refine ⟨m3, ?_, ?_⟩
  · simp [FModel.execAddChild, hcr, hpr, hne, heap_of_data hdc, hq, h1, h2, h3, FModel.outOf]
  · refine ⟨r1.rest.trans (r2.rest.trans r3.rest), by rw [r3.data, r2.data, r1.data], ?_, ?_, ?_, ?_⟩
    · rw [r3.par, r2.par, r1.par]
    · intro j hj hjp
      rw [hedge, upd_ne _ _ hjp, hq1 j hj]
    · rw [hedge, upd_same, hq1 p hp, insertSet_erase (w.edges_nodup p hp)]
    · intro j hj
      have h1 : j ≠ p := fun h => hj (h ▸ hp)
      have h2 : j ≠ q := fun h => hj (h ▸ hoq)
      rw [hedge, upd_ne _ _ h1, upd_ne _ _ h2]

theorem Spec.Below.of_par {m : FModel} {c x y : Id} (hp : par m x = some y) (hx : x ≠ c) :
    Below m c x ↔ Below m c y := by
  constructor
  · intro h
    cases h with
    | refl => exact absurd rfl hx
    | step hp' h => rw [hp] at hp'; cases hp'; exact h
  · exact .step hp

open Classical in
theorem wf_of_moved {m m' : FModel} {p c : Id} (w : WF m) (h : Moved m m' p c) (hp : Owned m p) (hc : Owned m c)
    (hroot : m.root ≠ some c) (hb : ¬ Below m c p) : WF m' := by
  have hcp : c ≠ p := by rintro rfl; exact hb .refl
  have hpa : ∀ x, x ≠ c → par m' x = par m x := fun x hx => by rw [h.par, upd_ne _ _ hx]
  have hpc : par m' c = some p := by rw [h.par]; simp
  have hmem : ∀ j, Owned m j → ∀ x, x ∈ edg m' j ↔ (x ∈ edg m j ∧ x ≠ c) ∨ (j = p ∧ x = c) := by
    intro j hj x
    by_cases hjp : j = p
    · subst hjp
      rw [h.edge_new]
      rw [List.mem_append, List.mem_singleton, (w.edges_nodup j hj).mem_erase_iff]
      constructor
      · rintro (⟨h1, h2⟩ | h1)
        · exact .inl ⟨h2, h1⟩
        · exact .inr ⟨rfl, h1⟩
      · rintro (⟨h1, h2⟩ | ⟨_, h1⟩)
        · exact .inl ⟨h2, h1⟩
        · exact .inr h1
    · rw [h.edge j hj hjp, (w.edges_nodup j hj).mem_erase_iff]
      simp [hjp, and_comm]
  refine w.relink (pa := par m') (ed := edg m') ⟨h.rest, h.data, rfl, rfl⟩
    (fun x => lvlOf m x + if Below m c x then lvlOf m p + 1 else 0) ?_ ?_ ?_ ?_
  · intro i q ho hq
    by_cases hi : i = c
    · subst hi
      rw [hpc] at hq; cases hq
      refine ⟨hp, (hmem p hp i).2 (.inr ⟨rfl, rfl⟩), ?_⟩
      rw [if_neg hb, if_pos .refl]
      omega
    · rw [hpa i hi] at hq
      obtain ⟨h1, h2⟩ := w.par_edge i q ho hq
      refine ⟨h1, (hmem q h1 i).2 (.inl ⟨h2, hi⟩), ?_⟩
      simp only [Spec.Below.of_par hq hi, w.level_par ho hq]
      omega
  · intro i x ho hx
    rcases (hmem i ho x).1 hx with ⟨h1, h2⟩ | ⟨rfl, rfl⟩
    · obtain ⟨h3, h4⟩ := w.edge_par i x ho h1
      exact ⟨h3, by rw [hpa x h2]; exact h4⟩
    · exact ⟨hc, hpc⟩
  · intro i ho
    by_cases hip : i = p
    · subst hip
      rw [h.edge_new, List.nodup_append]
      refine ⟨(w.edges_nodup i ho).erase c, by simp, ?_⟩
      intro a ha b hb e
      simp at hb
      subst hb e
      exact ((w.edges_nodup i ho).mem_erase_iff.1 ha).1 rfl
    · rw [h.edge i ho hip]
      exact (w.edges_nodup i ho).erase c
  · intro i ho
    by_cases hi : i = c
    · subst hi
      rw [hpc]
      simp [hroot]
    · rw [hpa i hi]
      exact w.root_iff ho

/-! ### Modifications that leave the tree alone -/

/-- Same kind of node; for features the same name and kind. -/
def SameShape : Option NodeData → Option NodeData → Prop
  | some (.feat f), some (.feat g) => f.attr.name = g.attr.name ∧ f.attr.kind = g.attr.kind
  | some (.rel k), some (.rel k') => k = k'
  | none, none => True
  | _, _ => False

theorem SameShape.refl (d : Option NodeData) : SameShape d d := by
  cases d with
  | none => trivial
  | some d => cases d <;> simp [SameShape]

theorem SameShape.trans {a b c : Option NodeData} (h : SameShape a b) (h' : SameShape b c) : SameShape a c := by
  rcases a with _ | (_ | _) <;> rcases b with _ | (_ | _) <;> rcases c with _ | (_ | _) <;>
    simp_all [SameShape]

/-- Same tree, attributes and constraints may differ. -/
structure SameTree (m m' : FModel) : Prop where
  next : m'.next = m.next
  root : m'.root = m.root
  features : m'.features = m.features
  rels : m'.rels = m.rels
  par : par m' = par m
  edg : edg m' = edg m
  data : ∀ i, SameShape (data m i) (data m' i)

theorem SameTree.refl (m : FModel) : SameTree m m := ⟨rfl, rfl, rfl, rfl, rfl, rfl, fun _ => .refl _⟩

theorem SameTree.trans {a b c : FModel} (h : SameTree a b) (h' : SameTree b c) : SameTree a c :=
  ⟨h'.next.trans h.next, h'.root.trans h.root, h'.features.trans h.features, h'.rels.trans h.rels,
   h'.par.trans h.par, h'.edg.trans h.edg, fun i => (h.data i).trans (h'.data i)⟩

theorem SameShape.feat_right {d : Option NodeData} {f : Feat} (h : SameShape (some (.feat f)) d) :
    ∃ g, d = some (.feat g) ∧ f.attr.name = g.attr.name ∧ f.attr.kind = g.attr.kind := by
  rcases d with _ | (g | _)
  · cases h
  · exact ⟨g, rfl, h⟩
  · cases h

theorem SameShape.feat_left {d : Option NodeData} {f : Feat} (h : SameShape d (some (.feat f))) :
    ∃ g, d = some (.feat g) ∧ g.attr.name = f.attr.name ∧ g.attr.kind = f.attr.kind := by
  rcases d with _ | (g | _)
  · cases h
  · exact ⟨g, rfl, h⟩
  · cases h

theorem SameShape.rel_right {d : Option NodeData} {k : RKind} (h : SameShape (some (.rel k)) d) :
    d = some (.rel k) := by
  rcases d with _ | (g | k')
  · cases h
  · cases h
  · simp [SameShape] at h; subst h; rfl

theorem wf_of_sameTree {m m' : FModel} (w : WF m) (h : SameTree m m') : WF m' := by
  obtain ⟨r, rf, hr, hrk, hrd, hrr, hrp⟩ := w.root_ok
  have hk : ∀ i, Known m' i ↔ Known m i := by intro i; unfold Known; rw [h.features]
  have ho : ∀ i, Owned m' i ↔ Owned m i := by intro i; unfold Owned; rw [hk, h.rels]
  have hb : ∀ a i, Below m a i → Below m' a i := by
    intro a i hb
    induction hb with
    | refl => exact .refl
    | step hp _ ih => exact .step (by rw [h.par]; exact hp) ih
  have hd := h.data r
  rw [hrd] at hd
  obtain ⟨g, hg, h1, h2⟩ := hd.feat_right
  refine
    { root_ok := ⟨r, g, by rw [h.root]; exact hr, (hk r).2 hrk, hg, by rw [← h2]; exact hrr, by rw [h.par]; exact hrp⟩
      names := by rw [h.features]; exact w.names
      feat_ok := ?_
      rels_nodup := by rw [h.rels]; exact w.rels_nodup
      rel_ok := ?_
      par_edge := ?_
      edge_par := ?_
      edges_nodup := ?_
      orphan := ?_
      one_root := ?_
      reach := ?_
      fresh := ?_ }
  · intro e he
    rw [h.features] at he
    obtain ⟨f, hf, hn⟩ := w.feat_ok e he
    have := h.data e.2
    rw [hf] at this
    obtain ⟨g, hg, h1, h2⟩ := this.feat_right
    exact ⟨g, hg, by rw [← h1]; exact hn⟩
  · intro x hx
    rw [h.rels] at hx
    obtain ⟨k, hk⟩ := w.rel_ok x hx
    have := h.data x
    rw [hk] at this
    exact ⟨k, this.rel_right⟩
  · intro i p hoi hp
    rw [ho] at hoi ⊢; rw [h.par] at hp; rw [h.edg]
    exact w.par_edge i p hoi hp
  · intro i c hoi hc
    rw [ho] at hoi ⊢; rw [h.edg] at hc; rw [h.par]
    exact w.edge_par i c hoi hc
  · intro i hoi
    rw [ho] at hoi; rw [h.edg]
    exact w.edges_nodup i hoi
  · intro i hoi hp
    rw [ho] at hoi; rw [h.par] at hp; rw [h.root]
    exact w.orphan i hoi hp
  · intro i f hki hd hroot
    rw [hk] at hki
    have := h.data i
    rw [hd] at this
    obtain ⟨g, hg, h1, h2⟩ := this.feat_left
    rw [h.root]
    exact w.one_root i g hki hg (by rw [h2]; exact hroot)
  · intro i r' hoi hr'
    rw [ho] at hoi; rw [h.root] at hr'
    exact hb _ _ (w.reach i r' hoi hr')
  · intro i hi
    rw [h.next]
    apply w.fresh
    intro hn
    have := h.data i
    rw [data_none.2 hn] at this
    cases hd : data m' i with
    | none => exact hi (data_none.1 hd)
    | some d => rw [hd] at this; cases this

theorem updFeat_ok {m : FModel} {i : Id} {f : Feat} (g : Feat → Feat) (h : data m i = some (.feat f)) :
    ∃ m', m.updFeat i g = some m' ∧ SameMeta m m' ∧ par m' = par m ∧ edg m' = edg m ∧
      data m' = upd (data m) i (some (.feat (g f))) := by
  refine ⟨m.put i ⟨.feat (g f), par m i, edg m i⟩, ?_, FModel.put_meta .., ?_, ?_, ?_⟩
  · simp [FModel.updFeat, heap_of_data h]
  · rw [par_put]; exact upd_self ..
  · rw [edg_put]; exact upd_self ..
  · rw [data_put]

theorem sameTree_updFeat {m m' : FModel} {i : Id} {f f' : Feat} (hd : data m i = some (.feat f))
    (hn : f.attr.name = f'.attr.name) (hk : f.attr.kind = f'.attr.kind)
    (hm : SameMeta m m') (hp : par m' = par m) (he : edg m' = edg m)
    (hdd : data m' = upd (data m) i (some (.feat f'))) : SameTree m m' := by
  refine ⟨hm.next, hm.root, hm.features, hm.rels, hp, he, ?_⟩
  intro j
  rw [hdd]
  by_cases hj : j = i
  · subst hj; rw [hd]; simp [SameShape, hn, hk]
  · rw [upd_ne _ _ hj]; exact .refl _

end Verif

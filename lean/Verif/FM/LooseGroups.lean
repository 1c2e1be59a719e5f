import Verif.FM.Loose
/-!
# Groups in models of any shape

Relationships added below distinct features of a model without groups.
-/

namespace Verif
open Verif.Spec

/-- `m` is `m0` with the children of the features in `D` moved into groups. -/
structure Grouping (m0 m : FModel) (D : List Id) : Prop where
  features : m.features = m0.features
  root : m.root = m0.root
  fresh : ∀ i, m.heap i ≠ none → i < m.next
  data : ∀ i, Known m0 i → data m i = data m0 i
  todo : ∀ i, Known m0 i → i ∉ D → edg m i = edg m0 i ∧ ∀ c ∈ edg m0 i, par m c = some i
  done : ∀ i, Known m0 i → i ∈ D →
    ∃ r k, Spec.data m r = some (.rel k) ∧ par m r = some i ∧ ∀ c ∈ edg m0 i, par m c = some r ∧ c ∈ edg m r

theorem grouping_refl {m : FModel} (w : Loose m) : Grouping m m [] where
  features := rfl
  root := rfl
  fresh := w.fresh
  data := fun _ _ => rfl
  todo := fun i hi _ => ⟨rfl, fun c hc => (w.edge_par i c hi hc).2⟩
  done := fun _ _ h => by cases h

theorem checked_of_grouping {m0 m : FModel} {D : List Id} (w : Loose m0) (h : Grouping m0 m D) : Checked m := by
  have hk : ∀ i, Known m i ↔ Known m0 i := by intro i; unfold Known; rw [h.features]
  refine
    { names := by rw [h.features]; exact w.names
      feat_ok := ?_
      root_ok := ?_
      one_root := ?_
      link := ?_ }
  · intro e he
    rw [h.features] at he
    rw [h.data e.2 (List.mem_map_of_mem he)]
    exact w.feat_ok e he
  · obtain ⟨r, f, h1, h2, h3, h4⟩ := w.root_ok
    exact ⟨r, f, by rw [h.root]; exact h1, (hk r).2 h2, by rw [h.data r h2]; exact h3, h4⟩
  · intro i f hi hf
    rw [hk] at hi
    rw [h.data i hi] at hf
    rw [h.root]
    exact w.one_root i f hi hf
  · intro i hi hne
    rw [hk] at hi
    rw [h.root] at hne
    obtain ⟨f, hf⟩ := w.known_data hi
    have hfi : Spec.data m i = some (.feat f) := by rw [h.data i hi]; exact hf
    cases hp : par m0 i with
    | none => exact absurd (w.orphan i hi hp) hne
    | some p =>
      obtain ⟨h1, h2⟩ := w.par_edge i p hi hp
      obtain ⟨g, hg⟩ := w.known_data h1
      have hgp : Spec.data m p = some (.feat g) := by rw [h.data p h1]; exact hg
      by_cases hD : p ∈ D
      · obtain ⟨r, k, r1, r2, r3⟩ := h.done p h1 hD
        obtain ⟨r4, r5⟩ := r3 i h2
        refine ⟨⟨p, ?_⟩, r, _, r4, r1, r5⟩
        have hpos : ∃ n, m.next = n + 1 := by
          have := h.fresh p (by rw [heap_of_data hgp]; simp)
          exact ⟨m.next - 1, (Nat.sub_add_cancel (Nat.lt_of_le_of_lt (Nat.zero_le _) this)).symm⟩
        obtain ⟨n, hn⟩ := hpos
        unfold FModel.parentFeature
        rw [hn]
        simp only [FModel.parentFeatureFuel, heap_of_data hfi, r4, heap_of_data r1, Node.isFeat, r2, heap_of_data hgp]
        rfl
      · obtain ⟨t1, t2⟩ := h.todo p h1 hD
        refine ⟨⟨p, ?_⟩, p, _, t2 i h2, hgp, by rw [t1]; exact h2⟩
        unfold FModel.parentFeature FModel.parentFeatureFuel
        simp only [heap_of_data hfi, t2 i h2, heap_of_data hgp]
        rfl

theorem addRelationship_grouping {m0 m : FModel} {D : List Id} (w : Loose m0) (h : Grouping m0 m D) (E : Env) {k : RKind}
    {p : Id} (hp : Known m0 p) (hD : p ∉ D) :
    ∃ m', m.execAddRelationship E k (.ptr (some p)) = .ok m' ∧ Grouping m0 m' (p :: D) := by
  have hnext : m.heap m.next = none := by
    cases hh : m.heap m.next with
    | none => rfl
    | some x => exact absurd (h.fresh _ (by rw [hh]; simp)) (Nat.lt_irrefl _)
  have hdn : Spec.data m m.next = none := data_none.2 hnext
  have hlive : ∀ i d, Spec.data m i = some d → i ≠ m.next := by
    rintro i d hd rfl; rw [hdn] at hd; cases hd
  have hfeat : ∀ i, Known m0 i → ∃ f, Spec.data m i = some (.feat f) := by
    intro i hi
    obtain ⟨f, hf⟩ := w.known_data hi
    exact ⟨f, by rw [h.data i hi]; exact hf⟩
  have hkn : ∀ i, Known m0 i → i ≠ m.next := fun i hi => hlive i _ (hfeat i hi).choose_spec
  obtain ⟨t1, t2⟩ := h.todo p hp hD
  have hpne := hkn p hp
  obtain ⟨pf, hpf⟩ := hfeat p hp
  generalize hm1 : ({ m.put m.next { data := .rel k } with next := m.next + 1, rels := m.rels ++ [m.next] } : FModel) = m1
  have e1 : Spec.data m1 = upd (Spec.data m) m.next (some (.rel k)) := by rw [← hm1]; exact data_put ..
  have e2 : par m1 = upd (par m) m.next none := by rw [← hm1]; exact par_put ..
  have e3 : edg m1 = upd (edg m) m.next [] := by rw [← hm1]; exact edg_put ..
  have hd1 : Spec.data m1 p = some (.feat pf) := by rw [e1, upd_ne _ _ hpne, hpf]
  have hc1 : Spec.data m1 m.next = some (.rel k) := by rw [e1]; simp
  obtain ⟨m2, hl, hr⟩ := link_ok hd1 hc1
  have hkids : ∀ c ∈ edg m0 p, Known m0 c := fun c hc => (w.edge_par p c hp hc).1
  have hedp : edg m2 p = edg m0 p ++ [m.next] := by
    rw [hr.edg, upd_same, e3, upd_ne _ _ hpne, t1]
    unfold FModel.insertSet
    rw [if_neg]
    intro hm
    exact hkn _ (hkids _ hm) rfl
  have hedr : edg m2 m.next = [] := by rw [hr.edg, upd_ne _ _ (Ne.symm hpne), e3]; simp
  have hedo : ∀ j, j ≠ p → j ≠ m.next → edg m2 j = edg m j := by
    intro j h1 h2
    rw [hr.edg, upd_ne _ _ h1, e3, upd_ne _ _ h2]
  have hparr : par m2 m.next = some p := by rw [hr.par]; simp
  have hparo : ∀ j, j ≠ m.next → par m2 j = par m j := by
    intro j h1
    rw [hr.par, upd_ne _ _ h1, e2, upd_ne _ _ h1]
  have hdat : Spec.data m2 = upd (Spec.data m) m.next (some (.rel k)) := by rw [hr.data, e1]
  have hdato : ∀ j, j ≠ m.next → Spec.data m2 j = Spec.data m j := fun j hj => by rw [hdat, upd_ne _ _ hj]
  have hdatr : Spec.data m2 m.next = some (.rel k) := by rw [hdat]; simp
  have hn2 : m2.next = m.next + 1 := by rw [hr.rest.next, ← hm1]
  have hch : m2.children E Node.isFeat p = some (E.setOrder (edg m0 p)) := by
    have hdp2 : Spec.data m2 p = some (.feat pf) := by rw [hdato p hpne]; exact hpf
    have : m2.childrenImpl Node.isFeat (m2.next + 1) (-1) p [] = some (edg m0 p) := by
      unfold FModel.childrenImpl
      rw [if_neg (by decide), heap_of_data hdp2]
      simp only
      rw [hedp, List.foldlM_append]
      refine (congrArg (· >>= _) (foldlM_insert (isT := Node.isFeat)
        (rec := fun c fs => m2.childrenImpl Node.isFeat m2.next (-1 - 1) c fs) (edg m0 p) []
          (by rw [List.nil_append]; exact w.edges_nodup p hp) (by
            intro c hc
            obtain ⟨f, hf⟩ := hfeat c (hkids c hc)
            exact ⟨_, heap_of_data (by rw [hdato c (hkn c (hkids c hc))]; exact hf), rfl⟩))).trans ?_
      simp only [List.nil_append, Option.bind_eq_bind, Option.bind_some, List.foldlM_cons, List.foldlM_nil, heap_of_data hdatr, Node.isFeat]
      rw [hn2]
      unfold FModel.childrenImpl
      rw [if_neg (by decide), heap_of_data hdatr, hedr]
      rfl
    unfold FModel.children
    rw [this]; rfl
  have hcs : ∀ c, c ∈ E.setOrder (edg m0 p) ↔ c ∈ edg m0 p := fun c => (E.setOrder_perm _).mem_iff
  obtain ⟨m3, k1, k2⟩ := regroupAll_ok (E := E) hpne (E.setOrder (edg m0 p)) m2 ⟨_, by rw [hdato p hpne]; exact hpf⟩ ⟨_, hdatr⟩
    (by
      rw [hedp, List.nodup_append]
      refine ⟨w.edges_nodup p hp, by simp, ?_⟩
      intro a ha b hb e
      simp at hb
      subst hb e
      exact hkn _ (hkids _ ha) rfl)
    ((E.setOrder_perm _).nodup_iff.2 (w.edges_nodup p hp)) (by
      intro c hc
      rw [hcs] at hc
      have hkc := hkids c hc
      obtain ⟨f, hf⟩ := hfeat c hkc
      refine ⟨⟨_, by rw [hdato c (hkn c hkc)]; exact hf⟩, by rw [hedp]; simp [hc], ?_, by rw [hedr]; simp⟩
      rw [hparo c (hkn c hkc)]; exact t2 c hc)
  have hres : m1.resolve (.ptr (some p)) = some p := rfl
  refine ⟨m3, ?_, ?_⟩
  · unfold FModel.execAddRelationship
    simp only [hm1, hres, hl, hch]
    exact k1
  · have hsome : m1.features = m.features ∧ m1.root = m.root := by rw [← hm1]; exact ⟨rfl, rfl⟩
    refine
      { features := by rw [k2.rest.features, hr.rest.features, hsome.1, h.features]
        root := by rw [k2.rest.root, hr.rest.root, hsome.2, h.root]
        fresh := ?_
        data := ?_
        todo := ?_
        done := ?_ }
    · intro i hi
      rw [k2.rest.next, hn2]
      by_cases hin : i = m.next
      · subst hin; exact Nat.lt_succ_self _
      · have : m.heap i ≠ none := by
          intro hc
          have : Spec.data m3 i = none := by rw [k2.data, hdato i hin]; exact data_none.2 hc
          exact hi (data_none.1 this)
        exact Nat.lt_succ_of_lt (h.fresh i this)
    · intro i hi
      rw [k2.data, hdato i (hkn i hi), h.data i hi]
    · intro i hi hni
      rw [List.mem_cons, not_or] at hni
      obtain ⟨u1, u2⟩ := h.todo i hi hni.2
      refine ⟨by rw [k2.edge i hni.1 (hkn i hi), hedo i hni.1 (hkn i hi), u1], ?_⟩
      intro c hc
      have hkc := (w.edge_par i c hi hc)
      rw [k2.par, if_neg, hparo c (hkn c hkc.1), u2 c hc]
      rw [hcs]
      intro hc'
      have := (w.edge_par p c hp hc').2
      rw [hkc.2] at this
      exact hni.1 (Option.some.inj this)
    · intro i hi hiD
      by_cases hip : i = p
      · subst hip
        refine ⟨m.next, k, by rw [k2.data]; exact hdatr, ?_, ?_⟩
        · rw [k2.par, if_neg, hparr]
          rw [hcs]
          intro hc
          exact hkn _ (hkids _ hc) rfl
        · intro c hc
          rw [k2.par, if_pos ((hcs c).2 hc), k2.edge_b, hedr]
          exact ⟨rfl, by simpa using (hcs c).2 hc⟩
      · have hiD' : i ∈ D := by simpa [hip] using hiD
        obtain ⟨r, k', r1, r2, r3⟩ := h.done i hi hiD'
        have hrne := hlive r _ r1
        have hrp : r ≠ p := by rintro rfl; rw [hpf] at r1; cases r1
        have hrk : r ∉ edg m0 p := by
          intro hc
          obtain ⟨f, hf⟩ := hfeat r (hkids r hc)
          rw [hf] at r1; cases r1
        refine ⟨r, k', by rw [k2.data, hdato r hrne]; exact r1, ?_, ?_⟩
        · rw [k2.par, if_neg (by rw [hcs]; exact hrk), hparo r hrne, r2]
        · intro c hc
          have hkc := w.edge_par i c hi hc
          obtain ⟨v1, v2⟩ := r3 c hc
          refine ⟨?_, by rw [k2.edge r hrp hrne, hedo r hrp hrne]; exact v2⟩
          rw [k2.par, if_neg, hparo c (hkn c hkc.1), v1]
          rw [hcs]
          intro hc'
          have := (w.edge_par p c hp hc').2
          rw [hkc.2] at this
          exact hip (Option.some.inj this)

/-- Relationships below distinct features can be added one after the other. -/
theorem addRelationships_grouping {m0 : FModel} (w : Loose m0) (E : Env) {k : RKind} : ∀ (ps : List Id) (m : FModel) (D : List Id),
    Grouping m0 m D → ps.Nodup → (∀ p ∈ ps, Known m0 p ∧ p ∉ D) →
    ∃ m' D', FModel.outFold (FModel.exec E) m (ps.map fun p => .addRelationship k (.ptr (some p))) = .ok m' ∧ Grouping m0 m' D'
  | [], m, D, h, _, _ => ⟨m, D, rfl, h⟩
  | p :: ps, m, D, h, hn, hp => by
    rw [List.nodup_cons] at hn
    obtain ⟨m1, h1, h2⟩ := addRelationship_grouping w h E (k := k) (hp p (by simp)).1 (hp p (by simp)).2
    obtain ⟨m', D', h3, h4⟩ := addRelationships_grouping w E (k := k) ps m1 (p :: D) h2 hn.2 (by
      intro q hq
      refine ⟨(hp q (by simp [hq])).1, ?_⟩
      rw [List.mem_cons, not_or]
      exact ⟨by rintro rfl; exact hn.1 hq, (hp q (by simp [hq])).2⟩)
    exact ⟨m', D', by rw [List.map_cons, outFold_cons h1]; exact h3, h4⟩

end Verif

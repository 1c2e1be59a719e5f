import Verif.FM.Buildable
import Verif.FM.Traverse
/-!
# Parents in any shape

Models without groups whose features have parents in any shape: there may be cycles, and the root may have a
parent.  Such models pass the consistency check.
-/

namespace Verif
open Verif.Spec

/-- Well-formed but for the shape of the tree; without groups. -/
structure Loose (m : FModel) : Prop where
  names : (m.features.map Prod.fst).Nodup
  feat_ok : ∀ e ∈ m.features, ∃ f, data m e.2 = some (.feat f) ∧ f.attr.name = e.1
  root_ok : ∃ r f, m.root = some r ∧ Known m r ∧ data m r = some (.feat f) ∧ f.attr.kind = .root
  one_root : ∀ i f, Known m i → data m i = some (.feat f) → f.attr.kind = .root → m.root = some i
  rels : m.rels = []
  par_edge : ∀ i p, Known m i → par m i = some p → Known m p ∧ i ∈ edg m p
  edge_par : ∀ i c, Known m i → c ∈ edg m i → Known m c ∧ par m c = some i
  edges_nodup : ∀ i, Known m i → (edg m i).Nodup
  orphan : ∀ i, Known m i → par m i = none → m.root = some i
  fresh : ∀ i, m.heap i ≠ none → i < m.next

namespace Loose
variable {m : FModel}

theorem named (w : Loose m) : Named m := ⟨w.names, w.feat_ok⟩

theorem known_data (w : Loose m) {i : Id} (h : Known m i) : IsFeat m i := w.named.known_data h

theorem lt (w : Loose m) {i : Id} (h : Known m i) : i < m.next := by
  obtain ⟨f, hf⟩ := w.known_data h
  exact w.fresh i (by rw [heap_of_data hf]; simp)

theorem entry_unique (w : Loose m) {n : Str} {i j : Id} (h : (n, i) ∈ m.features) (h' : (n, j) ∈ m.features) : i = j := by
  have h1 := getFeature_mem w.names h
  have h2 := getFeature_mem w.names h'
  rw [h1] at h2; exact Option.some.inj h2

theorem owned (w : Loose m) {i : Id} : Owned m i ↔ Known m i := by
  unfold Owned; rw [w.rels]; simp

end Loose

theorem loose_of_WF {m : FModel} (w : WF m) (hr : m.rels = []) : Loose m where
  names := w.names
  feat_ok := w.feat_ok
  root_ok := w.checked.root_ok
  one_root := w.one_root
  rels := hr
  par_edge := fun i p hi hp => ⟨flat_known hr (w.par_edge i p (.inl hi) hp).1, (w.par_edge i p (.inl hi) hp).2⟩
  edge_par := fun i c hi hc => ⟨flat_known hr (w.edge_par i c (.inl hi) hc).1, (w.edge_par i c (.inl hi) hc).2⟩
  edges_nodup := fun i hi => w.edges_nodup i (.inl hi)
  orphan := fun i hi => w.orphan i (.inl hi)
  fresh := w.fresh

theorem loose_of_sameTree {m m' : FModel} (w : Loose m) (h : SameTree m m') : Loose m' := by
  have hk : ∀ i, Known m' i ↔ Known m i := by intro i; unfold Known; rw [h.features]
  have hn := named_of_sameTree w.named h
  refine
    { names := hn.names
      feat_ok := hn.feat_ok
      root_ok := ?_
      one_root := ?_
      rels := by rw [h.rels]; exact w.rels
      par_edge := fun i p hi hp => by
        rw [h.par] at hp; rw [hk, h.edg]; exact w.par_edge i p ((hk i).1 hi) hp
      edge_par := fun i c hi hc => by
        rw [h.edg] at hc; rw [hk, h.par]; exact w.edge_par i c ((hk i).1 hi) hc
      edges_nodup := fun i hi => by rw [h.edg]; exact w.edges_nodup i ((hk i).1 hi)
      orphan := fun i hi hp => by rw [h.par] at hp; rw [h.root]; exact w.orphan i ((hk i).1 hi) hp
      fresh := ?_ }
  · obtain ⟨r, f, h1, h2, h3, h4⟩ := w.root_ok
    have hd := h.data r
    rw [h3] at hd
    obtain ⟨g, hg, _, e2⟩ := hd.feat_right
    exact ⟨r, g, by rw [h.root]; exact h1, (hk r).2 h2, hg, by rw [← e2]; exact h4⟩
  · intro i f hi hf hr
    obtain ⟨g, hg⟩ := w.known_data ((hk i).1 hi)
    have hd := h.data i
    rw [hg, hf] at hd
    rw [h.root]
    exact w.one_root i g ((hk i).1 hi) hg (by rw [hd.2]; exact hr)
  · intro i hi
    rw [h.next]
    refine w.fresh i ?_
    intro hn
    have hd := h.data i
    rw [data_none.2 hn] at hd
    cases hx : data m' i with
    | none => exact hi (data_none.1 hx)
    | some x => rw [hx] at hd; cases hd

/-! ### The consistency check -/

theorem parentFeature_loose {m : FModel} (w : Loose m) {i : Id} (hi : Known m i) : m.parentFeature i = some (par m i) := by
  obtain ⟨f, hf⟩ := w.known_data hi
  unfold FModel.parentFeature FModel.parentFeatureFuel
  rw [heap_of_data hf]
  cases hp : par m i with
  | none => rfl
  | some p =>
    obtain ⟨g, hg⟩ := w.known_data (w.par_edge i p hi hp).1
    simp only [heap_of_data hg]
    rfl

theorem checked_of_loose {m : FModel} (w : Loose m) : Checked m where
  names := w.names
  feat_ok := w.feat_ok
  root_ok := w.root_ok
  one_root := w.one_root
  link := by
    intro i hi hne
    rw [parentFeature_loose w hi]
    cases hp : par m i with
    | none => exact absurd (w.orphan i hi hp) hne
    | some p =>
      obtain ⟨h1, h2⟩ := w.par_edge i p hi hp
      obtain ⟨g, hg⟩ := w.known_data h1
      exact ⟨⟨p, rfl⟩, p, _, rfl, hg, h2⟩

theorem commitOps_loose {E : Env} {m m' : FModel} {ops : List Op} (h : FModel.outFold (FModel.exec E) m ops = .ok m')
    (w : Checked m') : m.commitOps E ops = .ok m' := by
  simp only [FModel.commitOps, h, consistent_of_checked w]

/-! ### Edges -/

theorem addChild_loose {m : FModel} (w : Loose m) {pr cr : Ref} {p c : Id} (hpr : m.resolve pr = some p)
    (hcr : m.resolve cr = some c) (hp : Known m p) (hc : Known m c) (hne : c ≠ p) :
    ∃ m', m.execAddChild pr cr = .ok m' ∧ Moved m m' p c := by
  obtain ⟨dp, hdp⟩ := w.known_data hp
  obtain ⟨dc, hdc⟩ := w.known_data hc
  cases hq : par m c with
  | some q =>
    obtain ⟨hoq, hcq⟩ := w.par_edge c q hc hq
    obtain ⟨dq, hdq⟩ := w.known_data hoq
    obtain ⟨m1, h1, r1⟩ := removeEdge_ok (c := c) hdq
    have hdp1 : data m1 p = some (.feat dp) := by rw [r1.data, hdp]
    obtain ⟨m2, h2, r2⟩ := addEdge_ok (c := c) hdp1
    have hdc2 : data m2 c = some (.feat dc) := by rw [r2.data, r1.data, hdc]
    obtain ⟨m3, h3, r3⟩ := setParent_ok (p := some p) hdc2
    have hothers : ∀ j, Known m j → j ≠ q → (edg m j).erase c = edg m j := by
      intro j hj hjq
      apply List.erase_of_not_mem
      intro hm
      have := (w.edge_par j c hj hm).2
      rw [hq] at this
      exact hjq (Option.some.inj this).symm
    have hedge : edg m3 = upd (upd (edg m) q ((edg m q).erase c)) p
        (FModel.insertSet (upd (edg m) q ((edg m q).erase c) p) c) := by
      rw [r3.edg, r2.edg, r1.edg]
    have hq1 : ∀ j, Known m j → upd (edg m) q ((edg m q).erase c) j = (edg m j).erase c := by
      intro j hj
      by_cases hjq : j = q
      · subst hjq; simp
      · rw [upd_ne _ _ hjq, hothers j hj hjq]
    refine ⟨m3, ?_, ?_⟩
    · simp [FModel.execAddChild, hcr, hpr, hne, heap_of_data hdc, hq, h1, h2, h3, FModel.outOf]
    · refine ⟨r1.rest.trans (r2.rest.trans r3.rest), by rw [r3.data, r2.data, r1.data], ?_, ?_, ?_, ?_⟩
      · rw [r3.par, r2.par, r1.par]
      · intro j hj hjp
        rw [hedge, upd_ne _ _ hjp, hq1 j (w.owned.1 hj)]
      · rw [hedge, upd_same, hq1 p hp, insertSet_erase (w.edges_nodup p hp)]
      · intro j hj
        have h1 : j ≠ p := fun h => hj (h ▸ .inl hp)
        have h2 : j ≠ q := fun h => hj (h ▸ .inl hoq)
        rw [hedge, upd_ne _ _ h1, upd_ne _ _ h2]
  | none =>
    obtain ⟨m2, h2, r2⟩ := addEdge_ok (c := c) hdp
    have hdc2 : data m2 c = some (.feat dc) := by rw [r2.data, hdc]
    obtain ⟨m3, h3, r3⟩ := setParent_ok (p := some p) hdc2
    have hothers : ∀ j, Known m j → (edg m j).erase c = edg m j := by
      intro j hj
      apply List.erase_of_not_mem
      intro hm
      have := (w.edge_par j c hj hm).2
      rw [hq] at this; cases this
    have hedge : edg m3 = upd (edg m) p (FModel.insertSet (edg m p) c) := by rw [r3.edg, r2.edg]
    refine ⟨m3, ?_, ?_⟩
    · simp [FModel.execAddChild, hcr, hpr, hne, heap_of_data hdc, hq, h2, h3, FModel.outOf]
    · refine ⟨r2.rest.trans r3.rest, by rw [r3.data, r2.data], by rw [r3.par, r2.par], ?_, ?_, ?_⟩
      · intro j hj hjp
        rw [hedge, upd_ne _ _ hjp, hothers j (w.owned.1 hj)]
      · rw [hedge, upd_same]
        have := insertSet_erase (w.edges_nodup p hp) c
        rw [hothers p hp] at this ⊢
        exact this
      · intro j hj
        have h1 : j ≠ p := fun h => hj (h ▸ .inl hp)
        rw [hedge, upd_ne _ _ h1]

theorem loose_of_moved {m m' : FModel} {p c : Id} (w : Loose m) (h : Moved m m' p c) (hp : Known m p) (hc : Known m c) : Loose m' := by
  have hk : ∀ i, Known m' i ↔ Known m i := by intro i; unfold Known; rw [h.rest.features]
  have hpa : ∀ x, x ≠ c → par m' x = par m x := fun x hx => by rw [h.par, upd_ne _ _ hx]
  have hpc : par m' c = some p := by rw [h.par]; simp
  have hmem : ∀ j, Known m j → ∀ x, x ∈ edg m' j ↔ (x ∈ edg m j ∧ x ≠ c) ∨ (j = p ∧ x = c) := by
    intro j hj x
    by_cases hjp : j = p
    · subst hjp
      rw [h.edge_new]
      rw [List.mem_append, List.mem_singleton, (w.edges_nodup j hj).mem_erase_iff]
      constructor
      · rintro (⟨h1, h2⟩ | h1)
        · exact .inl ⟨h2, h1⟩
        · exact .inr ⟨rfl, h1⟩
      · rintro (⟨h1, h2⟩ | ⟨_, h1⟩)
        · exact .inl ⟨h2, h1⟩
        · exact .inr h1
    · rw [h.edge j (.inl hj) hjp, (w.edges_nodup j hj).mem_erase_iff]
      simp [hjp, and_comm]
  refine
    { names := by rw [h.rest.features]; exact w.names
      feat_ok := by intro e he; rw [h.rest.features] at he; rw [h.data]; exact w.feat_ok e he
      root_ok := ?_
      one_root := by intro i f hi hf; rw [h.data] at hf; rw [h.rest.root]; exact w.one_root i f ((hk i).1 hi) hf
      rels := by rw [h.rest.rels]; exact w.rels
      par_edge := ?_
      edge_par := ?_
      edges_nodup := ?_
      orphan := ?_
      fresh := ?_ }
  · obtain ⟨r, f, h1, h2, h3, h4⟩ := w.root_ok
    exact ⟨r, f, by rw [h.rest.root]; exact h1, (hk r).2 h2, by rw [h.data]; exact h3, h4⟩
  · intro i q hi hq
    rw [hk] at hi ⊢
    by_cases hic : i = c
    · subst hic
      rw [hpc] at hq; cases hq
      exact ⟨hp, (hmem p hp i).2 (.inr ⟨rfl, rfl⟩)⟩
    · rw [hpa i hic] at hq
      obtain ⟨h1, h2⟩ := w.par_edge i q hi hq
      exact ⟨h1, (hmem q h1 i).2 (.inl ⟨h2, hic⟩)⟩
  · intro i x hi hx
    rw [hk] at hi ⊢
    rcases (hmem i hi x).1 hx with ⟨h1, h2⟩ | ⟨rfl, rfl⟩
    · obtain ⟨h3, h4⟩ := w.edge_par i x hi h1
      exact ⟨h3, by rw [hpa x h2]; exact h4⟩
    · exact ⟨hc, hpc⟩
  · intro i hi
    rw [hk] at hi
    by_cases hip : i = p
    · subst hip
      rw [h.edge_new, List.nodup_append]
      refine ⟨(w.edges_nodup i hi).erase c, by simp, ?_⟩
      intro a ha b hb e
      simp at hb
      subst hb e
      exact ((w.edges_nodup i hi).mem_erase_iff.1 ha).1 rfl
    · rw [h.edge i (.inl hi) hip]
      exact (w.edges_nodup i hi).erase c
  · intro i hi hp'
    rw [hk] at hi
    by_cases hic : i = c
    · subst hic; rw [hpc] at hp'; cases hp'
    · rw [hpa i hic] at hp'
      rw [h.rest.root]; exact w.orphan i hi hp'
  · intro i hi
    rw [h.rest.next]
    refine w.fresh i ?_
    intro hn
    exact hi (data_none.1 (by rw [h.data]; exact data_none.2 hn))

/-! ### Children and iteration -/

theorem children_loose {m : FModel} (w : Loose m) (E : Env) {i : Id} (hi : Known m i) :
    m.children E Node.isFeat i = some (E.setOrder (edg m i)) := by
  obtain ⟨f, hf⟩ := w.known_data hi
  refine children_direct E hf (w.edges_nodup i hi) ?_
  intro c hc
  obtain ⟨g, hg⟩ := w.known_data (w.edge_par i c hi hc).1
  exact ⟨_, heap_of_data hg, rfl⟩

theorem sortedChildren_loose {m : FModel} (w : Loose m) (E : Env) {i : Id} (hi : Known m i) :
    ∃ cs, m.sortedChildren E i = some cs ∧ cs.Perm (edg m i) := by
  obtain ⟨r, g1, g2, _⟩ := insertAll_sorted (lt := fun a b => strLt (m.low b) (m.low a)) (fun _ => True)
    (fun a b c _ _ _ h h' => by
      cases hh : strLt (m.low c) (m.low a) with
      | true => rfl
      | false => have := strLe_trans (a := m.low a) hh h'; rw [h] at this; cases this)
    (fun a b _ _ h => strLt_asymm h) (E.setOrder (edg m i)) [] (fun _ _ => trivial) (fun _ _ => trivial) .nil
  rw [List.append_nil] at g2
  exact ⟨r, by simp only [FModel.sortedChildren, children_loose w E hi]; exact g1, g2.trans (E.setOrder_perm _)⟩

theorem collect_loose {m : FModel} (w : Loose m) (E : Env) {r : Id} {stop : FModel.DFS}
    (hs : stop.frontier = [] ∨ ∃ a, stop.frontier = [a] ∧ Known m a ∧ Below m r a) :
    ∀ (fuel : Nat) (F V : List Id), m.next - V.length < fuel → (F ++ V).Nodup → (∀ x ∈ F ++ V, Known m x) →
      (∀ c ∈ F, c ≠ r → ∃ v ∈ V, par m c = some v) → (V = [] ∧ F = [r] ∨ r ∈ V) →
      (∀ v ∈ V, ∀ c ∈ edg m v, c ∈ F ++ V) → (∀ a, stop.frontier = [a] → a ∉ V) →
      ∃ l, m.collect E stop fuel ⟨F, V⟩ = some l ∧ l.Nodup ∧ ∀ x ∈ l, Known m x ∧ x ∉ V := by
  intro fuel
  induction fuel with
  | zero => intro F V h; omega
  | succ fuel ih =>
    intro F V hfuel hnd hkn hpar hrV hcl hst
    unfold FModel.collect
    by_cases heq : FModel.DFS.eq m ⟨F, V⟩ stop = true
    · rw [if_pos heq]; exact ⟨[], rfl, .nil, by simp⟩
    rw [if_neg heq]
    cases F with
    | nil =>
      exfalso
      rcases hs with hs | ⟨a, hs, hka, hb⟩
      · exact heq (by simp [FModel.DFS.eq, hs])
      · have hr : r ∈ V := by
          rcases hrV with ⟨_, h⟩ | h
          · cases h
          · exact h
        have key : ∀ x, Below m r x → Known m x → x ∈ V := by
          intro x hb
          induction hb with
          | refl => exact fun _ => hr
          | @step i p h1 _ ih =>
            intro hk
            obtain ⟨k1, k2⟩ := w.par_edge i p hk h1
            have := hcl p (ih k1) i k2
            simpa using this
        exact hst a hs (key a hb hka)
    | cons f rest =>
      have hkf := hkn f (by simp)
      obtain ⟨cs, c1, c2⟩ := sortedChildren_loose w E hkf
      have hnd' := hnd
      rw [List.cons_append, List.nodup_cons, List.mem_append, not_or] at hnd'
      obtain ⟨⟨hfr, hfV⟩, hndr⟩ := hnd'
      have hcs : ∀ c ∈ cs, Known m c ∧ par m c = some f := fun c hc => w.edge_par f c hkf (c2.mem_iff.1 hc)
      have hdis : ∀ c ∈ cs, c ∉ rest := by
        intro c hc hcr
        by_cases hcr' : c = r
        · rcases hrV with ⟨_, h⟩ | h
          · cases h; cases hcr
          · subst hcr'
            exact (List.nodup_append.1 hndr).2.2 c hcr c h rfl
        · obtain ⟨v, v1, v2⟩ := hpar c (by simp [hcr]) hcr'
          rw [(hcs c hc).2] at v2; cases v2
          exact hfV v1
      have hstep : FModel.DFS.next m E ⟨f :: rest, V⟩ =
          some ⟨(cs.filter (fun c => !(c ∈ f :: V : Bool))).reverse ++ rest, f :: V⟩ := by
        simp only [FModel.DFS.next, c1]
      have hmem : ∀ c, c ∈ (cs.filter (fun c => !(c ∈ f :: V : Bool))).reverse ↔ c ∈ cs ∧ c ∉ f :: V := by
        intro c
        rw [List.mem_reverse, List.mem_filter]
        simp
      have hlen : (f :: V).length ≤ m.next := by
        have hs : f :: V ⊆ List.range m.next := by
          intro x hx
          rw [List.mem_range]
          refine w.lt (hkn x ?_)
          rcases List.mem_cons.1 hx with rfl | hx
          · simp
          · simp [hx]
        have : (f :: V).Nodup := List.nodup_cons.2 ⟨hfV, (List.nodup_append.1 hndr).2.1⟩
        have := this.length_le_of_subset hs
        rwa [List.length_range] at this
      rw [List.length_cons] at hlen
      obtain ⟨l, l1, l2, l3⟩ := ih ((cs.filter (fun c => !(c ∈ f :: V : Bool))).reverse ++ rest) (f :: V)
        (by rw [List.length_cons]; omega)
        (by
          rw [List.append_assoc, List.nodup_append]
          refine ⟨?_, ?_, ?_⟩
          · rw [(List.reverse_perm _).nodup_iff]
            exact (c2.nodup_iff.2 (w.edges_nodup f hkf)).filter _
          · rw [List.nodup_append]
            obtain ⟨a1, a2, a3⟩ := List.nodup_append.1 hndr
            refine ⟨a1, List.nodup_cons.2 ⟨hfV, a2⟩, ?_⟩
            intro x hx y hy e
            subst e
            rcases List.mem_cons.1 hy with rfl | hy
            · exact hfr hx
            · exact a3 x hx x hy rfl
          · intro x hx y hy e
            subst e
            obtain ⟨x1, x2⟩ := (hmem x).1 hx
            rcases List.mem_append.1 hy with hy | hy
            · exact hdis x x1 hy
            · exact x2 hy)
        (by
          intro x hx
          rcases List.mem_append.1 hx with hx | hx
          · rcases List.mem_append.1 hx with hx | hx
            · exact (hcs x ((hmem x).1 hx).1).1
            · exact hkn x (by simp [hx])
          · rcases List.mem_cons.1 hx with rfl | hx
            · exact hkf
            · exact hkn x (by simp [hx]))
        (by
          intro c hc hcr
          rcases List.mem_append.1 hc with hc | hc
          · exact ⟨f, by simp, (hcs c ((hmem c).1 hc).1).2⟩
          · obtain ⟨v, v1, v2⟩ := hpar c (by simp [hc]) hcr
            exact ⟨v, by simp [v1], v2⟩)
        (by
          right
          rcases hrV with ⟨_, h⟩ | h
          · cases h; simp
          · simp [h])
        (by
          intro v hv c hc
          rcases List.mem_cons.1 hv with rfl | hv
          · by_cases hcv : c ∈ v :: V
            · simp only [List.mem_append]; exact .inr hcv
            · simp only [List.mem_append]; exact .inl (.inl ((hmem c).2 ⟨c2.mem_iff.2 hc, hcv⟩))
          · have := hcl v hv c hc
            simp only [List.mem_append, List.mem_cons] at this ⊢
            rcases this with (h | h) | h
            · exact .inr (.inl h)
            · exact .inl (.inr h)
            · exact .inr (.inr h))
        (by
          intro a ha
          rw [List.mem_cons, not_or]
          refine ⟨?_, hst a ha⟩
          rintro rfl
          exact heq (by simp [FModel.DFS.eq, ha]))
      refine ⟨f :: l, ?_, ?_, ?_⟩
      · simp only [hstep, l1, Option.map_some]
      · exact List.nodup_cons.2 ⟨fun h => (l3 f h).2 (by simp), l2⟩
      · intro x hx
        rcases List.mem_cons.1 hx with rfl | hx
        · exact ⟨hkf, hfV⟩
        · exact ⟨(l3 x hx).1, fun h => (l3 x hx).2 (by simp [h])⟩

/-- Iteration ends if the root has no parent, or one that is below it. -/
theorem iterate_loose {m : FModel} (w : Loose m) (E : Env) {r : Id} (hr : m.root = some r)
    (ht : ∀ a, par m r = some a → Below m r a) : ∃ is, m.iterate E = some is ∧ is.Nodup ∧ ∀ i ∈ is, Known m i := by
  have hkr : Known m r := by
    obtain ⟨r', _, h1, h2, _⟩ := w.root_ok
    rw [hr] at h1; cases h1; exact h2
  have he : m.end? = some (.mk' (par m r)) := by
    unfold FModel.end?
    rw [hr]
    simp only [parentFeature_loose w hkr, Option.map_some]
  obtain ⟨l, l1, l2, l3⟩ := collect_loose w E (r := r) (stop := .mk' (par m r)) (by
      cases hp : par m r with
      | none => exact .inl rfl
      | some a => exact .inr ⟨a, rfl, (w.par_edge r a hkr hp).1, ht a hp⟩)
    (m.next + 1) [r] [] (by simp) (by simp) (by simpa using hkr) (by simp) (.inl ⟨rfl, rfl⟩) (by simp) (by simp)
  refine ⟨l, ?_, l2, fun i hi => (l3 i hi).1⟩
  unfold FModel.iterate
  rw [he]
  simp only [FModel.begin, hr]
  exact l1

end Verif

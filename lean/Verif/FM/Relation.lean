import Verif.FM.Remove
/-! Lemmas: adding and removing relationships. -/

namespace Verif
open Verif.Spec

/-! ### Moving children from one node to another -/

theorem regroup_ok {m : FModel} {E : Env} {a b c : Id} {da db dc : NodeData} (ha : data m a = some da)
    (hb : data m b = some db) (hc : data m c = some dc) (hca : c ∈ edg m a) (hpc : par m c = some a) (hab : a ≠ b) :
    ∃ m', FModel.regroup E a b m c = some m' ∧
      Relinked m m' (upd (par m) c (some b)) (upd (upd (edg m) a ((edg m a).erase c)) b (FModel.insertSet (edg m b) c)) := by
  obtain ⟨m1, h1, r1⟩ := removeEdge_ok (c := c) ha
  obtain ⟨m2, h2, r2⟩ := addEdge_ok (c := c) (by rw [r1.data]; exact hb : data m1 b = some db)
  obtain ⟨m3, h3, r3⟩ := setParent_ok (p := some b) (by rw [r2.data, r1.data]; exact hc : data m2 c = some dc)
  refine ⟨m3, ?_, r1.rest.trans (r2.rest.trans r3.rest), by rw [r3.data, r2.data, r1.data], ?_, ?_⟩
  · unfold FModel.regroup
    rw [heap_of_data ha, heap_of_data hc]
    simp [hca, hpc, h1, h2, h3]
  · rw [r3.par, r2.par, r1.par]
  · rw [r3.edg, r2.edg, r1.edg, upd_ne _ _ (Ne.symm hab)]

/-- The effect of moving the children `cs` from `a` to `b`. -/
structure MovedAll (m m' : FModel) (a b : Id) (cs : List Id) : Prop where
  rest : SameMeta m m'
  data : data m' = data m
  par : ∀ j, par m' j = if j ∈ cs then some b else par m j
  edge_a : edg m' a = (edg m a).filter (fun c => decide (c ∉ cs))
  edge_b : edg m' b = edg m b ++ cs
  edge : ∀ j, j ≠ a → j ≠ b → edg m' j = edg m j

theorem regroupAll_ok {E : Env} {a b : Id} (hab : a ≠ b) (cs : List Id) :
    ∀ m : FModel, (∃ d, data m a = some d) → (∃ d, data m b = some d) → (edg m a).Nodup → cs.Nodup →
      (∀ c ∈ cs, (∃ d, data m c = some d) ∧ c ∈ edg m a ∧ par m c = some a ∧ c ∉ edg m b) →
      ∃ m', FModel.outFold (fun m c => FModel.outOf (FModel.regroup E a b m c)) m cs = .ok m' ∧
        MovedAll m m' a b cs := by
  induction cs with
  | nil =>
    intro m _ _ _ _ _
    refine ⟨m, rfl, .refl m, rfl, by simp, ?_, by simp, fun _ _ _ => rfl⟩
    exact (List.filter_eq_self.2 (by simp)).symm
  | cons c cs ih =>
    intro m ha hb hn hcn hall
    obtain ⟨da, hda⟩ := ha
    obtain ⟨db, hdb⟩ := hb
    rw [List.nodup_cons] at hcn
    obtain ⟨⟨dc, hdc⟩, h2, h3, h4⟩ := hall c (List.mem_cons_self ..)
    obtain ⟨m1, g1, r1⟩ := regroup_ok (E := E) hda hdb hdc h2 h3 hab
    have ea : edg m1 a = (edg m a).erase c := by rw [r1.edg, upd_ne _ _ hab, upd_same]
    have eb : edg m1 b = edg m b ++ [c] := by
      rw [r1.edg, upd_same]
      unfold FModel.insertSet
      rw [if_neg h4]
    have eo : ∀ j, j ≠ a → j ≠ b → edg m1 j = edg m j := by
      intro j h1 h2
      rw [r1.edg, upd_ne _ _ h2, upd_ne _ _ h1]
    obtain ⟨m2, k1, k2⟩ := ih m1 ⟨da, by rw [r1.data]; exact hda⟩ ⟨db, by rw [r1.data]; exact hdb⟩
      (by rw [ea]; exact hn.erase c) hcn.2 (by
        intro x hx
        obtain ⟨⟨d, hd⟩, a2, a3, a4⟩ := hall x (List.mem_cons_of_mem _ hx)
        have hxc : x ≠ c := by rintro rfl; exact hcn.1 hx
        refine ⟨⟨d, by rw [r1.data]; exact hd⟩, ?_, ?_, ?_⟩
        · rw [ea, hn.mem_erase_iff]; exact ⟨hxc, a2⟩
        · rw [r1.par, upd_ne _ _ hxc]; exact a3
        · rw [eb]; simp [a4, hxc])
    refine ⟨m2, ?_, r1.rest.trans k2.rest, by rw [k2.data, r1.data], ?_, ?_, ?_, ?_⟩
    · rw [outFold_cons (m1 := m1) (by rw [g1]; rfl)]; exact k1
    · intro j
      rw [k2.par, r1.par]
      by_cases hj : j = c
      · subst hj
        simp
      · rw [upd_ne _ _ hj]
        simp [hj]
    · rw [k2.edge_a, ea, hn.erase_eq_filter, List.filter_filter]
      apply List.filter_congr
      intro x _
      by_cases hx : x = c
      · simp [hx]
      · simp [hx]
    · rw [k2.edge_b, eb]; simp
    · intro j h1 h2
      rw [k2.edge j h1 h2, eo j h1 h2]

/-! ### A new empty relationship -/

structure AddedRel (m m' : FModel) (r : Id) (k : RKind) (p : Id) : Prop where
  new : m.heap r = none
  data : data m' = upd (data m) r (some (.rel k))
  par : par m' = upd (par m) r (some p)
  edg : edg m' = upd (edg m) p (edg m p ++ [r])
  features : m'.features = m.features
  rels : m'.rels = m.rels ++ [r]
  root : m'.root = m.root
  name : m'.name = m.name
  path : m'.path = m.path
  commit : m'.commit = m.commit
  booleans : m'.booleans = m.booleans
  nonBooleans : m'.nonBooleans = m.nonBooleans
  mixeds : m'.mixeds = m.mixeds
  next : m'.next = m.next + 1
  addr : r = m.next

theorem addRel_link {m : FModel} (w : WF m) {k : RKind} {p : Id} (hp : Owned m p) :
    ∃ m', ({ m.put m.next { data := .rel k } with next := m.next + 1, rels := m.rels ++ [m.next] } : FModel).link
        p m.next = some m' ∧ AddedRel m m' m.next k p := by
  have hfree := w.next_none
  have hne : p ≠ m.next := fun h => w.not_owned_next (h ▸ hp)
  obtain ⟨d, hd⟩ := w.owned_data hp
  generalize hm1 : ({ m.put m.next { data := .rel k } with next := m.next + 1, rels := m.rels ++ [m.next] } : FModel) = m1
  have e1 : data m1 = data (m.put m.next { data := .rel k }) := by rw [← hm1]; rfl
  have e2 : par m1 = par (m.put m.next { data := .rel k }) := by rw [← hm1]; rfl
  have e3 : edg m1 = edg (m.put m.next { data := .rel k }) := by rw [← hm1]; rfl
  rw [data_put] at e1; rw [par_put] at e2; rw [edg_put] at e3
  simp only at e1 e2 e3
  have hedge : upd (edg m) m.next [] = edg m := by
    rw [← edg_none hfree]; exact upd_self ..
  rw [hedge] at e3
  have hd1 : data m1 p = some d := by rw [e1, upd_ne _ _ hne, hd]
  have hc1 : data m1 m.next = some (.rel k) := by rw [e1]; simp
  obtain ⟨m', hl, hr⟩ := link_ok hd1 hc1
  refine ⟨m', hl, ?_⟩
  have hni : FModel.insertSet (edg m1 p) m.next = edg m p ++ [m.next] := by
    rw [e3]
    unfold FModel.insertSet
    rw [if_neg]
    intro hmem
    exact w.not_owned_next (w.edge_par p m.next hp hmem).1
  have hpp : upd (upd (par m) m.next none) m.next (some p) = upd (par m) m.next (some p) := by
    funext j; simp only [upd]; split <;> rfl
  have hmm := hr.rest
  exact
    { new := hfree
      data := by rw [hr.data, e1]
      par := by rw [hr.par, e2, hpp]
      edg := by rw [hr.edg, hni, e3]
      features := by rw [hmm.features, ← hm1]; rfl
      rels := by rw [hmm.rels, ← hm1]
      root := by rw [hmm.root, ← hm1]; rfl
      name := by rw [hmm.name, ← hm1]; rfl
      path := by rw [hmm.path, ← hm1]; rfl
      commit := by rw [hmm.commit, ← hm1]; rfl
      booleans := by rw [hmm.booleans, ← hm1]; rfl
      nonBooleans := by rw [hmm.nonBooleans, ← hm1]; rfl
      mixeds := by rw [hmm.mixeds, ← hm1]; rfl
      next := by rw [hmm.next, ← hm1]
      addr := rfl }

theorem AddedRel.known {m m' : FModel} {i p : Id} {k : RKind} (h : AddedRel m m' i k p) (x : Id) :
    Known m' x ↔ Known m x := by
  unfold Known
  rw [h.features]

theorem AddedRel.owned {m m' : FModel} {i p : Id} {k : RKind} (h : AddedRel m m' i k p) (x : Id) :
    Owned m' x ↔ Owned m x ∨ x = i := by
  unfold Owned
  rw [h.known, h.rels, List.mem_append, List.mem_singleton, or_assoc]

theorem wf_of_addedRel {m m' : FModel} {i p : Id} {k : RKind} (w : WF m) (h : AddedRel m m' i k p)
    (hp : Owned m p) : WF m' := by
  obtain ⟨r, rf, hr, hrk, hrd, hrr, hrp⟩ := w.root_ok
  have hfree : ∀ x, Owned m x → x ≠ i := by
    rintro x ho rfl
    obtain ⟨d, hd⟩ := w.owned_data ho
    have := h.new
    rw [heap_of_data hd] at this
    cases this
  have hri := hfree r (.inl hrk)
  have hpi := hfree p hp
  have hpar : ∀ x q, Owned m' x → par m' x = some q →
      (Owned m x ∧ par m x = some q) ∨ (x = i ∧ q = p) := by
    intro x q ho hq
    rw [h.par] at hq
    rw [h.owned] at ho
    by_cases hx : x = i
    · subst hx; simp at hq; exact .inr ⟨rfl, hq.symm⟩
    · rw [upd_ne _ _ hx] at hq
      rcases ho with ho | ho
      · exact .inl ⟨ho, hq⟩
      · exact absurd ho hx
  have hedg : ∀ x c, c ∈ edg m' x ↔ c ∈ edg m x ∨ (x = p ∧ c = i) := by
    intro x c
    rw [h.edg]
    by_cases hx : x = p
    · subst hx; simp
    · rw [upd_ne _ _ hx]; simp [hx]
  have hor : ∀ x, Owned m' x → par m' x = none → m'.root = some x := by
    intro x ho hq
    rw [h.owned] at ho
    rw [h.par] at hq
    by_cases hx : x = i
    · subst hx; simp at hq
    · rw [upd_ne _ _ hx] at hq
      rcases ho with ho | ho
      · rw [h.root]; exact w.orphan x ho hq
      · exact absurd ho hx
  refine
    { root_ok := ⟨r, rf, by rw [h.root]; exact hr, (h.known r).2 hrk, ?_, hrr, ?_⟩
      names := by rw [h.features]; exact w.names
      feat_ok := ?_
      rels_nodup := ?_
      rel_ok := ?_
      par_edge := ?_
      edge_par := ?_
      edges_nodup := ?_
      orphan := hor
      one_root := ?_
      reach := reach_of_rank (fun x => if x = i then lvlOf m p + 1 else lvlOf m x) ?_ hor
      fresh := ?_ }
  · rw [h.data, upd_ne _ _ hri]; exact hrd
  · rw [h.par, upd_ne _ _ hri]; exact hrp
  · intro e he
    rw [h.features] at he
    rw [h.data]
    have : e.2 ≠ i := hfree e.2 (.inl (List.mem_map_of_mem he))
    rw [upd_ne _ _ this]
    exact w.feat_ok e he
  · rw [h.rels, List.nodup_append]
    refine ⟨w.rels_nodup, by simp, ?_⟩
    intro x hx y hy e
    simp at hy
    subst hy e
    exact hfree _ (.inr hx) rfl
  · intro x hx
    rw [h.rels] at hx
    rcases List.mem_append.1 hx with hx | hx
    · obtain ⟨k, hk⟩ := w.rel_ok x hx
      exact ⟨k, by rw [h.data, upd_ne _ _ (hfree x (.inr hx))]; exact hk⟩
    · simp at hx; subst hx
      exact ⟨k, by rw [h.data]; simp⟩
  · intro x q ho hq
    rcases hpar x q ho hq with ⟨h1, h2⟩ | ⟨rfl, rfl⟩
    · obtain ⟨h3, h4⟩ := w.par_edge x q h1 h2
      exact ⟨(h.owned q).2 (.inl h3), (hedg q x).2 (.inl h4)⟩
    · exact ⟨(h.owned _).2 (.inl hp), (hedg _ _).2 (.inr ⟨rfl, rfl⟩)⟩
  · intro x c ho hc
    rw [h.owned] at ho
    rw [h.owned, h.par]
    rcases (hedg x c).1 hc with hc | ⟨rfl, rfl⟩
    · rcases ho with ho | rfl
      · obtain ⟨h3, h4⟩ := w.edge_par x c ho hc
        exact ⟨.inl h3, by rw [upd_ne _ _ (hfree c h3)]; exact h4⟩
      · rw [edg_none h.new] at hc; cases hc
    · exact ⟨.inr rfl, by simp⟩
  · intro x ho
    rw [h.owned] at ho
    rw [h.edg]
    by_cases hx : x = p
    · subst hx
      simp only [upd_same]
      rw [List.nodup_append]
      refine ⟨w.edges_nodup x hp, by simp, ?_⟩
      intro c hc c' hc' e
      simp at hc'
      subst hc' e
      exact hfree _ (w.edge_par x _ hp hc).1 rfl
    · rw [upd_ne _ _ hx]
      rcases ho with ho | rfl
      · exact w.edges_nodup x ho
      · rw [edg_none h.new]; simp
  · intro x f hkx hd hroot
    rw [h.known] at hkx
    rw [h.data, upd_ne _ _ (hfree x (.inl hkx))] at hd
    rw [h.root]; exact w.one_root x f hkx hd hroot
  · intro x q ho hq
    rcases hpar x q ho hq with ⟨h1, h2⟩ | ⟨rfl, rfl⟩
    · obtain ⟨h3, _⟩ := w.par_edge x q h1 h2
      refine ⟨(h.owned q).2 (.inl h3), ?_⟩
      rw [if_neg (hfree x h1), if_neg (hfree q h3), w.level_par h1 h2]
      omega
    · refine ⟨(h.owned _).2 (.inl hp), ?_⟩
      rw [if_neg hpi]
      simp
  · intro x hx
    have hn := h.next
    have ha := h.addr
    by_cases hxi : x = i
    · rw [hxi, hn, ha]; exact Nat.lt_succ_self m.next
    · have hd : data m' x = data m x := by rw [h.data, upd_ne _ _ hxi]
      have : m.heap x ≠ none := by
        intro hn
        exact hx (data_none.1 (hd.trans (data_none.2 hn)))
      rw [hn]
      exact Nat.lt_succ_of_lt (w.fresh x this)

/-! ### addRelationship -/

/-- The child features `cs` of `p` have been put below the new relationship `r`. -/
structure Grouped (m m' : FModel) (r : Id) (k : RKind) (p : Id) (cs : List Id) : Prop where
  new : m.heap r = none
  mem : ∀ c, c ∈ cs ↔ c ∈ edg m p ∧ IsFeat m c
  nodup : cs.Nodup
  data : data m' = upd (data m) r (some (.rel k))
  par : ∀ j, par m' j = if j = r then some p else if j ∈ cs then some r else par m j
  edge_p : edg m' p = (edg m p).filter (fun c => decide (c ∉ cs)) ++ [r]
  edge_r : edg m' r = cs
  edge : ∀ j, j ≠ p → j ≠ r → edg m' j = edg m j
  features : m'.features = m.features
  rels : m'.rels = m.rels ++ [r]
  root : m'.root = m.root
  name : m'.name = m.name
  path : m'.path = m.path
  commit : m'.commit = m.commit
  booleans : m'.booleans = m.booleans
  nonBooleans : m'.nonBooleans = m.nonBooleans
  mixeds : m'.mixeds = m.mixeds
  next : m'.next = m.next + 1

theorem fparent_addedRel {m m' : FModel} {r p : Id} {k : RKind} (w : WF m) (h : AddedRel m m' r k p) {x q : Id}
    (hx : Owned m x) : FParent m' x q ↔ FParent m x q := by
  have hfree : ∀ y, Owned m y → y ≠ r := by
    rintro y ho rfl
    obtain ⟨d, hd⟩ := w.owned_data ho
    have := h.new
    rw [heap_of_data hd] at this
    cases this
  have hpar : ∀ y, Owned m y → par m' y = par m y := fun y hy => by rw [h.par, upd_ne _ _ (hfree y hy)]
  have hdat : ∀ y, Owned m y → data m' y = data m y := fun y hy => by rw [h.data, upd_ne _ _ (hfree y hy)]
  constructor
  · intro hf
    induction hf with
    | @direct x q h1 h2 =>
      rw [hpar x hx] at h1
      have ho := (w.par_edge x q hx h1).1
      exact .direct h1 (by unfold IsFeat; rw [← hdat q ho]; exact h2)
    | @skip x s q h1 h2 _ ih =>
      rw [hpar x hx] at h1
      have ho := (w.par_edge x s hx h1).1
      exact .skip h1 (by unfold IsRel; rw [← hdat s ho]; exact h2) (ih ho)
  · intro hf
    induction hf with
    | @direct x q h1 h2 =>
      have ho := (w.par_edge x q hx h1).1
      exact .direct (by rw [hpar x hx]; exact h1) (by unfold IsFeat; rw [hdat q ho]; exact h2)
    | @skip x s q h1 h2 _ ih =>
      have ho := (w.par_edge x s hx h1).1
      exact .skip (by rw [hpar x hx]; exact h1) (by unfold IsRel; rw [hdat s ho]; exact h2) (ih ho)

theorem execAddRelationship_ok {m : FModel} (w : WF m) (E : Env) {k : RKind} {pr : Ref} {p : Id}
    (hres : m.resolve pr = some p) (hp : Known m p) (hdir : ∀ c, Via m isF p c → c ∈ edg m p) :
    ∃ m' cs, m.execAddRelationship E k pr = .ok m' ∧ Grouped m m' m.next k p cs ∧ WF m' := by
  obtain ⟨m2, h1, h2⟩ := addRel_link w (k := k) (.inl hp)
  have w2 := wf_of_addedRel w h2 (.inl hp)
  have hfp := w.known_data hp
  have hk2 : Known m2 p := (h2.known p).2 hp
  obtain ⟨cs, a1, a2, a3⟩ := childrenF w2 E (.inl hk2)
  have hfree : ∀ y, Owned m y → y ≠ m.next := by
    rintro y ho rfl
    exact w.not_owned_next ho
  have hpr : p ≠ m.next := hfree p (.inl hp)
  have hfp2 : IsFeat m2 p := w2.known_data hk2
  have hcs : ∀ c, c ∈ cs ↔ c ∈ edg m p ∧ IsFeat m c := by
    intro c
    rw [a3, via_iff_fparent w2 (.inl hk2) hfp2, h2.known]
    constructor
    · rintro ⟨b1, b2⟩
      rw [fparent_addedRel w h2 (.inl b1)] at b2
      exact ⟨hdir c ((via_iff_fparent w (.inl hp) hfp).2 ⟨b1, b2⟩), w.known_data b1⟩
    · rintro ⟨b1, b2⟩
      obtain ⟨c1, c2⟩ := w.edge_par p c (.inl hp) b1
      refine ⟨w.known_feat c1 b2, ?_⟩
      rw [fparent_addedRel w h2 c1]
      exact .direct c2 hfp
  have hedp : edg m2 p = edg m p ++ [m.next] := by rw [h2.edg, upd_same]
  have hedr : edg m2 m.next = [] := by rw [h2.edg, upd_ne _ _ (Ne.symm hpr)]; exact edg_none w.next_none
  have hpar2 : ∀ y, Owned m y → par m2 y = par m y := fun y hy => by rw [h2.par, upd_ne _ _ (hfree y hy)]
  have hor : Owned m2 m.next := (h2.owned _).2 (.inr rfl)
  have hcso : ∀ c ∈ cs, Owned m c ∧ par m c = some p ∧ c ∈ edg m p := by
    intro c hc
    obtain ⟨b1, b2⟩ := (hcs c).1 hc
    obtain ⟨c1, c2⟩ := w.edge_par p c (.inl hp) b1
    exact ⟨c1, c2, b1⟩
  obtain ⟨m3, k1, k2⟩ := regroupAll_ok (E := E) hpr cs m2 (w2.owned_data (.inl hk2)) (w2.owned_data hor)
    (w2.edges_nodup p (.inl hk2)) a2 (by
      intro c hc
      obtain ⟨b1, b2, b3⟩ := hcso c hc
      refine ⟨w2.owned_data ((h2.owned c).2 (.inl b1)), ?_, ?_, ?_⟩
      · rw [hedp]; exact List.mem_append_left _ b3
      · rw [hpar2 c b1]; exact b2
      · rw [hedr]; simp)
  have hrcs : m.next ∉ cs := fun h => hfree _ (hcso _ h).1 rfl
  have hpcs : p ∉ cs := by
    intro h
    obtain ⟨_, b2, _⟩ := hcso _ h
    have := w.level_par (.inl hp) b2
    omega
  have hgr : Grouped m m3 m.next k p cs := by
    refine
      { new := w.next_none
        mem := hcs
        nodup := a2
        data := by rw [k2.data, h2.data]
        par := ?_
        edge_p := ?_
        edge_r := by rw [k2.edge_b, hedr]; rfl
        edge := ?_
        features := by rw [k2.rest.features, h2.features]
        rels := by rw [k2.rest.rels, h2.rels]
        root := by rw [k2.rest.root, h2.root]
        name := by rw [k2.rest.name, h2.name]
        path := by rw [k2.rest.path, h2.path]
        commit := by rw [k2.rest.commit, h2.commit]
        booleans := by rw [k2.rest.booleans, h2.booleans]
        nonBooleans := by rw [k2.rest.nonBooleans, h2.nonBooleans]
        mixeds := by rw [k2.rest.mixeds, h2.mixeds]
        next := by rw [k2.rest.next, h2.next] }
    · intro j
      rw [k2.par, h2.par]
      by_cases hj : j = m.next
      · subst hj; simp [hrcs]
      · rw [upd_ne _ _ hj]; simp [hj]
    · rw [k2.edge_a, hedp, List.filter_append]
      simp [hrcs]
    · intro j b1 b2
      rw [k2.edge j b1 b2, h2.edg, upd_ne _ _ b1]
  refine ⟨m3, cs, ?_, hgr, ?_⟩
  · unfold FModel.execAddRelationship
    simp only
    have hres' : FModel.resolve ({ m.put m.next { data := .rel k } with next := m.next + 1, rels := m.rels ++ [m.next] } : FModel) pr = some p := by
      cases pr with
      | name n => exact hres
      | ptr i => exact hres
    rw [hres']
    simp only
    rw [h1]
    simp only
    rw [a1]
    exact k1
  · refine w2.relink (pa := par m3) (ed := edg m3) ⟨k2.rest, k2.data, rfl, rfl⟩
      (fun x => if x = m.next then 2 * lvlOf m p + 1 else 2 * lvlOf m x) ?_ ?_ ?_ ?_
    · intro i q ho hq
      rw [hgr.par] at hq
      by_cases hi : i = m.next
      · subst hi
        simp only [if_true] at hq
        cases hq
        refine ⟨.inl hk2, by rw [hgr.edge_p]; simp, ?_⟩
        simp [hpr]
      · have hoi : Owned m i := ((h2.owned i).1 ho).resolve_right hi
        rw [if_neg hi] at hq
        by_cases hic : i ∈ cs
        · rw [if_pos hic] at hq; cases hq
          obtain ⟨b1, b2, b3⟩ := hcso i hic
          refine ⟨hor, by rw [hgr.edge_r]; exact hic, ?_⟩
          rw [if_neg hi, w.level_par b1 b2]
          simp only [if_true]
          omega
        · rw [if_neg hic] at hq
          obtain ⟨b1, b2⟩ := w.par_edge i q hoi hq
          have hqr := hfree q b1
          refine ⟨(h2.owned q).2 (.inl b1), ?_, ?_⟩
          · by_cases hqp : q = p
            · subst hqp
              rw [hgr.edge_p]
              simp [b2, hic]
            · rw [hgr.edge q hqp hqr]; exact b2
          · rw [if_neg hi, if_neg hqr, w.level_par hoi hq]
            omega
    · intro i c ho hc
      by_cases hi : i = m.next
      · subst hi
        rw [hgr.edge_r] at hc
        obtain ⟨b1, b2, b3⟩ := hcso c hc
        refine ⟨(h2.owned c).2 (.inl b1), ?_⟩
        rw [hgr.par, if_neg (hfree c b1), if_pos hc]
      · have hoi : Owned m i := ((h2.owned i).1 ho).resolve_right hi
        by_cases hip : i = p
        · subst hip
          rw [hgr.edge_p, List.mem_append] at hc
          rcases hc with hc | hc
          · rw [List.mem_filter] at hc
            obtain ⟨b1, b2⟩ := w.edge_par i c hoi hc.1
            have hcc : c ∉ cs := by simpa using hc.2
            refine ⟨(h2.owned c).2 (.inl b1), ?_⟩
            rw [hgr.par, if_neg (hfree c b1), if_neg hcc]; exact b2
          · simp only [List.mem_singleton] at hc
            subst hc
            exact ⟨hor, by rw [hgr.par]; simp⟩
        · rw [hgr.edge i hip hi] at hc
          obtain ⟨b1, b2⟩ := w.edge_par i c hoi hc
          have hcc : c ∉ cs := by
            intro h
            have := (hcso c h).2.1
            rw [b2] at this
            exact hip (Option.some.inj this)
          refine ⟨(h2.owned c).2 (.inl b1), ?_⟩
          rw [hgr.par, if_neg (hfree c b1), if_neg hcc]; exact b2
    · intro i ho
      by_cases hi : i = m.next
      · subst hi; rw [hgr.edge_r]; exact a2
      · have hoi : Owned m i := ((h2.owned i).1 ho).resolve_right hi
        by_cases hip : i = p
        · subst hip
          rw [hgr.edge_p, List.nodup_append]
          refine ⟨(w.edges_nodup i hoi).filter _, by simp, ?_⟩
          intro a ha b hb e
          simp only [List.mem_singleton] at hb
          subst hb e
          exact hfree _ (w.edge_par i _ hoi (List.mem_filter.1 ha).1).1 rfl
        · rw [hgr.edge i hip hi]; exact w.edges_nodup i hoi
    · intro i ho
      rw [hgr.par, h2.root]
      by_cases hi : i = m.next
      · subst hi
        simp only [if_true]
        constructor
        · intro h; cases h
        · intro h; exact absurd rfl (hfree _ (.inl (w.root_known h)))
      · have hoi : Owned m i := ((h2.owned i).1 ho).resolve_right hi
        rw [if_neg hi]
        by_cases hic : i ∈ cs
        · rw [if_pos hic]
          constructor
          · intro h; cases h
          · intro h
            have := (hcso i hic).2.1
            rw [w.root_par h] at this; cases this
        · rw [if_neg hic]; exact w.root_iff hoi

/-! ### removeRelationship -/

/-- The relationship `r` below `p` is gone, its children are children of `p`. -/
structure Ungrouped (m m' : FModel) (r p : Id) (cs : List Id) : Prop where
  perm : cs.Perm (edg m r)
  data : data m' = upd (data m) r none
  par : ∀ j, par m' j = if j = r then none else if j ∈ cs then some p else par m j
  edge_p : edg m' p = (edg m p).erase r ++ cs
  edge : ∀ j, j ≠ p → j ≠ r → edg m' j = edg m j
  features : m'.features = m.features
  rels : m'.rels = m.rels.erase r
  root : m'.root = m.root
  name : m'.name = m.name
  path : m'.path = m.path
  commit : m'.commit = m.commit
  booleans : m'.booleans = m.booleans
  nonBooleans : m'.nonBooleans = m.nonBooleans
  mixeds : m'.mixeds = m.mixeds
  next : m'.next = m.next

theorem foldlM_insert {m : FModel} {isT : Node → Bool} {rec : Id → List Id → Option (List Id)} (es : List Id) :
    ∀ fs : List Id, (fs ++ es).Nodup → (∀ c ∈ es, ∃ n, m.heap c = some n ∧ isT n = true) →
      es.foldlM (fun fs c =>
        match m.heap c with
        | none => none
        | some cn => if isT cn then some (FModel.insertSet fs c) else rec c fs) fs = some (fs ++ es) := by
  induction es with
  | nil => intro fs _ _; simp
  | cons c es ih =>
    intro fs hn hall
    obtain ⟨n, hc, hT⟩ := hall c (List.mem_cons_self ..)
    rw [List.foldlM_cons, hc]
    simp only [hT, if_true]
    have hcf : c ∉ fs := by
      intro h
      rw [List.nodup_append] at hn
      exact hn.2.2 c h c (List.mem_cons_self ..) rfl
    have hins : FModel.insertSet fs c = fs ++ [c] := by
      unfold FModel.insertSet; rw [if_neg hcf]
    rw [hins]
    have e : fs ++ c :: es = fs ++ [c] ++ es := by simp
    rw [e] at hn ⊢
    exact ih (fs ++ [c]) hn (fun x hx => hall x (List.mem_cons_of_mem _ hx))

theorem children_direct {m : FModel} (E : Env) {isT : Node → Bool} {i : Id} {d : NodeData} (hd : data m i = some d)
    (hn : (edg m i).Nodup) (hall : ∀ c ∈ edg m i, ∃ n, m.heap c = some n ∧ isT n = true) :
    m.children E isT i = some (E.setOrder (edg m i)) := by
  unfold FModel.children
  have : m.childrenImpl isT (m.next + 1) (-1) i [] = some (edg m i) := by
    unfold FModel.childrenImpl
    rw [if_neg (by decide), heap_of_data hd]
    exact foldlM_insert (rec := fun c fs => m.childrenImpl isT m.next (-1 - 1) c fs) (edg m i) [] hn hall
  rw [this]; rfl

theorem execRemoveRelationship_ok {m : FModel} (w : WF m) (E : Env) {pr : Ref} {p : Id}
    (hres : m.resolve pr = some p) (hp : Known m p) (hex : ∃ r, Via m isR p r)
    (hdir : ∀ r, Via m isR p r → r ∈ edg m p ∧ ∀ c ∈ edg m r, IsFeat m c) :
    ∃ m' r cs, m.execRemoveRelationship E pr = .ok m' ∧ r ∈ edg m p ∧ IsRel m r ∧
      Ungrouped m m' r p cs ∧ WF m' := by
  obtain ⟨rs, a1, a2, a3⟩ := childrenR w E (.inl hp)
  obtain ⟨r0, hr0⟩ := hex
  obtain ⟨r, rs', rfl⟩ : ∃ r rs', rs = r :: rs' := by
    cases rs with
    | nil => exact absurd ((a3 r0).2 hr0) (by simp)
    | cons r rs' => exact ⟨r, rs', rfl⟩
  have hvr := (a3 r).1 (List.mem_cons_self ..)
  obtain ⟨hrp, hrf⟩ := hdir r hvr
  obtain ⟨hor, hpr⟩ := w.edge_par p r (.inl hp) hrp
  have hrel : IsRel m r := by
    -- the kind asked for
    have : ∀ i x, Via m isR i x → IsRel m x := by
      intro i x h
      induction h with
      | here _ hd hT => exact (isR_iff hd).1 hT
      | skip _ _ _ _ ih => exact ih
    exact this p r hvr
  have hrr := w.owned_rel hor hrel
  have hrnp : r ≠ p := by rintro rfl; exact w.known_not_rel hp hrr
  obtain ⟨dp, hdp⟩ := w.owned_data (.inl hp)
  obtain ⟨dr, hdr⟩ := w.owned_data hor
  -- the conceptual path: move the children first, then drop the empty relationship
  have hcs : ∀ c ∈ E.setOrder (edg m r), Owned m c ∧ par m c = some r ∧ c ∈ edg m r := by
    intro c hc
    rw [(E.setOrder_perm _).mem_iff] at hc
    obtain ⟨b1, b2⟩ := w.edge_par r c hor hc
    exact ⟨b1, b2, hc⟩
  have hnd : (E.setOrder (edg m r)).Nodup := (E.setOrder_perm _).nodup_iff.2 (w.edges_nodup r hor)
  have hnotp : ∀ c ∈ E.setOrder (edg m r), c ∉ edg m p := by
    intro c hc hcp
    have h1 := (hcs c hc).2.1
    have h2 := (w.edge_par p c (.inl hp) hcp).2
    rw [h1] at h2
    exact hrnp (Option.some.inj h2)
  have hrcs : r ∉ E.setOrder (edg m r) := by
    intro h
    have := (hcs r h).2.1
    have := w.level_par hor this
    omega
  have hpcs : p ∉ E.setOrder (edg m r) := by
    intro h
    have h1 := w.level_par (.inl hp) (hcs p h).2.1
    have h2 := w.level_par hor hpr
    omega
  obtain ⟨mA, kA1, kA2⟩ := regroupAll_ok (E := E) hrnp (E.setOrder (edg m r)) m ⟨_, hdr⟩ ⟨_, hdp⟩
    (w.edges_nodup r hor) hnd (fun c hc => ⟨w.owned_data (hcs c hc).1, (hcs c hc).2.2, (hcs c hc).2.1, hnotp c hc⟩)
  have hArE : edg mA r = [] := by
    rw [kA2.edge_a]
    apply List.eq_nil_iff_forall_not_mem.2
    intro c hc
    rw [List.mem_filter] at hc
    have := hc.2
    simp only [decide_eq_true_eq] at this
    exact this ((E.setOrder_perm _).mem_iff.2 hc.1)
  have wA : WF mA := by
    refine w.relink (pa := par mA) (ed := edg mA) ⟨kA2.rest, kA2.data, rfl, rfl⟩ (lvlOf m) ?_ ?_ ?_ ?_
    · intro i q ho hq
      rw [kA2.par] at hq
      by_cases hic : i ∈ E.setOrder (edg m r)
      · rw [if_pos hic] at hq; cases hq
        obtain ⟨b1, b2, b3⟩ := hcs i hic
        refine ⟨.inl hp, by rw [kA2.edge_b]; exact List.mem_append_right _ hic, ?_⟩
        rw [w.level_par b1 b2, w.level_par hor hpr]; omega
      · rw [if_neg hic] at hq
        obtain ⟨b1, b2⟩ := w.par_edge i q ho hq
        refine ⟨b1, ?_, by rw [w.level_par ho hq]; omega⟩
        by_cases hqr : q = r
        · subst hqr
          exact absurd ((E.setOrder_perm _).mem_iff.2 b2) hic
        · by_cases hqp : q = p
          · subst hqp; rw [kA2.edge_b]; exact List.mem_append_left _ b2
          · rw [kA2.edge q hqr hqp]; exact b2
    · intro i c ho hc
      rw [kA2.par]
      by_cases hir : i = r
      · subst hir; rw [hArE] at hc; cases hc
      · by_cases hip : i = p
        · subst hip
          rw [kA2.edge_b, List.mem_append] at hc
          rcases hc with hc | hc
          · obtain ⟨b1, b2⟩ := w.edge_par i c ho hc
            refine ⟨b1, ?_⟩
            rw [if_neg (fun h => hnotp c h hc)]; exact b2
          · exact ⟨(hcs c hc).1, by rw [if_pos hc]⟩
        · rw [kA2.edge i hir hip] at hc
          obtain ⟨b1, b2⟩ := w.edge_par i c ho hc
          refine ⟨b1, ?_⟩
          rw [if_neg]
          · exact b2
          · intro h
            have := (hcs c h).2.1
            rw [b2] at this
            exact hir (Option.some.inj this)
    · intro i ho
      by_cases hir : i = r
      · subst hir; rw [hArE]; simp
      · by_cases hip : i = p
        · subst hip
          rw [kA2.edge_b, List.nodup_append]
          refine ⟨w.edges_nodup i ho, hnd, ?_⟩
          intro a ha b hb e
          subst e
          exact hnotp a hb ha
        · rw [kA2.edge i hir hip]; exact w.edges_nodup i ho
    · intro i ho
      rw [kA2.par]
      by_cases hic : i ∈ E.setOrder (edg m r)
      · rw [if_pos hic]
        constructor
        · intro h; cases h
        · intro h
          have := (hcs i hic).2.1
          rw [w.root_par h] at this; cases this
      · rw [if_neg hic]; exact w.root_iff ho
  have hoA : Owned mA p := by
    unfold Owned Known
    rw [kA2.rest.features]
    exact .inl hp
  have hrelA : IsRel mA r := by obtain ⟨k, hk⟩ := hrel; exact ⟨k, by rw [kA2.data]; exact hk⟩
  have hrpA : r ∈ edg mA p := by rw [kA2.edge_b]; exact List.mem_append_left _ hrp
  obtain ⟨mB, kB1, kB2⟩ := dropRelOf_ok wA hoA hrpA hrelA
  have wB : WF mB := by
    refine wf_of_without wA kB2 (closed_leaf hArE) ?_
    rintro x hx rfl
    rw [kA2.rest.root] at hx
    exact w.known_not_rel (w.root_known hx) hrr
  -- the actual path
  obtain ⟨m1, h1, r1⟩ := removeEdge_ok (c := r) hdp
  have hed1r : edg m1 r = edg m r := by rw [r1.edg, upd_ne _ _ hrnp]
  have hed1p : edg m1 p = (edg m p).erase r := by rw [r1.edg, upd_same]
  have hch : m1.children E Node.isFeat r = some (E.setOrder (edg m1 r)) := by
    refine children_direct E (d := dr) (by rw [r1.data]; exact hdr) (by rw [hed1r]; exact w.edges_nodup r hor) ?_
    intro c hc
    rw [hed1r] at hc
    obtain ⟨f, hf⟩ := hrf c hc
    refine ⟨_, heap_of_data (d := .feat f) (by rw [r1.data]; exact hf), rfl⟩
  obtain ⟨m2, k1, k2⟩ := regroupAll_ok (E := E) hrnp (E.setOrder (edg m r)) m1
    ⟨_, by rw [r1.data]; exact hdr⟩ ⟨_, by rw [r1.data]; exact hdp⟩ (by rw [hed1r]; exact w.edges_nodup r hor) hnd (by
      intro c hc
      obtain ⟨b1, b2, b3⟩ := hcs c hc
      obtain ⟨d, hd⟩ := w.owned_data b1
      refine ⟨⟨d, by rw [r1.data]; exact hd⟩, by rw [hed1r]; exact b3, by rw [r1.par]; exact b2, ?_⟩
      rw [hed1p]
      intro h
      exact hnotp c hc (List.mem_of_mem_erase h))
  have hrels2 : r ∈ m2.rels := by rw [k2.rest.rels, r1.rest.rels]; exact hrr
  generalize hm3 : ({ m2.free r with rels := m2.rels.erase r } : FModel) = m3
  have hd3 : data m3 = upd (data m2) r none := by rw [← data_free, ← hm3]; rfl
  have hp3 : par m3 = upd (par m2) r none := by rw [← par_free, ← hm3]; rfl
  have he3 : edg m3 = upd (edg m2) r [] := by rw [← edg_free, ← hm3]; rfl
  have hung : Ungrouped m m3 r p (E.setOrder (edg m r)) := by
    refine
      { perm := E.setOrder_perm _
        data := by rw [hd3, k2.data, r1.data]
        par := ?_
        edge_p := by rw [he3, upd_ne _ _ (Ne.symm hrnp), k2.edge_b, hed1p]
        edge := ?_
        features := by rw [← hm3]; exact (k2.rest.features.trans r1.rest.features)
        rels := by
          rw [← hm3]
          show m2.rels.erase r = _
          rw [k2.rest.rels, r1.rest.rels]
        root := by rw [← hm3]; exact (k2.rest.root.trans r1.rest.root)
        name := by rw [← hm3]; exact (k2.rest.name.trans r1.rest.name)
        path := by rw [← hm3]; exact (k2.rest.path.trans r1.rest.path)
        commit := by rw [← hm3]; exact (k2.rest.commit.trans r1.rest.commit)
        booleans := by rw [← hm3]; exact (k2.rest.booleans.trans r1.rest.booleans)
        nonBooleans := by rw [← hm3]; exact (k2.rest.nonBooleans.trans r1.rest.nonBooleans)
        mixeds := by rw [← hm3]; exact (k2.rest.mixeds.trans r1.rest.mixeds)
        next := by rw [← hm3]; exact (k2.rest.next.trans r1.rest.next) }
    · intro j
      rw [hp3]
      by_cases hj : j = r
      · subst hj; simp
      · rw [upd_ne _ _ hj, if_neg hj, k2.par, r1.par]
    · intro j b1 b2
      rw [he3, upd_ne _ _ b2, k2.edge j b2 b1, r1.edg, upd_ne _ _ b1]
  refine ⟨m3, r, E.setOrder (edg m r), ?_, hrp, hrel, hung, ?_⟩
  · unfold FModel.execRemoveRelationship
    rw [hres]; simp only
    rw [a1]; simp only
    rw [h1]; simp only
    rw [hch, hed1r]; simp only
    rw [k1]; simp only
    simp [FModel.dropRel, hrels2, FModel.outOf, ← hm3]
  · -- same tree as the conceptual one
    have hrelsB : ∀ x, x ∈ m3.rels ↔ x ∈ mB.rels := by
      intro x
      rw [hung.rels, kB2.rels.2, kA2.rest.rels, w.rels_nodup.mem_erase_iff, and_comm]
    refine
      { root_ok := ?_
        names := by rw [hung.features]; exact w.names
        feat_ok := ?_
        rels_nodup := by rw [hung.rels]; exact w.rels_nodup.erase r
        rel_ok := ?_
        par_edge := ?_
        edge_par := ?_
        edges_nodup := ?_
        orphan := ?_
        one_root := ?_
        reach := ?_
        fresh := ?_ }
    all_goals
      have hdB : data m3 = data mB := by
        funext j
        by_cases hj : j = r
        · subst hj
          rw [hung.data, upd_same]
          exact (data_none.2 (kB2.gone j rfl)).symm
        · rw [hung.data, upd_ne _ _ hj, kB2.data j hj, kA2.data]
      have hpB : par m3 = par mB := by
        funext j
        by_cases hj : j = r
        · subst hj
          rw [hung.par, if_pos rfl]
          simp [par, kB2.gone j rfl]
        · rw [hung.par, if_neg hj, kB2.par j hj, kA2.par]
      have hfB : ∀ e, e ∈ m3.features ↔ e ∈ mB.features := by
        intro e
        rw [hung.features, kB2.features.2, kA2.rest.features]
        constructor
        · intro he
          refine ⟨he, fun h => w.known_not_rel (i := r) (h ▸ List.mem_map_of_mem he) hrr⟩
        · exact fun h => h.1
      have hkB : ∀ x, Known m3 x ↔ Known mB x := by
        intro x
        unfold Known
        simp only [List.mem_map]
        constructor
        · rintro ⟨e, he, h⟩; exact ⟨e, (hfB e).1 he, h⟩
        · rintro ⟨e, he, h⟩; exact ⟨e, (hfB e).2 he, h⟩
      have hoB : ∀ x, Owned m3 x ↔ Owned mB x := by
        intro x; unfold Owned; rw [hkB, hrelsB]
      have hrtB : m3.root = mB.root := by rw [hung.root, kB2.root, kA2.rest.root]
      have hbB : ∀ a i, Below mB a i → Below m3 a i := by
        intro a i hb
        induction hb with
        | refl => exact .refl
        | step hp _ ih => exact .step (by rw [hpB]; exact hp) ih
      have heB : ∀ j, Owned mB j → ∀ c, c ∈ edg m3 j ↔ c ∈ edg mB j := by
        intro j hj c
        obtain ⟨g1, g2⟩ := (kB2.owned j).1 hj
        rw [(kB2.edges j g1 g2).2]
        by_cases hjp : j = p
        · subst hjp
          rw [hung.edge_p, kA2.edge_b, List.mem_append, List.mem_append, (w.edges_nodup j (.inl hp)).mem_erase_iff]
          constructor
          · rintro (⟨x1, x2⟩ | x1)
            · exact ⟨.inl x2, x1⟩
            · exact ⟨.inr x1, by rintro rfl; exact hrcs x1⟩
          · rintro ⟨x1 | x1, x2⟩
            · exact .inl ⟨x2, x1⟩
            · exact .inr x1
        · rw [hung.edge j hjp g2, kA2.edge j g2 hjp]
          constructor
          · intro hc
            refine ⟨hc, ?_⟩
            rintro rfl
            have hoj : Owned m j := by
              unfold Owned Known at g1 ⊢
              rw [kA2.rest.features, kA2.rest.rels] at g1
              exact g1
            have := (w.edge_par j c hoj hc).2
            rw [hpr] at this
            exact hjp (Option.some.inj this).symm
          · exact fun h => h.1
    · obtain ⟨x, f, b1, b2, b3, b4, b5⟩ := wB.root_ok
      exact ⟨x, f, by rw [hrtB]; exact b1, (hkB x).2 b2, by rw [hdB]; exact b3, b4, by rw [hpB]; exact b5⟩
    · intro e he
      rw [hdB]
      exact wB.feat_ok e ((hfB e).1 he)
    · intro x hx
      obtain ⟨k, hk⟩ := wB.rel_ok x ((hrelsB x).1 hx)
      exact ⟨k, by rw [hdB]; exact hk⟩
    · intro i q ho hq
      rw [hoB] at ho ⊢; rw [hpB] at hq
      obtain ⟨b1, b2⟩ := wB.par_edge i q ho hq
      exact ⟨b1, (heB q b1 i).2 b2⟩
    · intro i c ho hc
      rw [hoB] at ho ⊢; rw [hpB]
      exact wB.edge_par i c ho ((heB i ho c).1 hc)
    · intro i ho
      rw [hoB] at ho
      obtain ⟨g1, g2⟩ := (kB2.owned i).1 ho
      have hoi : Owned m i := by
        unfold Owned Known at g1 ⊢
        rw [kA2.rest.features, kA2.rest.rels] at g1
        exact g1
      by_cases hip : i = p
      · subst hip
        rw [hung.edge_p, List.nodup_append]
        refine ⟨(w.edges_nodup i hoi).erase r, hnd, ?_⟩
        intro a ha b hb e
        subst e
        exact hnotp a hb (List.mem_of_mem_erase ha)
      · rw [hung.edge i hip g2]; exact w.edges_nodup i hoi
    · intro i ho hq
      rw [hoB] at ho; rw [hpB] at hq; rw [hrtB]
      exact wB.orphan i ho hq
    · intro i f hk hd hroot
      rw [hkB] at hk; rw [hdB] at hd; rw [hrtB]
      exact wB.one_root i f hk hd hroot
    · intro i x ho hx
      rw [hoB] at ho; rw [hrtB] at hx
      exact hbB _ _ (wB.reach i x ho hx)
    · intro i hi
      rw [hung.next]
      have : mB.heap i ≠ none := by
        intro hn
        exact hi (data_none.1 (by rw [hdB]; exact data_none.2 hn))
      have := wB.fresh i this
      rw [kB2.next, kA2.rest.next] at this
      exact this

end Verif

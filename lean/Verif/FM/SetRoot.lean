import Verif.FM.Relation
/-! Lemmas: replacing the root. -/

namespace Verif
open Verif.Spec

/-! ### The two loops -/

theorem linkAll_ok {i : Id} (cs : List Id) :
    ∀ m : FModel, (∃ d, data m i = some d) → (edg m i ++ cs).Nodup → (∀ c ∈ cs, ∃ d, data m c = some d) →
      ∃ m', FModel.outFold (fun m c => FModel.outOf (m.link i c)) m cs = .ok m' ∧
        SameMeta m m' ∧ data m' = data m ∧ (∀ j, par m' j = if j ∈ cs then some i else par m j) ∧
        edg m' = upd (edg m) i (edg m i ++ cs) := by
  induction cs with
  | nil =>
    intro m _ _ _
    refine ⟨m, rfl, .refl m, rfl, by simp, ?_⟩
    rw [List.append_nil, upd_self]
  | cons c cs ih =>
    intro m hi hn hall
    obtain ⟨di, hdi⟩ := hi
    obtain ⟨dc, hdc⟩ := hall c (List.mem_cons_self ..)
    obtain ⟨m1, h1, r1⟩ := link_ok hdi hdc
    have hc : c ∉ edg m i := by
      intro h
      rw [List.nodup_append] at hn
      exact hn.2.2 c h c (List.mem_cons_self ..) rfl
    have he : edg m1 i = edg m i ++ [c] := by
      rw [r1.edg, upd_same]; unfold FModel.insertSet; rw [if_neg hc]
    obtain ⟨m2, k1, k2, k3, k4, k5⟩ := ih m1 ⟨di, by rw [r1.data]; exact hdi⟩
      (by rw [he, List.append_assoc]; exact hn)
      (fun x hx => by rw [r1.data]; exact hall x (List.mem_cons_of_mem _ hx))
    refine ⟨m2, ?_, r1.rest.trans k2, by rw [k3, r1.data], ?_, ?_⟩
    · rw [outFold_cons (m1 := m1) (by rw [h1]; rfl)]; exact k1
    · intro j
      rw [k4, r1.par]
      by_cases hj : j = c
      · subst hj; simp
      · rw [upd_ne _ _ hj]; simp [hj]
    · rw [k5, he, r1.edg]
      funext j
      by_cases hj : j = i
      · subst hj; simp
      · rw [upd_ne _ _ hj, upd_ne _ _ hj, upd_ne _ _ hj]

theorem unlinkAll_ok {r : Id} (cs : List Id) :
    ∀ m : FModel, (∃ d, data m r = some d) →
      ∃ m' l, FModel.outFold (fun m c => FModel.outOf (m.removeEdge r c)) m cs = .ok m' ∧
        SameMeta m m' ∧ data m' = data m ∧ par m' = par m ∧ edg m' = upd (edg m) r l := by
  induction cs with
  | nil =>
    intro m _
    exact ⟨m, edg m r, rfl, .refl m, rfl, rfl, (upd_self ..).symm⟩
  | cons c cs ih =>
    intro m hr
    obtain ⟨d, hd⟩ := hr
    obtain ⟨m1, h1, r1⟩ := removeEdge_ok (c := c) hd
    obtain ⟨m2, l, k1, k2, k3, k4, k5⟩ := ih m1 ⟨d, by rw [r1.data]; exact hd⟩
    refine ⟨m2, l, ?_, r1.rest.trans k2, by rw [k3, r1.data], by rw [k4, r1.par], ?_⟩
    · rw [outFold_cons (m1 := m1) (by rw [h1]; rfl)]; exact k1
    · rw [k5, r1.edg]
      funext j
      by_cases hj : j = r
      · subst hj; simp
      · rw [upd_ne _ _ hj, upd_ne _ _ hj, upd_ne _ _ hj]

/-! ### setRoot -/

/-- The root `r` has been replaced by a new root feature `i` named `n`. -/
structure Rerooted (m m' : FModel) (r i : Id) (n : Str) : Prop where
  new : m.heap i = none
  data : data m' = upd (upd (data m) i (some (.feat { attr := { name := n, kind := .root } }))) r none
  par : ∀ j, par m' j = if j ∈ edg m r then some i else if j = i then none else par m j
  edg : edg m' = upd (upd (edg m) i (edg m r)) r []
  features : ∀ e, e ∈ m'.features ↔ (e ∈ m.features ∧ e.2 ≠ r) ∨ e = (n, i)
  names : (m'.features.map Prod.fst).Nodup
  root : m'.root = some i
  rels : m'.rels = m.rels
  name : m'.name = m.name
  path : m'.path = m.path
  commit : m'.commit = m.commit
  booleans : m'.booleans = m.booleans
  nonBooleans : m'.nonBooleans = m.nonBooleans
  mixeds : m'.mixeds = m.mixeds
  next : m'.next = m.next + 1

theorem execSetRoot_same {m : FModel} {r : Id} {rf : Feat} (hr : m.root = some r)
    (hd : data m r = some (.feat rf)) : m.execSetRoot rf.attr.name = .ok m := by
  unfold FModel.execSetRoot
  rw [hr]
  simp [FModel.nameOf, FModel.feat?, heap_of_data hd]

theorem execSetRoot_taken {m : FModel} {r : Id} {rf : Feat} {n : Str} (hr : m.root = some r)
    (hd : data m r = some (.feat rf)) (hne : rf.attr.name ≠ n) (hn : n ∈ m.features.map Prod.fst) :
    m.execSetRoot n = .err .alreadyPresent m := by
  unfold FModel.execSetRoot
  cases h : m.getFeature n with
  | none => exact absurd hn (getFeature_none.1 h)
  | some i => simp [hr, FModel.nameOf, FModel.feat?, heap_of_data hd, hne, FModel.insertFeature, h]

theorem execSetRoot_ok {m : FModel} (w : WF m) {r : Id} {rf : Feat} {n : Str} (hr : m.root = some r)
    (hd : data m r = some (.feat rf)) (hne : rf.attr.name ≠ n) (hn : n ∉ m.features.map Prod.fst) :
    ∃ m', m.execSetRoot n = .ok m' ∧ Rerooted m m' r m.next n := by
  have hrk := w.root_known hr
  have hfree := w.next_none
  have hrne : r ≠ m.next := fun h => w.not_owned_next (h ▸ .inl hrk)
  generalize hm1 : ({ m.put m.next { data := .feat { attr := { name := n, kind := .root } } } with
      next := m.next + 1, features := m.features ++ [(n, m.next)] } : FModel) = m1
  have e1 : data m1 = upd (data m) m.next (some (.feat { attr := { name := n, kind := .root } })) := by
    rw [← hm1]; exact data_put m m.next _
  have e2 : par m1 = par m := by
    have : par m1 = upd (par m) m.next none := by rw [← hm1]; exact par_put m m.next _
    rw [this]
    have h0 : par m m.next = none := by simp [Spec.par, hfree]
    rw [← h0, upd_self]
  have e3 : edg m1 = edg m := by
    have : edg m1 = upd (edg m) m.next [] := by rw [← hm1]; exact edg_put m m.next _
    rw [this, ← edg_none hfree, upd_self]
  have e4 : m1.features = m.features ++ [(n, m.next)] := by rw [← hm1]
  have e5 : m1.root = some r := by rw [← hm1]; exact hr
  have hins : m.insertFeature { name := n, kind := .root } = some (m1, m.next) := by
    unfold FModel.insertFeature
    rw [getFeature_none.2 hn, ← hm1]
  have hr1 : data m1 r = some (.feat rf) := by rw [e1, upd_ne _ _ hrne, hd]
  have hcso : ∀ c ∈ edg m r, Owned m c ∧ par m c = some r := fun c hc => w.edge_par r c (.inl hrk) hc
  obtain ⟨m2, a1, a2, a3, a4, a5⟩ := linkAll_ok (i := m.next) (edg m r) m1 ⟨_, by rw [e1, upd_same]⟩
    (by rw [e3, edg_none hfree]; exact w.edges_nodup r (.inl hrk)) (by
      intro c hc
      obtain ⟨d, hd⟩ := w.owned_data (hcso c hc).1
      refine ⟨d, ?_⟩
      have hcn : c ≠ m.next := by
        rintro rfl
        exact w.not_owned_next (hcso _ hc).1
      rw [e1, upd_ne _ _ hcn]; exact hd)
  have hr2 : data m2 r = some (.feat rf) := by rw [a3]; exact hr1
  obtain ⟨m3, l, b1, b2, b3, b4, b5⟩ := unlinkAll_ok (r := r) (edg m r) m2 ⟨_, hr2⟩
  have hr3 : data m3 r = some (.feat rf) := by rw [b3]; exact hr2
  have hroot3 : m3.root = some r := by rw [b2.root, a2.root]; exact e5
  have hf3 : m3.features = m.features ++ [(n, m.next)] := by rw [b2.features, a2.features, e4]
  obtain ⟨e, he, her⟩ := List.mem_map.1 hrk
  obtain ⟨f', hf', hfn⟩ := w.feat_ok e he
  rw [her, hd] at hf'
  cases hf'
  have hmem : (rf.attr.name, r) ∈ m.features := by rw [hfn, ← her]; exact he
  have hnames3 : (m3.features.map Prod.fst).Nodup := by
    rw [hf3, List.map_append, List.nodup_append]
    refine ⟨w.names, by simp, ?_⟩
    intro a ha b hb e
    simp at hb
    subst hb e
    exact hn ha
  have hg3 : m3.getFeature rf.attr.name = some r :=
    getFeature_mem hnames3 (by rw [hf3]; exact List.mem_append_left _ hmem)
  generalize hm4 : ({ m3.free r with
      root := some m.next, features := m3.features.filter fun e => decide (e.1 ≠ rf.attr.name) } : FModel) = m4
  have c1 : data m4 = upd (data m3) r none := by rw [← hm4]; exact data_free m3 r
  have c2 : par m4 = upd (par m3) r none := by rw [← hm4]; exact par_free m3 r
  have c3 : edg m4 = upd (edg m3) r [] := by rw [← hm4]; exact edg_free m3 r
  have c4 : m4.features = m3.features.filter fun e => decide (e.1 ≠ rf.attr.name) := by rw [← hm4]
  refine ⟨m4, ?_, ?_⟩
  · unfold FModel.execSetRoot
    simp only [hr, FModel.nameOf, FModel.feat?, heap_of_data hd, Option.map_some, if_neg hne, hins, e5,
      heap_of_data hr1]
    rw [e3, a1]
    simp only
    rw [b1]
    simp only [FModel.eraseFeature, FModel.nameOf, FModel.feat?, heap_of_data hr3, Option.map_some, hroot3, if_true]
    have : ({ m3 with root := none } : FModel).getFeature rf.attr.name = some r := hg3
    rw [this]
    simp only
    rw [← hm4]
    rfl
  · have hrn : r ∉ edg m r := by
      intro h
      have := (hcso r h).2
      rw [w.root_par hr] at this; cases this
    refine
      { new := hfree
        data := by rw [c1, b3, a3, e1]
        par := ?_
        edg := ?_
        features := ?_
        names := ?_
        root := by rw [← hm4]
        rels := ?_, name := ?_, path := ?_, commit := ?_, booleans := ?_, nonBooleans := ?_, mixeds := ?_, next := ?_ }
    · intro j
      rw [c2]
      by_cases hj : j = r
      · subst hj
        rw [upd_same, if_neg hrn, if_neg hrne, w.root_par hr]
      · rw [upd_ne _ _ hj, b4, a4, e2]
        by_cases hjn : j = m.next
        · subst hjn
          have : par m m.next = none := by simp [Spec.par, hfree]
          simp [this]
        · rw [if_neg hjn]
    · rw [c3, b5, a5, e3, edg_none hfree]
      funext j
      by_cases hj : j = r
      · subst hj; simp
      · rw [upd_ne _ _ hj, upd_ne _ _ hj, upd_ne _ _ hj]; simp
    · intro x
      rw [c4, List.mem_filter, hf3, List.mem_append, List.mem_singleton]
      simp only [ne_eq, decide_eq_true_eq]
      constructor
      · rintro ⟨h1 | h1, h2⟩
        · refine .inl ⟨h1, ?_⟩
          intro h3
          obtain ⟨g, hg, hgn⟩ := w.feat_ok x h1
          rw [h3, hd] at hg
          cases hg
          exact h2 hgn.symm
        · exact .inr h1
      · rintro (⟨h1, h2⟩ | h1)
        · refine ⟨.inl h1, ?_⟩
          intro h3
          have hx : (rf.attr.name, x.2) ∈ m.features := by rw [← h3]; exact h1
          have k1 := getFeature_mem w.names hx
          have k2 := getFeature_mem w.names hmem
          rw [k1] at k2
          exact h2 (Option.some.inj k2)
        · refine ⟨.inr h1, ?_⟩
          rw [h1]
          exact fun h => hne h.symm
    · rw [c4]
      exact (List.filter_sublist.map Prod.fst).nodup hnames3
    all_goals rw [← hm4]; simp only [FModel.free]
    · rw [b2.rels, a2.rels, ← hm1]; rfl
    · rw [b2.name, a2.name, ← hm1]; rfl
    · rw [b2.path, a2.path, ← hm1]; rfl
    · rw [b2.commit, a2.commit, ← hm1]; rfl
    · rw [b2.booleans, a2.booleans, ← hm1]; rfl
    · rw [b2.nonBooleans, a2.nonBooleans, ← hm1]; rfl
    · rw [b2.mixeds, a2.mixeds, ← hm1]; rfl
    · rw [b2.next, a2.next, ← hm1]

theorem Rerooted.known {m m' : FModel} {r i : Id} {n : Str} (h : Rerooted m m' r i n) (x : Id) :
    Known m' x ↔ (Known m x ∧ x ≠ r) ∨ x = i := by
  unfold Known
  simp only [List.mem_map, h.features]
  constructor
  · rintro ⟨e, ⟨h1, h2⟩ | h1, rfl⟩
    · exact .inl ⟨⟨e, h1, rfl⟩, h2⟩
    · exact .inr (by rw [h1])
  · rintro (⟨⟨e, h1, rfl⟩, h2⟩ | rfl)
    · exact ⟨e, .inl ⟨h1, h2⟩, rfl⟩
    · exact ⟨(n, x), .inr rfl, rfl⟩

theorem Rerooted.owned {m m' : FModel} {r i : Id} {n : Str} (w : WF m) (hr : m.root = some r)
    (h : Rerooted m m' r i n) (x : Id) : Owned m' x ↔ (Owned m x ∧ x ≠ r) ∨ x = i := by
  unfold Owned
  rw [h.known, h.rels]
  have : x ∈ m.rels → x ≠ r := by
    rintro hx rfl
    exact w.known_not_rel (w.root_known hr) hx
  constructor
  · rintro ((⟨a, b⟩ | a) | a)
    · exact .inl ⟨.inl a, b⟩
    · exact .inr a
    · exact .inl ⟨.inr a, this a⟩
  · rintro (⟨a | a, b⟩ | a)
    · exact .inl (.inl ⟨a, b⟩)
    · exact .inr a
    · exact .inl (.inr a)

theorem wf_of_rerooted {m m' : FModel} {r i : Id} {n : Str} (w : WF m) (hr : m.root = some r)
    (h : Rerooted m m' r i n) (hi : i = m.next) : WF m' := by
  have hrk := w.root_known hr
  have hfree : ∀ x, Owned m x → x ≠ i := by
    rintro x ho rfl
    obtain ⟨d, hd⟩ := w.owned_data ho
    have := h.new
    rw [heap_of_data hd] at this
    cases this
  have hri := hfree r (.inl hrk)
  have hcso : ∀ c ∈ edg m r, Owned m c ∧ par m c = some r := fun c hc => w.edge_par r c (.inl hrk) hc
  have hin : i ∉ edg m r := fun hc => hfree i (hcso i hc).1 rfl
  have hrn : r ∉ edg m r := by
    intro hc
    have := (hcso r hc).2
    rw [w.root_par hr] at this; cases this
  have hpi : par m' i = none := by rw [h.par, if_neg hin, if_pos rfl]
  have hdi : data m' i = some (.feat { attr := { name := n, kind := .root } }) := by
    rw [h.data, upd_ne _ _ (Ne.symm hri), upd_same]
  have hdo : ∀ x, Owned m x → x ≠ r → data m' x = data m x := by
    intro x hx hxr
    rw [h.data, upd_ne _ _ hxr, upd_ne _ _ (hfree x hx)]
  have hpo : ∀ x, Owned m x → x ≠ r → par m' x = if par m x = some r then some i else par m x := by
    intro x hx hxr
    rw [h.par, if_neg (hfree x hx)]
    by_cases hp : par m x = some r
    · rw [if_pos (w.par_edge x r hx hp).2, if_pos hp]
    · rw [if_neg hp, if_neg (fun hc => hp (hcso x hc).2)]
  have heo : ∀ x, Owned m x → x ≠ r → edg m' x = edg m x := by
    intro x hx hxr
    rw [h.edg, upd_ne _ _ hxr, upd_ne _ _ (hfree x hx)]
  have hei : edg m' i = edg m r := by rw [h.edg, upd_ne _ _ (Ne.symm hri), upd_same]
  have hnp : ∀ x, Owned m x → x ≠ r → par m x ≠ none := by
    intro x hx hxr hp
    have := w.orphan x hx hp
    rw [hr] at this; exact hxr (Option.some.inj this).symm
  have hor : ∀ x, Owned m' x → par m' x = none → m'.root = some x := by
    intro x ho hp
    rw [h.root]
    rcases (h.owned w hr x).1 ho with ⟨h1, h2⟩ | rfl
    · rw [hpo x h1 h2] at hp
      split at hp
      · cases hp
      · exact absurd hp (hnp x h1 h2)
    · rfl
  refine
    { root_ok := ⟨i, _, h.root, (h.known i).2 (.inr rfl), hdi, rfl, hpi⟩
      names := h.names
      feat_ok := ?_
      rels_nodup := by rw [h.rels]; exact w.rels_nodup
      rel_ok := ?_
      par_edge := ?_
      edge_par := ?_
      edges_nodup := ?_
      orphan := hor
      one_root := ?_
      reach := reach_of_rank (fun x => if x = i then 0 else lvlOf m x + 1) ?_ hor
      fresh := ?_ }
  · intro e he
    rcases (h.features e).1 he with ⟨h1, h2⟩ | rfl
    · rw [hdo e.2 (.inl (List.mem_map_of_mem h1)) h2]
      exact w.feat_ok e h1
    · exact ⟨_, hdi, rfl⟩
  · intro x hx
    rw [h.rels] at hx
    obtain ⟨k, hk⟩ := w.rel_ok x hx
    refine ⟨k, ?_⟩
    rw [hdo x (.inr hx) (by rintro rfl; exact w.known_not_rel hrk hx)]; exact hk
  · intro x q ho hq
    rcases (h.owned w hr x).1 ho with ⟨h1, h2⟩ | rfl
    · rw [hpo x h1 h2] at hq
      by_cases hp : par m x = some r
      · rw [if_pos hp] at hq; cases hq
        exact ⟨(h.owned w hr _).2 (.inr rfl), by rw [hei]; exact (w.par_edge x r h1 hp).2⟩
      · rw [if_neg hp] at hq
        obtain ⟨h3, h4⟩ := w.par_edge x q h1 hq
        have hqr : q ≠ r := by rintro rfl; exact hp hq
        exact ⟨(h.owned w hr _).2 (.inl ⟨h3, hqr⟩), by rw [heo q h3 hqr]; exact h4⟩
    · rw [hpi] at hq; cases hq
  · intro x c ho hc
    rcases (h.owned w hr x).1 ho with ⟨h1, h2⟩ | rfl
    · rw [heo x h1 h2] at hc
      obtain ⟨h3, h4⟩ := w.edge_par x c h1 hc
      have hcr : c ≠ r := by
        rintro rfl
        rw [w.root_par hr] at h4; cases h4
      refine ⟨(h.owned w hr _).2 (.inl ⟨h3, hcr⟩), ?_⟩
      rw [hpo c h3 hcr, if_neg, h4]
      rw [h4]
      exact fun e => h2 (Option.some.inj e)
    · rw [hei] at hc
      obtain ⟨h3, h4⟩ := hcso c hc
      have hcr : c ≠ r := by rintro rfl; exact hrn hc
      refine ⟨(h.owned w hr _).2 (.inl ⟨h3, hcr⟩), ?_⟩
      rw [hpo c h3 hcr, if_pos h4]
  · intro x ho
    rcases (h.owned w hr x).1 ho with ⟨h1, h2⟩ | rfl
    · rw [heo x h1 h2]; exact w.edges_nodup x h1
    · rw [hei]; exact w.edges_nodup r (.inl hrk)
  · intro x f hk hd hroot
    rw [h.root]
    rcases (h.known x).1 hk with ⟨h1, h2⟩ | rfl
    · rw [hdo x (.inl h1) h2] at hd
      have := w.one_root x f h1 hd hroot
      rw [hr] at this
      exact absurd (Option.some.inj this).symm h2
    · rfl
  · intro x q ho hq
    rcases (h.owned w hr x).1 ho with ⟨h1, h2⟩ | rfl
    · rw [hpo x h1 h2] at hq
      by_cases hp : par m x = some r
      · rw [if_pos hp] at hq; cases hq
        refine ⟨(h.owned w hr _).2 (.inr rfl), ?_⟩
        rw [if_pos rfl, if_neg (hfree x h1)]
        omega
      · rw [if_neg hp] at hq
        obtain ⟨h3, h4⟩ := w.par_edge x q h1 hq
        have hqr : q ≠ r := by rintro rfl; exact hp hq
        refine ⟨(h.owned w hr _).2 (.inl ⟨h3, hqr⟩), ?_⟩
        rw [if_neg (hfree q h3), if_neg (hfree x h1), w.level_par h1 hq]
        omega
    · rw [hpi] at hq; cases hq
  · intro x hx
    rw [h.next]
    by_cases hxi : x = i
    · rw [hxi, hi]; exact Nat.lt_succ_self m.next
    · by_cases hxr : x = r
      · exact absurd (data_none.1 (by rw [h.data, hxr, upd_same])) hx
      · have hd : data m' x = data m x := by rw [h.data, upd_ne _ _ hxr, upd_ne _ _ hxi]
        exact Nat.lt_succ_of_lt (w.fresh x (fun hn => hx (data_none.1 (hd.trans (data_none.2 hn)))))

end Verif

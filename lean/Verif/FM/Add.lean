import Verif.FM.Consistent
/-! Lemmas: adding features, moving nodes, changing attributes. -/

namespace Verif
open Verif.Spec

theorem getFeature_some {m : FModel} {n : Str} {i : Id} (h : m.getFeature n = some i) : (n, i) ∈ m.features := by
  unfold FModel.getFeature at h
  generalize m.features = l at h
  induction l with
  | nil => cases h
  | cons e l ih =>
    obtain ⟨k, v⟩ := e
    rw [List.lookup_cons] at h
    by_cases hk : n = k
    · subst hk
      simp at h
      subst h
      exact List.mem_cons_self ..
    · have : (n == k) = false := by simp [hk]
      rw [this] at h
      exact List.mem_cons_of_mem _ (ih h)

theorem getFeature_none {m : FModel} {n : Str} : m.getFeature n = none ↔ n ∉ m.features.map Prod.fst := by
  unfold FModel.getFeature
  generalize m.features = l
  induction l with
  | nil => simp
  | cons e l ih =>
    obtain ⟨k, v⟩ := e
    rw [List.lookup_cons]
    by_cases hk : n = k
    · subst hk; simp
    · have : (n == k) = false := by simp [hk]
      rw [this]
      simp only [ih, List.map_cons, List.mem_cons, not_or]
      exact ⟨fun h => ⟨hk, h⟩, fun h => h.2⟩

theorem getFeature_mem {m : FModel} (hn : (m.features.map Prod.fst).Nodup) {n : Str} {i : Id}
    (h : (n, i) ∈ m.features) : m.getFeature n = some i := by
  unfold FModel.getFeature
  generalize m.features = l at *
  induction l with
  | nil => cases h
  | cons e l ih =>
    obtain ⟨k, v⟩ := e
    simp only [List.map_cons, List.nodup_cons] at hn
    rw [List.lookup_cons]
    rcases List.mem_cons.1 h with h | h'
    · cases h; simp
    · by_cases hk : n = k
      · subst hk
        exact absurd (List.mem_map_of_mem (f := Prod.fst) h') hn.1
      · have : (n == k) = false := by simp [hk]
        rw [this]
        exact ih hn.2 h'

theorem getFeature_known {m : FModel} {n : Str} {i : Id} (h : m.getFeature n = some i) : Known m i :=
  List.mem_map_of_mem (f := Prod.snd) (getFeature_some h)

/-! ### A tree from its parts -/

/-- Re-linking inside a well-formed model: what remains to be shown. -/
theorem Spec.WF.relink {m m' : FModel} {pa : Id → Option Id} {ed : Id → List Id} (w : WF m)
    (h : Relinked m m' pa ed) (rk : Id → Nat)
    (h1 : ∀ i p, Owned m i → pa i = some p → Owned m p ∧ i ∈ ed p ∧ rk p < rk i)
    (h2 : ∀ i c, Owned m i → c ∈ ed i → Owned m c ∧ pa c = some i)
    (h3 : ∀ i, Owned m i → (ed i).Nodup)
    (h4 : ∀ i, Owned m i → (pa i = none ↔ m.root = some i)) : WF m' := by
  obtain ⟨r, rf, hr, hrk, hrd, hrr, hrp⟩ := w.root_ok
  have hor : ∀ i, Owned m' i → par m' i = none → m'.root = some i := by
    intro i ho hp
    rw [h.owned] at ho
    rw [h.par] at hp
    rw [h.rest.root]
    exact (h4 i ho).1 hp
  refine
    { root_ok := ⟨r, rf, ?_, (h.known r).2 hrk, ?_, hrr, ?_⟩
      names := by rw [h.rest.features]; exact w.names
      feat_ok := by rw [h.rest.features, h.data]; exact w.feat_ok
      rels_nodup := by rw [h.rest.rels]; exact w.rels_nodup
      rel_ok := by
        intro x hx
        rw [h.rest.rels] at hx
        obtain ⟨k, hk⟩ := w.rel_ok x hx
        exact ⟨k, by rw [h.data]; exact hk⟩
      par_edge := ?_
      edge_par := ?_
      edges_nodup := ?_
      orphan := hor
      one_root := ?_
      reach := reach_of_rank rk ?_ hor
      fresh := ?_ }
  · rw [h.rest.root]; exact hr
  · rw [h.data]; exact hrd
  · rw [h.par]; exact (h4 r (.inl hrk)).2 hr
  · intro i p ho hp
    rw [h.owned] at ho ⊢
    rw [h.par] at hp
    rw [h.edg]
    exact ⟨(h1 i p ho hp).1, (h1 i p ho hp).2.1⟩
  · intro i c ho hc
    rw [h.owned] at ho ⊢
    rw [h.edg] at hc
    rw [h.par]
    exact h2 i c ho hc
  · intro i ho
    rw [h.owned] at ho
    rw [h.edg]
    exact h3 i ho
  · intro i f hk hd hroot
    rw [h.known] at hk
    rw [h.data] at hd
    rw [h.rest.root]
    exact w.one_root i f hk hd hroot
  · intro i p ho hp
    rw [h.owned] at ho ⊢
    rw [h.par] at hp
    exact ⟨(h1 i p ho hp).1, (h1 i p ho hp).2.2⟩
  · intro i hi
    rw [h.rest.next]
    apply w.fresh
    intro hn
    exact hi ((h.heap_none i).2 hn)

theorem Spec.WF.root_iff {m : FModel} (w : WF m) {i : Id} (ho : Owned m i) :
    par m i = none ↔ m.root = some i :=
  ⟨w.orphan i ho, fun h => w.root_par h⟩

/-! ### addFeature -/

/-- A feature has been added below `p`, nothing else changed. -/
structure Added (m m' : FModel) (i : Id) (a : Attr) (p : Id) : Prop where
  new : m.heap i = none
  data : data m' = upd (data m) i (some (.feat { attr := a }))
  par : par m' = upd (par m) i (some p)
  edg : edg m' = upd (edg m) p (edg m p ++ [i])
  features : m'.features = m.features ++ [(a.name, i)]
  rels : m'.rels = m.rels
  root : m'.root = m.root
  name : m'.name = m.name
  path : m'.path = m.path
  commit : m'.commit = m.commit
  booleans : m'.booleans = m.booleans
  nonBooleans : m'.nonBooleans = m.nonBooleans
  mixeds : m'.mixeds = m.mixeds

theorem edg_none {m : FModel} {i : Id} (h : m.heap i = none) : edg m i = [] := by simp [edg, h]

theorem addFeature_link {m : FModel} (w : WF m) {a : Attr} {p : Id} (hn : a.name ∉ m.features.map Prod.fst)
    (hp : Owned m p) :
    ∃ m1 m', m.insertFeature a = some (m1, m.next) ∧ m1.root = m.root ∧ m1.link p m.next = some m' ∧
      Added m m' m.next a p ∧ m'.next = m.next + 1 := by
  have hfree := w.next_none
  have hne : p ≠ m.next := fun h => w.not_owned_next (h ▸ hp)
  obtain ⟨d, hd⟩ := w.owned_data hp
  have hins : m.insertFeature a = some (({ m.put m.next { data := .feat { attr := a } } with
              next := m.next + 1
              features := m.features ++ [(a.name, m.next)] } : FModel), m.next) := by
    unfold FModel.insertFeature
    rw [getFeature_none.2 hn]
  generalize hm1 : ({ m.put m.next { data := .feat { attr := a } } with
              next := m.next + 1
              features := m.features ++ [(a.name, m.next)] } : FModel) = m1 at hins
  have hh : m1.heap = upd m.heap m.next (some { data := .feat { attr := a } }) := by rw [← hm1]; rfl
  have e1 : data m1 = data (m.put m.next { data := .feat { attr := a } }) := by rw [← hm1]; rfl
  have e2 : par m1 = par (m.put m.next { data := .feat { attr := a } }) := by rw [← hm1]; rfl
  have e3 : edg m1 = edg (m.put m.next { data := .feat { attr := a } }) := by rw [← hm1]; rfl
  rw [data_put] at e1; rw [par_put] at e2; rw [edg_put] at e3
  simp only at e1 e2 e3
  have hedge : upd (edg m) m.next [] = edg m := by
    rw [← edg_none hfree]; exact upd_self ..
  rw [hedge] at e3
  have hd1 : data m1 p = some d := by rw [e1, upd_ne _ _ hne, hd]
  have hc1 : data m1 m.next = some (.feat { attr := a }) := by rw [e1]; simp
  obtain ⟨m', hl, hr⟩ := link_ok hd1 hc1
  refine ⟨m1, m', hins, by rw [← hm1]; rfl, hl, ?_, ?_⟩
  · have hni : FModel.insertSet (edg m1 p) m.next = edg m p ++ [m.next] := by
      rw [e3]
      unfold FModel.insertSet
      rw [if_neg]
      intro hmem
      exact w.not_owned_next (w.edge_par p m.next hp hmem).1
    have hpp : upd (upd (par m) m.next none) m.next (some p) = upd (par m) m.next (some p) := by
      funext j; simp only [upd]; split <;> rfl
    have hmm := hr.rest
    exact
      { new := hfree
        data := by rw [hr.data, e1]
        par := by rw [hr.par, e2, hpp]
        edg := by rw [hr.edg, hni, e3]
        features := by rw [hmm.features, ← hm1]
        rels := by rw [hmm.rels, ← hm1]; rfl
        root := by rw [hmm.root, ← hm1]; rfl
        name := by rw [hmm.name, ← hm1]; rfl
        path := by rw [hmm.path, ← hm1]; rfl
        commit := by rw [hmm.commit, ← hm1]; rfl
        booleans := by rw [hmm.booleans, ← hm1]; rfl
        nonBooleans := by rw [hmm.nonBooleans, ← hm1]; rfl
        mixeds := by rw [hmm.mixeds, ← hm1]; rfl }
  · rw [hr.rest.next, ← hm1]

theorem execAddFeature_ok {m : FModel} (w : WF m) {a : Attr} {parent : Option Id}
    (hn : a.name ∉ m.features.map Prod.fst) (hp : ∀ i, parent = some i → Owned m i) :
    ∃ m' p, m.execAddFeature a parent = .ok m' ∧ Added m m' m.next a p ∧ m'.next = m.next + 1 ∧
      Owned m p ∧ (parent = some p ∨ (parent = none ∧ m.root = some p)) := by
  obtain ⟨r, rf, hr, hrk, _⟩ := w.root_ok
  cases parent with
  | some p =>
    obtain ⟨m1, m', h1, _, h2, h3, h4⟩ := addFeature_link w hn (hp p rfl)
    refine ⟨m', p, ?_, h3, h4, hp p rfl, .inl rfl⟩
    simp [FModel.execAddFeature, h1, h2, FModel.outOf]
  | none =>
    obtain ⟨m1, m', h1, h1r, h2, h3, h4⟩ := addFeature_link w hn (p := r) (.inl hrk)
    refine ⟨m', r, ?_, h3, h4, .inl hrk, .inr ⟨rfl, hr⟩⟩
    simp [FModel.execAddFeature, h1, h1r, hr, h2, FModel.outOf]

theorem execAddFeature_err {m : FModel} {a : Attr} {parent : Option Id} (hn : a.name ∈ m.features.map Prod.fst) :
    m.execAddFeature a parent = .err .alreadyPresent m := by
  unfold FModel.execAddFeature FModel.insertFeature
  cases h : m.getFeature a.name with
  | none => exact absurd hn (getFeature_none.1 h)
  | some i => rfl

theorem Added.known {m m' : FModel} {i p : Id} {a : Attr} (h : Added m m' i a p) (x : Id) :
    Known m' x ↔ Known m x ∨ x = i := by
  unfold Known
  rw [h.features]
  simp

theorem Added.owned {m m' : FModel} {i p : Id} {a : Attr} (h : Added m m' i a p) (x : Id) :
    Owned m' x ↔ Owned m x ∨ x = i := by
  unfold Owned
  rw [h.known, h.rels]
  constructor
  · rintro ((h | h) | h)
    · exact .inl (.inl h)
    · exact .inr h
    · exact .inl (.inr h)
  · rintro ((h | h) | h)
    · exact .inl (.inl h)
    · exact .inr h
    · exact .inl (.inr h)

theorem wf_of_added {m m' : FModel} {i p : Id} {a : Attr} (w : WF m) (h : Added m m' i a p)
    (hi : i < m'.next) (hnx : m.next ≤ m'.next) (hn : a.name ∉ m.features.map Prod.fst) (hp : Owned m p)
    (hk : a.kind ≠ .root) : WF m' := by
  obtain ⟨r, rf, hr, hrk, hrd, hrr, hrp⟩ := w.root_ok
  have hfree : ∀ x, Owned m x → x ≠ i := by
    rintro x ho rfl
    obtain ⟨d, hd⟩ := w.owned_data ho
    have := h.new
    rw [heap_of_data hd] at this
    cases this
  have hri := hfree r (.inl hrk)
  have hpi := hfree p hp
  have hpar : ∀ x q, Owned m' x → par m' x = some q →
      (Owned m x ∧ par m x = some q) ∨ (x = i ∧ q = p) := by
    intro x q ho hq
    rw [h.par] at hq
    rw [h.owned] at ho
    by_cases hx : x = i
    · subst hx; simp at hq; exact .inr ⟨rfl, hq.symm⟩
    · rw [upd_ne _ _ hx] at hq
      rcases ho with ho | ho
      · exact .inl ⟨ho, hq⟩
      · exact absurd ho hx
  have hedg : ∀ x c, c ∈ edg m' x ↔ c ∈ edg m x ∨ (x = p ∧ c = i) := by
    intro x c
    rw [h.edg]
    by_cases hx : x = p
    · subst hx; simp
    · rw [upd_ne _ _ hx]; simp [hx]
  have hor : ∀ x, Owned m' x → par m' x = none → m'.root = some x := by
    intro x ho hq
    rw [h.owned] at ho
    rw [h.par] at hq
    by_cases hx : x = i
    · subst hx; simp at hq
    · rw [upd_ne _ _ hx] at hq
      rcases ho with ho | ho
      · rw [h.root]; exact w.orphan x ho hq
      · exact absurd ho hx
  refine
    { root_ok := ⟨r, rf, by rw [h.root]; exact hr, (h.known r).2 (.inl hrk), ?_, hrr, ?_⟩
      names := ?_
      feat_ok := ?_
      rels_nodup := by rw [h.rels]; exact w.rels_nodup
      rel_ok := ?_
      par_edge := ?_
      edge_par := ?_
      edges_nodup := ?_
      orphan := hor
      one_root := ?_
      reach := reach_of_rank (fun x => if x = i then lvlOf m p + 1 else lvlOf m x) ?_ hor
      fresh := ?_ }
  · rw [h.data, upd_ne _ _ hri]; exact hrd
  · rw [h.par, upd_ne _ _ hri]; exact hrp
  · rw [h.features, List.map_append, List.nodup_append]
    refine ⟨w.names, by simp, ?_⟩
    intro x hx y hy e
    simp at hy
    subst hy e
    exact hn hx
  · intro e he
    rw [h.features] at he
    rw [h.data]
    rcases List.mem_append.1 he with he | he
    · have : e.2 ≠ i := hfree e.2 (.inl (List.mem_map_of_mem he))
      rw [upd_ne _ _ this]
      exact w.feat_ok e he
    · simp at he; subst he
      exact ⟨_, by simp; rfl, rfl⟩
  · intro x hx
    rw [h.rels] at hx
    obtain ⟨k, hk⟩ := w.rel_ok x hx
    exact ⟨k, by rw [h.data, upd_ne _ _ (hfree x (.inr hx))]; exact hk⟩
  · intro x q ho hq
    rcases hpar x q ho hq with ⟨h1, h2⟩ | ⟨rfl, rfl⟩
    · obtain ⟨h3, h4⟩ := w.par_edge x q h1 h2
      exact ⟨(h.owned q).2 (.inl h3), (hedg q x).2 (.inl h4)⟩
    · exact ⟨(h.owned _).2 (.inl hp), (hedg _ _).2 (.inr ⟨rfl, rfl⟩)⟩
  · intro x c ho hc
    rw [h.owned] at ho
    rw [h.owned, h.par]
    rcases (hedg x c).1 hc with hc | ⟨rfl, rfl⟩
    · rcases ho with ho | rfl
      · obtain ⟨h3, h4⟩ := w.edge_par x c ho hc
        exact ⟨.inl h3, by rw [upd_ne _ _ (hfree c h3)]; exact h4⟩
      · rw [edg_none h.new] at hc; cases hc
    · exact ⟨.inr rfl, by simp⟩
  · intro x ho
    rw [h.owned] at ho
    rw [h.edg]
    by_cases hx : x = p
    · subst hx
      simp only [upd_same]
      rw [List.nodup_append]
      refine ⟨w.edges_nodup x hp, by simp, ?_⟩
      intro c hc c' hc' e
      simp at hc'
      subst hc' e
      exact hfree _ (w.edge_par x _ hp hc).1 rfl
    · rw [upd_ne _ _ hx]
      rcases ho with ho | rfl
      · exact w.edges_nodup x ho
      · rw [edg_none h.new]; simp
  · intro x f hkx hd hroot
    rw [h.known] at hkx
    rw [h.data] at hd
    by_cases hx : x = i
    · subst hx
      simp at hd
      subst hd
      exact absurd hroot hk
    · rw [upd_ne _ _ hx] at hd
      rcases hkx with hkx | hkx
      · rw [h.root]; exact w.one_root x f hkx hd hroot
      · exact absurd hkx hx
  · intro x q ho hq
    rcases hpar x q ho hq with ⟨h1, h2⟩ | ⟨rfl, rfl⟩
    · obtain ⟨h3, _⟩ := w.par_edge x q h1 h2
      refine ⟨(h.owned q).2 (.inl h3), ?_⟩
      rw [if_neg (hfree x h1), if_neg (hfree q h3), w.level_par h1 h2]
      omega
    · refine ⟨(h.owned _).2 (.inl hp), ?_⟩
      rw [if_neg hpi]
      simp
  · intro x hx
    by_cases hxi : x = i
    · subst hxi; exact hi
    · have : data m' x = data m x := by rw [h.data, upd_ne _ _ hxi]
      have : m.heap x ≠ none := by
        intro hn
        exact hx (data_none.1 (this.trans (data_none.2 hn)))
      exact Nat.lt_of_lt_of_le (w.fresh x this) hnx

end Verif

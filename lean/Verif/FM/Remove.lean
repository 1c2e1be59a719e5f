import Verif.FM.AddConstraint
/-! Lemmas: removing features. -/

namespace Verif
open Verif.Spec

theorem Spec.Without.known {m m' : FModel} {S : Id → Prop} (h : Without m m' S) (j : Id) :
    Known m' j ↔ Known m j ∧ ¬ S j := by
  unfold Known
  constructor
  · intro hk
    obtain ⟨e, he, rfl⟩ := List.mem_map.1 hk
    obtain ⟨h1, h2⟩ := (h.features.2 e).1 he
    exact ⟨List.mem_map_of_mem h1, h2⟩
  · rintro ⟨hk, hs⟩
    obtain ⟨e, he, rfl⟩ := List.mem_map.1 hk
    exact List.mem_map_of_mem ((h.features.2 e).2 ⟨he, hs⟩)

theorem Spec.Without.owned {m m' : FModel} {S : Id → Prop} (h : Without m m' S) (j : Id) :
    Owned m' j ↔ Owned m j ∧ ¬ S j := by
  unfold Owned
  rw [h.known, h.rels.2]
  constructor
  · rintro (⟨h1, h2⟩ | ⟨h1, h2⟩)
    · exact ⟨.inl h1, h2⟩
    · exact ⟨.inr h1, h2⟩
  · rintro ⟨h1 | h1, h2⟩
    · exact .inl ⟨h1, h2⟩
    · exact .inr ⟨h1, h2⟩

theorem without_refl (m : FModel) : Without m m (fun _ => False) :=
  { gone := fun _ h => h.elim
    data := fun _ _ => rfl
    par := fun _ _ => rfl
    edges := fun _ _ _ => ⟨List.Sublist.refl _, fun c => by simp⟩
    foreign := fun _ _ => rfl
    features := ⟨List.Sublist.refl _, fun c => by simp⟩
    rels := ⟨List.Sublist.refl _, fun c => by simp⟩
    next := rfl, root := rfl, name := rfl, path := rfl, commit := rfl
    booleans := rfl, nonBooleans := rfl, mixeds := rfl }

theorem without_congr {m m' : FModel} {S S' : Id → Prop} (h : Without m m' S) (hs : ∀ j, S' j ↔ S j) :
    Without m m' S' := by
  have : S' = S := funext fun j => propext (hs j)
  rw [this]; exact h

theorem without_trans {m m1 m2 : FModel} {S S' : Id → Prop} (h : Without m m1 S) (h' : Without m1 m2 S') :
    Without m m2 (fun j => S j ∨ S' j) where
  gone := by
    intro j hj
    by_cases h2 : S' j
    · exact h'.gone j h2
    · rcases hj with h1 | h1
      · apply data_none.1
        rw [h'.data j h2]
        exact data_none.2 (h.gone j h1)
      · exact absurd h1 h2
  data := by
    intro j hj
    rw [h'.data j (fun h => hj (.inr h)), h.data j (fun h => hj (.inl h))]
  par := by
    intro j hj
    rw [h'.par j (fun h => hj (.inr h)), h.par j (fun h => hj (.inl h))]
  edges := by
    intro j ho hj
    have n1 : ¬ S j := fun h => hj (.inl h)
    have n2 : ¬ S' j := fun h => hj (.inr h)
    obtain ⟨a1, a2⟩ := h.edges j ho n1
    obtain ⟨b1, b2⟩ := h'.edges j ((h.owned j).2 ⟨ho, n1⟩) n2
    refine ⟨b1.trans a1, ?_⟩
    intro c
    rw [b2, a2, not_or, and_assoc]
  foreign := by
    intro j ho
    rw [h'.foreign j (fun h1 => ho ((h.owned j).1 h1).1), h.foreign j ho]
  features := by
    refine ⟨h'.features.1.trans h.features.1, ?_⟩
    intro e
    rw [h'.features.2, h.features.2, not_or, and_assoc]
  rels := by
    refine ⟨h'.rels.1.trans h.rels.1, ?_⟩
    intro e
    rw [h'.rels.2, h.rels.2, not_or, and_assoc]
  next := h'.next.trans h.next
  root := h'.root.trans h.root
  name := h'.name.trans h.name
  path := h'.path.trans h.path
  commit := h'.commit.trans h.commit
  booleans := h'.booleans.trans h.booleans
  nonBooleans := h'.nonBooleans.trans h.nonBooleans
  mixeds := h'.mixeds.trans h.mixeds

/-- Removing a set of nodes closed under children, not the root, leaves a tree. -/
theorem wf_of_without {m m' : FModel} {S : Id → Prop} (w : WF m) (h : Without m m' S)
    (hc : ∀ j c, Owned m j → S j → c ∈ edg m j → S c) (hr : ∀ r, m.root = some r → ¬ S r) : WF m' := by
  obtain ⟨r, rf, hroot, hrk, hrd, hrr, hrp⟩ := w.root_ok
  have hsr := hr r hroot
  have hpS : ∀ i p, Owned m i → par m i = some p → ¬ S i → ¬ S p := by
    intro i p ho hp hs hsp
    obtain ⟨h1, h2⟩ := w.par_edge i p ho hp
    exact hs (hc p i h1 hsp h2)
  have hor : ∀ x, Owned m' x → par m' x = none → m'.root = some x := by
    intro x ho hp
    obtain ⟨h1, h2⟩ := (h.owned x).1 ho
    rw [h.par x h2] at hp
    rw [h.root]
    exact w.orphan x h1 hp
  refine
    { root_ok := ⟨r, rf, by rw [h.root]; exact hroot, (h.known r).2 ⟨hrk, hsr⟩, by rw [h.data r hsr]; exact hrd, hrr,
        by rw [h.par r hsr]; exact hrp⟩
      names := (h.features.1.map Prod.fst).nodup w.names
      feat_ok := ?_
      rels_nodup := h.rels.1.nodup w.rels_nodup
      rel_ok := ?_
      par_edge := ?_
      edge_par := ?_
      edges_nodup := ?_
      orphan := hor
      one_root := ?_
      reach := reach_of_rank (lvlOf m) ?_ hor
      fresh := ?_ }
  · intro e he
    obtain ⟨h1, h2⟩ := (h.features.2 e).1 he
    rw [h.data _ h2]
    exact w.feat_ok e h1
  · intro x hx
    obtain ⟨h1, h2⟩ := (h.rels.2 x).1 hx
    obtain ⟨k, hk⟩ := w.rel_ok x h1
    exact ⟨k, by rw [h.data _ h2]; exact hk⟩
  · intro i p ho hp
    obtain ⟨h1, h2⟩ := (h.owned i).1 ho
    rw [h.par i h2] at hp
    obtain ⟨h3, h4⟩ := w.par_edge i p h1 hp
    have h5 := hpS i p h1 hp h2
    exact ⟨(h.owned p).2 ⟨h3, h5⟩, ((h.edges p h3 h5).2 i).2 ⟨h4, h2⟩⟩
  · intro i c ho hci
    obtain ⟨h1, h2⟩ := (h.owned i).1 ho
    obtain ⟨h3, h4⟩ := ((h.edges i h1 h2).2 c).1 hci
    obtain ⟨h5, h6⟩ := w.edge_par i c h1 h3
    exact ⟨(h.owned c).2 ⟨h5, h4⟩, by rw [h.par c h4]; exact h6⟩
  · intro i ho
    obtain ⟨h1, h2⟩ := (h.owned i).1 ho
    exact (h.edges i h1 h2).1.nodup (w.edges_nodup i h1)
  · intro i f hk hd hkr
    obtain ⟨h1, h2⟩ := (h.known i).1 hk
    rw [h.data i h2] at hd
    rw [h.root]
    exact w.one_root i f h1 hd hkr
  · intro i p ho hp
    obtain ⟨h1, h2⟩ := (h.owned i).1 ho
    rw [h.par i h2] at hp
    obtain ⟨h3, h4⟩ := w.par_edge i p h1 hp
    refine ⟨(h.owned p).2 ⟨h3, hpS i p h1 hp h2⟩, ?_⟩
    rw [w.level_par h1 hp]; omega
  · intro i hi
    rw [h.next]
    apply w.fresh
    intro hn
    apply hi
    by_cases hs : S i
    · exact h.gone i hs
    · apply data_none.1; rw [h.data i hs]; exact data_none.2 hn

/-- Subtrees of surviving nodes are as before. -/
theorem without_below {m m' : FModel} {S : Id → Prop} (w : WF m) (h : Without m m' S)
    (hc : ∀ j c, Owned m j → S j → c ∈ edg m j → S c) {a i : Id} (hi : Owned m' i) :
    Below m' a i ↔ Below m a i := by
  constructor
  · intro hb
    induction hb with
    | refl => exact .refl
    | @step i p hp hb ih =>
      obtain ⟨h1, h2⟩ := (h.owned i).1 hi
      rw [h.par i h2] at hp
      obtain ⟨h3, h4⟩ := w.par_edge i p h1 hp
      have h5 : ¬ S p := fun hs => h2 (hc p i h3 hs h4)
      exact .step hp (ih ((h.owned p).2 ⟨h3, h5⟩))
  · intro hb
    induction hb with
    | refl => exact .refl
    | @step i p hp hb ih =>
      obtain ⟨h1, h2⟩ := (h.owned i).1 hi
      obtain ⟨h3, h4⟩ := w.par_edge i p h1 hp
      have h5 : ¬ S p := fun hs => h2 (hc p i h3 hs h4)
      exact .step (by rw [h.par i h2]; exact hp) (ih ((h.owned p).2 ⟨h3, h5⟩))

theorem without_level {m m' : FModel} {S : Id → Prop} (w : WF m) (h : Without m m' S) (w' : WF m')
    {i : Id} (hi : Owned m' i) : lvlOf m' i = lvlOf m i := by
  obtain ⟨r, rf, hroot, _⟩ := w.root_ok
  have hroot' : m'.root = some r := by rw [h.root]; exact hroot
  have key : ∀ n j, Lvl m' r n j → Owned m' j → Lvl m r n j := by
    intro n j hl
    induction hl with
    | zero => intro _; exact .zero
    | @succ n i p hp _ ih =>
      intro ho
      obtain ⟨h1, h2⟩ := (h.owned i).1 ho
      have hop := (w'.par_edge i p ho hp).1
      rw [h.par i h2] at hp
      exact .succ hp (ih hop)
  exact Lvl.unique (w.root_par hroot) (key _ i (w'.level_lvl hi hroot') hi) (w.level_lvl ((h.owned i).1 hi).1 hroot)

/-! ### Dropping an empty relationship -/

theorem dropRelOf_ok {m : FModel} (w : WF m) {i r : Id} (hi : Owned m i) (hr : r ∈ edg m i) (hrel : IsRel m r) :
    ∃ m', m.dropRelOf i r = some m' ∧ Without m m' (· = r) := by
  obtain ⟨hor, hpr⟩ := w.edge_par i r hi hr
  have hrr := w.owned_rel hor hrel
  obtain ⟨d, hd⟩ := w.owned_data hi
  obtain ⟨m1, h1, r1⟩ := removeEdge_ok (c := r) hd
  have hir : i ≠ r := by
    rintro rfl
    have := w.level_par hi hpr
    omega
  have hrels : r ∈ m1.rels := by rw [r1.rest.rels]; exact hrr
  refine ⟨{ m1.free r with rels := m1.rels.erase r }, ?_, ?_⟩
  · simp [FModel.dropRelOf, h1, FModel.dropRel, hrels]
  · have hd' : ∀ j, data ({ m1.free r with rels := m1.rels.erase r } : FModel) j = upd (data m1) r none j := by
      intro j; rw [← data_free]; rfl
    have hp' : ∀ j, par ({ m1.free r with rels := m1.rels.erase r } : FModel) j = upd (par m1) r none j := by
      intro j; rw [← par_free]; rfl
    have he' : ∀ j, edg ({ m1.free r with rels := m1.rels.erase r } : FModel) j = upd (edg m1) r [] j := by
      intro j; rw [← edg_free]; rfl
    refine
      { gone := ?_
        data := fun j hj => by rw [hd', upd_ne _ _ hj, r1.data]
        par := fun j hj => by rw [hp', upd_ne _ _ hj, r1.par]
        edges := ?_
        foreign := ?_
        features := ?_
        rels := ?_
        next := r1.rest.next, root := r1.rest.root, name := r1.rest.name, path := r1.rest.path
        commit := r1.rest.commit, booleans := r1.rest.booleans, nonBooleans := r1.rest.nonBooleans
        mixeds := r1.rest.mixeds }
    · rintro j rfl
      apply data_none.1
      rw [hd', upd_same]
    · intro j ho hj
      rw [he', upd_ne _ _ hj, r1.edg]
      by_cases hji : j = i
      · subst hji
        rw [upd_same]
        refine ⟨List.erase_sublist .., fun c => ?_⟩
        rw [(w.edges_nodup j ho).mem_erase_iff, and_comm]
      · rw [upd_ne _ _ hji]
        refine ⟨List.Sublist.refl _, fun c => ?_⟩
        constructor
        · intro hc
          refine ⟨hc, ?_⟩
          rintro rfl
          have := (w.edge_par j c ho hc).2
          rw [hpr] at this
          exact hji (Option.some.inj this).symm
        · exact fun h => h.1
    · intro j ho
      have h1 : j ≠ r := by rintro rfl; exact ho hor
      have h2 : j ≠ i := by rintro rfl; exact ho hi
      rw [he', upd_ne _ _ h1, r1.edg, upd_ne _ _ h2]
    · show m1.features.Sublist m.features ∧ _
      rw [r1.rest.features]
      refine ⟨List.Sublist.refl _, fun e => ?_⟩
      show e ∈ m1.features ↔ _
      rw [r1.rest.features]
      constructor
      · intro he
        refine ⟨he, ?_⟩
        intro h
        exact w.known_not_rel (i := r) (h ▸ List.mem_map_of_mem he) hrr
      · exact fun h => h.1
    · show (m1.rels.erase r).Sublist m.rels ∧ _
      rw [r1.rest.rels]
      refine ⟨List.erase_sublist .., fun x => ?_⟩
      show x ∈ m.rels.erase r ↔ _
      rw [w.rels_nodup.mem_erase_iff, and_comm]

theorem closed_leaf {m : FModel} {r : Id} (he : edg m r = []) :
    ∀ j c, Owned m j → j = r → c ∈ edg m j → c = r := by
  rintro j c _ rfl hc
  rw [he] at hc; cases hc

theorem outFold_cons {α : Type _} {f : FModel → α → Out} {m m1 : FModel} {x : α} {xs : List α}
    (h : f m x = .ok m1) : FModel.outFold f m (x :: xs) = FModel.outFold f m1 xs := by
  simp only [FModel.outFold, h]

theorem dropRels_ok {i : Id} (rs : List Id) :
    ∀ m : FModel, WF m → Owned m i → rs.Nodup → (∀ r ∈ rs, r ∈ edg m i ∧ IsRel m r ∧ edg m r = []) →
      ∃ m', FModel.outFold (fun m r => FModel.outOf (m.dropRelOf i r)) m rs = .ok m' ∧
        Without m m' (· ∈ rs) ∧ WF m' := by
  induction rs with
  | nil =>
    intro m w _ _ _
    exact ⟨m, rfl, without_congr (without_refl m) (by simp), w⟩
  | cons r rs ih =>
    intro m w hi hn hall
    obtain ⟨h1, h2, h3⟩ := hall r (List.mem_cons_self ..)
    rw [List.nodup_cons] at hn
    obtain ⟨m1, g1, g2⟩ := dropRelOf_ok w hi h1 h2
    have w1 : WF m1 := by
      refine wf_of_without w g2 (closed_leaf h3) ?_
      rintro x hx rfl
      exact w.known_not_rel (w.root_known hx) (w.owned_rel (w.edge_par i x hi h1).1 h2)
    have hir : i ≠ r := by
      rintro rfl
      rw [h3] at h1; cases h1
    have hi1 : Owned m1 i := (g2.owned i).2 ⟨hi, hir⟩
    obtain ⟨m2, k1, k2, k3⟩ := ih m1 w1 hi1 hn.2 (by
      intro x hx
      obtain ⟨a1, a2, a3⟩ := hall x (List.mem_cons_of_mem _ hx)
      have hxr : x ≠ r := by rintro rfl; exact hn.1 hx
      refine ⟨((g2.edges i hi hir).2 x).2 ⟨a1, hxr⟩, ?_, ?_⟩
      · obtain ⟨k, hk⟩ := a2
        exact ⟨k, by rw [g2.data x hxr]; exact hk⟩
      · have hs := (g2.edges x (w.edge_par i x hi a1).1 hxr).1
        rw [a3] at hs
        exact List.sublist_nil.1 hs)
    refine ⟨m2, ?_, without_congr (without_trans g2 k2) (by simp), k3⟩
    rw [outFold_cons (m1 := m1) (by rw [g1]; rfl)]
    exact k1

/-! ### Unlinking and freeing the feature -/

theorem filter_ne_key {l : List (Str × Id)} {n : Str} {i : Id} (hm : (n, i) ∈ l) (hn : (l.map Prod.fst).Nodup)
    (hid : (l.map Prod.snd).Nodup) (e : Str × Id) : e ∈ l.filter (fun e => decide (e.1 ≠ n)) ↔ e ∈ l ∧ e.2 ≠ i := by
  rw [List.mem_filter]
  apply and_congr_right
  intro he
  simp only [decide_eq_true_eq]
  have key : e.1 = n ↔ e.2 = i := by
    induction l with
    | nil => cases he
    | cons x xs ih =>
      simp only [List.map_cons, List.nodup_cons] at hn hid
      rcases List.mem_cons.1 he with rfl | he'
      · rcases List.mem_cons.1 hm with h | hm'
        · rw [← h]; simp
        · have h1 := List.mem_map_of_mem (f := Prod.fst) hm'
          have h2 := List.mem_map_of_mem (f := Prod.snd) hm'
          constructor
          · intro h; rw [← h] at h1; exact absurd h1 hn.1
          · intro h; rw [← h] at h2; exact absurd h2 hid.1
      · rcases List.mem_cons.1 hm with h | hm'
        · subst h
          have h1 := List.mem_map_of_mem (f := Prod.fst) he'
          have h2 := List.mem_map_of_mem (f := Prod.snd) he'
          constructor
          · intro h; rw [h] at h1; exact absurd h1 hn.1
          · intro h; rw [h] at h2; exact absurd h2 hid.1
        · exact ih hm' hn.2 hid.2 he'
  exact not_congr key

/-- `removeFinish`, whatever the edges of the feature are. -/
theorem removeFinish_raw {m : FModel} {i p : Id} {f : Feat} {dp : NodeData} (hd : data m i = some (.feat f))
    (hp : par m i = some p) (hdp : data m p = some dp) (hg : m.getFeature f.attr.name = some i)
    (hr : m.root ≠ some i) :
    ∃ m', m.removeFinish i = .ok m' ∧
      data m' = upd (data m) i none ∧ par m' = upd (par m) i none ∧
      edg m' = upd (upd (edg m) p ((edg m p).erase i)) i [] ∧
      m'.features = m.features.filter (fun e => decide (e.1 ≠ f.attr.name)) ∧
      m'.rels = m.rels ∧ m'.next = m.next ∧ m'.root = m.root ∧ m'.name = m.name ∧ m'.path = m.path ∧
      m'.commit = m.commit ∧ m'.booleans = m.booleans ∧ m'.nonBooleans = m.nonBooleans ∧ m'.mixeds = m.mixeds := by
  obtain ⟨m1, h1, r1⟩ := removeEdge_ok (c := i) hdp
  have hd1 : data m1 i = some (.feat f) := by rw [r1.data, hd]
  have hg1 : m1.getFeature f.attr.name = some i := by rw [getFeature_congr r1.rest.features]; exact hg
  have hr1 : m1.root ≠ some i := by rw [r1.rest.root]; exact hr
  refine ⟨{ m1.free i with features := m1.features.filter fun e => decide (e.1 ≠ f.attr.name) }, ?_, ?_, ?_, ?_, ?_,
    r1.rest.rels, r1.rest.next, r1.rest.root, r1.rest.name, r1.rest.path, r1.rest.commit, r1.rest.booleans,
    r1.rest.nonBooleans, r1.rest.mixeds⟩
  · unfold FModel.removeFinish
    rw [heap_of_data hd]
    simp only
    rw [hp]
    simp only
    rw [h1]
    simp only
    unfold FModel.eraseFeature FModel.nameOf FModel.feat?
    rw [heap_of_data hd1]
    simp only [Option.map_some]
    rw [if_neg hr1, hg1]
    rfl
  · rw [← r1.data, ← data_free]; rfl
  · rw [← r1.par, ← par_free]; rfl
  · rw [← r1.edg, ← edg_free]; rfl
  · show m1.features.filter _ = _
    rw [r1.rest.features]

theorem removeFinish_ok {m : FModel} (w : WF m) {i : Id} (hi : Known m i) (hr : m.root ≠ some i) :
    ∃ m', m.removeFinish i = .ok m' ∧ Without m m' (· = i) := by
  obtain ⟨e, he, hei⟩ := List.mem_map.1 hi
  obtain ⟨f, hf, hfn⟩ := w.feat_ok e he
  rw [hei] at hf
  obtain ⟨p, hp⟩ : ∃ p, par m i = some p := by
    cases h : par m i with
    | none => exact absurd (w.orphan i (.inl hi) h) hr
    | some p => exact ⟨p, rfl⟩
  obtain ⟨hop, hip⟩ := w.par_edge i p (.inl hi) hp
  obtain ⟨dp, hdp⟩ := w.owned_data hop
  have hmem : (f.attr.name, i) ∈ m.features := by rw [hfn, ← hei]; exact he
  obtain ⟨m', h0, h1, h2, h3, h4, h5, h6, h7, h8, h9, h10, h11, h12, h13⟩ :=
    removeFinish_raw hf hp hdp (getFeature_mem w.names hmem) hr
  have hpi : p ≠ i := by
    rintro rfl
    have := w.level_par (.inl hi) hp
    omega
  refine ⟨m', h0, ?_⟩
  refine
    { gone := ?_
      data := fun j hj => by rw [h1, upd_ne _ _ hj]
      par := fun j hj => by rw [h2, upd_ne _ _ hj]
      edges := ?_
      foreign := ?_
      features := ?_
      rels := ?_
      next := h6, root := h7, name := h8, path := h9, commit := h10, booleans := h11, nonBooleans := h12
      mixeds := h13 }
  · rintro j rfl
    apply data_none.1; rw [h1, upd_same]
  · intro j ho hj
    rw [h3, upd_ne _ _ hj]
    by_cases hjp : j = p
    · subst hjp
      rw [upd_same]
      refine ⟨List.erase_sublist .., fun c => ?_⟩
      rw [(w.edges_nodup j ho).mem_erase_iff, and_comm]
    · rw [upd_ne _ _ hjp]
      refine ⟨List.Sublist.refl _, fun c => ?_⟩
      constructor
      · intro hc
        refine ⟨hc, ?_⟩
        rintro rfl
        have := (w.edge_par j c ho hc).2
        rw [hp] at this
        exact hjp (Option.some.inj this).symm
      · exact fun h => h.1
  · intro j ho
    have n1 : j ≠ i := by rintro rfl; exact ho (.inl hi)
    have n2 : j ≠ p := by rintro rfl; exact ho hop
    rw [h3, upd_ne _ _ n1, upd_ne _ _ n2]
  · rw [h4]
    exact ⟨List.filter_sublist, fun e => filter_ne_key hmem w.names w.ids_nodup e⟩
  · rw [h5]
    refine ⟨List.Sublist.refl _, fun x => ?_⟩
    constructor
    · intro hx
      refine ⟨hx, ?_⟩
      rintro rfl
      exact w.known_not_rel hi hx
    · exact fun h => h.1

/-! ### Non-recursive removal -/

theorem via_of_rels {m : FModel} {i x : Id} (hv : Via m isF i x) : ∃ c, c ∈ edg m i := by
  cases hv with
  | here h _ _ => exact ⟨_, h⟩
  | skip h _ _ _ => exact ⟨_, h⟩

theorem removeRec_nonLeaf {m : FModel} (w : WF m) (E : Env) (fuel : Nat) {i : Id} (hi : Known m i)
    (hv : ∃ c, Via m isF i c) : FModel.removeRec E (fuel + 1) false m i = .err .nonLeafNode m := by
  obtain ⟨cs, h1, h2, h3⟩ := childrenF w E (.inl hi)
  obtain ⟨c, hc⟩ := hv
  have := (h3 c).2 hc
  unfold FModel.removeRec
  simp only [Bool.false_eq_true, if_false]
  rw [h1]
  cases cs with
  | nil => cases this
  | cons a as => rfl

theorem removeRec_leaf {m : FModel} (w : WF m) (E : Env) (fuel : Nat) {i : Id} (hi : Known m i)
    (hr : m.root ≠ some i) (he : edg m i = []) :
    ∃ m', FModel.removeRec E (fuel + 1) false m i = .ok m' ∧ Without m m' (· = i) := by
  obtain ⟨m', h1, h2⟩ := removeFinish_ok w hi hr
  refine ⟨m', ?_, h2⟩
  obtain ⟨cs, a1, _, a3⟩ := childrenF w E (.inl hi)
  obtain ⟨rs, b1, _, b3⟩ := childrenR w E (.inl hi)
  have ca : cs = [] := by
    cases cs with
    | nil => rfl
    | cons c cs =>
      obtain ⟨x, hx⟩ := via_of_rels ((a3 c).1 (List.mem_cons_self ..))
      rw [he] at hx; cases hx
  have cb : rs = [] := by
    cases rs with
    | nil => rfl
    | cons c cs =>
      have := (b3 c).1 (List.mem_cons_self ..)
      cases this with
      | here h _ _ => rw [he] at h; cases h
      | skip h _ _ _ => rw [he] at h; cases h
  subst ca cb
  unfold FModel.removeRec
  simp only [Bool.false_eq_true, if_false]
  rw [a1]; simp only; rw [b1]; exact h1

theorem removeRec_oneRel {m : FModel} (w : WF m) (E : Env) (fuel : Nat) {i r : Id} (hi : Known m i)
    (hr : m.root ≠ some i) (he : edg m i = [r]) (her : edg m r = []) (hrel : IsRel m r) :
    ∃ m', FModel.removeRec E (fuel + 1) false m i = .ok m' ∧ Without m m' (fun j => j = r ∨ j = i) := by
  obtain ⟨cs, a1, _, a3⟩ := childrenF w E (.inl hi)
  obtain ⟨rs, b1, b2, b3⟩ := childrenR w E (.inl hi)
  obtain ⟨k, hk⟩ := hrel
  have hri : r ∈ edg m i := by rw [he]; simp
  obtain ⟨hor, hpr⟩ := w.edge_par i r (.inl hi) hri
  have hrr := w.owned_rel hor ⟨k, hk⟩
  have ca : cs = [] := by
    cases cs with
    | nil => rfl
    | cons c cs =>
      have hv := (a3 c).1 (List.mem_cons_self ..)
      cases hv with
      | here h hd hT =>
        rw [he] at h
        simp only [List.mem_singleton] at h
        subst h
        rw [hk] at hd; cases hd; cases hT
      | skip h hd hT hv =>
        rw [he] at h
        simp only [List.mem_singleton] at h
        subst h
        obtain ⟨x, hx⟩ := via_of_rels hv
        rw [her] at hx; cases hx
  have hrs : ∃ rs', rs = r :: rs' := by
    cases rs with
    | nil => exact absurd ((b3 r).2 (.here hri hk rfl)) (by simp)
    | cons x xs =>
      have hv := (b3 x).1 (List.mem_cons_self ..)
      cases hv with
      | here h hd hT =>
        rw [he] at h
        simp only [List.mem_singleton] at h
        subst h
        exact ⟨xs, rfl⟩
      | skip h hd hT hv =>
        rw [he] at h
        simp only [List.mem_singleton] at h
        subst h
        rw [hk] at hd; cases hd; cases hT
  obtain ⟨rs', rfl⟩ := hrs
  subst ca
  -- the intermediate state
  generalize hm1 : ({ m.free r with rels := m.rels.erase r } : FModel) = m1
  have hd1 : data m1 = upd (data m) r none := by rw [← data_free, ← hm1]; rfl
  have hp1 : par m1 = upd (par m) r none := by rw [← par_free, ← hm1]; rfl
  have he1 : edg m1 = upd (edg m) r [] := by rw [← edg_free, ← hm1]; rfl
  have hf1 : m1.features = m.features := by rw [← hm1]; rfl
  have hdrop : m.dropRel r = some m1 := by simp [FModel.dropRel, hrr, ← hm1]
  obtain ⟨e, hef, hei⟩ := List.mem_map.1 hi
  obtain ⟨f, hf, hfn⟩ := w.feat_ok e hef
  rw [hei] at hf
  obtain ⟨p, hp⟩ : ∃ p, par m i = some p := by
    cases h : par m i with
    | none => exact absurd (w.orphan i (.inl hi) h) hr
    | some p => exact ⟨p, rfl⟩
  obtain ⟨hop, hip⟩ := w.par_edge i p (.inl hi) hp
  obtain ⟨dp, hdp⟩ := w.owned_data hop
  have hmem : (f.attr.name, i) ∈ m.features := by rw [hfn, ← hei]; exact hef
  have hir : i ≠ r := by rintro rfl; exact w.known_not_rel hi hrr
  have hpr' : p ≠ r := by rintro rfl; rw [her] at hip; cases hip
  have hpi : p ≠ i := by
    rintro rfl
    have := w.level_par (.inl hi) hp
    omega
  obtain ⟨m', h0, h1, h2, h3, h4, h5, h6, h7, h8, h9, h10, h11, h12, h13⟩ :=
    removeFinish_raw (m := m1) (i := i) (p := p) (f := f) (dp := dp)
      (by rw [hd1, upd_ne _ _ hir]; exact hf) (by rw [hp1, upd_ne _ _ hir]; exact hp)
      (by rw [hd1, upd_ne _ _ hpr']; exact hdp)
      (by rw [getFeature_congr hf1]; exact getFeature_mem w.names hmem) (by rw [← hm1]; exact hr)
  refine ⟨m', ?_, ?_⟩
  · unfold FModel.removeRec
    simp only [Bool.false_eq_true, if_false]
    rw [a1]; simp only; rw [b1]; simp only; rw [hdrop]; exact h0
  · refine
      { gone := ?_
        data := ?_
        par := ?_
        edges := ?_
        foreign := ?_
        features := ?_
        rels := ?_
        next := by rw [h6, ← hm1]; rfl
        root := by rw [h7, ← hm1]; rfl
        name := by rw [h8, ← hm1]; rfl
        path := by rw [h9, ← hm1]; rfl
        commit := by rw [h10, ← hm1]; rfl
        booleans := by rw [h11, ← hm1]; rfl
        nonBooleans := by rw [h12, ← hm1]; rfl
        mixeds := by rw [h13, ← hm1]; rfl }
    · intro j hj
      apply data_none.1
      rw [h1, hd1]
      rcases hj with rfl | rfl
      · rw [upd_ne _ _ (Ne.symm hir), upd_same]
      · rw [upd_same]
    · intro j hj
      rw [not_or] at hj
      rw [h1, hd1, upd_ne _ _ hj.2, upd_ne _ _ hj.1]
    · intro j hj
      rw [not_or] at hj
      rw [h2, hp1, upd_ne _ _ hj.2, upd_ne _ _ hj.1]
    · intro j ho hj
      rw [not_or] at hj
      rw [h3, he1, upd_ne _ _ hj.2]
      have hnr : r ∉ edg m j := by
        intro hc
        have := (w.edge_par j r ho hc).2
        rw [hpr] at this
        exact hj.2 (Option.some.inj this).symm
      by_cases hjp : j = p
      · subst hjp
        rw [upd_same, upd_ne _ _ hj.1]
        refine ⟨List.erase_sublist .., fun c => ?_⟩
        rw [(w.edges_nodup j ho).mem_erase_iff, not_or]
        constructor
        · rintro ⟨c1, c2⟩
          exact ⟨c2, by rintro rfl; exact hnr c2, c1⟩
        · rintro ⟨c1, c2, c3⟩
          exact ⟨c3, c1⟩
      · rw [upd_ne _ _ hjp, upd_ne _ _ hj.1]
        refine ⟨List.Sublist.refl _, fun c => ?_⟩
        constructor
        · intro hc
          refine ⟨hc, ?_⟩
          rintro (rfl | rfl)
          · exact hnr hc
          · have := (w.edge_par j c ho hc).2
            rw [hp] at this
            exact hjp (Option.some.inj this).symm
        · exact fun h => h.1
    · intro j ho
      have n1 : j ≠ i := by rintro rfl; exact ho (.inl hi)
      have n2 : j ≠ p := by rintro rfl; exact ho hop
      have n3 : j ≠ r := by rintro rfl; exact ho hor
      rw [h3, he1, upd_ne _ _ n1, upd_ne _ _ n2, upd_ne _ _ n3]
    · rw [h4, hf1]
      refine ⟨List.filter_sublist, fun e => ?_⟩
      rw [filter_ne_key hmem w.names w.ids_nodup e]
      apply and_congr_right
      intro he
      rw [not_or]
      constructor
      · intro h
        refine ⟨?_, h⟩
        intro hh
        exact w.known_not_rel (i := r) (hh ▸ List.mem_map_of_mem he) hrr
      · exact fun h => h.2
    · rw [h5, ← hm1]
      refine ⟨List.erase_sublist .., fun x => ?_⟩
      show x ∈ m.rels.erase r ↔ _
      rw [w.rels_nodup.mem_erase_iff, not_or]
      constructor
      · rintro ⟨c1, c2⟩
        exact ⟨c2, c1, by rintro rfl; exact w.known_not_rel hi c2⟩
      · rintro ⟨c1, c2, _⟩
        exact ⟨c2, c1⟩

/-! ### Recursive removal -/

/-- Relationships below `i` contain features only. -/
def Flat (m : FModel) (i : Id) : Prop :=
  ∀ j, Owned m j → Below m i j → IsRel m j → ∀ c ∈ edg m j, IsFeat m c

theorem fparent_below {m : FModel} {c c' p : Id} (hf : IsFeat m c) (hb : Below m c c') (hne : c' ≠ c)
    (hp : FParent m c' p) : Below m c p := by
  induction hp with
  | direct h1 _ => exact (Spec.Below.of_par h1 hne).1 hb
  | @skip x r p h1 h2 _ ih =>
    refine ih ((Spec.Below.of_par h1 hne).1 hb) ?_
    rintro rfl
    obtain ⟨f, hf⟩ := hf
    obtain ⟨k, hk⟩ := h2
    rw [hf] at hk; cases hk

theorem fparent_subtree {m : FModel} {c p : Id} (h : FParent m c p) : Below m p c := by
  induction h with
  | direct h1 _ => exact .step h1 .refl
  | skip h1 _ _ ih => exact .step h1 ih

theorem Spec.WF.fparent_level {m : FModel} (w : WF m) {c p : Id} (hc : Owned m c) (h : FParent m c p) :
    lvlOf m p < lvlOf m c := by
  induction h with
  | direct h1 _ => rw [w.level_par hc h1]; omega
  | skip h1 _ _ ih =>
    have := ih (w.par_edge _ _ hc h1).1
    rw [w.level_par hc h1]; omega

/-- The closure condition for a union of subtrees. -/
theorem closed_subtrees {m : FModel} (w : WF m) (cs : List Id) :
    ∀ j c, Owned m j → (Owned m j ∧ ∃ x ∈ cs, Below m x j) → c ∈ edg m j → Owned m c ∧ ∃ x ∈ cs, Below m x c := by
  rintro j c _ ⟨ho, x, hx, hb⟩ hc
  obtain ⟨h1, h2⟩ := w.edge_par j c ho hc
  exact ⟨h1, x, hx, .step h2 hb⟩

theorem removeChildren_ok (E : Env) (fuel : Nat)
    (ih : ∀ (m : FModel) (i : Id), WF m → Known m i → m.root ≠ some i → Flat m i → m.next < fuel + lvlOf m i →
      ∃ m', FModel.removeRec E fuel true m i = .ok m' ∧ Without m m' (fun j => Owned m j ∧ Below m i j))
    (cs : List Id) :
    ∀ m : FModel, WF m → cs.Nodup →
      (∀ c ∈ cs, Known m c ∧ m.root ≠ some c ∧ Flat m c ∧ m.next < fuel + lvlOf m c) →
      (∀ c ∈ cs, ∀ c' ∈ cs, c' ≠ c → ¬ Below m c c') →
      ∃ m', FModel.outFold (fun m c => FModel.removeRec E fuel true m c) m cs = .ok m' ∧ WF m' ∧
        Without m m' (fun j => Owned m j ∧ ∃ c ∈ cs, Below m c j) := by
  induction cs with
  | nil =>
    intro m w _ _ _
    exact ⟨m, rfl, w, without_congr (without_refl m) (by simp)⟩
  | cons c cs ihc =>
    intro m w hn hall hinc
    rw [List.nodup_cons] at hn
    obtain ⟨h1, h2, h3, h4⟩ := hall c (List.mem_cons_self ..)
    obtain ⟨m1, g1, g2⟩ := ih m c w h1 h2 h3 h4
    have hclosed : ∀ j x, Owned m j → (Owned m j ∧ Below m c j) → x ∈ edg m j → Owned m x ∧ Below m c x := by
      rintro j x _ ⟨ho, hb⟩ hx
      obtain ⟨a1, a2⟩ := w.edge_par j x ho hx
      exact ⟨a1, .step a2 hb⟩
    have hrootS : ∀ r, m.root = some r → ¬ (Owned m r ∧ Below m c r) := by
      rintro r hr ⟨_, hb⟩
      cases hb with
      | refl => exact h2 hr
      | step hp _ => rw [w.root_par hr] at hp; cases hp
    have w1 : WF m1 := wf_of_without w g2 hclosed hrootS
    have hbel : ∀ {a i}, Owned m1 i → (Below m1 a i ↔ Below m a i) := fun hi => without_below w g2 hclosed hi
    have hsurv : ∀ x ∈ cs, ¬ (Owned m x ∧ Below m c x) := by
      rintro x hx ⟨_, hb⟩
      exact hinc c (List.mem_cons_self ..) x (List.mem_cons_of_mem _ hx) (by rintro rfl; exact hn.1 hx) hb
    obtain ⟨m2, k1, k2, k3⟩ := ihc m1 w1 hn.2 (by
      intro x hx
      obtain ⟨a1, a2, a3, a4⟩ := hall x (List.mem_cons_of_mem _ hx)
      have hk1 : Known m1 x := (g2.known x).2 ⟨a1, hsurv x hx⟩
      refine ⟨hk1, by rw [g2.root]; exact a2, ?_, ?_⟩
      · intro j hj hb hrel y hy
        obtain ⟨b1, b2⟩ := (g2.owned j).1 hj
        obtain ⟨c1, c2⟩ := ((g2.edges j b1 b2).2 y).1 hy
        obtain ⟨k, hk⟩ := hrel
        rw [g2.data j b2] at hk
        obtain ⟨f, hf⟩ := a3 j b1 ((hbel hj).1 hb) ⟨k, hk⟩ y c1
        exact ⟨f, by rw [g2.data y c2]; exact hf⟩
      · rw [g2.next, without_level w g2 w1 (.inl hk1)]; exact a4) (by
      intro x hx y hy hne hb
      have hk1 : Known m1 y := (g2.known y).2 ⟨(hall y (List.mem_cons_of_mem _ hy)).1, hsurv y hy⟩
      exact hinc x (List.mem_cons_of_mem _ hx) y (List.mem_cons_of_mem _ hy) hne ((hbel (.inl hk1)).1 hb))
    refine ⟨m2, by rw [outFold_cons g1]; exact k1, k2, without_congr (without_trans g2 k3) ?_⟩
    intro j
    constructor
    · rintro ⟨ho, x, hx, hb⟩
      by_cases hcj : Below m c j
      · exact .inl ⟨ho, hcj⟩
      · rcases List.mem_cons.1 hx with rfl | hx
        · exact absurd hb hcj
        · have ho1 : Owned m1 j := (g2.owned j).2 ⟨ho, fun h => hcj h.2⟩
          exact .inr ⟨ho1, x, hx, (hbel ho1).2 hb⟩
    · rintro (⟨ho, hb⟩ | ⟨ho, x, hx, hb⟩)
      · exact ⟨ho, c, List.mem_cons_self .., hb⟩
      · exact ⟨((g2.owned j).1 ho).1, x, List.mem_cons_of_mem _ hx, (hbel ho).1 hb⟩

theorem removeRec_ok (E : Env) (fuel : Nat) :
    ∀ (m : FModel) (i : Id), WF m → Known m i → m.root ≠ some i → Flat m i → m.next < fuel + lvlOf m i →
      ∃ m', FModel.removeRec E fuel true m i = .ok m' ∧ Without m m' (fun j => Owned m j ∧ Below m i j) := by
  induction fuel with
  | zero =>
    intro m i w hi _ _ h
    have := w.level_lt (.inl hi)
    omega
  | succ fuel ih =>
    intro m i w hi hr hflat hfuel
    have hoi : Owned m i := .inl hi
    have hif := w.known_data hi
    obtain ⟨cs, a1, a2, a3⟩ := childrenF w E hoi
    have hcs : ∀ c, c ∈ cs ↔ Known m c ∧ FParent m c i := fun c => by rw [a3, via_iff_fparent w hoi hif]
    have hlow : ∀ c ∈ cs, ¬ Below m c i := by
      intro c hc hb
      obtain ⟨b1, b2⟩ := (hcs c).1 hc
      have := w.fparent_level (.inl b1) b2
      have := w.below_level hoi hb
      omega
    obtain ⟨m1, g1, w1, g2⟩ := removeChildren_ok E fuel ih cs m w a2 (by
      intro c hc
      obtain ⟨b1, b2⟩ := (hcs c).1 hc
      refine ⟨b1, ?_, ?_, ?_⟩
      · intro h
        have := w.root_par h
        cases b2 with
        | direct h _ => rw [this] at h; cases h
        | skip h _ _ => rw [this] at h; cases h
      · intro j hj hb
        exact hflat j hj ((fparent_subtree b2).trans hb)
      · have := w.fparent_level (.inl b1) b2
        omega) (by
      intro c hc c' hc' hne hb
      obtain ⟨b1, b2⟩ := (hcs c).1 hc
      obtain ⟨b1', b2'⟩ := (hcs c').1 hc'
      exact hlow c hc (fparent_below (w.known_data b1) hb hne b2'))
    have hsi : ¬ (Owned m i ∧ ∃ c ∈ cs, Below m c i) := by
      rintro ⟨_, c, hc, hb⟩
      exact hlow c hc hb
    have hi1 : Known m1 i := (g2.known i).2 ⟨hi, hsi⟩
    -- what is left below `i`
    have hleft : ∀ x ∈ edg m1 i, IsRel m1 x ∧ edg m1 x = [] := by
      intro x hx
      obtain ⟨b1, b2⟩ := ((g2.edges i hoi hsi).2 x).1 hx
      obtain ⟨b3, b4⟩ := w.edge_par i x hoi b1
      obtain ⟨d, hd⟩ := w.owned_data b3
      rcases data_cases hd with hf | hrel
      · have hxc : x ∈ cs := (hcs x).2 ⟨w.known_feat b3 hf, .direct b4 hif⟩
        exact absurd ⟨b3, x, hxc, .refl⟩ b2
      · refine ⟨?_, ?_⟩
        · obtain ⟨k, hk⟩ := hrel
          exact ⟨k, by rw [g2.data x b2]; exact hk⟩
        · apply List.eq_nil_iff_forall_not_mem.2
          intro y hy
          obtain ⟨c1, c2⟩ := ((g2.edges x b3 b2).2 y).1 hy
          obtain ⟨c3, c4⟩ := w.edge_par x y b3 c1
          have hfy := hflat x b3 (.step b4 .refl) hrel y c1
          have hyc : y ∈ cs := (hcs y).2 ⟨w.known_feat c3 hfy, .skip c4 hrel (.direct b4 hif)⟩
          exact c2 ⟨c3, y, hyc, .refl⟩
    obtain ⟨rs, d1, d2, d3⟩ := childrenR w1 E (.inl hi1)
    have hrs : ∀ r, r ∈ rs ↔ r ∈ edg m1 i := by
      intro r
      rw [d3]
      constructor
      · intro hv
        cases hv with
        | here h _ _ => exact h
        | skip h hd hT hv =>
          obtain ⟨⟨k, hk⟩, _⟩ := hleft _ h
          rw [hd] at hk; cases hk; cases hT
      · intro h
        obtain ⟨⟨k, hk⟩, _⟩ := hleft _ h
        exact .here h hk rfl
    obtain ⟨m2, e1, e2, w2⟩ := dropRels_ok (i := i) rs m1 w1 (.inl hi1) d2 (by
      intro r hr
      have := (hrs r).1 hr
      exact ⟨this, hleft r this⟩)
    have hsi2 : i ∉ rs := by
      intro h
      obtain ⟨⟨k, hk⟩, _⟩ := hleft i ((hrs i).1 h)
      obtain ⟨f, hf⟩ := w1.known_data hi1
      rw [hf] at hk; cases hk
    have hi2 : Known m2 i := (e2.known i).2 ⟨hi1, hsi2⟩
    have hr2 : m2.root ≠ some i := by rw [e2.root, g2.root]; exact hr
    obtain ⟨m3, f1, f2⟩ := removeFinish_ok w2 hi2 hr2
    refine ⟨m3, ?_, ?_⟩
    · unfold FModel.removeRec
      simp only [if_true]
      rw [a1]; simp only; rw [g1]; simp only; rw [d1]; simp only; rw [e1]; exact f1
    · refine without_congr (without_trans (without_trans g2 e2) f2) ?_
      intro j
      constructor
      · rintro ⟨ho, hb⟩
        rcases w.below_down hb ho with rfl | ⟨x, hx, hbx⟩
        · exact .inr rfl
        · left
          obtain ⟨b3, b4⟩ := w.edge_par i x hoi hx
          obtain ⟨d, hd⟩ := w.owned_data b3
          rcases data_cases hd with hf | hrel
          · exact .inl ⟨ho, x, (hcs x).2 ⟨w.known_feat b3 hf, .direct b4 hif⟩, hbx⟩
          · rcases w.below_down hbx ho with rfl | ⟨y, hy, hby⟩
            · by_cases hs : Owned m x ∧ ∃ c ∈ cs, Below m c x
              · exact .inl hs
              · exact .inr ((hrs x).2 (((g2.edges i hoi hsi).2 x).2 ⟨hx, hs⟩))
            · obtain ⟨c3, c4⟩ := w.edge_par x y b3 hy
              have hfy := hflat x b3 (.step b4 .refl) hrel y hy
              exact .inl ⟨ho, y, (hcs y).2 ⟨w.known_feat c3 hfy, .skip c4 hrel (.direct b4 hif)⟩, hby⟩
      · rintro ((⟨ho, c, hc, hb⟩ | hj) | rfl)
        · exact ⟨ho, (fparent_subtree ((hcs c).1 hc).2).trans hb⟩
        · have h1 := ((g2.edges i hoi hsi).2 j).1 ((hrs j).1 hj)
          obtain ⟨b3, b4⟩ := w.edge_par i j hoi h1.1
          exact ⟨b3, .step b4 .refl⟩
        · exact ⟨hoi, .refl⟩

theorem bound_of_without {m m' : FModel} {S : Id → Prop} (b : Bound m) (h : Without m m' S)
    (hs : ∀ j, S j → ¬ Mentioned m j) : Bound m' := by
  have hst : allStored m' = allStored m := by
    unfold allStored; rw [h.booleans, h.nonBooleans, h.mixeds]
  constructor
  · rw [hst]; exact b.len
  · intro s hsm k i hk
    rw [hst] at hsm
    obtain ⟨n, h1, h2⟩ := b.bind s hsm k i hk
    refine ⟨n, h1, (h.features.2 (n, i)).2 ⟨h2, fun hS => hs i hS ⟨s, hsm, ?_⟩⟩⟩
    exact List.mem_of_getElem? hk

end Verif

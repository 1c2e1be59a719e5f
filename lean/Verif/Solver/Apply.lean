import Verif.Solver.Load
/-!
# What the solver asserts for a whole model
-/

namespace Verif
open Verif.Spec Verif.FModel Verif.Z3Solver

theorem sat_append {a : Assign} {l1 l2 : List ZTerm} : Sat a (l1 ++ l2) ↔ Sat a l1 ∧ Sat a l2 := by
  constructor
  · intro h
    exact ⟨fun t ht => h t (List.mem_append_left _ ht), fun t ht => h t (List.mem_append_right _ ht)⟩
  · rintro ⟨h1, h2⟩ t ht
    rcases List.mem_append.1 ht with ht | ht
    · exact h1 t ht
    · exact h2 t ht

/-- A loop whose steps only assert. -/
theorem forEach_asserts {α} {f : Z3Solver → α → SRes} {P : Assign → α → Prop} {l : List α}
    (h : ∀ x ∈ l, ∀ s, ∃ ts, f s x = .ok { s with asserted := s.asserted ++ ts } ∧ ∀ a, Sat a ts ↔ P a x) (s : Z3Solver) :
    ∃ ts, forEach f s l = .ok { s with asserted := s.asserted ++ ts } ∧ ∀ a, Sat a ts ↔ ∀ x ∈ l, P a x := by
  induction l generalizing s with
  | nil => exact ⟨[], by simp [forEach], fun a => by simp [Sat]⟩
  | cons x xs ih =>
    obtain ⟨t1, h1, h2⟩ := h x (List.mem_cons_self ..) s
    obtain ⟨t2, h3, h4⟩ := ih (fun y hy => h y (List.mem_cons_of_mem _ hy)) { s with asserted := s.asserted ++ t1 }
    refine ⟨t1 ++ t2, ?_, ?_⟩
    · simp only [forEach, h1, h3, List.append_assoc]
    · intro a
      rw [sat_append, h2, h4]
      simp

/-! ### Features -/

theorem fparent_fst {m : FModel} (w : WF m) {i p : Id} (hi : Owned m i) (h : FParent m i p) : Known m p := by
  induction h with
  | direct hp hf => exact w.known_feat (w.par_edge _ _ hi hp).1 hf
  | skip hp hr _ ih => exact ih (w.par_edge _ _ hi hp).1

/-- Loading the features in an order with parents first. -/
theorem forEach_features {F : IntFloats} {m : FModel} (w : WF m) (L : Clear F m) {fuel : Nat} (g : Id → Bool) (l done : List Id)
    (hk : ∀ j ∈ done ++ l, Known m j) (hnd : (done ++ l).Nodup)
    (hp : ∀ d i r, l = d ++ i :: r → ∀ p, FParent m i p → p ∈ done ++ d)
    (hfuel : ∀ i ∈ l, FuelOk F m fuel i) (s : Z3Solver) (hs : s.options = done.map (optEntry m)) :
    ∃ ts, forEach (fun s i => addFeature F fuel m s i (g i)) s l =
        .ok { s with options := (done ++ l).map (optEntry m), asserted := s.asserted ++ ts } ∧
      (∀ a, Sat a ts ↔ ∀ i ∈ l, FeatOk F m a i (g i)) := by
  induction l generalizing done s with
  | nil => exact ⟨[], by simp [forEach, ← hs], fun a => by simp [Sat]⟩
  | cons i l ih =>
    have hni : i ∉ done := by
      intro h
      have := List.nodup_append.1 hnd
      exact this.2.2 i h i (List.mem_cons_self ..) rfl
    obtain ⟨t1, h1, h2⟩ := addFeature_ok w L hs (fun j hj => hk j (List.mem_append_left _ hj))
      (hk i (List.mem_append_right _ (List.mem_cons_self ..))) hni
      (fun p h => by simpa using hp [] i l rfl p h) (hfuel i (List.mem_cons_self ..)) (g i)
    obtain ⟨t2, h3, h4⟩ := ih (done ++ [i]) (by simpa using hk) (by simpa using hnd)
      (fun d j r e p h => by
        have := hp (i :: d) j r (by rw [e]; rfl) p h
        simpa using this)
      (fun j hj => hfuel j (List.mem_cons_of_mem _ hj))
      { s with options := (done ++ [i]).map (optEntry m), asserted := s.asserted ++ t1 } rfl
    refine ⟨t1 ++ t2, ?_, ?_⟩
    · simp only [forEach, h1, h3, List.append_assoc, List.singleton_append]
    · intro a
      rw [sat_append, h2, h4]
      simp

/-! ### Groups -/

theorem mapM_nameOf {m : FModel} {l : List Id} (h : ∀ c ∈ l, ∃ f, data m c = some (.feat f)) :
    ∃ ns, l.mapM m.nameOf = some ns ∧ ns.length = l.length ∧
      ∀ (k : Nat) c f, l[k]? = some c → data m c = some (.feat f) → ns[k]? = some f.attr.name := by
  induction l with
  | nil => exact ⟨[], rfl, rfl, fun k c f h => by simp at h⟩
  | cons x xs ih =>
    obtain ⟨f, hf⟩ := h x (List.mem_cons_self ..)
    obtain ⟨ns, h1, h2, h3⟩ := ih (fun c hc => h c (List.mem_cons_of_mem _ hc))
    refine ⟨f.attr.name :: ns, ?_, by simp [h2], ?_⟩
    · simp [List.mapM_cons, nameOf_of_data hf, h1]
    · intro k c g hk hg
      cases k with
      | zero =>
        simp only [List.getElem?_cons_zero, Option.some.injEq] at hk
        subst hk
        rw [hf] at hg; cases hg; rfl
      | succ k =>
        simp only [List.getElem?_cons_succ] at hk ⊢
        exact h3 k c g hk hg

/-- Being named as the member of a group. -/
theorem groupNames_ok {F : IntFloats} {m : FModel} (w : WF m) (L : Clear F m) :
    ∃ V, groupNames m = some V ∧ ∀ i f, Known m i → data m i = some (.feat f) →
      (f.attr.name ∈ V ↔ ∃ r, par m i = some r ∧ IsRel m r) := by
  have hone : ∀ r ∈ m.rels, ∃ ns, memberNames m r = some ns ∧
      ∀ n, n ∈ ns ↔ ∃ c f, c ∈ edg m r ∧ data m c = some (.feat f) ∧ f.attr.name = n := by
    intro r hr
    obtain ⟨k, hd⟩ := w.rel_ok r hr
    unfold memberNames
    rw [heap_of_data hd]
    have hfe : ∀ c ∈ edg m r, ∃ f, data m c = some (.feat f) := fun c hc => by
      obtain ⟨g, hg, _⟩ := L.members r c hr hc
      exact ⟨g, hg⟩
    obtain ⟨ns, h1, h2, h3⟩ := mapM_nameOf hfe
    refine ⟨ns, h1, ?_⟩
    intro n
    constructor
    · intro hn
      obtain ⟨k, hk, rfl⟩ := List.mem_iff_getElem.1 hn
      obtain ⟨f, hf⟩ := hfe _ (List.getElem_mem (h2 ▸ hk : k < (edg m r).length))
      refine ⟨_, f, List.getElem_mem (h2 ▸ hk : k < (edg m r).length), hf, ?_⟩
      have := h3 k _ f (List.getElem?_eq_getElem _) hf
      rw [List.getElem?_eq_getElem hk] at this
      exact (Option.some.inj this).symm
    · rintro ⟨c, f, hc, hf, rfl⟩
      obtain ⟨k, hk, rfl⟩ := List.mem_iff_getElem.1 hc
      exact List.mem_of_getElem? (h3 k _ f (List.getElem?_eq_getElem hk) hf)
  have hall : ∀ l : List Id, (∀ r ∈ l, r ∈ m.rels) → ∃ nss : List (List Str),
      l.mapM (memberNames m) = some nss ∧
      ∀ n, n ∈ nss.flatten ↔ ∃ r c f, r ∈ l ∧ c ∈ edg m r ∧ data m c = some (.feat f) ∧ f.attr.name = n := by
    intro l
    induction l with
    | nil => intro _; exact ⟨[], rfl, by simp⟩
    | cons r rs ih =>
      intro hl
      obtain ⟨ns, h1, h2⟩ := hone r (hl r (List.mem_cons_self ..))
      obtain ⟨nss, h3, h4⟩ := ih (fun x hx => hl x (List.mem_cons_of_mem _ hx))
      refine ⟨ns :: nss, ?_, ?_⟩
      · simp only [List.mapM_cons, h1, h3]; rfl
      · intro n
        rw [List.flatten_cons, List.mem_append, h2, h4]
        constructor
        · rintro (⟨c, f, a1, a2, a3⟩ | ⟨r', c, f, a0, a1, a2, a3⟩)
          · exact ⟨r, c, f, List.mem_cons_self .., a1, a2, a3⟩
          · exact ⟨r', c, f, List.mem_cons_of_mem _ a0, a1, a2, a3⟩
        · rintro ⟨r', c, f, a0, a1, a2, a3⟩
          rcases List.mem_cons.1 a0 with rfl | a0
          · exact .inl ⟨c, f, a1, a2, a3⟩
          · exact .inr ⟨r', c, f, a0, a1, a2, a3⟩
  obtain ⟨nss, h1, h2⟩ := hall m.rels (fun _ h => h)
  refine ⟨nss.flatten.reverse, by simp [groupNames, h1], ?_⟩
  intro i f hi hf
  rw [List.mem_reverse, h2]
  constructor
  · rintro ⟨r, c, f', hr, hc, hf', hn⟩
    obtain ⟨ho, hp⟩ := w.edge_par r c (.inr hr) hc
    have := w.name_inj (w.known_feat ho ⟨f', hf'⟩) hi hf' hf hn
    subst this
    exact ⟨r, hp, w.rel_ok r hr⟩
  · rintro ⟨r, hp, hr⟩
    obtain ⟨ho, he⟩ := w.par_edge i r (.inl hi) hp
    exact ⟨r, i, f, w.owned_rel ho hr, he, hf, rfl⟩

/-- What loading a relationship asserts. -/
def RelOk (m : FModel) (a : Assign) (r : Id) : Prop :=
  ∀ p, par m r = some p → Selected m a p →
    (data m r = some (.rel .alternative) →
      ∃ c, c ∈ edg m r ∧ Selected m a c ∧ ∀ c', c' ∈ edg m r → Selected m a c' → c' = c) ∧
    (data m r = some (.rel .or) → ∃ c, c ∈ edg m r ∧ Selected m a c)

theorem filter_le_one {α} {p : α → Bool} {l : List α} (hnd : l.Nodup) :
    (l.filter p).length ≤ 1 ↔ ∀ x ∈ l, ∀ y ∈ l, p x = true → p y = true → x = y := by
  constructor
  · intro h x hx y hy px py
    have mx := List.mem_filter.2 ⟨hx, px⟩
    have my := List.mem_filter.2 ⟨hy, py⟩
    cases hl : l.filter p with
    | nil => rw [hl] at mx; cases mx
    | cons a as =>
      rw [hl] at h mx my
      have : as = [] := by
        cases as with
        | nil => rfl
        | cons _ _ => simp at h
      subst this
      rw [List.mem_singleton.1 mx, List.mem_singleton.1 my]
  · intro h
    have hf := hnd.filter p
    cases hl : l.filter p with
    | nil => simp
    | cons a as =>
      cases as with
      | nil => simp
      | cons b bs =>
        exfalso
        have ha : a ∈ l.filter p := by rw [hl]; exact List.mem_cons_self ..
        have hb : b ∈ l.filter p := by rw [hl]; exact List.mem_cons_of_mem _ (List.mem_cons_self ..)
        have e := h a (List.mem_filter.1 ha).1 b (List.mem_filter.1 hb).1 (List.mem_filter.1 ha).2 (List.mem_filter.1 hb).2
        rw [hl] at hf
        exact (List.nodup_cons.1 hf).1 (e ▸ List.mem_cons_self ..)

theorem names_map {m : FModel} {l : List Id} {ns : List Str} (hl : ns.length = l.length)
    (h : ∀ (k : Nat) c f, l[k]? = some c → data m c = some (.feat f) → ns[k]? = some f.attr.name)
    (hfe : ∀ c ∈ l, ∃ f, data m c = some (.feat f)) : ns = l.map (fun c => (m.nameOf c).getD []) := by
  refine List.ext_getElem? ?_
  intro k
  cases hc : l[k]? with
  | none =>
    rw [List.getElem?_map, hc, List.getElem?_eq_none]
    · rfl
    · rw [hl]; exact List.getElem?_eq_none_iff.1 hc
  | some c =>
    obtain ⟨f, hf⟩ := hfe c (List.mem_of_getElem? hc)
    rw [h k c f hc hf, List.getElem?_map, hc, Option.map_some, nameOf_of_data hf]
    rfl

theorem addRelationship_ok {F : IntFloats} {m : FModel} (w : WF m) (L : Clear F m) {r : Id} (hr : r ∈ m.rels) (s : Z3Solver) :
    ∃ ts, addRelationship m s r = .ok { s with asserted := s.asserted ++ ts } ∧ ∀ a, Sat a ts ↔ RelOk m a r := by
  obtain ⟨k, hd⟩ := w.rel_ok r hr
  have hne : m.root ≠ some r := by
    intro h
    obtain ⟨f, hf⟩ := w.known_data (w.root_known h)
    rw [hd] at hf; cases hf
  cases hp : par m r with
  | none => exact absurd (w.orphan r (.inr hr) hp) hne
  | some p =>
    obtain ⟨g, hg, hgk⟩ := L.owner r p hr hp
    have hkp : Known m p := w.known_feat (w.par_edge r p (.inr hr) hp).1 ⟨g, hg⟩
    have hgn := L.names _ _ (w.entry_mem hkp hg)
    have hfe : ∀ c ∈ edg m r, ∃ f, data m c = some (.feat f) := fun c hc => by
      obtain ⟨g, hg, _⟩ := L.members r c hr hc
      exact ⟨g, hg⟩
    obtain ⟨ns, h1, h2, h3⟩ := mapM_nameOf hfe
    have hns := names_map h2 h3 hfe
    let nm : Id → Str := fun c => (m.nameOf c).getD []
    have hkc : ∀ c ∈ edg m r, Known m c := fun c hc =>
      w.known_feat (w.edge_par r c (.inr hr) hc).1 (hfe c hc)
    have hvs : ns.map cstr = (edg m r).map nm := by
      rw [hns, List.map_map]
      refine List.map_congr_left ?_
      intro c hc
      obtain ⟨f, hf⟩ := hfe c hc
      simp only [Function.comp, nm, nameOf_of_data hf, Option.getD_some]
      exact cstr_id (L.names _ _ (w.entry_mem (hkc c hc) hf))
    have hsel : ∀ (a : Assign), ∀ c ∈ edg m r, Selected m a c ↔ a.bool (nm c) = true := by
      intro a c hc
      obtain ⟨f, hf⟩ := hfe c hc
      simp only [nm, nameOf_of_data hf, Option.getD_some]
      constructor
      · rintro ⟨f', hf', h⟩
        rw [hf] at hf'; cases hf'; exact h
      · intro h; exact ⟨f, hf, h⟩
    have hselp : ∀ a : Assign, Selected m a p ↔ a.bool g.attr.name = true := by
      intro a
      constructor
      · rintro ⟨f', hf', h⟩
        rw [hg] at hf'; cases hf'; exact h
      · intro h; exact ⟨g, hg, h⟩
    have hinj : ∀ c ∈ edg m r, ∀ c' ∈ edg m r, nm c = nm c' → c = c' := by
      intro c hc c' hc' e
      obtain ⟨f, hf⟩ := hfe c hc
      obtain ⟨f', hf'⟩ := hfe c' hc'
      simp only [nm, nameOf_of_data hf, nameOf_of_data hf', Option.getD_some] at e
      exact w.name_inj (hkc c hc) (hkc c' hc') hf hf' e
    have hany : ∀ a : Assign, ((edg m r).map nm).any a.bool = true ↔ ∃ c, c ∈ edg m r ∧ Selected m a c := by
      intro a
      rw [List.any_map, List.any_eq_true]
      constructor
      · rintro ⟨c, hc, h⟩
        exact ⟨c, hc, (hsel a c hc).2 h⟩
      · rintro ⟨c, hc, h⟩
        exact ⟨c, hc, (hsel a c hc).1 h⟩
    have hatm : ∀ a : Assign, (((edg m r).map nm).filter a.bool).length ≤ 1 ↔
        ∀ x ∈ edg m r, ∀ y ∈ edg m r, Selected m a x → Selected m a y → x = y := by
      intro a
      have hnd := w.edges_nodup r (.inr hr)
      have : ((edg m r).map nm).filter a.bool = ((edg m r).filter (fun c => a.bool (nm c))).map nm := by
        rw [List.filter_map]; rfl
      rw [this, List.length_map, filter_le_one hnd]
      constructor
      · intro h x hx y hy sx sy
        exact h x hx y hy ((hsel a x hx).1 sx) ((hsel a y hy).1 sy)
      · intro h x hx y hy sx sy
        exact h x hx y hy ((hsel a x hx).2 sx) ((hsel a y hy).2 sy)
    unfold addRelationship
    rw [heap_of_data hd]
    simp only [hp, nameOf_of_data hg, h1, hvs, cstr_id hgn]
    cases k with
    | or =>
      refine ⟨_, rfl, ?_⟩
      intro a
      have hev : (ZTerm.bin .implies (.boolConst g.attr.name) (.orOf ((edg m r).map nm))).eval a = .bool true ↔
          (Selected m a p → ∃ c, c ∈ edg m r ∧ Selected m a c) := by
        rw [← hany, hselp]
        simp only [ZTerm.eval, ZOp.apply, ZVal.bool.injEq]
        cases a.bool g.attr.name <;> simp
      constructor
      · intro h p' hp' hs
        rw [hp] at hp'; cases hp'
        refine ⟨fun h => ?_, fun _ => ?_⟩
        · rw [hd] at h; cases h
        · exact hev.1 (h _ (List.mem_singleton.2 rfl)) hs
      · intro h t ht
        rw [List.mem_singleton.1 ht]
        exact hev.2 (fun hs => (h p hp hs).2 hd)
    | alternative =>
      have hnn : (edg m r).map nm ≠ [] := by
        intro e
        exact L.nonempty r hr hd (List.map_eq_nil_iff.1 e)
      simp only [if_neg hnn]
      refine ⟨_, rfl, ?_⟩
      intro a
      have hev : (ZTerm.bin .implies (.boolConst g.attr.name)
            (.bin .and (.atMost ((edg m r).map nm) 1) (.orOf ((edg m r).map nm)))).eval a = .bool true ↔
          (Selected m a p → (∀ x ∈ edg m r, ∀ y ∈ edg m r, Selected m a x → Selected m a y → x = y) ∧
            ∃ c, c ∈ edg m r ∧ Selected m a c) := by
        rw [← hany, hselp, ← hatm]
        simp only [ZTerm.eval, ZOp.apply, ZVal.bool.injEq]
        cases a.bool g.attr.name <;> simp
      constructor
      · intro h p' hp' hs
        rw [hp] at hp'; cases hp'
        refine ⟨fun _ => ?_, fun h => ?_⟩
        · obtain ⟨e1, c, hc, sc⟩ := hev.1 (h _ (List.mem_singleton.2 rfl)) hs
          exact ⟨c, hc, sc, fun c' hc' sc' => e1 c' hc' c hc sc' sc⟩
        · rw [hd] at h; cases h
      · intro h t ht
        rw [List.mem_singleton.1 ht]
        refine hev.2 (fun hs => ?_)
        obtain ⟨c, hc, sc, hu⟩ := (h p hp hs).1 hd
        exact ⟨fun x hx y hy sx sy => by rw [hu x hx sx, hu y hy sy], c, hc, sc⟩

/-! ### Constraints -/

theorem addConstraint_coded {m : FModel} (w : WF m) {c : Stored}
    (hs : sortOf (sortIn m) c.tree = some .bool) (hn : ∀ n ∈ c.tree.features, Char.ofNat 0 ∉ n)
    (hb : BindsOk m c.tree.features c.binds) (s : Z3Solver) :
    ∃ ts, addConstraint m s c = .ok { s with asserted := s.asserted ++ ts } ∧
      ∀ a, Sat a ts ↔ meaning (value m a) a.div0 (notBoth c.tree) = some (.bool true) := by
  obtain ⟨t, h1, h2, h3⟩ := visit_coded w c.tree hs hn c.binds [] hb (.boolVal false) rfl
  rw [List.append_nil] at h1
  refine ⟨[t], by simp [addConstraint, addVisited, h1, Z3Solver.assert, h2], ?_⟩
  intro a
  rw [(h3 a).1]
  constructor
  · intro h; rw [h t (List.mem_singleton.2 rfl)]
  · intro h t' ht'
    rw [List.mem_singleton.1 ht']
    exact Option.some.inj h

/-- `MixedHolds` with "not both" for exclusive or, the other parts of the constraint as they are. -/
def MixedCoded (m : FModel) (a : Assign) (c : Stored) : Prop :=
  ∀ i, c.info = some i → (i.reqAll = true → ∀ n ∈ c.tree.features, ¬ IsNum m n → a.bool n = true) →
    meaning (value01 m a) a.div0 (notBoth c.tree) = some (.bool i.positive)

theorem mixedCoded_iff {m : FModel} {a : Assign} {c : Stored} :
    MixedHolds m a { c with tree := notBoth c.tree } ↔ MixedCoded m a c := by
  simp only [MixedHolds, MixedCoded, features_notBoth]

theorem addMixed_coded {m : FModel} (w : WF m) {c : Stored}
    (hs : sortOf (fun _ => .int) c.tree = some .bool) (hn : ∀ n ∈ c.tree.features, Char.ofNat 0 ∉ n)
    (hb : BindsOk m c.tree.features c.binds) (hinf : c.info ≠ none) (s : Z3Solver) :
    ∃ ts, addMixed m s c =
        .ok { s with asserted := s.asserted ++ ts } ∧ ∀ a, Sat a ts ↔ MixedCoded m a c := by
  cases hi : c.info with
  | none => exact absurd hi hinf
  | some i =>
    obtain ⟨t, vars, h1, h2, h4, h3, h5⟩ := visit_mixed_coded w c.tree hs hn c.binds [] hb (.boolVal false) rfl
    rw [List.append_nil] at h1
    -- the term with its polarity
    have hpol : ∃ t', (if (!i.positive) = true then t.mkNot else some t) = some t' ∧ t'.sort = .bool ∧
        ∀ a, ∃ b, t'.eval a = .bool b ∧
          (b = true ↔ meaning (value01 m a) a.div0 (notBoth c.tree) = some (.bool i.positive)) := by
      cases hpos : i.positive with
      | true =>
        refine ⟨t, rfl, h2, ?_⟩
        intro a
        obtain ⟨e1, e2⟩ := h3 a
        rw [Fits, h2] at e2
        obtain ⟨b, hb⟩ := ZVal.of_bool e2
        exact ⟨b, hb, by rw [e1, hb]; simp⟩
      | false =>
        refine ⟨.not t, by simp [mkNot_some h2], rfl, ?_⟩
        intro a
        obtain ⟨e1, e2⟩ := h3 a
        rw [Fits, h2] at e2
        obtain ⟨b, hb⟩ := ZVal.of_bool e2
        exact ⟨!b, by simp [ZTerm.eval, hb], by rw [e1, hb]; simp⟩
    obtain ⟨t', p1, p2, p3⟩ := hpol
    have hv : ∀ a, ∃ y, vars.eval a = .bool y ∧
        (y = true ↔ ¬ (∀ n ∈ c.tree.features, ¬ IsNum m n → a.bool n = true)) := by
      intro a
      obtain ⟨y, y1, y2⟩ := h5 a false rfl
      exact ⟨y, y1, by simpa using y2⟩
    cases hreq : i.reqAll with
    | false =>
      refine ⟨[t'], by simp only [addMixed, hi, addMixedConstraint, addVisited, h1, p1, hreq]; simp [Z3Solver.assert, p2], ?_⟩
      intro a
      obtain ⟨b, b1, b2⟩ := p3 a
      constructor
      · intro h i' hi' _
        rw [hi] at hi'; cases hi'
        rw [← b2]
        have := h t' (List.mem_singleton.2 rfl)
        rw [b1] at this
        simpa using this
      · intro h t2 ht2
        rw [List.mem_singleton.1 ht2, b1]
        rw [b2.2 (h i hi (fun h => by rw [hreq] at h; cases h))]
    | true =>
      have hmk : ZTerm.mk .or vars t' = some (.bin .or vars t') := mk_some (by simp [h4, p2, ZOp.accepts])
      refine ⟨[.bin .or vars t'], by simp only [addMixed, hi, addMixedConstraint, addVisited, h1, p1, hreq]; simp [hmk, Z3Solver.assert, ZTerm.sort, ZOp.result], ?_⟩
      intro a
      obtain ⟨b, b1, b2⟩ := p3 a
      obtain ⟨y, y1, y2⟩ := hv a
      have hev : (ZTerm.bin .or vars t').eval a = .bool (y || b) := by simp [ZTerm.eval, y1, b1, ZOp.apply]
      constructor
      · intro h i' hi' hr
        rw [hi] at hi'; cases hi'
        have := h _ (List.mem_singleton.2 rfl)
        rw [hev] at this
        simp only [ZVal.bool.injEq, Bool.or_eq_true] at this
        rcases this with hy | hb
        · exact absurd (hr hreq) (y2.1 hy)
        · exact b2.1 hb
      · intro h t2 ht2
        rw [List.mem_singleton.1 ht2, hev]
        by_cases hall : ∀ n ∈ c.tree.features, ¬ IsNum m n → a.bool n = true
        · simp [b2.2 (h i hi (fun _ => hall))]
        · simp [y2.2 hall]

theorem addMixed_ok {m : FModel} (w : WF m) {c : Stored} (hx : NoXor c.tree)
    (hs : sortOf (fun _ => .int) c.tree = some .bool) (hn : ∀ n ∈ c.tree.features, Char.ofNat 0 ∉ n)
    (hb : BindsOk m c.tree.features c.binds) (hinf : c.info ≠ none) (s : Z3Solver) :
    ∃ ts, addMixed m s c =
        .ok { s with asserted := s.asserted ++ ts } ∧ ∀ a, Sat a ts ↔ MixedHolds m a c := by
  have h := addMixed_coded w hs hn hb hinf s
  simpa only [← mixedCoded_iff, notBoth_id hx] using h

/-! ### All together -/

theorem exists_fuel {α} {P : Nat → α → Prop} {l : List α} (h : ∀ x ∈ l, ∃ k, ∀ fuel, k ≤ fuel → P fuel x) :
    ∃ k, ∀ fuel, k ≤ fuel → ∀ x ∈ l, P fuel x := by
  induction l with
  | nil => exact ⟨0, fun _ _ x hx => by cases hx⟩
  | cons x xs ih =>
    obtain ⟨k1, h1⟩ := h x (List.mem_cons_self ..)
    obtain ⟨k2, h2⟩ := ih (fun y hy => h y (List.mem_cons_of_mem _ hy))
    refine ⟨max k1 k2, fun fuel hf y hy => ?_⟩
    rcases List.mem_cons.1 hy with rfl | hy
    · exact h1 fuel (by omega)
    · exact h2 fuel (by omega) y hy

theorem fuel_ok {F : IntFloats} {m : FModel} (L : Clear F m) {i : Id} (hi : Known m i) : ∃ k, ∀ fuel, k ≤ fuel → FuelOk F m fuel i := by
  by_cases h : ∃ f lo hi st, data m i = some (.feat f) ∧ f.attr.kind = .numeric (.range lo hi) st
  · obtain ⟨f, lo, hi', st, hf, hk⟩ := h
    obtain ⟨vs, h1, k, h2⟩ := rangeLoop_ends (L.ranges i f lo hi' st hi hf hk)
    refine ⟨k, fun fuel hfu f' lo' hi'' st' hf' hk' => ?_⟩
    rw [hf] at hf'; cases hf'
    rw [hk] at hk'; cases hk'
    exact ⟨vs, h1, by rw [h2 fuel hfu, List.append_nil]⟩
  · refine ⟨0, fun fuel _ f lo hi' st hf hk => ?_⟩
    exact absurd ⟨f, lo, hi', st, hf, hk⟩ h

/-! ### Models with "not both" for exclusive or -/

theorem fparent_notBoth {m : FModel} {i p : Id} : FParent (notBothIn m) i p ↔ FParent m i p := by
  constructor
  · intro h
    induction h with
    | direct h1 h2 => exact .direct h1 h2
    | skip h1 h2 _ ih => exact .skip h1 h2 ih
  · intro h
    induction h with
    | direct h1 h2 => exact .direct h1 h2
    | skip h1 h2 _ ih => exact .skip h1 h2 ih

theorem notBothIn_id {m : FModel} (h : ∀ c ∈ allStored m, NoXor c.tree) : notBothIn m = m := by
  have hm : ∀ l : List Stored, (∀ c ∈ l, NoXor c.tree) → (l.map fun c => { c with tree := notBoth c.tree }) = l := by
    intro l hl
    induction l with
    | nil => rfl
    | cons c l ih =>
      rw [List.map_cons, notBoth_id (hl c (by simp)), ih (fun x hx => hl x (by simp [hx]))]
  unfold notBothIn
  rw [hm _ (fun c hc => h c (by simp [allStored, hc])), hm _ (fun c hc => h c (by simp [allStored, hc])),
    hm _ (fun c hc => h c (by simp [allStored, hc]))]

/-- Validity, the constraints apart. -/
structure TreeValid (F : IntFloats) (m : FModel) (a : Assign) : Prop where
  root : ∀ r, m.root = some r → Selected m a r
  parent : ∀ i f p, Known m i → data m i = some (.feat f) → f.attr.kind = .binary → FParent m i p →
    Selected m a i → Selected m a p
  mandatory : ∀ i f p, Known m i → data m i = some (.feat f) → f.attr.kind = .binary → f.attr.opt = false →
    par m i = some p → IsFeat m p → Selected m a p → Selected m a i
  alternative : ∀ r p, r ∈ m.rels → data m r = some (.rel .alternative) → par m r = some p → Selected m a p →
    ∃ c, c ∈ edg m r ∧ Selected m a c ∧ ∀ c', c' ∈ edg m r → Selected m a c' → c' = c
  or : ∀ r p, r ∈ m.rels → data m r = some (.rel .or) → par m r = some p → Selected m a p →
    ∃ c, c ∈ edg m r ∧ Selected m a c
  numeric : ∀ i f vs st, Known m i → data m i = some (.feat f) → f.attr.kind = .numeric vs st →
    Allowed F vs st (a.int f.attr.name)

theorem valid_notBoth {F : IntFloats} {m : FModel} {a : Assign} : Valid F (notBothIn m) a ↔
    TreeValid F m a ∧ (∀ c ∈ m.booleans ++ m.nonBooleans, meaning (value m a) a.div0 (notBoth c.tree) = some (.bool true)) ∧
    ∀ c ∈ m.mixeds, MixedHolds m a { c with tree := notBoth c.tree } := by
  constructor
  · intro v
    refine ⟨⟨v.root, fun i f p h1 h2 h3 h4 => v.parent i f p h1 h2 h3 (fparent_notBoth.2 h4), v.mandatory, v.alternative, v.or,
      v.numeric⟩, ?_, ?_⟩
    · intro c hc
      refine v.boolean { c with tree := notBoth c.tree } ?_
      rcases List.mem_append.1 hc with hc | hc
      · exact List.mem_append_left _ (List.mem_map.2 ⟨c, hc, rfl⟩)
      · exact List.mem_append_right _ (List.mem_map.2 ⟨c, hc, rfl⟩)
    · intro c hc
      exact v.mixed _ (List.mem_map.2 ⟨c, hc, rfl⟩)
  · rintro ⟨v, h1, h2⟩
    refine ⟨v.root, fun i f p h1 h2 h3 h4 => v.parent i f p h1 h2 h3 (fparent_notBoth.1 h4), v.mandatory, v.alternative, v.or,
      v.numeric, ?_, ?_⟩
    · intro c hc
      rcases List.mem_append.1 hc with hc | hc
      · obtain ⟨d, hd, rfl⟩ := List.mem_map.1 hc
        exact h1 d (List.mem_append_left _ hd)
      · obtain ⟨d, hd, rfl⟩ := List.mem_map.1 hc
        exact h1 d (List.mem_append_right _ hd)
    · intro c hc
      obtain ⟨d, hd, rfl⟩ := List.mem_map.1 hc
      exact h2 d hd

theorem wf_notBoth {m : FModel} (w : WF m) : WF (notBothIn m) := by
  have hb : ∀ {i j}, Below m i j → Below (notBothIn m) i j := by
    intro i j h
    induction h with
    | refl => exact .refl
    | step h1 h2 ih => exact .step h1 ih
  exact ⟨w.root_ok, w.names, w.feat_ok, w.rels_nodup, w.rel_ok, w.par_edge, w.edge_par, w.edges_nodup, w.orphan, w.one_root,
    fun i r h1 h2 => hb (w.reach i r h1 h2), w.fresh⟩

theorem mem_notBoth {m : FModel} {c : Stored} (h : c ∈ allStored (notBothIn m)) :
    ∃ d ∈ allStored m, c = { d with tree := notBoth d.tree } := by
  unfold allStored at h ⊢
  simp only [notBothIn, ← List.map_append] at h
  obtain ⟨d, hd, rfl⟩ := List.mem_map.1 h
  exact ⟨d, hd, rfl⟩

theorem bindsOk_notBoth {m : FModel} : ∀ {ns : List Str} {bs : List (Option Id)}, BindsOk m ns bs → BindsOk (notBothIn m) ns bs
  | [], [], _ => trivial
  | _ :: _, _ :: _, h => ⟨h.1, bindsOk_notBoth h.2⟩
  | [], _ :: _, h => h
  | _ :: _, [], h => h

theorem clear_notBoth {F : IntFloats} {m : FModel} (L : Clear F m) : Loadable F (notBothIn m) where
  names := L.names
  leaves := fun c hc n hn => by
    obtain ⟨d, hd, rfl⟩ := mem_notBoth hc
    exact L.leaves d hd n (by rwa [features_notBoth] at hn)
  known := L.known
  ranges := L.ranges
  parents := fun i f p g vs st h1 h2 h3 h4 => L.parents i f p g vs st h1 h2 h3 (fparent_notBoth.1 h4)
  owner := L.owner
  members := L.members
  nonempty := L.nonempty
  binds := fun c hc => by
    obtain ⟨d, hd, rfl⟩ := mem_notBoth hc
    simp only [features_notBoth]
    exact bindsOk_notBoth (L.binds d hd)
  noXor := fun c hc => by
    obtain ⟨d, hd, rfl⟩ := mem_notBoth hc
    exact noXor_notBoth _
  sorts := fun c hc => by
    simp only [notBothIn, ← List.map_append] at hc
    obtain ⟨d, hd, rfl⟩ := List.mem_map.1 hc
    simp only [sortOf_notBoth]
    exact L.sorts d hd
  mixedSorts := fun c hc => by
    obtain ⟨d, hd, rfl⟩ := List.mem_map.1 hc
    simp only [sortOf_notBoth]
    exact L.mixedSorts d hd
  infos := fun c hc => by
    obtain ⟨d, hd, rfl⟩ := List.mem_map.1 hc
    exact L.infos d hd

/-- Loading a model asserts exactly that a configuration is valid with "not both" for exclusive or. -/
theorem initSolver_coded {F : IntFloats} {m : FModel} (w : WF m) (L : Clear F m) (E : Env) :
    ∃ k l, m.iterate E = some l ∧ l.Nodup ∧ (∀ x, x ∈ l ↔ Known m x) ∧ ∀ fuel, k ≤ fuel → ∃ ts,
      initSolver E F fuel m = .ok { options := l.map (optEntry m), asserted := ts, current := none, checks := 0 } ∧
      ∀ a, Sat a ts ↔ Valid F (notBothIn m) a := by
  obtain ⟨root, l, hroot, hit, _, hnd, hmem, hord⟩ := Props.C25_preorder w E
  obtain ⟨V, hV, hVm⟩ := groupNames_ok w L
  obtain ⟨k, hk⟩ := exists_fuel (P := FuelOk F m) (l := l) (fun i hi => fuel_ok L ((hmem i).1 hi))
  refine ⟨k, l, hit, hnd, hmem, fun fuel hfuel => ?_⟩
  have hpar : ∀ d i r, l = d ++ i :: r → ∀ p, FParent m i p → p ∈ [] ++ d := by
    intro d i r e p hp
    have hkp := fparent_fst w (.inl ((hmem i).1 (by rw [e]; simp))) hp
    have hpl : p ∈ l := (hmem p).2 hkp
    rw [e] at hpl hord
    rw [List.nil_append]
    rcases List.mem_append.1 hpl with h | h
    · exact h
    · exfalso
      rcases List.mem_cons.1 h with rfl | h
      · have hlt := (w.via_known hkp ((via_iff_fparent w (.inl hkp) (w.known_data hkp)).2 ⟨hkp, hp⟩)).2.2.2
        omega
      · have := (List.pairwise_append.1 hord).2.1
        exact (List.pairwise_cons.1 this).1 p h (fparent_isBelow hp)
  obtain ⟨t1, e1, s1⟩ := forEach_features w L (fuel := fuel)
    (inNames m V) l []
    (by simpa using fun j hj => (hmem j).1 hj) (by simpa using hnd) hpar (fun i hi => hk fuel hfuel i hi) {} rfl
  simp only [List.nil_append] at e1
  have hcon := fun c (hc : c ∈ m.booleans ++ m.nonBooleans) => addConstraint_coded w (L.sorts c hc)
    (L.leaves c (List.mem_append_left _ hc)) (L.binds c (List.mem_append_left _ hc))
  obtain ⟨t2, e2, s2⟩ := forEach_asserts (f := addConstraint m) (l := m.booleans)
    (fun c hc => hcon c (List.mem_append_left _ hc)) { options := l.map (optEntry m), asserted := t1 }
  obtain ⟨t3, e3, s3⟩ := forEach_asserts (f := addConstraint m) (l := m.nonBooleans)
    (fun c hc => hcon c (List.mem_append_right _ hc)) { options := l.map (optEntry m), asserted := t1 ++ t2 }
  obtain ⟨t4, e4, s4⟩ := forEach_asserts (l := m.mixeds)
    (fun c hc s => addMixed_coded w (L.mixedSorts c hc)
      (L.leaves c (List.mem_append_right _ hc)) (L.binds c (List.mem_append_right _ hc)) (L.infos c hc) s) { options := l.map (optEntry m), asserted := t1 ++ t2 ++ t3 }
  obtain ⟨t5, e5, s5⟩ := forEach_asserts (f := addRelationship m) (l := m.rels)
    (fun r hr s => addRelationship_ok w L hr s) { options := l.map (optEntry m), asserted := t1 ++ t2 ++ t3 ++ t4 }
  refine ⟨t1 ++ t2 ++ t3 ++ t4 ++ t5, ?_, ?_⟩
  · unfold initSolver applyModel
    simp only [hV, hit, e1, SRes.andThen, e2, e3, e4, e5]
  · intro a
    simp only [sat_append, s1, s2, s3, s4, s5, valid_notBoth, mixedCoded_iff]
    have hdata : ∀ i, Known m i → ∃ f, data m i = some (.feat f) := fun i hi => w.known_data hi
    have hgroup : ∀ i f, Known m i → data m i = some (.feat f) →
        (inNames m V i = false ↔ ∃ p, (par m i = some p ∧ IsFeat m p) ∨ m.root = some i) := by
      intro i f hi hf
      simp only [inNames, nameOf_of_data hf, decide_eq_false_iff_not, hVm i f hi hf]
      constructor
      · intro h
        cases hp : par m i with
        | none => exact ⟨0, .inr (w.orphan i (.inl hi) hp)⟩
        | some p =>
          refine ⟨p, .inl ⟨rfl, ?_⟩⟩
          obtain ⟨d, hd⟩ := w.owned_data (w.par_edge i p (.inl hi) hp).1
          cases d with
          | feat g => exact ⟨g, hd⟩
          | rel k => exact absurd ⟨p, hp, k, hd⟩ h
      · rintro ⟨p, ⟨hp, g, hg⟩ | hr⟩ ⟨q, hq, k, hk⟩
        · rw [hp] at hq; cases hq
          rw [hg] at hk; cases hk
        · obtain ⟨r, g, h1, h2, h3, h4, h5⟩ := w.root_ok
          rw [hr] at h1; cases h1
          rw [h5] at hq; cases hq
    constructor
    · rintro ⟨⟨⟨⟨hf, hb⟩, hnb⟩, hmx⟩, hrel⟩
      refine ⟨⟨?_, ?_, ?_, ?_, ?_, ?_⟩, ?_, hmx⟩
      · intro r hr
        obtain ⟨r', g, h1, h2, h3, h4, _⟩ := w.root_ok
        rw [hr] at h1; cases h1
        exact ⟨g, h3, ((hf r ((hmem r).2 h2)) g h3).1 h4⟩
      · intro i f p hi hd hk hp hs
        obtain ⟨g, hg⟩ := hdata p (fparent_fst w (.inl hi) hp)
        obtain ⟨f', hf', hs⟩ := hs
        rw [hd] at hf'; cases hf'
        exact ⟨g, hg, ((hf i ((hmem i).2 hi) f hd).2.1 hk p g hp hg).1 hs⟩
      · intro i f p hi hd hk ho hp hpf hs
        obtain ⟨g, hg, hs⟩ := hs
        exact ⟨f, hd, ((hf i ((hmem i).2 hi) f hd).2.1 hk p g (.direct hp hpf) hg).2
          ((hgroup i f hi hd).2 ⟨p, .inl ⟨hp, hpf⟩⟩) ho hs⟩
      · intro r p hr hd hp hs
        exact (hrel r hr p hp hs).1 hd
      · intro r p hr hd hp hs
        exact (hrel r hr p hp hs).2 hd
      · intro i f vs st hi hd hk
        exact ((hf i ((hmem i).2 hi) f hd).2.2 vs st hk)
      · intro c hc
        rcases List.mem_append.1 hc with hc | hc
        · exact hb c hc
        · exact hnb c hc
    · rintro ⟨v, vb, vm⟩
      refine ⟨⟨⟨⟨?_, fun c hc => vb c (List.mem_append_left _ hc)⟩,
        fun c hc => vb c (List.mem_append_right _ hc)⟩, vm⟩, ?_⟩
      · intro i hi f hd
        have hi := (hmem i).1 hi
        have sel : ∀ j g, data m j = some (.feat g) → (Selected m a j ↔ a.bool g.attr.name = true) := by
          intro j g hg
          constructor
          · rintro ⟨g', hg', h⟩
            rw [hg] at hg'; cases hg'; exact h
          · intro h; exact ⟨g, hg, h⟩
        refine ⟨?_, ?_, ?_⟩
        · intro hk
          exact (sel i f hd).1 (v.root i (w.one_root i f hi hd hk))
        · intro hk p g hp hg
          refine ⟨fun h => (sel p g hg).1 (v.parent i f p hi hd hk hp ((sel i f hd).2 h)), ?_⟩
          intro hgr ho hs
          obtain ⟨q, ⟨hq, hqf⟩ | hr⟩ := (hgroup i f hi hd).1 hgr
          · have : q = p := by
              cases hp with
              | direct h _ => rw [hq] at h; cases h; rfl
              | skip h hr _ =>
                rw [hq] at h; cases h
                obtain ⟨k, hk⟩ := hr
                obtain ⟨g', hg'⟩ := hqf
                rw [hk] at hg'; cases hg'
            subst this
            exact (sel i f hd).1 (v.mandatory i f q hi hd hk ho hq hqf ((sel q g hg).2 hs))
          · obtain ⟨r, g', h1, h2, h3, h4, h5⟩ := w.root_ok
            rw [hr] at h1; cases h1
            rw [hd] at h3; cases h3
            rw [hk] at h4; cases h4
        · intro vs st hk
          exact v.numeric i f vs st hi hd hk
      · intro r hr p hp hs
        exact ⟨fun hd => v.alternative r p hr hd hp hs, fun hd => v.or r p hr hd hp hs⟩

/-- Loading a model without exclusive or asserts exactly that a configuration is valid. -/
theorem initSolver_ok {F : IntFloats} {m : FModel} (w : WF m) (L : Loadable F m) (E : Env) :
    ∃ k l, m.iterate E = some l ∧ l.Nodup ∧ (∀ x, x ∈ l ↔ Known m x) ∧ ∀ fuel, k ≤ fuel → ∃ ts,
      initSolver E F fuel m = .ok { options := l.map (optEntry m), asserted := ts, current := none, checks := 0 } ∧
      ∀ a, Sat a ts ↔ Valid F m a := by
  have h := initSolver_coded w L.toClear E
  rwa [notBothIn_id L.noXor] at h

end Verif

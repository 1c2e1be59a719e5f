import Verif.Merge.Again
import Verif.Merge.Desc
import Verif.FM.Script
/-! Lemmas: the description of a merged model. -/

namespace Verif
open Verif.Spec

variable {d d2 : Desc} {m m1 m2 c0 c : FModel}

/-- A feature is in a group exactly if the description says so for its parent. -/
theorem inGroup_iff (h : Describes d m) {a : Attr} (ha : a ∈ d.attrs) {i : Id} (hi : (a.name, i) ∈ m.features) :
    Spec.InGroup m i ↔ d.Grouped (d.parent a.name) := by
  obtain ⟨i', f, p, h1, h2, h3, h4, h5⟩ := h.feat a ha
  have := h.wf.entry_unique hi h1; subst this
  constructor
  · rintro ⟨r, hr, hrel⟩
    have ho := (h.wf.par_edge i r (.inl (known_of_mem hi)) hr).1
    obtain ⟨n, k, q, b1, b2, b3⟩ := h.rels r (h.wf.owned_rel ho hrel)
    have : FParent m i q := .skip hr hrel (.direct b3 (by obtain ⟨g, hg, _⟩ := h.wf.feat_ok _ b2; exact ⟨g, hg⟩))
    have := this.functional h5; subst this
    have := h.wf.id_unique b2 h4; subst this
    exact ⟨k, b1⟩
  · rintro ⟨k, hk⟩
    obtain ⟨r, b1, b2, b3⟩ := h.grouped _ k p hk h4
    obtain ⟨q, hq⟩ : ∃ q, par m i = some q := by
      cases hp : par m i with
      | some q => exact ⟨q, rfl⟩
      | none =>
        cases h5 with
        | direct a _ => rw [hp] at a; cases a
        | skip a _ _ => rw [hp] at a; cases a
    refine ⟨q, hq, ?_⟩
    cases h5 with
    | direct a e =>
      have := (h.wf.par_edge i p (.inl (known_of_mem hi)) a).2
      rw [b1] at this
      have := List.mem_singleton.1 this; subst this
      rw [b2] at h2; cases h2
    | skip a e _ =>
      rw [hq] at a; cases a
      exact e

theorem parent_name (h : Describes d m) {a : Attr} (ha : a ∈ d.attrs) {i p : Id} {pn : Str} (hi : (a.name, i) ∈ m.features)
    (hp : FParent m i p) (hpn : (pn, p) ∈ m.features) : pn = d.parent a.name := by
  obtain ⟨i', f, q, h1, h2, h3, h4, h5⟩ := h.feat a ha
  have := h.wf.entry_unique hi h1; subst this
  have := hp.functional h5; subst this
  exact h.wf.id_unique hpn h4

theorem attr_not_root (h : Describes d m) {a : Attr} (ha : a ∈ d.attrs) : a.kind ≠ .root := by
  intro hk
  obtain ⟨i, f, p, h1, h2, h3, h4, h5⟩ := h.feat a ha
  obtain ⟨r, rf, r1, r2, _⟩ := h.root
  have := h.wf.one_root i f (known_of_mem h1) h2 (by rw [h3]; exact hk)
  rw [r1] at this; cases this
  have := h.wf.id_unique h1 r2
  exact h.root_new (this ▸ List.mem_map_of_mem ha)

/-- Whether two models can be merged can be seen from their descriptions. -/
theorem mergeable_iff (h : Describes d m1) (h2 : Describes d2 m2) (hr : d.root = d2.root) (strict : Bool) :
    (∀ j, Known m2 j → Mergeable strict m1 m2 j) ↔ Desc.Takes strict d d2 := by
  constructor
  · intro hm b hb
    obtain ⟨j, g, q, b1, b2, b3, b4, b5⟩ := h2.feat b hb
    obtain ⟨n, g', e1, e2, e3⟩ := hm j (known_of_mem b1)
    have := h2.wf.id_unique e1 b1; subst this
    rw [b2] at e2; cases e2
    constructor
    · intro a ha hab
      obtain ⟨i, f, p, a1, a2, a3, a4, a5⟩ := h.feat a ha
      rcases e3 with ⟨i', f1, f', g', f2, f3, f4, f5⟩ | ⟨e, _⟩
      · have := h.wf.entry_unique f1 (hab ▸ a1); subst this
        rw [a2] at f2; cases f2
        rw [b2] at f3; cases f3
        constructor
        · rcases f4 with x | x | ⟨p', q', pn, qn, x1, x2, x3, x4, x5⟩
          · rw [a3] at x; exact absurd x (attr_not_root h ha)
          · rw [b3] at x; exact absurd x (attr_not_root h2 hb)
          · rw [← parent_name h ha a1 x1 x3, ← parent_name h2 hb b1 x2 x4]; exact x5
        · intro hs
          obtain ⟨y1, y2, y3⟩ := f5 hs
          rw [a3, b3] at y1 y2
          refine ⟨y1, y2, ?_⟩
          rcases y3 with y3 | y3
          · rw [a3] at y3; exact absurd y3 (attr_not_root h ha)
          · rw [← inGroup_iff h ha a1, ← inGroup_iff h2 hb b1]; exact y3
      · exact absurd (hab ▸ a1) (e i)
    · intro hno hu
      rcases e3 with ⟨i', f1, _⟩ | ⟨_, e⟩
      · rcases (h.names b.name).1 ⟨i', f1⟩ with x | x
        · exact h2.root_new (hr ▸ x ▸ List.mem_map_of_mem hb)
        · obtain ⟨a, ha, hab⟩ := List.mem_map.1 x
          exact hno a ha hab
      · rw [b3] at e; exact e hu
  · intro ht j hj
    obtain ⟨n, hn⟩ := known_name hj
    obtain ⟨g, hg, gn⟩ := h2.wf.feat_ok _ hn
    simp only at hg gn
    refine ⟨n, g, hn, hg, ?_⟩
    rcases (h2.names n).1 ⟨j, hn⟩ with x | x
    · obtain ⟨r, rf, r1, r2, r3, r4⟩ := h.root
      obtain ⟨s, sf, s1, s2, s3, s4⟩ := h2.root
      subst x
      have := h2.wf.entry_unique hn s2; subst this
      rw [hg] at s3; cases s3
      refine .inl ⟨r, hr ▸ r2, rf, g, r3, hg, .inl (by rw [r4]), fun _ => ⟨by rw [r4, s4], by rw [r4, s4]; trivial, .inl (by rw [r4])⟩⟩
    · obtain ⟨b, hb, rfl⟩ := List.mem_map.1 x
      obtain ⟨j', g', q, b1, b2, b3, b4, b5⟩ := h2.feat b hb
      have := h2.wf.entry_unique hn b1; subst this
      rw [hg] at b2; cases b2
      obtain ⟨t1, t2⟩ := ht b hb
      by_cases hin : ∃ a ∈ d.attrs, a.name = b.name
      · obtain ⟨a, ha, hab⟩ := hin
        obtain ⟨i, f, p, a1, a2, a3, a4, a5⟩ := h.feat a ha
        obtain ⟨u1, u2⟩ := t1 a ha hab
        refine .inl ⟨i, hab ▸ a1, f, g, a2, hg, .inr (.inr ⟨p, q, _, _, a5, b5, a4, b4, u1⟩), fun hs => ?_⟩
        obtain ⟨v1, v2, v3⟩ := u2 hs
        rw [a3, b3]
        exact ⟨v1, v2, .inr (by rw [inGroup_iff h ha a1, inGroup_iff h2 hb b1]; exact v3)⟩
      · refine .inr ⟨fun i hi => ?_, by rw [b3]; exact t2 fun a ha e => hin ⟨a, ha, e⟩⟩
        rcases (h.names b.name).1 ⟨i, hi⟩ with y | y
        · exact h2.root_new (hr ▸ y ▸ List.mem_map_of_mem hb)
        · obtain ⟨a, ha, hab⟩ := List.mem_map.1 y
          exact hin ⟨a, ha, hab⟩

theorem withLocs_name (a b : Attr) : (withLocs a b).name = a.name := by
  unfold withLocs; exact clonedAttr_name a

theorem gives_name (d2 : Desc) (a : Attr) : (d2.gives a).name = a.name := by
  unfold Desc.gives
  split
  · exact withLocs_name a _
  · exact clonedAttr_name a

theorem merged_attr_names (d d2 : Desc) : (d.merged d2).attrs.map Attr.name = d.attrs.map Attr.name ++
    (d2.attrs.filter fun b => decide (b.name ∉ d.attrs.map Attr.name)).map Attr.name := by
  show (_ ++ _ : List Attr).map _ = _
  rw [List.map_append, List.map_map, List.map_map]
  congr 1
  · exact List.map_congr_left fun a _ => gives_name d2 a
  · exact List.map_congr_left fun a _ => clonedAttr_name a

/-- The merged model is as described. -/
theorem merged_is (h : Describes d m1) (hk : ConstraintsKnown d) (h2 : Describes d2 m2) (hr : d.root = d2.root)
    (ho : d.OutsideGroups d2) (h' : Describes d.cloned c0) (h0 : ∀ n, (∃ i, (n, i) ∈ c0.features) ↔ ∃ i, (n, i) ∈ m1.features)
    (hi : MergeInv m1 m2 c0 c (Known m2)) : Describes (d.merged d2) c ∧ ConstraintsKnown (d.merged d2) := by
  have M := merged_of_inv h h' h0 h2.wf hi
  have w0 := h'.wf
  have hw := hi.wf
  have hroots : ∀ n r r', m1.root = some r → (n, r) ∈ m1.features → (n, r') ∈ m2.features → m2.root = some r' := by
    intro n r r' e1 e2 e3
    obtain ⟨x, _, x1, x2, _⟩ := h.root
    obtain ⟨y, _, y1, y2, _⟩ := h2.root
    rw [e1] at x1; cases x1
    have := h.wf.id_unique e2 x2; subst this
    have := h2.wf.entry_unique e3 (hr ▸ y2); subst this
    exact y1
  have hb2 : RootBare m2 := by
    intro i f e1 e2
    obtain ⟨y, yf, y1, y2, y3, y4⟩ := h2.root
    rw [e1] at y1; cases y1
    rw [e2] at y3; cases y3
    rw [y4]
  have hbare := merged_bare h h2.wf h' hi hb2 hroots
  have hfirst : ∀ n, n ∈ d.attrs.map Attr.name ∨ n = d.root ↔ ∃ i, (n, i) ∈ m1.features := fun n => by
    rw [h.names]; exact Or.comm
  -- nodes that were not in the copy are features, with a parent outside of groups
  have hnew : ∀ x, Owned c x → Owned c0 x ∨ (Known c x ∧ ∃ n p, par c x = some p ∧ (n, p) ∈ c.features ∧ ¬ d.Grouped n) := by
    intro x hx
    rcases hx with hx | hx
    · obtain ⟨n, hn⟩ := known_name hx
      rcases hi.names n x hn with a | ⟨j, _, a⟩
      · exact .inl (.inl (known_of_mem a))
      · by_cases hin : ∃ i, (n, i) ∈ m1.features
        · obtain ⟨y, hy⟩ := (h0 n).2 hin
          have := hw.entry_unique hn (hi.sub _ hy); subst this
          exact .inl (.inl (known_of_mem hy))
        · obtain ⟨g, hg, gn⟩ := h2.wf.feat_ok _ a
          obtain ⟨i', f', p1, p2, p3, p4⟩ := M.second n j g a hg (fun i b => hin ⟨i, b⟩)
          have := hw.entry_unique hn p1; subst this
          have hn2 : n ∈ d2.attrs.map Attr.name := by
            rcases (h2.names n).1 ⟨j, a⟩ with e | e
            · exact absurd ((hfirst n).1 (.inr (e.trans hr.symm))) hin
            · exact e
          obtain ⟨b, hb, rfl⟩ := List.mem_map.1 hn2
          obtain ⟨j', g', q, b1, b2, b3, b4, b5⟩ := h2.feat b hb
          have := h2.wf.entry_unique a b1; subst this
          obtain ⟨p', q1, q2⟩ := p4 q _ b5 b4
          exact .inr ⟨hx, _, p', q1, q2, ho b hb (fun e => hin ((hfirst _).1 (.inl e)))⟩
    · exact .inl (.inr (hi.rels ▸ hx))
  have hsub : ∀ x, Owned c0 x → Owned c x := by
    rintro x (hx | hx)
    · obtain ⟨n, hn⟩ := known_name hx
      exact .inl (known_of_mem (hi.sub _ hn))
    · exact .inr (hi.rels.symm ▸ hx)
  have hfeat : ∀ x, Owned c0 x → (IsFeat c0 x ↔ IsFeat c x) := by
    rintro x (hx | hx)
    · obtain ⟨n, hn⟩ := known_name hx
      obtain ⟨f, hf, _⟩ := w0.feat_ok _ hn
      obtain ⟨ls, a, _⟩ := hi.old n x f hn hf
      exact ⟨fun _ => ⟨_, a⟩, fun _ => ⟨_, hf⟩⟩
    · unfold IsFeat; rw [hi.rel x hx]
  have hold : ∀ n i, (n, i) ∈ c.features → d.Has n → (n, i) ∈ c0.features := by
    intro n i hn hh
    obtain ⟨x, hx⟩ := (h0 n).2 ((h.names n).2 hh)
    rwa [hw.entry_unique hn (hi.sub _ hx)]
  have hnames : ∀ n, (∃ i, (n, i) ∈ c.features) ↔ n = d.root ∨ n ∈ (d.merged d2).attrs.map Attr.name := by
    intro n
    rw [M.names, h.names, h2.names, merged_attr_names, List.mem_append, List.mem_map (l := d2.attrs.filter _)]
    constructor
    · rintro ((e | e) | (e | e))
      · exact .inl e
      · exact .inr (.inl e)
      · exact .inl (e.trans hr.symm)
      · by_cases hx : n ∈ d.attrs.map Attr.name
        · exact .inr (.inl hx)
        · obtain ⟨b, hb, rfl⟩ := List.mem_map.1 e
          exact .inr (.inr ⟨b, List.mem_filter.2 ⟨hb, decide_eq_true hx⟩, rfl⟩)
    · rintro (e | e | ⟨b, hb, rfl⟩)
      · exact .inl (.inl e)
      · exact .inl (.inr e)
      · exact .inr (.inr (List.mem_map_of_mem (List.mem_filter.1 hb).1))
  have hhas : ∀ n, d.Has n → n = d.root ∨ n ∈ (d.merged d2).attrs.map Attr.name := by
    rintro n (e | e)
    · exact .inl e
    · exact .inr (by rw [merged_attr_names]; exact List.mem_append_left _ e)
  refine ⟨?_, ?_⟩
  · refine
      { wf := hw
        bound := hi.bound
        name := M.name.trans h.name
        path := M.path.trans h.path
        commit := M.commit.trans h.commit
        distinct := ?_
        root_new := ?_
        names := hnames
        root := ?_
        feat := ?_
        groups_known := fun g hg => hhas _ (h.groups_known g hg)
        grouped := ?_
        ungrouped := ?_
        rels := ?_
        store := ?_
        registered := merged_registered h hk h2.wf h' h0 hi }
    · rw [merged_attr_names]
      refine List.nodup_append.2 ⟨h.distinct, ?_, ?_⟩
      · exact h2.distinct.sublist (List.filter_sublist.map _)
      · intro x hx y hy e
        subst e
        obtain ⟨b, hb, rfl⟩ := List.mem_map.1 hy
        exact of_decide_eq_true (List.mem_filter.1 hb).2 hx
    · show d.root ∉ _
      rw [merged_attr_names, List.mem_append]
      rintro (e | e)
      · exact h.root_new e
      · obtain ⟨b, hb, e⟩ := List.mem_map.1 e
        exact h2.root_new (hr ▸ e ▸ List.mem_map_of_mem (List.mem_filter.1 hb).1)
    · obtain ⟨n, i, r, e1, e2, e3, e4⟩ := M.root
      obtain ⟨x, _, x1, x2, _⟩ := h.root
      rw [e1] at x1; cases x1
      have := h.wf.id_unique e2 x2; subst this
      obtain ⟨f, hf, fn⟩ := hw.feat_ok _ e4
      have := hbare r f e3 hf
      exact ⟨r, f, e3, e4, hf, by rw [this, fn]; rfl⟩
    · intro a ha
      rcases List.mem_append.1 ha with ha | ha
      · obtain ⟨a0, ha0, rfl⟩ := List.mem_map.1 ha
        obtain ⟨i, f, p, a1, a2, a3, a4, a5⟩ := h.feat a0 ha0
        obtain ⟨i', f', ls, b1, b2, b3, b4, b5, b6⟩ := M.first _ i f a1 a2
        obtain ⟨p', p1, p2⟩ := b6 p _ a5 a4
        have hpar : (d.merged d2).parent a0.name = d.parent a0.name := if_pos (List.mem_map_of_mem ha0)
        have key : ∀ a' : Attr, a'.name = a0.name → f'.attr = a' → ∃ i f p, (a'.name, i) ∈ c.features ∧ data c i = some (.feat f) ∧
            f.attr = a' ∧ ((d.merged d2).parent a'.name, p) ∈ c.features ∧ FParent c i p := by
          intro a' e1 e2
          rw [e1, hpar]
          exact ⟨i', f', p', b1, b2, e2, p2, p1⟩
        refine key _ (gives_name d2 a0) ?_
        unfold Desc.gives
        cases hfd : d2.attrs.find? fun b => decide (b.name = a0.name) with
        | some b =>
          have hb := List.mem_of_find?_eq_some hfd
          have hbn : b.name = a0.name := of_decide_eq_true (List.find?_some (p := fun b : Attr => decide (b.name = a0.name)) hfd)
          obtain ⟨j, g, q, g1, g2, g3, _⟩ := h2.feat b hb
          rw [b3, b4 j g (hbn ▸ g1) g2]
          unfold newLocs withLocs
          rw [a3, g3]
        | none =>
          have := b5 (fun j hj => by
            rcases (h2.names _).1 ⟨j, hj⟩ with e | e
            · exact h.root_new (hr.trans e.symm ▸ List.mem_map_of_mem ha0)
            · obtain ⟨b, hb, e⟩ := List.mem_map.1 e
              have := List.find?_eq_none.1 hfd b hb
              exact this (decide_eq_true e))
          rw [b3, this, a3]
          simp
      · obtain ⟨b, hb, rfl⟩ := List.mem_map.1 ha
        obtain ⟨hb, hbn⟩ := List.mem_filter.1 hb
        have hbn := of_decide_eq_true hbn
        obtain ⟨j, g, q, g1, g2, g3, g4, g5⟩ := h2.feat b hb
        have hnot : ∀ i, (b.name, i) ∉ m1.features := by
          intro i hi
          rcases (h.names _).1 ⟨i, hi⟩ with e | e
          · exact h2.root_new (hr ▸ e ▸ List.mem_map_of_mem hb)
          · exact hbn e
        obtain ⟨i', f', b1, b2, b3, b4⟩ := M.second _ j g g1 g2 hnot
        obtain ⟨p', p1, p2⟩ := b4 q _ g5 g4
        rw [clonedAttr_name]
        have hpar : (d.merged d2).parent b.name = d2.parent b.name := if_neg hbn
        rw [hpar]
        obtain ⟨pf, hpf, _⟩ := hw.feat_ok _ p2
        exact ⟨i', f', p', b1, b2, by rw [b3, g3], p2, .direct p1 ⟨pf, hpf⟩⟩
    · intro n k i hg hn
      have hn0 := hold n i hn (h.groups_known _ hg)
      obtain ⟨r, e1, e2, e3⟩ := h'.grouped n k i hg hn0
      have hio : Owned c0 i := .inl (known_of_mem hn0)
      have hro := w0.edge_par i r hio (by rw [e1]; simp)
      have hrr := w0.owned_rel hro.1 ⟨k, e2⟩
      refine ⟨r, ?_, by rw [hi.rel r hrr]; exact e2, ?_⟩
      · have hall : ∀ x ∈ edg c i, x = r := by
          intro x hx
          obtain ⟨x1, x2⟩ := hw.edge_par i x (hsub i hio) hx
          rcases hnew x x1 with y | ⟨_, n', p, y1, y2, y3⟩
          · rw [hi.par x y] at x2
            have := (w0.par_edge x i y x2).2
            rw [e1] at this
            exact List.mem_singleton.1 this
          · rw [x2] at y1; cases y1
            have := hw.id_unique y2 hn; subst this
            exact absurd ⟨k, hg⟩ y3
        have hmem : r ∈ edg c i := by
          refine (hw.par_edge r i (hsub r hro.1) ?_).2
          rw [hi.par r hro.1]; exact hro.2
        have hnd := hw.edges_nodup i (hsub i hio)
        generalize edg c i = l at hall hmem hnd
        match l, hall, hmem, hnd with
        | [], _, hm, _ => cases hm
        | [y], ha, _, _ => rw [ha y (by simp)]
        | y :: z :: l, ha, _, hnd =>
          have e1 := ha y (by simp)
          have e2 := ha z (by simp)
          subst e1; subst e2
          simp at hnd
      · intro x hx
        obtain ⟨x1, x2⟩ := hw.edge_par r x (hsub r hro.1) hx
        rcases hnew x x1 with y | ⟨y, _⟩
        · rw [hi.par x y] at x2
          exact (hfeat x y).1 (e3 x (w0.par_edge x r y x2).2)
        · obtain ⟨n', hn'⟩ := known_name y
          obtain ⟨f, hf, _⟩ := hw.feat_ok _ hn'
          exact ⟨f, hf⟩
    · intro n i hn hno x hx
      obtain ⟨x1, x2⟩ := hw.edge_par i x (.inl (known_of_mem hn)) hx
      rcases hnew x x1 with y | ⟨y, _⟩
      · rw [hi.par x y] at x2
        obtain ⟨y1, y2⟩ := w0.par_edge x i y x2
        have : (n, i) ∈ c0.features := by
          rcases hi.names n i hn with a | ⟨j, _, a⟩
          · exact a
          · rcases y1 with y1 | y1
            · obtain ⟨n', hn'⟩ := known_name y1
              rwa [hw.id_unique hn (hi.sub _ hn')]
            · obtain ⟨k, hk⟩ := w0.rel_ok i y1
              obtain ⟨f, hf, _⟩ := hw.feat_ok _ hn
              simp only at hf
              rw [hi.rel i y1, hk] at hf; cases hf
        exact (hfeat x y).1 (h'.ungrouped n i this hno x y2)
      · obtain ⟨n', hn'⟩ := known_name y
        obtain ⟨f, hf, _⟩ := hw.feat_ok _ hn'
        exact ⟨f, hf⟩
    · intro r hr'
      rw [hi.rels] at hr'
      obtain ⟨n, k, i, a1, a2, a3⟩ := h'.rels r hr'
      exact ⟨n, k, i, a1, hi.sub _ a2, by rw [hi.par r (.inr hr')]; exact a3⟩
    · intro cl
      rw [store_inv hi]
      have hs := h'.store cl
      rw [hs]
      refine List.map_congr_left fun x hx => ?_
      congr 1
      refine List.map_congr_left fun n hn => ?_
      refine (merged_get h' hi ?_).symm
      exact (h0 n).2 ((h.names n).2 (hk x (List.mem_filter.1 hx).1 n hn))
  · intro x hx n hn
    exact hhas n (hk x hx n hn)

/-- Merging two models that have descriptions. -/
theorem merge_describes (h : Describes d m1) (E : Env) (strict : Bool) (hroot : c!"root" ∉ d.attrs.map Attr.name) (hk : ConstraintsKnown d)
    (h2 : Describes d2 m2) (hh : SameHeap m1 m2) (hr : d.root = d2.root) :
    (¬ Desc.Takes strict d d2 ∧ m1.mergeFeatureModels E m2 strict = some none) ∨
    (Desc.Takes strict d d2 ∧ ∃ c, m1.mergeFeatureModels E m2 strict = some (some c) ∧ Frame m1.next m1.heap c ∧
      (d.OutsideGroups d2 → Describes (d.merged d2) c ∧ ConstraintsKnown (d.merged d2))) := by
  have hroots : ∀ n r, m2.root = some r → (n, r) ∈ m2.features → ∃ i, (n, i) ∈ m1.features := by
    intro n r e1 e2
    obtain ⟨y, _, y1, y2, _⟩ := h2.root
    rw [e1] at y1; cases y1
    have := h2.wf.id_unique e2 y2; subst this
    obtain ⟨x, _, x1, x2, _⟩ := h.root
    exact ⟨x, hr ▸ x2⟩
  rcases merge_inv h E strict hroot hk h2.wf hh hroots with ⟨⟨j, a1, a2⟩, b⟩ | ⟨a, c0, c, b1, _, b2, b3, b4⟩
  · exact .inl ⟨fun e => a2 ((mergeable_iff h h2 hr strict).2 e j a1), b⟩
  · exact .inr ⟨(mergeable_iff h h2 hr strict).1 a, c, b1, b4.frame, fun ho => merged_is h hk h2 hr ho b2 b3 b4⟩

end Verif

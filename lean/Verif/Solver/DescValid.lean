import Verif.Solver.DescSpec
import Verif.Solver.Apply
/-! The valid configurations of a model are those of its description. -/

namespace Verif
open Verif.Spec

variable {d : Desc} {m : FModel}

theorem selected_iff (w : WF m) {a : Assign} {n : Str} {i : Id} (hi : (n, i) ∈ m.features) : Selected m a i ↔ a.bool n = true := by
  obtain ⟨f, hf, hn⟩ := w.feat_ok _ hi
  simp only at hf hn
  constructor
  · rintro ⟨g, hg, hs⟩
    rw [hf] at hg; cases hg
    rwa [hn] at hs
  · intro h
    exact ⟨f, hf, by rwa [hn]⟩

/-- A feature is the root or one of the described ones. -/
theorem Spec.Describes.attr_of (h : Describes d m) {n : Str} {i : Id} {f : Feat} (hi : (n, i) ∈ m.features)
    (hd : data m i = some (.feat f)) :
    (n = d.root ∧ m.root = some i ∧ f.attr = { name := d.root, kind := .root }) ∨
    (∃ x ∈ d.attrs, f.attr = x ∧ x.name = n ∧ ∃ p, (d.parent n, p) ∈ m.features ∧ FParent m i p) := by
  rcases (h.names n).1 ⟨i, hi⟩ with rfl | ha
  · obtain ⟨r, rf, r1, r2, r3, r4⟩ := h.root
    have := h.wf.entry_unique hi r2
    subst this
    rw [hd] at r3; cases r3
    exact .inl ⟨rfl, r1, r4⟩
  · obtain ⟨x, hx, rfl⟩ := List.mem_map.1 ha
    obtain ⟨c, g, p, f1, f2, f3, f4, f5⟩ := h.feat x hx
    have := h.wf.entry_unique hi f1
    subst this
    rw [hd] at f2; cases f2
    exact .inr ⟨x, hx, f3, rfl, p, f4, f5⟩

/-- The node of a group and its members. -/
theorem Spec.Describes.group_of (h : Describes d m) {n : Str} {k : RKind} {i : Id} (hg : (n, k) ∈ d.groups) (hi : (n, i) ∈ m.features) :
    ∃ r, edg m i = [r] ∧ data m r = some (.rel k) ∧ r ∈ m.rels ∧ par m r = some i ∧
      ∀ c, c ∈ edg m r ↔ ∃ x ∈ d.kids n, (x.name, c) ∈ m.features := by
  obtain ⟨r, e, hr, hc⟩ := h.grouped n k i hg hi
  have hki := known_of_mem hi
  obtain ⟨hor, hpr⟩ := h.wf.edge_par i r (.inl hki) (by rw [e]; simp)
  have hrr : r ∈ m.rels := by
    rcases hor with hk | hr'
    · obtain ⟨f, hf⟩ := h.wf.known_data hk
      rw [hr] at hf; cases hf
    · exact hr'
  obtain ⟨g, hgd⟩ := h.wf.known_data hki
  refine ⟨r, e, hr, hrr, hpr, fun c => ⟨fun hm => ?_, ?_⟩⟩
  · obtain ⟨hoc, hpc⟩ := h.wf.edge_par r c hor hm
    obtain ⟨f, hf⟩ := hc c hm
    have hkc : Known m c := by
      rcases hoc with hk | hr'
      · exact hk
      · obtain ⟨k', hk'⟩ := h.wf.rel_ok c hr'
        rw [hf] at hk'; cases hk'
    have hfp : FParent m c i := .skip hpc ⟨k, hr⟩ (.direct hpr ⟨g, hgd⟩)
    have hmem := h.wf.entry_mem hkc hf
    rcases h.attr_of hmem hf with ⟨_, hroot, _⟩ | ⟨x, hx, hfx, hxn, p, hp, hpp⟩
    · exact absurd hfp (Xml.root_no_fparent h.wf hroot)
    · have := hfp.functional hpp
      subst this
      refine ⟨x, ?_, by rw [hxn]; exact hmem⟩
      rw [Desc.kids, List.mem_filter]
      refine ⟨hx, ?_⟩
      rw [hxn]
      simpa using h.wf.id_unique hp hi
  · rintro ⟨x, hx, hm⟩
    rw [Desc.kids, List.mem_filter] at hx
    have hxp : d.parent x.name = n := by simpa using hx.2
    obtain ⟨c', f, p, f1, f2, f3, f4, f5⟩ := h.feat x hx.1
    have := h.wf.entry_unique hm f1
    subst this
    rw [hxp] at f4
    have := h.wf.entry_unique f4 hi
    subst this
    have hkc := known_of_mem hm
    cases f5 with
    | direct hp _ =>
      have := (h.wf.par_edge c p (.inl hkc) hp).2
      rw [e] at this
      rw [List.mem_singleton.1 this, hr] at f2
      cases f2
    | @skip _ r' _ hp hrel hfp =>
      obtain ⟨hor', hce⟩ := h.wf.par_edge c r' (.inl hkc) hp
      have hr'm : r' ∈ m.rels := by
        rcases hor' with hk | hr'
        · obtain ⟨f', hf'⟩ := h.wf.known_data hk
          obtain ⟨k', hk'⟩ := hrel
          rw [hf'] at hk'; cases hk'
        · exact hr'
      obtain ⟨n', k', i', g1, g2, g3⟩ := h.rels r' hr'm
      obtain ⟨gi, hgi⟩ := h.wf.known_data (known_of_mem g2)
      have := hfp.functional (.direct g3 ⟨gi, hgi⟩)
      subst this
      have := (h.wf.par_edge r' p (.inr hr'm) g3).2
      rw [e] at this
      rw [List.mem_singleton.1 this] at hce
      exact hce

/-- Every group is a described one. -/
theorem Spec.Describes.group_desc (h : Describes d m) {r p : Id} {k : RKind} (hr : r ∈ m.rels) (hd : data m r = some (.rel k))
    (hp : par m r = some p) : ∃ n, (n, k) ∈ d.groups ∧ (n, p) ∈ m.features ∧ edg m p = [r] := by
  obtain ⟨n, k', i, g1, g2, g3⟩ := h.rels r hr
  rw [hp] at g3; cases g3
  obtain ⟨r', e1, e2, _⟩ := h.group_of g1 g2
  have := (h.wf.par_edge r p (.inr hr) hp).2
  rw [e1, List.mem_singleton] at this
  subst this
  rw [hd] at e2; cases e2
  exact ⟨n, g1, g2, e1⟩

/-- A feature is directly below its parent exactly if the parent has no group. -/
theorem Spec.Describes.direct_iff (h : Describes d m) {n q : Str} {i p : Id} (hi : (n, i) ∈ m.features) (hp : (q, p) ∈ m.features)
    (hf : FParent m i p) : (par m i = some p ∧ IsFeat m p) ↔ ∀ k, (q, k) ∉ d.groups := by
  constructor
  · rintro ⟨h1, _⟩ k hk
    obtain ⟨r, e1, e2, _⟩ := h.group_of hk hp
    have := (h.wf.par_edge i p (.inl (known_of_mem hi)) h1).2
    rw [e1, List.mem_singleton] at this
    obtain ⟨f, hf'⟩ := h.wf.known_data (known_of_mem hi)
    rw [this, e2] at hf'
    cases hf'
  · intro hg
    cases hf with
    | direct h1 h2 => exact ⟨h1, h2⟩
    | @skip _ r _ h1 hrel hfp =>
      exfalso
      obtain ⟨hor, _⟩ := h.wf.par_edge i r (.inl (known_of_mem hi)) h1
      obtain ⟨k, hk⟩ := hrel
      have hr : r ∈ m.rels := by
        rcases hor with hk' | hr'
        · obtain ⟨f', hf'⟩ := h.wf.known_data hk'
          rw [hf'] at hk; cases hk
        · exact hr'
      obtain ⟨n', k', i', g1, g2, g3⟩ := h.rels r hr
      obtain ⟨gi, hgi⟩ := h.wf.known_data (known_of_mem g2)
      have := hfp.functional (.direct g3 ⟨gi, hgi⟩)
      subst this
      have := h.wf.id_unique g2 hp
      subst this
      exact hg _ g1

theorem isNum_desc (h : Describes d m) (n : Str) : IsNum m n ↔ DNum d n := by
  constructor
  · rintro ⟨i, f, vs, st, hi, hf, hk⟩
    rcases h.attr_of hi hf with ⟨_, _, e⟩ | ⟨x, hx, e, hn, _⟩
    · rw [e] at hk; cases hk
    · rw [e] at hk
      exact ⟨x, hx, hn, vs, st, hk⟩
  · rintro ⟨x, hx, hn, vs, st, hk⟩
    obtain ⟨c, f, p, f1, f2, f3, _⟩ := h.feat x hx
    exact ⟨c, f, vs, st, hn ▸ f1, f2, f3 ▸ hk⟩

theorem value_desc (h : Describes d m) (a : Assign) : value m a = dvalue d a := by
  funext n
  have e := isNum_desc h n
  by_cases hn : DNum d n
  · simp [value, dvalue, hn, e.2 hn]
  · simp [value, dvalue, hn, mt e.1 hn]

theorem value01_desc (h : Describes d m) (a : Assign) : value01 m a = dvalue01 d a := by
  funext n
  have e := isNum_desc h n
  by_cases hn : DNum d n
  · simp [value01, dvalue01, hn, e.2 hn]
  · simp [value01, dvalue01, hn, mt e.1 hn]

theorem sortIn_desc (h : Describes d m) : sortIn m = dsort d := by
  funext n
  have e := isNum_desc h n
  by_cases hn : DNum d n
  · simp [sortIn, dsort, hn, e.2 hn]
  · simp [sortIn, dsort, hn, mt e.1 hn]

/-- The part of validity that is about the tree. -/
structure DescTree (F : IntFloats) (d : Desc) (a : Assign) : Prop where
  root : a.bool d.root = true
  parent : ∀ x ∈ d.attrs, x.kind = .binary → a.bool x.name = true → a.bool (d.parent x.name) = true
  mandatory : ∀ x ∈ d.attrs, x.kind = .binary → x.opt = false → (∀ k, (d.parent x.name, k) ∉ d.groups) →
    a.bool (d.parent x.name) = true → a.bool x.name = true
  alternative : ∀ n, (n, .alternative) ∈ d.groups → a.bool n = true →
    ∃ x ∈ d.kids n, a.bool x.name = true ∧ ∀ y ∈ d.kids n, a.bool y.name = true → y.name = x.name
  or : ∀ n, (n, .or) ∈ d.groups → a.bool n = true → ∃ x ∈ d.kids n, a.bool x.name = true
  numeric : ∀ x ∈ d.attrs, ∀ vs st, x.kind = .numeric vs st → Allowed F vs st (a.int x.name)

theorem treeValid_desc (h : Describes d m) {F : IntFloats} {a : Assign} : TreeValid F m a ↔ DescTree F d a := by
  have sel := fun {n i} (hi : (n, i) ∈ m.features) => selected_iff h.wf (a := a) hi
  have kmem : ∀ {i}, Known m i → ∃ n, (n, i) ∈ m.features := fun hk => known_name hk
  constructor
  · intro v
    refine ⟨?_, ?_, ?_, ?_, ?_, ?_⟩
    · obtain ⟨r, rf, r1, r2, r3, r4⟩ := h.root
      exact (sel r2).1 (v.root r r1)
    · intro x hx hk hb
      obtain ⟨c, f, p, f1, f2, f3, f4, f5⟩ := h.feat x hx
      exact (sel f4).1 (v.parent c f p (known_of_mem f1) f2 (by rw [f3]; exact hk) f5 ((sel f1).2 hb))
    · intro x hx hk ho hg hb
      obtain ⟨c, f, p, f1, f2, f3, f4, f5⟩ := h.feat x hx
      obtain ⟨e1, e2⟩ := (h.direct_iff f1 f4 f5).2 hg
      exact (sel f1).1 (v.mandatory c f p (known_of_mem f1) f2 (by rw [f3]; exact hk) (by rw [f3]; exact ho) e1 e2 ((sel f4).2 hb))
    · intro n hg hb
      obtain ⟨i, hi⟩ := (h.names n).2 ((h.groups_known _ hg).imp id id)
      obtain ⟨r, e1, e2, e3, e4, e5⟩ := h.group_of hg hi
      obtain ⟨c, c1, c2, c3⟩ := v.alternative r i e3 e2 e4 ((sel hi).2 hb)
      obtain ⟨x, hx, hxc⟩ := (e5 c).1 c1
      refine ⟨x, hx, (sel hxc).1 c2, fun y hy hyb => ?_⟩
      have hya : y ∈ d.attrs := (List.mem_filter.1 hy).1
      obtain ⟨cy, _, _, y1, _⟩ := h.feat y hya
      have := c3 cy ((e5 cy).2 ⟨y, hy, y1⟩) ((sel y1).2 hyb)
      subst this
      exact h.wf.id_unique y1 hxc
    · intro n hg hb
      obtain ⟨i, hi⟩ := (h.names n).2 ((h.groups_known _ hg).imp id id)
      obtain ⟨r, e1, e2, e3, e4, e5⟩ := h.group_of hg hi
      obtain ⟨c, c1, c2⟩ := v.or r i e3 e2 e4 ((sel hi).2 hb)
      obtain ⟨x, hx, hxc⟩ := (e5 c).1 c1
      exact ⟨x, hx, (sel hxc).1 c2⟩
    · intro x hx vs st hk
      obtain ⟨c, f, p, f1, f2, f3, f4, f5⟩ := h.feat x hx
      have := v.numeric c f vs st (known_of_mem f1) f2 (by rw [f3]; exact hk)
      rwa [f3] at this
  · intro v
    refine ⟨?_, ?_, ?_, ?_, ?_, ?_⟩
    · intro r hr
      obtain ⟨r', rf, r1, r2, r3, r4⟩ := h.root
      rw [hr] at r1; cases r1
      exact (sel r2).2 v.root
    · intro i f p hi hd hk hp hs
      obtain ⟨n, hn⟩ := kmem hi
      rcases h.attr_of hn hd with ⟨_, _, e⟩ | ⟨x, hx, e, hxn, q, hq, hfq⟩
      · rw [e] at hk; cases hk
      · have := hp.functional hfq
        subst this
        refine (sel hq).2 ?_
        have := v.parent x hx (e ▸ hk) (by rw [hxn]; exact (sel hn).1 hs)
        rwa [hxn] at this
    · intro i f p hi hd hk ho hp hpf hs
      obtain ⟨n, hn⟩ := kmem hi
      rcases h.attr_of hn hd with ⟨_, _, e⟩ | ⟨x, hx, e, hxn, q, hq, hfq⟩
      · rw [e] at hk; cases hk
      · have := (FParent.direct hp hpf).functional hfq
        subst this
        refine (sel hn).2 ?_
        have := v.mandatory x hx (e ▸ hk) (e ▸ ho) (by rw [hxn]; exact (h.direct_iff hn hq hfq).1 ⟨hp, hpf⟩)
          (by rw [hxn]; exact (sel hq).1 hs)
        rwa [hxn] at this
    · intro r p hr hd hp hs
      obtain ⟨n, hg, hn, _⟩ := h.group_desc hr hd hp
      obtain ⟨r', e1, e2, e3, e4, e5⟩ := h.group_of hg hn
      have : r = r' := by
        have := (h.wf.par_edge r p (.inr hr) hp).2
        rwa [e1, List.mem_singleton] at this
      subst this
      obtain ⟨x, hx, hxb, hu⟩ := v.alternative n hg ((sel hn).1 hs)
      obtain ⟨c, f, q, f1, _⟩ := h.feat x (List.mem_filter.1 hx).1
      refine ⟨c, (e5 c).2 ⟨x, hx, f1⟩, (sel f1).2 hxb, fun c' hc' hs' => ?_⟩
      obtain ⟨y, hy, hyc⟩ := (e5 c').1 hc'
      have := hu y hy ((sel hyc).1 hs')
      rw [this] at hyc
      exact h.wf.entry_unique hyc f1
    · intro r p hr hd hp hs
      obtain ⟨n, hg, hn, _⟩ := h.group_desc hr hd hp
      obtain ⟨r', e1, e2, e3, e4, e5⟩ := h.group_of hg hn
      have : r = r' := by
        have := (h.wf.par_edge r p (.inr hr) hp).2
        rwa [e1, List.mem_singleton] at this
      subst this
      obtain ⟨x, hx, hxb⟩ := v.or n hg ((sel hn).1 hs)
      obtain ⟨c, f, q, f1, _⟩ := h.feat x (List.mem_filter.1 hx).1
      exact ⟨c, (e5 c).2 ⟨x, hx, f1⟩, (sel f1).2 hxb⟩
    · intro i f vs st hi hd hk
      obtain ⟨n, hn⟩ := kmem hi
      rcases h.attr_of hn hd with ⟨_, _, e⟩ | ⟨x, hx, e, hxn, _⟩
      · rw [e] at hk; cases hk
      · have := v.numeric x hx vs st (e ▸ hk)
        rwa [e]

/-- The stored constraints are the described ones. -/
theorem mem_store (h : Describes d m) (cl : CClass) (s : Stored) : s ∈ m.store cl ↔
    ∃ x ∈ d.constraints, x.1.cls = cl ∧ s = ⟨x.2, x.2.features.map m.getFeature, x.1.info⟩ := by
  rw [h.store cl, List.mem_map]
  constructor
  · rintro ⟨x, hx, rfl⟩
    rw [Desc.ofClass, List.mem_filter] at hx
    exact ⟨x, hx.1, by simpa using hx.2, rfl⟩
  · rintro ⟨x, hx, hc, rfl⟩
    exact ⟨x, by simp [Desc.ofClass, hx, hc], rfl⟩

theorem descValid_iff {F : IntFloats} {a : Assign} : DescValid F d a ↔ DescTree F d a ∧ ∀ x ∈ d.constraints, DHolds d a x :=
  ⟨fun v => ⟨⟨v.root, v.parent, v.mandatory, v.alternative, v.or, v.numeric⟩, v.constraints⟩,
   fun v => ⟨v.1.root, v.1.parent, v.1.mandatory, v.1.alternative, v.1.or, v.1.numeric, v.2⟩⟩

/-- The assignments the solver is told about are the valid configurations of the description, with "not
    both" for exclusive or. -/
theorem valid_notBoth_desc (h : Describes d m) {F : IntFloats} {a : Assign} :
    Valid F (notBothIn m) a ↔ DescValid F (notBothDesc d) a := by
  rw [valid_notBoth, treeValid_desc h, descValid_iff]
  have ht : DescTree F (notBothDesc d) a ↔ DescTree F d a :=
    ⟨fun v => ⟨v.root, v.parent, v.mandatory, v.alternative, v.or, v.numeric⟩,
     fun v => ⟨v.root, v.parent, v.mandatory, v.alternative, v.or, v.numeric⟩⟩
  rw [ht]
  refine and_congr_right fun _ => ?_
  have hb : ∀ s, s ∈ m.booleans ++ m.nonBooleans ↔ s ∈ m.store .boolean ∨ s ∈ m.store .nonBoolean := fun s => List.mem_append
  have hm : ∀ s, s ∈ m.mixeds ↔ s ∈ m.store .mixed := fun s => .rfl
  constructor
  · rintro ⟨v1, v2⟩ x hx
    obtain ⟨⟨k, c⟩, hy, rfl⟩ := List.mem_map.1 hx
    have hst := (mem_store h k.cls _).2 ⟨_, hy, rfl, rfl⟩
    cases k with
    | boolean =>
      have := v1 _ ((hb _).2 (.inl hst))
      rw [value_desc h] at this
      exact this
    | nonBoolean =>
      have := v1 _ ((hb _).2 (.inr hst))
      rw [value_desc h] at this
      exact this
    | mixed i =>
      have := v2 _ ((hm _).2 hst) i rfl
      simp only [value01_desc h, isNum_desc h] at this
      exact this
  · intro v
    constructor
    · intro s hs
      have : ∃ x ∈ d.constraints, x.1.cls ≠ .mixed ∧ s = ⟨x.2, x.2.features.map m.getFeature, x.1.info⟩ := by
        rcases (hb s).1 hs with hs | hs
        · obtain ⟨x, hx, hc, e⟩ := (mem_store h _ s).1 hs
          exact ⟨x, hx, by simp [hc], e⟩
        · obtain ⟨x, hx, hc, e⟩ := (mem_store h _ s).1 hs
          exact ⟨x, hx, by simp [hc], e⟩
      obtain ⟨⟨k, c⟩, hx, hc, rfl⟩ := this
      have := v (k, notBoth c) (List.mem_map.2 ⟨_, hx, rfl⟩)
      rw [value_desc h]
      cases k with
      | boolean => exact this
      | nonBoolean => exact this
      | mixed i => exact absurd rfl hc
    · intro s hs i hi
      obtain ⟨⟨k, c⟩, hx, hc, rfl⟩ := (mem_store h _ s).1 ((hm s).1 hs)
      cases k with
      | boolean => cases hi
      | nonBoolean => cases hi
      | mixed j =>
        cases hi
        have := v (.mixed i, notBoth c) (List.mem_map.2 ⟨_, hx, rfl⟩)
        simp only [value01_desc h, isNum_desc h]
        exact this

theorem notBothDesc_id (h : ∀ x ∈ d.constraints, NoXor x.2) : notBothDesc d = d := by
  unfold notBothDesc
  have : d.constraints.map (fun x => (x.1, notBoth x.2)) = d.constraints := by
    conv => rhs; rw [← List.map_id d.constraints]
    refine List.map_congr_left fun x hx => ?_
    rw [notBoth_id (h x hx)]
    rfl
  rw [this]

theorem bindsOk_getFeature (w : WF m) : ∀ ns : List Str, BindsOk m ns (ns.map m.getFeature)
  | [] => trivial
  | n :: ns => by
    refine ⟨?_, bindsOk_getFeature w ns⟩
    cases hg : m.getFeature n with
    | some i => exact getFeature_some hg
    | none =>
      rintro ⟨i, f, vs, st, hi, _⟩
      rw [getFeature_mem w.names hi] at hg
      cases hg

/-- The model of a clear description is clear. -/
theorem clear_desc (h : Describes d m) {F : IntFloats} (c : DescClear F d) : Clear F m := by
  have hst : ∀ s, s ∈ allStored m → ∃ x ∈ d.constraints, s = ⟨x.2, x.2.features.map m.getFeature, x.1.info⟩ := by
    intro s hs
    have : s ∈ m.store .boolean ∨ s ∈ m.store .nonBoolean ∨ s ∈ m.store .mixed := by
      simp only [allStored, List.mem_append, or_assoc] at hs
      exact hs
    rcases this with hs | hs | hs <;>
    · obtain ⟨x, hx, _, e⟩ := (mem_store h _ s).1 hs
      exact ⟨x, hx, e⟩
  have kmem : ∀ {i}, Known m i → ∃ n, (n, i) ∈ m.features := fun hk => known_name hk
  exact
    { names := fun n i hi => by
        rcases (h.names n).1 ⟨i, hi⟩ with rfl | ha
        · exact c.root
        · obtain ⟨x, hx, rfl⟩ := List.mem_map.1 ha
          exact c.names x hx
      leaves := fun s hs n hn => by
        obtain ⟨x, hx, rfl⟩ := hst s hs
        exact c.leaves x hx n hn
      known := fun i f hi hd hk => by
        obtain ⟨n, hn⟩ := kmem hi
        rcases h.attr_of hn hd with ⟨_, _, e⟩ | ⟨x, hx, e, _⟩
        · rw [e] at hk; cases hk
        · exact c.kinds x hx (e ▸ hk)
      ranges := fun i f lo hi' st hi hd hk => by
        obtain ⟨n, hn⟩ := kmem hi
        rcases h.attr_of hn hd with ⟨_, _, e⟩ | ⟨x, hx, e, _⟩
        · rw [e] at hk; cases hk
        · exact c.ranges x hx lo hi' st (e ▸ hk)
      parents := fun i f p g vs st hi hd hk hp hg hn => by
        obtain ⟨n, hni⟩ := kmem hi
        rcases h.attr_of hni hd with ⟨_, _, e⟩ | ⟨x, hx, e, hxn, q, hq, hfq⟩
        · rw [e] at hk; cases hk
        · have := hp.functional hfq
          subst this
          refine c.parents x hx (e ▸ hk) ?_
          rw [hxn, ← isNum_desc h]
          exact ⟨p, g, vs, st, hq, hg, hn⟩
      owner := fun r p hr hp => by
        obtain ⟨k, hk⟩ := h.wf.rel_ok r hr
        obtain ⟨n, hg, hn, _⟩ := h.group_desc hr hk hp
        obtain ⟨g, hgd⟩ := h.wf.known_data (known_of_mem hn)
        exact ⟨g, hgd, fun vs st hk' => c.owners _ hg ((isNum_desc h n).1 ⟨p, g, vs, st, hn, hgd, hk'⟩)⟩
      members := fun r x hr hx => by
        obtain ⟨k, hk⟩ := h.wf.rel_ok r hr
        obtain ⟨_, _, p, _, _, hp⟩ := h.rels r hr
        obtain ⟨n, hg, hn, e⟩ := h.group_desc hr hk hp
        obtain ⟨r', e1, e2, e3, e4, e5⟩ := h.group_of hg hn
        rw [e] at e1
        cases e1
        obtain ⟨y, hy, hyx⟩ := (e5 x).1 hx
        obtain ⟨i', f, _, f1, f2, f3, _⟩ := h.feat y (List.mem_filter.1 hy).1
        have := h.wf.entry_unique f1 hyx
        subst this
        exact ⟨f, f2, f3 ▸ c.members _ hg y hy⟩
      nonempty := fun r hr hd he => by
        obtain ⟨_, _, p, _, _, hp⟩ := h.rels r hr
        obtain ⟨n, hg, hn, e⟩ := h.group_desc hr hd hp
        obtain ⟨r', e1, e2, e3, e4, e5⟩ := h.group_of hg hn
        rw [e] at e1
        cases e1
        refine c.nonempty _ hg rfl (List.eq_nil_iff_forall_not_mem.2 fun y hy => ?_)
        obtain ⟨i', f, _, f1, _⟩ := h.feat y (List.mem_filter.1 hy).1
        have := (e5 i').2 ⟨y, hy, f1⟩
        rw [he] at this
        cases this
      binds := fun s hs => by
        obtain ⟨x, hx, rfl⟩ := hst s hs
        exact bindsOk_getFeature h.wf _
      sorts := fun s hs => by
        rw [sortIn_desc h]
        have : ∃ x ∈ d.constraints, x.1.cls ≠ .mixed ∧ s = ⟨x.2, x.2.features.map m.getFeature, x.1.info⟩ := by
          rcases List.mem_append.1 hs with hs | hs
          · obtain ⟨x, hx, hc, e⟩ := (mem_store h .boolean s).1 hs
            exact ⟨x, hx, by simp [hc], e⟩
          · obtain ⟨x, hx, hc, e⟩ := (mem_store h .nonBoolean s).1 hs
            exact ⟨x, hx, by simp [hc], e⟩
        obtain ⟨⟨k, t⟩, hx, hc, rfl⟩ := this
        have := c.sorts _ hx
        cases k with
        | boolean => exact this
        | nonBoolean => exact this
        | mixed i => exact absurd rfl hc
      mixedSorts := fun s hs => by
        obtain ⟨⟨k, t⟩, hx, hc, rfl⟩ := (mem_store h .mixed s).1 hs
        have := c.sorts _ hx
        cases k with
        | boolean => cases hc
        | nonBoolean => cases hc
        | mixed i => exact this
      infos := fun s hs => by
        obtain ⟨⟨k, t⟩, hx, hc, rfl⟩ := (mem_store h .mixed s).1 hs
        cases k with
        | boolean => cases hc
        | nonBoolean => cases hc
        | mixed i => exact fun h => nomatch h }

/-- A configuration shows the same of the model as of the description. -/
theorem shows_desc (h : Describes d m) {a : Assign} {c : Config} : Shows m a c ↔ DescShows d a c := by
  have hval : ∀ {f : Feat}, valueOf f a = attrValue f.attr a := fun {f} => rfl
  constructor
  · intro s
    refine ⟨?_, ?_, ?_⟩
    · obtain ⟨r, rf, r1, r2, r3, r4⟩ := h.root
      have := s.has r rf (known_of_mem r2) r3
      rw [hval, r4] at this
      exact this
    · intro x hx
      obtain ⟨i, f, p, f1, f2, f3, _⟩ := h.feat x hx
      have := s.has i f (known_of_mem f1) f2
      rw [hval, f3] at this
      exact this
    · intro n hn
      obtain ⟨i, f, hi, hd, rfl⟩ := s.only n hn
      exact (h.names _).1 ⟨i, h.wf.entry_mem hi hd⟩
  · intro s
    refine ⟨?_, ?_⟩
    · intro i f hi hd
      rcases h.attr_of (h.wf.entry_mem hi hd) hd with ⟨_, _, e⟩ | ⟨x, hx, e, hxn, _⟩
      · rw [hval, e]; exact s.root
      · rw [hval, e]; exact s.has x hx
    · intro n hn
      obtain ⟨i, hi⟩ := (h.names n).2 (s.only n hn)
      obtain ⟨f, hf, hfn⟩ := h.wf.feat_ok _ hi
      exact ⟨i, f, known_of_mem hi, hf, hfn⟩

theorem enumerates_desc (h : Describes d m) {F : IntFloats} {cs : List Config} :
    Enumerates F (notBothIn m) cs ↔ DescEnumerates F (notBothDesc d) cs := by
  have hs : ∀ {a c}, Shows (notBothIn m) a c ↔ DescShows (notBothDesc d) a c := by
    intro a c
    have e1 : Shows (notBothIn m) a c ↔ Shows m a c := ⟨fun s => ⟨s.has, s.only⟩, fun s => ⟨s.has, s.only⟩⟩
    have e2 : DescShows (notBothDesc d) a c ↔ DescShows d a c := ⟨fun s => ⟨s.root, s.has, s.only⟩, fun s => ⟨s.root, s.has, s.only⟩⟩
    rw [e1, e2, shows_desc h]
  constructor
  · intro e
    refine ⟨fun c hc => ?_, e.differ, fun a ha => ?_⟩
    · obtain ⟨a, h1, h2⟩ := e.valid c hc
      exact ⟨a, (valid_notBoth_desc h).1 h1, hs.1 h2⟩
    · obtain ⟨c, h1, h2⟩ := e.all a ((valid_notBoth_desc h).2 ha)
      exact ⟨c, h1, hs.1 h2⟩
  · intro e
    refine ⟨fun c hc => ?_, e.differ, fun a ha => ?_⟩
    · obtain ⟨a, h1, h2⟩ := e.valid c hc
      exact ⟨a, (valid_notBoth_desc h).2 h1, hs.2 h2⟩
    · obtain ⟨c, h1, h2⟩ := e.all a ((valid_notBoth_desc h).1 ha)
      exact ⟨c, h1, hs.2 h2⟩

end Verif

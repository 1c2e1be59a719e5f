import Verif.FM.Clone
/-! Models that have a description. -/

namespace Verif
open Verif.Spec

namespace Spec

/-- Groups contain all children of their feature, and no group is nested in another. -/
def GroupsFull (m : FModel) : Prop :=
  ∀ r ∈ m.rels, ∃ i, Known m i ∧ par m r = some i ∧ edg m i = [r] ∧ ∀ c ∈ edg m r, IsFeat m c

/-- The root has nothing but a name. -/
def RootBare (m : FModel) : Prop :=
  ∀ i f, m.root = some i → data m i = some (.feat f) → f.attr = { name := f.attr.name, kind := .root }

/-- Constraints are stored in the container of their class and bound to the features they name. -/
def Filed (m : FModel) : Prop :=
  ∀ cl, ∀ s ∈ m.store cl, s.binds = s.tree.features.map m.getFeature ∧ (s.info = none ↔ cl ≠ .mixed)

end Spec

/-- Attributes of the features other than the root. -/
def attrOf (m : FModel) (e : Str × Id) : Option Attr :=
  if m.root = some e.2 then none else (m.feat? e.2).map (·.attr)

def parentOf (m : FModel) (n : Str) : Str :=
  match m.getFeature n with
  | some i => (match m.parentFeature i with | some (some p) => (m.nameOf p).getD [] | _ => [])
  | none => []

def groupOf (m : FModel) (r : Id) : Option (Str × RKind) :=
  match data m r, par m r with
  | some (.rel k), some i => (m.nameOf i).map (·, k)
  | _, _ => none

def kindOf (cl : CClass) (s : Stored) : CKind :=
  match cl, s.info with
  | .mixed, some i => .mixed i
  | .nonBoolean, _ => .nonBoolean
  | _, _ => .boolean

def constraintOf (cl : CClass) (s : Stored) : CKind × Constraint := (kindOf cl s, s.tree)

/-- The description of a model. -/
def descOf (m : FModel) : Desc :=
  { name := m.name, path := m.path, commit := m.commit
    root := (m.root.bind m.nameOf).getD []
    attrs := m.features.filterMap (attrOf m)
    parent := parentOf m
    groups := m.rels.filterMap (groupOf m)
    constraints := (m.store .boolean).map (constraintOf .boolean) ++ (m.store .nonBoolean).map (constraintOf .nonBoolean) ++
      (m.store .mixed).map (constraintOf .mixed) }

theorem attrs_names {m : FModel} (w : WF m) : ∀ {l : List (Str × Id)}, (∀ e ∈ l, e ∈ m.features) →
    (l.filterMap (attrOf m)).map Attr.name = (l.filter fun e => m.root ≠ some e.2).map Prod.fst
  | [], _ => rfl
  | e :: l, h => by
    have ih := attrs_names w (fun e he => h e (List.mem_cons_of_mem _ he))
    obtain ⟨f, f1, f2⟩ := w.feat_ok e (h e (List.mem_cons_self ..))
    by_cases hr : m.root = some e.2
    · have : attrOf m e = none := by simp [attrOf, hr]
      rw [List.filterMap_cons, this]
      simp only
      rw [ih, List.filter_cons, if_neg (by simpa using hr)]
    · have : attrOf m e = some f.attr := by simp [attrOf, hr, feat?_of_data f1]
      rw [List.filterMap_cons, this]
      simp only [List.map_cons]
      rw [ih, List.filter_cons, if_pos (by simpa using hr), f2, List.map_cons]

theorem kindOf_cls {m : FModel} (h : Filed m) {cl : CClass} {s : Stored} (hs : s ∈ m.store cl) :
    (kindOf cl s).cls = cl ∧ (kindOf cl s).info = s.info := by
  obtain ⟨_, h2⟩ := h cl s hs
  cases cl with
  | boolean => exact ⟨rfl, (h2.2 (by simp)).symm⟩
  | nonBoolean => exact ⟨rfl, (h2.2 (by simp)).symm⟩
  | mixed =>
    cases hi : s.info with
    | none => exact absurd rfl (h2.1 hi)
    | some i => simp [kindOf, hi, CKind.cls, CKind.info]

theorem descOf_ofClass {m : FModel} (h : Filed m) (cl : CClass) :
    (descOf m).ofClass cl = (m.store cl).map (constraintOf cl) := by
  have same : ∀ c : CClass, ((m.store c).map (constraintOf c)).filter (fun x => decide (x.1.cls = cl)) =
      if c = cl then (m.store c).map (constraintOf c) else [] := by
    intro c
    split
    · next hc =>
      subst hc
      rw [List.filter_eq_self]
      intro x hx
      obtain ⟨s, hs, rfl⟩ := List.mem_map.1 hx
      exact decide_eq_true (kindOf_cls h hs).1
    · next hc =>
      rw [List.filter_eq_nil_iff]
      intro x hx
      obtain ⟨s, hs, rfl⟩ := List.mem_map.1 hx
      have := (kindOf_cls h hs).1
      intro hx
      exact hc (this.symm.trans (of_decide_eq_true hx))
  show List.filter _ (_ ++ _ ++ _) = _
  rw [List.filter_append, List.filter_append, same, same, same]
  cases cl <;> simp

/-- Such a model has a description. -/
theorem describes_descOf {m : FModel} (w : WF m) (b : Bound m) (hb : RootBare m) (hg : GroupsFull m) (hf : Filed m)
    (hr : Registered m) : Describes (descOf m) m := by
  obtain ⟨r, rf, r1, r2, r3, r4, r5⟩ := w.root_ok
  obtain ⟨rn, hrn⟩ := known_name r2
  have hrf : rf.attr.name = rn := by
    obtain ⟨f, f1, f2⟩ := w.feat_ok _ hrn
    simp only at f1 f2
    rw [r3] at f1; cases f1; exact f2
  have hroot : (descOf m).root = rn := by simp [descOf, r1, nameOf_of_data r3, hrf]
  have hnames : (descOf m).attrs.map Attr.name = (m.features.filter fun e => m.root ≠ some e.2).map Prod.fst :=
    attrs_names w (fun e he => he)
  have hmem : ∀ n, n ∈ (descOf m).attrs.map Attr.name ↔ ∃ i, (n, i) ∈ m.features ∧ i ≠ r := by
    intro n
    rw [hnames]
    simp only [List.mem_map, List.mem_filter, r1, ne_eq, decide_eq_true_eq, Option.some.injEq]
    constructor
    · rintro ⟨⟨n', i⟩, ⟨h1, h2⟩, rfl⟩; exact ⟨i, h1, fun h => h2 h.symm⟩
    · rintro ⟨i, h1, h2⟩; exact ⟨(n, i), ⟨h1, fun h => h2 h.symm⟩, rfl⟩
  have hgroup : ∀ n k, (n, k) ∈ (descOf m).groups ↔ ∃ r ∈ m.rels, ∃ i, (n, i) ∈ m.features ∧ par m r = some i ∧ data m r = some (.rel k) := by
    intro n k
    show (n, k) ∈ m.rels.filterMap (groupOf m) ↔ _
    rw [List.mem_filterMap]
    constructor
    · rintro ⟨q, q1, q2⟩
      obtain ⟨k', hk'⟩ := w.rel_ok q q1
      obtain ⟨i, i1, i2, _⟩ := hg q q1
      obtain ⟨n', hn'⟩ := known_name i1
      obtain ⟨f, f1, f2⟩ := w.feat_ok _ hn'
      simp only [groupOf, hk', i2, nameOf_of_data f1, f2, Option.map_some] at q2
      cases q2
      exact ⟨q, q1, i, hn', i2, hk'⟩
    · rintro ⟨q, q1, i, i1, i2, i3⟩
      obtain ⟨f, f1, f2⟩ := w.feat_ok _ i1
      exact ⟨q, q1, by simp [groupOf, i3, i2, nameOf_of_data f1, f2]⟩
  refine
    { wf := w
      bound := b
      name := rfl
      path := rfl
      commit := rfl
      distinct := ?_
      root_new := ?_
      names := ?_
      root := ⟨r, rf, r1, by rw [hroot]; exact hrn, r3, by rw [hroot, hb r rf r1 r3, hrf]⟩
      feat := ?_
      groups_known := ?_
      grouped := ?_
      ungrouped := ?_
      rels := ?_
      store := ?_
      registered := hr }
  · rw [hnames]
    exact (List.Sublist.map Prod.fst List.filter_sublist).nodup w.names
  · rw [hroot, hmem]
    rintro ⟨i, h1, h2⟩
    exact h2 (w.entry_unique h1 hrn)
  · intro n
    rw [hroot, hmem]
    constructor
    · rintro ⟨i, hi⟩
      by_cases hir : i = r
      · subst hir; exact .inl (w.id_unique hi hrn)
      · exact .inr ⟨i, hi, hir⟩
    · rintro (rfl | ⟨i, hi, _⟩)
      · exact ⟨r, hrn⟩
      · exact ⟨i, hi⟩
  · intro a ha
    obtain ⟨⟨n, i⟩, he, ha⟩ := List.mem_filterMap.1 ha
    obtain ⟨f, f1, f2⟩ := w.feat_ok _ he
    simp only at f1 f2
    have hir : m.root ≠ some i := by
      intro h
      simp [attrOf, h] at ha
    have hfa : f.attr = a := by
      simp only [attrOf, if_neg hir, feat?_of_data f1, Option.map_some] at ha
      exact Option.some.inj ha
    obtain ⟨p, p1, p2⟩ := w.has_fparent (.inl (known_of_mem he)) hir
    obtain ⟨pn, hpn⟩ := known_name p2
    obtain ⟨pf, g1, g2⟩ := w.feat_ok _ hpn
    simp only at g1 g2
    obtain ⟨q, q1, q2⟩ := parentFeature_spec w (.inl (known_of_mem he))
    have hn : a.name = n := by rw [← hfa, f2]
    have : parentOf m a.name = pn := by
      rw [hn]
      simp only [parentOf, getFeature_mem w.names he, q1, (q2 p).2 p1, nameOf_of_data g1, g2, Option.getD_some]
    refine ⟨i, f, p, by rw [hn]; exact he, f1, hfa, ?_, p1⟩
    show (parentOf m a.name, p) ∈ m.features
    rw [this]; exact hpn
  · intro g hgm
    obtain ⟨q, q1, i, i1, _⟩ := (hgroup g.1 g.2).1 hgm
    rw [hroot, hmem]
    by_cases hir : i = r
    · subst hir; exact .inl (w.id_unique i1 hrn)
    · exact .inr ⟨i, i1, hir⟩
  · intro n k i hgm hi
    obtain ⟨q, q1, j, j1, j2, j3⟩ := (hgroup n k).1 hgm
    have := w.entry_unique hi j1
    subst this
    obtain ⟨i', _, h2, h3, h4⟩ := hg q q1
    rw [j2] at h2; cases h2
    exact ⟨q, h3, j3, h4⟩
  · intro n i hi hno c hc
    have ho := (w.edge_par i c (.inl (known_of_mem hi)) hc)
    rcases ho.1 with hk | hrel
    · exact w.known_data hk
    · obtain ⟨k, hk⟩ := w.rel_ok c hrel
      exact absurd ((hgroup n k).2 ⟨c, hrel, i, hi, ho.2, hk⟩) (hno k)
  · intro q hq
    obtain ⟨k, hk⟩ := w.rel_ok q hq
    obtain ⟨i, i1, i2, _⟩ := hg q hq
    obtain ⟨n, hn⟩ := known_name i1
    exact ⟨n, k, i, (hgroup n k).2 ⟨q, hq, i, hn, i2, hk⟩, hn, i2⟩
  · intro cl
    rw [descOf_ofClass hf, List.map_map]
    conv => lhs; rw [← List.map_id (m.store cl)]
    apply List.map_congr_left
    intro s hs
    obtain ⟨h1, _⟩ := hf cl s hs
    obtain ⟨_, h3⟩ := kindOf_cls hf hs
    obtain ⟨t, bs, inf⟩ := s
    simp only at h1 h3
    subst h1
    simp only [Function.comp, constraintOf, id, h3]

end Verif

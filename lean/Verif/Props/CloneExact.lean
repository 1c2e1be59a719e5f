import Verif.FM.CloneAny
import Verif.Props.Clone

/-!
# Clones of any well-formed model (C29)

The groups may hold some of the children of their feature only and the root may have locations.  What the clone is then, and
exactly when it is the same as the original.
-/

namespace Verif.Spec

/-- At most one group directly below each feature. -/
def OneGroup (m : FModel) : Prop :=
  ∀ r r' i, r ∈ m.rels → r' ∈ m.rels → Known m i → par m r = some i → par m r' = some i → r = r'

/-- Every group is directly below a feature. -/
def GroupsFlat (m : FModel) : Prop := ∀ r ∈ m.rels, ∃ i, Known m i ∧ par m r = some i

/-- The node is a member of a group of this kind. -/
def MemberOf (m : FModel) (i : Id) (k : RKind) : Prop := ∃ r, par m i = some r ∧ data m r = some (.rel k)

/-- The same features, with the same attributes and parents, in groups of the same kinds. -/
structure CloneSame (m c : FModel) : Prop where
  names : ∀ n, (∃ i, (n, i) ∈ m.features) ↔ ∃ i, (n, i) ∈ c.features
  attr : ∀ n i j f g, (n, i) ∈ m.features → (n, j) ∈ c.features → data m i = some (.feat f) → data c j = some (.feat g) →
    g.attr = f.attr
  parent : ∀ n i j p q pn, (n, i) ∈ m.features → (n, j) ∈ c.features → (pn, p) ∈ m.features → (pn, q) ∈ c.features →
    (FParent m i p ↔ FParent c j q)
  group : ∀ n i j, (n, i) ∈ m.features → (n, j) ∈ c.features → ∀ k, MemberOf m i k ↔ MemberOf c j k

/-- In the order of the map, what is called `root` is the root or comes after it. -/
def RootComesFirst (E : Env) (m : FModel) : Prop :=
  ∀ pre x post, E.mapOrder m.features = pre ++ (c!"root", x) :: post →
    m.root = some x ∨ ∃ n r, m.root = some r ∧ (n, r) ∈ pre

/-- The constraints mention features of the model only. -/
def OwnFeatures (m : FModel) : Prop := ∀ cl, ∀ s ∈ m.store cl, ∀ n ∈ s.tree.features, ∃ i, (n, i) ∈ m.features

/-- Nothing in the attributes that a clone drops: an output string, a step function, for a feature of unknown kind anything but
    the name, for the root anything but the name. -/
def Kept (a : Attr) : Prop :=
  a.output = [] ∧ (∀ v s, a.kind = .numeric v s → s = none) ∧
    (a.kind = .unknown ∨ a.kind = .root → a.opt = false ∧ a.locs = [])

end Verif.Spec

namespace Verif
open Verif.Spec

theorem clonedAttr_eq_iff {a : Attr} (h : a.kind ≠ .root) : clonedAttr a = a ↔ Kept a := by
  obtain ⟨n, k, o, l, out⟩ := a
  simp only at h
  unfold clonedAttr Kept
  cases k with
  | unknown => simp; constructor <;> (intro h; simp_all)
  | root => exact absurd rfl h
  | binary => simp
  | numeric v s => simp; constructor <;> (intro h; simp_all)

theorem bareRoot_iff {a : Attr} (h : a.kind = .root) : ({ name := a.name, kind := .root } : Attr) = a ↔ Kept a := by
  obtain ⟨n, k, o, l, out⟩ := a
  simp only at h
  subst h
  unfold Kept
  simp
  constructor <;> (intro h; simp_all)

/-- In a described model a feature is in a group exactly if its parent has that group. -/
theorem memberOf_described {d : Desc} {c : FModel} (h : Describes d c) {a : Attr} (ha : a ∈ d.attrs) {j : Id}
    (hj : (a.name, j) ∈ c.features) (k : RKind) : MemberOf c j k ↔ (d.parent a.name, k) ∈ d.groups := by
  have w := h.wf
  obtain ⟨j', f, q, f1, f2, f3, f4, f5⟩ := h.feat a ha
  have := w.entry_unique hj f1
  subst this
  have up : ∀ r, par c j = some r → (∃ k, data c r = some (.rel k)) → r ∈ c.rels ∧ par c r = some q := by
    rintro r hr ⟨k', hk'⟩
    have hrel := w.owned_rel (w.par_edge j r (.inl (known_of_mem f1)) hr).1 ⟨_, hk'⟩
    obtain ⟨n, k2, i, g1, g2, g3⟩ := h.rels r hrel
    have hfp : FParent c j i := .skip hr ⟨_, hk'⟩ (.direct g3 (w.known_data (known_of_mem g2)))
    have := hfp.functional f5
    subst this
    exact ⟨hrel, g3⟩
  constructor
  · rintro ⟨r, hr, hk⟩
    obtain ⟨hrel, hq⟩ := up r hr ⟨k, hk⟩
    obtain ⟨n, k2, i, g1, g2, g3⟩ := h.rels r hrel
    rw [hq] at g3; cases g3
    have := w.id_unique f4 g2
    rw [this]
    obtain ⟨r', e1, e2, _⟩ := h.grouped n k2 q g1 g2
    have hin := (w.par_edge r q (.inr hrel) hq).2
    rw [e1] at hin
    have := List.mem_singleton.1 hin
    subst this
    rw [hk] at e2; cases e2
    exact g1
  · intro hg
    obtain ⟨r', e1, e2, _⟩ := h.grouped _ _ _ hg f4
    cases f5 with
    | direct hp hf =>
      have hin := (w.par_edge j q (.inl (known_of_mem f1)) hp).2
      rw [e1] at hin
      have := List.mem_singleton.1 hin
      subst this
      rw [f2] at e2; cases e2
    | skip hp hr _ =>
      rename_i p _
      obtain ⟨hrel, hq⟩ := up p hp hr
      have hin := (w.par_edge p q (.inr hrel) hq).2
      rw [e1] at hin
      have := List.mem_singleton.1 hin
      subst this
      exact ⟨p, hp, e2⟩

theorem constraintsKnown_iff {d : Desc} {m : FModel} (o : Outlines d m) : ConstraintsKnown d ↔ OwnFeatures m := by
  constructor
  · intro hk cl s hs n hn
    rw [o.store] at hs
    obtain ⟨x, hx, rfl⟩ := List.mem_map.1 hs
    exact (o.names n).2 (hk x (List.mem_filter.1 hx).1 n hn)
  · intro hk x hx n hn
    have hx' : x ∈ d.ofClass x.1.cls := by simp [Desc.ofClass, hx]
    have := o.store x.1.cls
    obtain ⟨i, hi⟩ := hk x.1.cls ⟨x.2, x.2.features.map m.getFeature, x.1.info⟩
      (by rw [this]; exact List.mem_map_of_mem (f := fun x : CKind × Constraint => (⟨x.2, x.2.features.map m.getFeature, x.1.info⟩ : Stored)) hx') n hn
    exact (o.names n).1 ⟨i, hi⟩

theorem clone_free_iff {d : Desc} {m : FModel} (o : Outlines d m) (E : Env) :
    NamesFree c!"root" [] (allCalls E m d) ↔ RootComesFirst E m := by
  have w := o.wf
  have hperm := E.mapOrder_perm m.features
  obtain ⟨r, rf, r1, r2, _⟩ := o.root
  rw [clone_free_any o E, rootFirst_iff]
  constructor
  · intro h pre x post e
    have hx : (c!"root", x) ∈ m.features := hperm.mem_iff.1 (by rw [e]; simp)
    rcases h (pre.map Prod.fst) (post.map Prod.fst) (by rw [e]; simp) with h | h
    · rw [← h] at r2
      exact .inl (w.entry_unique r2 hx ▸ r1)
    · obtain ⟨⟨n, i⟩, hi, hn⟩ := List.mem_map.1 h
      have hn : n = d.root := hn
      subst hn
      have := w.entry_unique r2 (hperm.mem_iff.1 (by rw [e]; exact List.mem_append_left _ hi))
      subst this
      exact .inr ⟨_, r, r1, hi⟩
  · intro h pre post e
    obtain ⟨pre', l2, e1, e2, e3⟩ := List.map_eq_append_iff.1 e
    obtain ⟨⟨n, x⟩, post', e4, e5, e6⟩ := List.map_eq_cons_iff.1 e3
    have e5 : n = c!"root" := e5
    subst e5 e4
    have hx : (c!"root", x) ∈ m.features := hperm.mem_iff.1 (by rw [e1]; simp)
    rcases h pre' x post' e1 with h | ⟨n, r', h1, h2⟩
    · rw [r1] at h; cases h
      exact .inl (w.id_unique hx r2)
    · rw [r1] at h1; cases h1
      have := w.id_unique r2 (hperm.mem_iff.1 (by rw [e1]; exact List.mem_append_left _ h2))
      right
      rw [← e2, this]
      exact List.mem_map_of_mem (f := Prod.fst) h2

end Verif

namespace Verif.Props
open Verif Verif.Spec

/-- Exactly when `clone` gives a model, for well-formed models with at most one group directly below each feature: when nothing called
    `root` comes before the root in the order of the map, which a program does not choose, and the constraints mention features
    of the model only.  Otherwise it aborts, or is null without assertions. -/
theorem C29_succeeds_iff {m : FModel} (w : WF m) (hone : OneGroup m) (hf : Filed m) (E : Env) :
    ((∃ c, m.clone E = .built c) ↔ RootComesFirst E m ∧ OwnFeatures m) ∧
    (¬ (RootComesFirst E m ∧ OwnFeatures m) → m.clone E = if E.asserts then .ub else .null) := by
  have o := outlines_descOf w hone hf
  have hbad : ¬ (RootComesFirst E m ∧ OwnFeatures m) → m.clone E = if E.asserts then .ub else .null := by
    intro hn
    by_cases h1 : RootComesFirst E m
    · exact clone_fails_any o E ((clone_free_iff o E).2 h1) (fun h2 => hn ⟨h1, (constraintsKnown_iff o).1 h2⟩)
    · exact clone_taken_any o E (fun h2 => h1 ((clone_free_iff o E).1 h2))
  refine ⟨⟨?_, ?_⟩, hbad⟩
  · rintro ⟨c, h⟩
    refine Classical.byContradiction fun hn => ?_
    rw [hbad hn] at h
    cases ha : E.asserts <;> rw [ha] at h <;> cases h
  · rintro ⟨h1, h2⟩
    obtain ⟨c, h, _⟩ := clone_describes_any o E ((clone_free_iff o E).2 h1) ((constraintsKnown_iff o).2 h2)
    exact ⟨c, h⟩

/-- What the clone of any well-formed model is.  If at most one group is directly below each feature, and in the cases in which
    `C29_succeeds_iff` says that there is a clone, `clone` builds a well-formed model, with
    groups directly below features and the same names and parents; the root has its name and nothing else, the other features what `C29_drops` leaves; a feature with a
    group has nothing but the group below it, of the same kind, with features in it only. -/
theorem C29_any {m : FModel} (w : WF m) (hone : OneGroup m) (hf : Filed m) (E : Env)
    (hroot : RootComesFirst E m) (hk : OwnFeatures m) :
    ∃ c, m.clone E = .built c ∧ WF c ∧ GroupsFlat c ∧ (∀ n, (∃ i, (n, i) ∈ m.features) ↔ ∃ i, (n, i) ∈ c.features) ∧
    (∀ n i j f, (n, i) ∈ m.features → (n, j) ∈ c.features → data m i = some (.feat f) → ∃ g, data c j = some (.feat g) ∧
      g.attr = if f.attr.kind = .root then { name := n, kind := .root } else clonedAttr f.attr) ∧
    (∀ n i j p q pn, (n, i) ∈ m.features → (n, j) ∈ c.features → (pn, p) ∈ m.features → (pn, q) ∈ c.features →
      (FParent m i p ↔ FParent c j q)) ∧
    (∀ n i j k, (n, i) ∈ m.features → (n, j) ∈ c.features →
      ((∃ r ∈ m.rels, par m r = some i ∧ data m r = some (.rel k)) ↔
        ∃ r, edg c j = [r] ∧ data c r = some (.rel k) ∧ ∀ x ∈ edg c r, IsFeat c x)) ∧
    (∀ n i j k p, (n, i) ∈ m.features → (n, j) ∈ c.features → FParent m i p →
      (MemberOf c j k ↔ ∃ r ∈ m.rels, par m r = some p ∧ data m r = some (.rel k))) ∧
    (∀ cl, (c.store cl).map Stored.tree = (m.store cl).map Stored.tree ∧
      (c.store cl).map Stored.info = (m.store cl).map Stored.info) := by
  have o := outlines_descOf w hone hf
  generalize descOf m = d at o
  obtain ⟨r, rf, r1, r2, r3, r4, r5⟩ := o.root
  have hr' := (clone_free_iff o E).2 hroot
  have hk' := (constraintsKnown_iff o).2 hk
  obtain ⟨c, h1, h2⟩ := clone_describes_any o E hr' hk'
  have w2 := h2.wf
  have hgr : d.cloned.groups = d.groups := rfl
  have hcn : d.cloned.attrs.map Attr.name = d.attrs.map Attr.name := cloned_names d
  have hnames : ∀ n, (∃ i, (n, i) ∈ m.features) ↔ ∃ i, (n, i) ∈ c.features := by
    intro n
    rw [o.names, h2.names, hcn]; exact Iff.rfl
  obtain ⟨s, sf, s1, s2, s3, s4⟩ := h2.root
  have s2 : (d.root, s) ∈ c.features := s2
  have noparent : ∀ {m : FModel} (w : WF m) {r p}, m.root = some r → ¬ FParent m r p := by
    intro m w r p hr hp
    have := w.root_par hr
    cases hp with
    | direct hp _ => rw [this] at hp; cases hp
    | skip hp _ _ => rw [this] at hp; cases hp
  have hgroup : ∀ n i j k, (n, i) ∈ m.features → (n, j) ∈ c.features →
      ((∃ r ∈ m.rels, par m r = some i ∧ data m r = some (.rel k)) ↔ (n, k) ∈ d.groups) := by
    intro n i j k hi hj
    rw [o.groups]
    constructor
    · rintro ⟨q, q1, q2, q3⟩; exact ⟨q, q1, i, hi, q2, q3⟩
    · rintro ⟨q, q1, i', hi', q2, q3⟩
      have := w.entry_unique hi hi'
      subst this
      exact ⟨q, q1, q2, q3⟩
  refine ⟨c, h1, w2, ?_, hnames, ?_, ?_, ?_, ?_, ?_⟩
  · intro q hq
    obtain ⟨n, k, i, _, g2, g3⟩ := h2.rels q hq
    exact ⟨i, known_of_mem g2, g3⟩
  · intro n i j f hi hj hfd
    rcases (o.names n).1 ⟨i, hi⟩ with rfl | hn
    · have e1 := w.entry_unique hi r2
      have e2 := w2.entry_unique hj s2
      subst e1 e2
      rw [r3] at hfd; cases hfd
      exact ⟨sf, s3, by rw [s4, if_pos r5]; rfl⟩
    · obtain ⟨a, ha, rfl⟩ := List.mem_map.1 hn
      obtain ⟨i', f1, _, g1, g2, g3, _⟩ := o.feat a ha
      have e1 := w.entry_unique hi g1
      subst e1
      rw [g2] at hfd; cases hfd
      obtain ⟨j', f2, _, k1, k2, k3, _⟩ := h2.feat (clonedAttr a) (List.mem_map_of_mem ha)
      rw [clonedAttr_name] at k1
      have e2 := w2.entry_unique hj k1
      subst e2
      have hkr : f.attr.kind ≠ .root := by
        intro hkr
        have := w.one_root i f (known_of_mem hi) g2 hkr
        rw [r1] at this; cases this
        exact o.root_new (w.id_unique r2 hi ▸ List.mem_map_of_mem ha)
      exact ⟨f2, k2, by rw [k3, if_neg hkr, g3]⟩
  · intro n i j p q pn hi hj hp hq
    rcases (o.names n).1 ⟨i, hi⟩ with rfl | hn
    · have e1 := w.entry_unique hi r2
      have e2 := w2.entry_unique hj s2
      subst e1 e2
      exact ⟨fun h => (noparent w r1 h).elim, fun h => (noparent w2 s1 h).elim⟩
    · obtain ⟨a, ha, rfl⟩ := List.mem_map.1 hn
      obtain ⟨i', f1, p', g1, g2, g3, g4, g5⟩ := o.feat a ha
      have e1 := w.entry_unique hi g1
      subst e1
      obtain ⟨j', f2, q', k1, k2, k3, k4, k5⟩ := h2.feat (clonedAttr a) (List.mem_map_of_mem ha)
      rw [clonedAttr_name] at k1 k4
      have e2 := w2.entry_unique hj k1
      subst e2
      have k4 : (d.parent a.name, q') ∈ c.features := k4
      constructor
      · intro h
        have := h.functional g5
        subst this
        have := w.id_unique hp g4
        subst this
        rw [w2.entry_unique hq k4]; exact k5
      · intro h
        have := h.functional k5
        subst this
        have := w2.id_unique hq k4
        subst this
        rw [w.entry_unique hp g4]; exact g5
  · intro n i j k hi hj
    rw [hgroup n i j k hi hj]
    constructor
    · intro hg
      exact h2.grouped n k j hg hj
    · rintro ⟨q, q1, q2, q3⟩
      have hq := w2.edge_par j q (.inl (known_of_mem hj)) (by rw [q1]; exact List.mem_singleton.2 rfl)
      have hrel := w2.owned_rel hq.1 ⟨_, q2⟩
      obtain ⟨n', k', j', g1, g2, g3⟩ := h2.rels q hrel
      rw [hq.2] at g3; cases g3
      have := w2.id_unique hj g2
      subst this
      obtain ⟨q', e1, e2, _⟩ := h2.grouped n k' j g1 g2
      rw [q1] at e1; cases e1
      rw [q2] at e2; cases e2
      exact g1
  · intro n i j k p hi hj hp
    rcases (o.names n).1 ⟨i, hi⟩ with rfl | hn
    · have e1 := w.entry_unique hi r2
      subst e1
      exact (noparent w r1 hp).elim
    · obtain ⟨a, ha, rfl⟩ := List.mem_map.1 hn
      obtain ⟨i', f1, p', g1, g2, g3, g4, g5⟩ := o.feat a ha
      have e1 := w.entry_unique hi g1
      subst e1
      have := hp.functional g5
      subst this
      rw [memberOf_described h2 (List.mem_map_of_mem (f := clonedAttr) ha) (by rw [clonedAttr_name]; exact hj), clonedAttr_name]
      obtain ⟨q, hq⟩ := (hnames _).1 ⟨p, g4⟩
      exact (hgroup _ p q k g4 hq).symm
  · intro cl
    rw [h2.store, o.store]
    have : d.cloned.ofClass cl = d.ofClass cl := rfl
    rw [this]
    simp [List.map_map, Function.comp_def]

/-- Exactly when a clone is the same as the original, for well-formed models whose groups are directly below features, one at most
    below each: when nothing is in the attributes that a clone drops, and where there is a group below a feature nothing else is.
    In all other cases there is a clone, and it is not the same. -/
theorem C29_exact {m : FModel} (w : WF m) (hone : OneGroup m) (hflat : GroupsFlat m) (hf : Filed m) (E : Env)
    (hroot : RootComesFirst E m) (hk : OwnFeatures m) :
    ∃ c, m.clone E = .built c ∧ (CloneSame m c ↔
      (∀ i f, Known m i → data m i = some (.feat f) → Kept f.attr) ∧
      ∀ r ∈ m.rels, ∀ i, par m r = some i → edg m i = [r]) := by
  obtain ⟨c, h1, w2, _, hn, ha, hp, _, hg, _⟩ := C29_any w hone hf E hroot hk
  refine ⟨c, h1, ?_⟩
  have hattr : ∀ (n : Str) (f : Feat), f.attr.name = n → ((if f.attr.kind = .root then { name := n, kind := .root } else clonedAttr f.attr) = f.attr ↔
      Kept f.attr) := by
    intro n f e
    subst e
    by_cases e : f.attr.kind = .root
    · rw [if_pos e]; exact bareRoot_iff e
    · rw [if_neg e]; exact clonedAttr_eq_iff e
  constructor
  · intro S
    refine ⟨?_, ?_⟩
    · intro i f hi hfd
      obtain ⟨n, hin⟩ := known_name hi
      obtain ⟨f', f1, f2⟩ := w.feat_ok _ hin
      simp only at f1 f2
      rw [hfd] at f1; cases f1
      obtain ⟨j, hj⟩ := (hn n).1 ⟨i, hin⟩
      obtain ⟨g, g1, g2⟩ := ha n i j f hin hj hfd
      exact (hattr n f f2).1 (g2.symm.trans (S.attr n i j f g hin hj hfd g1))
    · intro r hr i hi
      obtain ⟨k, hkd⟩ := w.rel_ok r hr
      obtain ⟨i', hki, hi'⟩ := hflat r hr
      rw [hi] at hi'; cases hi'
      have hre := (w.par_edge r i (.inr hr) hi).2
      have all : ∀ x ∈ edg m i, x = r := by
        intro x hx
        obtain ⟨ho, hxp⟩ := w.edge_par i x (.inl hki) hx
        rcases ho with hkx | hrx
        · exfalso
          obtain ⟨n, hxn⟩ := known_name hkx
          obtain ⟨j, hj⟩ := (hn n).1 ⟨x, hxn⟩
          have hfp : FParent m x i := .direct hxp (w.known_data hki)
          obtain ⟨q, q1, q2⟩ := (S.group n x j hxn hj k).2 ((hg n x j k i hxn hj hfp).2 ⟨r, hr, hi, hkd⟩)
          rw [hxp] at q1; cases q1
          obtain ⟨f, hfd⟩ := w.known_data hki
          rw [hfd] at q2; cases q2
        · exact hone x r i hrx hr hki hxp hi
      have nd := w.edges_nodup i (.inl hki)
      clear hi
      revert hre nd all
      generalize edg m i = l
      intro hre all nd
      cases l with
      | nil => cases hre
      | cons y l =>
        have := all y (List.mem_cons_self ..)
        subst this
        cases l with
        | nil => rfl
        | cons z l =>
          have := all z (List.mem_cons_of_mem _ (List.mem_cons_self ..))
          subst this
          simp at nd
  · rintro ⟨K, F⟩
    refine ⟨hn, ?_, hp, ?_⟩
    · intro n i j f g hi hj hfd hgd
      obtain ⟨g', g1, g2⟩ := ha n i j f hi hj hfd
      rw [hgd] at g1; cases g1
      obtain ⟨f', f1, f2⟩ := w.feat_ok _ hi
      simp only at f1 f2
      rw [hfd] at f1; cases f1
      rw [g2]
      exact (hattr n f f2).2 (K i f (known_of_mem hi) hfd)
    · intro n i j hi hj k
      by_cases hr : m.root = some i
      · have hpi := w.root_par hr
        have hcj : par c j = none := by
          cases hq : par c j with
          | none => rfl
          | some q =>
            exfalso
            have hjr : c.root ≠ some j := by
              intro h
              have := w2.root_par h
              rw [hq] at this; cases this
            obtain ⟨p, p1, p2⟩ := w2.has_fparent (.inl (known_of_mem hj)) hjr
            obtain ⟨pn, hpn⟩ := known_name p2
            obtain ⟨p', hp'⟩ := (hn pn).2 ⟨p, hpn⟩
            have := (hp n i j p' p pn hi hj hp' hpn).2 p1
            cases this with
            | direct h _ => rw [hpi] at h; cases h
            | skip h _ _ => rw [hpi] at h; cases h
        constructor
        · rintro ⟨r, h, _⟩; rw [hpi] at h; cases h
        · rintro ⟨r, h, _⟩; rw [hcj] at h; cases h
      · obtain ⟨p, p1, p2⟩ := w.has_fparent (.inl (known_of_mem hi)) hr
        rw [hg n i j k p hi hj p1]
        have up : ∀ r, par m i = some r → (∃ k, data m r = some (.rel k)) → r ∈ m.rels ∧ par m r = some p := by
          rintro r hir ⟨k', hk'⟩
          have hrel := w.owned_rel (w.par_edge i r (.inl (known_of_mem hi)) hir).1 ⟨_, hk'⟩
          obtain ⟨i', g1, g2⟩ := hflat r hrel
          have hfp : FParent m i i' := .skip hir ⟨_, hk'⟩ (.direct g2 (w.known_data g1))
          have := hfp.functional p1
          subst this
          exact ⟨hrel, g2⟩
        constructor
        · rintro ⟨r, h, hkd⟩
          obtain ⟨u1, u2⟩ := up r h ⟨_, hkd⟩
          exact ⟨r, u1, u2, hkd⟩
        · rintro ⟨r, hrm, hrp, hkd⟩
          have he := F r hrm p hrp
          cases p1 with
          | direct h hfd =>
            have := (w.par_edge i p (.inl (known_of_mem hi)) h).2
            rw [he] at this
            have := List.mem_singleton.1 this
            subst this
            obtain ⟨f, hfd⟩ := w.known_data (known_of_mem hi)
            rw [hfd] at hkd; cases hkd
          | skip h hrel _ =>
            rename_i q _
            obtain ⟨u1, u2⟩ := up q h hrel
            have := hone q r p u1 hrm p2 u2 hrp
            subst this
            exact ⟨q, h, hkd⟩

/-- `R` with a location, a group with `A` below it, and `B` beside the group. -/
def besideNodes : FModel :=
  ofNodes [⟨.feat { attr := { name := c!"R", kind := .root, locs := [⟨[c!"a.cpp"], none, none, .necessary, none, none⟩] } }, none, [1, 3]⟩,
    ⟨.rel .alternative, some 0, [2]⟩, featNode "A" (some 1) [], featNode "B" (some 0) []]
    (some 0) [(c!"R", 0), (c!"A", 2), (c!"B", 3)] [1]

/-- Not vacuous: that model meets all hypotheses of `C29_any` and `C29_exact`, and its clone is not the same. -/
example : ∃ c, besideNodes.clone (stdEnv true) = .built c ∧ ¬ CloneSame besideNodes c := by
  have w : WF besideNodes := wf_of_check (fun i => i) (ofNodes_fresh _ _ _ _ _) (by decide)
  have hr : ∀ r ∈ besideNodes.rels, r = 1 := fun r h => by simpa [besideNodes, ofNodes] using h
  obtain ⟨c, h1, h2⟩ := C29_exact w (by intro r r' i h h' _ _ _; rw [hr r h, hr r' h'])
    (by intro r h; rw [hr r h]; exact ⟨0, by decide, by decide⟩)
    (by intro cl s hs; cases cl <;> cases hs) (stdEnv true)
    (by
      intro pre x post e
      have hx : (c!"root", x) ∈ besideNodes.features := ((stdEnv true).mapOrder_perm _).mem_iff.1 (by rw [e]; simp)
      have hx : (c!"root", x) ∈ [(c!"R", 0), (c!"A", 2), (c!"B", 3)] := hx
      simp at hx)
    (by intro cl s hs; cases cl <;> cases hs)
  refine ⟨c, h1, fun S => ?_⟩
  have := (h2.1 S).2 1 (by decide) 0 (by decide)
  revert this
  decide

/-- Not vacuous: a feature called `root` below `R`, in the order of the list and the other way round. -/
example : ∃ m : FModel, WF m ∧ OneGroup m ∧ Filed m ∧ (∃ c, m.clone (stdEnv true) = .built c) ∧ ¬ RootComesFirst (revEnv true) m := by
  let m := ofNodes [featNode "R" none [1] .root, featNode "root" (some 0) []] (some 0) [(c!"R", 0), (c!"root", 1)] []
  obtain ⟨c, h1, _⟩ := BuildRes.of_passes (r := m.clone (stdEnv true)) (p := fun _ => true) (by decide)
  refine ⟨m, wf_of_check (fun i => i) (ofNodes_fresh _ _ _ _ _) (by decide), (by intro r r' i h; cases h),
    (by intro cl s hs; cases cl <;> cases hs), ⟨c, h1⟩, fun h => ?_⟩
  rcases h [] 1 [(c!"R", 0)] rfl with h | ⟨n, r, _, h⟩
  · revert h; decide
  · cases h

end Verif.Props

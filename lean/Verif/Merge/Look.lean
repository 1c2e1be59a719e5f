import Verif.Merge.Again
import Verif.Props.SourceRange
/-! Lemmas: what the features of a model look like, and what merging makes of it. -/

namespace Verif
open Verif.Spec

/-- The members of a feature and the name of its parent. -/
structure Look where
  attr : Attr
  parent : Option Str

/-- The feature of that name looks like this. -/
def Looks (m : FModel) (n : Str) (x : Look) : Prop :=
  ∃ i f, (n, i) ∈ m.features ∧ data m i = some (.feat f) ∧ f.attr = x.attr ∧
    ∀ pn, x.parent = some pn ↔ ∃ p, FParent m i p ∧ (pn, p) ∈ m.features

variable {d : Desc} {m m1 m2 m3 c c0 : FModel} {n : Str} {x y z : Look}

theorem look_parent_known (w : WF m) {i q : Id} (hx : Owned m i) (h : FParent m i q) : Known m q := by
  induction h with
  | direct hp hf => exact w.known_feat (w.par_edge _ _ hx hp).1 hf
  | skip hp _ _ ih => exact ih (w.par_edge _ _ hx hp).1

theorem looks_of (w : WF m) {i : Id} {f : Feat} (hi : (n, i) ∈ m.features) (hf : data m i = some (.feat f)) :
    ∃ x, Looks m n x ∧ x.attr = f.attr := by
  by_cases h : ∃ p, FParent m i p
  · obtain ⟨p, hp⟩ := h
    obtain ⟨⟨pn, p'⟩, hm, rfl⟩ := List.mem_map.1 (look_parent_known w (.inl (known_of_mem hi)) hp)
    refine ⟨⟨f.attr, some pn⟩, ⟨i, f, hi, hf, rfl, fun qn => ?_⟩, rfl⟩
    constructor
    · intro e; cases e; exact ⟨p', hp, hm⟩
    · rintro ⟨q, a, b⟩
      have := a.functional hp; subst this
      rw [w.id_unique b hm]
  · refine ⟨⟨f.attr, none⟩, ⟨i, f, hi, hf, rfl, fun qn => ?_⟩, rfl⟩
    constructor
    · intro e; cases e
    · rintro ⟨q, a, _⟩; exact absurd ⟨q, a⟩ h

theorem looks_name (w : WF m) : (∃ i, (n, i) ∈ m.features) ↔ ∃ x, Looks m n x := by
  constructor
  · rintro ⟨i, hi⟩
    obtain ⟨f, hf, _⟩ := w.feat_ok _ hi
    obtain ⟨x, hx, _⟩ := looks_of w hi hf
    exact ⟨x, hx⟩
  · rintro ⟨x, i, f, hi, _⟩; exact ⟨i, hi⟩

theorem looks_unique (w : WF m) (hx : Looks m n x) (hy : Looks m n y) : x = y := by
  obtain ⟨i, f, a1, a2, a3, a4⟩ := hx
  obtain ⟨j, g, b1, b2, b3, b4⟩ := hy
  have := w.entry_unique a1 b1; subst this
  rw [a2] at b2; cases b2
  have hp : x.parent = y.parent := by
    apply Option.ext
    intro pn
    rw [a4, b4]
  cases x; cases y
  simp only at a3 b3 hp
  rw [← a3, ← b3, hp]

/-- The root is the only feature of its kind, and without parent. -/
theorem looks_root (w : WF m) (h : Looks m n x) : (x.attr.kind = .root ↔ ∃ r, m.root = some r ∧ (n, r) ∈ m.features) ∧
    (x.parent = none ↔ ∃ r, m.root = some r ∧ (n, r) ∈ m.features) := by
  obtain ⟨i, f, a1, a2, a3, a4⟩ := h
  have e1 := root_of_kind w (known_of_mem a1) a2
  have e : (∃ r, m.root = some r ∧ (n, r) ∈ m.features) ↔ m.root = some i := by
    constructor
    · rintro ⟨r, b1, b2⟩
      have := w.entry_unique a1 b2; subst this; exact b1
    · intro b; exact ⟨i, b, a1⟩
  rw [e, ← a3]
  refine ⟨e1, ?_⟩
  constructor
  · intro hn
    apply Classical.byContradiction
    intro hr
    obtain ⟨q, hq, kq⟩ := w.has_fparent (.inl (known_of_mem a1)) hr
    obtain ⟨⟨qn, q'⟩, hm, rfl⟩ := List.mem_map.1 kq
    have := (a4 qn).2 ⟨q', hq, hm⟩
    rw [hn] at this; cases this
  · intro hr
    cases hp : x.parent with
    | none => rfl
    | some pn =>
      obtain ⟨p, b1, _⟩ := (a4 pn).1 hp
      have := w.root_par hr
      cases b1 with
      | direct hp _ => rw [this] at hp; cases hp
      | skip hp _ _ => rw [this] at hp; cases hp

/-- What a clone keeps. -/
def Look.cl (x : Look) : Look := ⟨clonedAttr x.attr, x.parent⟩

/-- Locations that are new. -/
def news (a b : List Range) : List Range := b.filter fun r => !a.any fun l => l.eq r

/-- What merging makes of two features. -/
def Look.plus (x y : Look) : Look :=
  ⟨{ clonedAttr x.attr with locs := (clonedAttr x.attr).locs ++ news x.attr.locs y.attr.locs }, x.parent⟩

/-- Features of known kind; the root is bare. -/
def Look.Solid (x : Look) : Prop := x.attr.kind ≠ .unknown ∧ (x.attr.kind = .root → x.attr = { name := x.attr.name, kind := .root })

theorem cloned_idem (a : Attr) : clonedAttr (clonedAttr a) = clonedAttr a := by
  unfold clonedAttr
  cases h : a.kind <;> simp_all

theorem cloned_locs {a : Attr} (h1 : a.kind ≠ .unknown) (h2 : a.kind = .root → a = { name := a.name, kind := .root }) :
    (clonedAttr a).locs = a.locs ∧ (clonedAttr a).opt = a.opt := by
  unfold clonedAttr
  cases h : a.kind with
  | unknown => exact absurd h h1
  | root => rw [h2 h]; exact ⟨rfl, rfl⟩
  | binary => exact ⟨rfl, rfl⟩
  | numeric v s => exact ⟨rfl, rfl⟩

theorem cloned_with_locs {a : Attr} (ls : List Range) (hu : a.kind ≠ .unknown) (h : a.kind = .root → ls = []) :
    clonedAttr { clonedAttr a with locs := ls } = { clonedAttr a with locs := ls } := by
  unfold clonedAttr
  cases hk : a.kind with
  | unknown => exact absurd hk hu
  | root => rw [h hk]
  | binary => simp [hk]
  | numeric v s => simp

theorem cloned_kind_root {a : Attr} : (clonedAttr a).kind = .root ↔ a.kind = .root := by
  unfold clonedAttr
  cases h : a.kind <;> simp [h]

theorem cloned_kind_unknown {a : Attr} : (clonedAttr a).kind = .unknown ↔ a.kind = .unknown := by
  unfold clonedAttr
  cases h : a.kind <;> simp [h]

theorem range_eq_trans {r s t : Range} (h : r.eq s = true) (h' : s.eq t = true) : r.eq t = true := by
  rw [Props.C14_range_eq_partial] at h h' ⊢
  obtain ⟨a1, a2, a3, a4, a5⟩ := h
  obtain ⟨b1, b2, b3, b4, b5⟩ := h'
  exact ⟨a1.trans b1, a2.trans b2, a3.trans b3, a4.trans b4, a5.trans b5⟩

theorem news_assoc (a b c : List Range) : news a b ++ news (a ++ news a b) c = news a (b ++ news b c) := by
  unfold news
  rw [List.filter_append, List.filter_filter]
  congr 1
  apply List.filter_congr
  intro r _
  rw [Bool.eq_iff_iff]
  simp only [List.any_append, Bool.not_or, Bool.and_eq_true, Bool.not_eq_true', List.any_eq_false, List.mem_filter]
  constructor
  · rintro ⟨h1, h2⟩
    refine ⟨h1, fun l hl e => ?_⟩
    by_cases hx : ∃ k ∈ a, k.eq l = true
    · obtain ⟨k, k1, k2⟩ := hx
      exact h1 k k1 (range_eq_trans k2 e)
    · exact h2 l ⟨hl, fun k hk ek => hx ⟨k, hk, ek⟩⟩ e
  · rintro ⟨h1, h2⟩
    exact ⟨h1, fun l hl => h2 l hl.1⟩

theorem news_nil (a : List Range) : news a [] = [] := rfl

theorem solid_locs (h : x.Solid) : (clonedAttr x.attr).locs = x.attr.locs ∧ (clonedAttr x.attr).opt = x.attr.opt := cloned_locs h.1 h.2

theorem solid_root (h : x.Solid) (hr : x.attr.kind = .root) : x.attr.locs = [] := by rw [h.2 hr]

theorem cl_cl (x : Look) : x.cl.cl = x.cl := by unfold Look.cl; simp only [cloned_idem]

theorem plus_cl (hx : x.Solid) (hy : y.Solid) (hr : x.attr.kind = .root → y.attr.kind = .root) : (x.plus y).cl = x.plus y.cl := by
  unfold Look.cl Look.plus
  simp only [(solid_locs hy).1]
  rw [cloned_with_locs _ hx.1]
  intro h
  rw [(solid_locs hx).1, solid_root hx h, solid_root hy (hr h)]; rfl

theorem cl_plus (hx : x.Solid) (hz : x.attr.kind = .root → z.Solid) (hz' : x.attr.kind ≠ .root → z.cl.attr.locs = z.attr.locs) :
    x.cl.plus z = x.plus z.cl := by
  unfold Look.cl Look.plus
  simp only [cloned_idem]
  rw [(solid_locs hx).1]
  congr 4
  by_cases h : x.attr.kind = .root
  · exact (solid_locs (hz h)).1.symm
  · exact (hz' h).symm

theorem plus_plus (hx : x.Solid) (hy : y.Solid) (hr : x.attr.kind = .root → y.attr.kind = .root) :
    (x.plus y).plus z = x.plus (y.plus z) := by
  unfold Look.plus
  simp only
  rw [cloned_with_locs _ hx.1]
  · simp only [(solid_locs hx).1, (solid_locs hy).1, List.append_assoc, news_assoc]
  · intro h
    rw [(solid_locs hx).1, solid_root hx h, solid_root hy (hr h)]; rfl

end Verif

import Verif.Merge.Look
/-! Lemmas: merging three models. -/

namespace Verif
open Verif.Spec

variable {d : Desc} {m m1 m2 m3 c c0 : FModel} {n : Str} {x y z : Look} {strict : Bool}

section
variable (M : MergedModel m1 m2 c) (w1 : WF m1) (w2 : WF m2)
include M w1

theorem merged_root {r : Id} (hr : m1.root = some r) (hn : (n, r) ∈ m1.features) : ∃ r', c.root = some r' ∧ (n, r') ∈ c.features := by
  obtain ⟨n', i, r', a1, a2, a3, a4⟩ := M.root
  rw [hr] at a1; cases a1
  have := w1.id_unique hn a2; subst this
  exact ⟨r', a3, a4⟩

theorem merged_first_look (hx : Looks m1 n x) {f : Feat} {i i' : Id} {f' : Feat} (hi : (n, i) ∈ m1.features)
    (hf : data m1 i = some (.feat f)) (hi' : (n, i') ∈ c.features) (hf' : data c i' = some (.feat f'))
    (hp : ∀ p pn, FParent m1 i p → (pn, p) ∈ m1.features → ∃ p', FParent c i' p' ∧ (pn, p') ∈ c.features) :
    Looks c n ⟨f'.attr, x.parent⟩ := by
  obtain ⟨j, g, a1, a2, a3, a4⟩ := hx
  have := w1.entry_unique hi a1; subst this
  refine ⟨i', f', hi', hf', rfl, fun pn => ?_⟩
  simp only
  constructor
  · intro e
    obtain ⟨p, b1, b2⟩ := (a4 pn).1 e
    exact hp p pn b1 b2
  · rintro ⟨q, b1, b2⟩
    cases hxp : x.parent with
    | some qn =>
      obtain ⟨p, e1, e2⟩ := (a4 qn).1 hxp
      obtain ⟨p', e3, e4⟩ := hp p qn e1 e2
      have := e3.functional b1; subst this
      rw [M.wf.id_unique e4 b2]
    | none =>
      have hroot := (looks_root w1 ⟨i, g, a1, a2, a3, a4⟩).2.1 hxp
      obtain ⟨r, c1, c2⟩ := hroot
      obtain ⟨r', c3, c4⟩ := merged_root M w1 c1 c2
      have := M.wf.entry_unique hi' c4; subst this
      have := M.wf.root_par c3
      cases b1 with
      | direct hp _ => rw [this] at hp; cases hp
      | skip hp _ _ => rw [this] at hp; cases hp

theorem merged_alone (hx : Looks m1 n x) (hn : ∀ j, (n, j) ∉ m2.features) : Looks c n x.cl := by
  have hx' := hx
  obtain ⟨i, f, a1, a2, a3, a4⟩ := hx'
  obtain ⟨i', f', ls, b1, b2, b3, _, b5, b6⟩ := M.first n i f a1 a2
  have := merged_first_look M w1 hx a1 a2 b1 b2 b6
  rw [b3, b5 hn, List.append_nil, a3] at this
  exact this

theorem merged_both (hx : Looks m1 n x) (hy : Looks m2 n y) : Looks c n (x.plus y) := by
  have hx' := hx
  obtain ⟨i, f, a1, a2, a3, a4⟩ := hx'
  obtain ⟨j, g, e1, e2, e3, e4⟩ := hy
  obtain ⟨i', f', ls, b1, b2, b3, b4, _, b6⟩ := M.first n i f a1 a2
  have := merged_first_look M w1 hx a1 a2 b1 b2 b6
  rw [b3, b4 j g e1 e2, a3] at this
  unfold Look.plus
  unfold newLocs at this
  rw [a3, e3] at this
  exact this

include w2

theorem merged_second (hn : ∀ i, (n, i) ∉ m1.features) (hy : Looks m2 n y)
    (hr : ∀ n r, m2.root = some r → (n, r) ∈ m2.features → ∃ i, (n, i) ∈ m1.features) : Looks c n y.cl := by
  have hy' := hy
  obtain ⟨j, g, e1, e2, e3, e4⟩ := hy'
  obtain ⟨i', f', b1, b2, b3, b4⟩ := M.second n j g e1 e2 hn
  refine ⟨i', f', b1, b2, by rw [b3, e3]; rfl, fun pn => ?_⟩
  have key : ∀ q qn, FParent m2 j q → (qn, q) ∈ m2.features → ∃ p', FParent c i' p' ∧ (qn, p') ∈ c.features := by
    intro q qn k1 k2
    obtain ⟨p', k3, k4⟩ := b4 q qn k1 k2
    exact ⟨p', .direct k3 (M.wf.known_data (known_of_mem k4)), k4⟩
  show y.parent = some pn ↔ _
  constructor
  · intro e
    obtain ⟨p, c1, c2⟩ := (e4 pn).1 e
    exact key p pn c1 c2
  · rintro ⟨q, c1, c2⟩
    cases hyp : y.parent with
    | some qn =>
      obtain ⟨p, k1, k2⟩ := (e4 qn).1 hyp
      obtain ⟨p', k3, k4⟩ := key p qn k1 k2
      have := k3.functional c1; subst this
      rw [M.wf.id_unique k4 c2]
    | none =>
      obtain ⟨r, k1, k2⟩ := (looks_root w2 hy).2.1 hyp
      obtain ⟨i, k3⟩ := hr n r k1 k2
      exact absurd k3 (hn i)

end

/-- The features do not conflict. -/
def Fit (strict : Bool) (x y : Look) : Prop :=
  (x.attr.kind = .root ∨ y.attr.kind = .root ∨ ∃ p q, x.parent = some p ∧ y.parent = some q ∧ lower p = lower q) ∧
  (strict = true → x.attr.opt = y.attr.opt ∧ SameKind x.attr.kind y.attr.kind)

theorem not_inGroup (w : WF m) (hr : m.rels = []) {i : Id} (hi : Known m i) : ¬ Spec.InGroup m i := by
  rintro ⟨r, h1, h2⟩
  have := w.owned_rel (w.par_edge i r (.inl hi) h1).1 h2
  rw [hr] at this; cases this

theorem fits_look (w1 : WF m1) (w2 : WF m2) (hg : strict = true → m1.rels = [] ∧ m2.rels = []) (hx : Looks m1 n x) (hy : Looks m2 n y)
    {i j : Id} (hi : (n, i) ∈ m1.features) (hj : (n, j) ∈ m2.features) : Spec.Fits strict m1 m2 i j ↔ Fit strict x y := by
  obtain ⟨i', f, a1, a2, a3, a4⟩ := hx
  have := w1.entry_unique hi a1; subst this
  obtain ⟨j', g, b1, b2, b3, b4⟩ := hy
  have := w2.entry_unique hj b1; subst this
  have hp : SameParent m1 m2 i j ↔ ∃ p q, x.parent = some p ∧ y.parent = some q ∧ lower p = lower q := by
    constructor
    · rintro ⟨p, q, pn, qn, e1, e2, e3, e4, e5⟩
      exact ⟨pn, qn, (a4 pn).2 ⟨p, e1, e3⟩, (b4 qn).2 ⟨q, e2, e4⟩, e5⟩
    · rintro ⟨pn, qn, e1, e2, e3⟩
      obtain ⟨p, k1, k2⟩ := (a4 pn).1 e1
      obtain ⟨q, k3, k4⟩ := (b4 qn).1 e2
      exact ⟨p, q, pn, qn, k1, k3, k2, k4, e3⟩
  unfold Fit
  rw [← hp, ← a3, ← b3]
  constructor
  · rintro ⟨f', g', k1, k2, k3, k4⟩
    rw [a2] at k1; cases k1
    rw [b2] at k2; cases k2
    exact ⟨k3, fun hs => ⟨(k4 hs).1, (k4 hs).2.1⟩⟩
  · rintro ⟨k3, k4⟩
    refine ⟨f, g, a2, b2, k3, fun hs => ⟨(k4 hs).1, (k4 hs).2, .inr ?_⟩⟩
    exact ⟨fun h => absurd h (not_inGroup w1 (hg hs).1 (known_of_mem hi)), fun h => absurd h (not_inGroup w2 (hg hs).2 (known_of_mem hj))⟩

/-- No conflict, in terms of looks. -/
def AllFit (strict : Bool) (m1 m2 : FModel) : Prop :=
  ∀ n y, Looks m2 n y → (∀ x, Looks m1 n x → Fit strict x y) ∧ ((∀ i, (n, i) ∉ m1.features) → y.attr.kind ≠ .unknown)

theorem mergeable_look (w1 : WF m1) (w2 : WF m2) (hg : strict = true → m1.rels = [] ∧ m2.rels = []) :
    (∀ j, Known m2 j → Mergeable strict m1 m2 j) ↔ AllFit strict m1 m2 := by
  constructor
  · intro h n y hy
    have hy' := hy
    obtain ⟨j, g, b1, b2, b3, b4⟩ := hy'
    obtain ⟨n', g', e1, e2, e3⟩ := h j (known_of_mem b1)
    have := w2.id_unique e1 b1; subst this
    rw [b2] at e2; cases e2
    constructor
    · intro x hx
      rcases e3 with ⟨i, k1, k2⟩ | ⟨k1, _⟩
      · exact (fits_look w1 w2 hg hx hy k1 b1).1 k2
      · obtain ⟨i, _, k2, _⟩ := hx; exact absurd k2 (k1 i)
    · intro hn
      rcases e3 with ⟨i, k1, k2⟩ | ⟨_, k1⟩
      · exact absurd k1 (hn i)
      · rw [← b3]; exact k1
  · intro h j hj
    obtain ⟨⟨n, j'⟩, hm, rfl⟩ := List.mem_map.1 hj
    obtain ⟨g, hg', _⟩ := w2.feat_ok _ hm
    obtain ⟨y, hy, hya⟩ := looks_of w2 hm hg'
    obtain ⟨h1, h2⟩ := h n y hy
    refine ⟨n, g, hm, hg', ?_⟩
    by_cases hin : ∃ i, (n, i) ∈ m1.features
    · obtain ⟨i, hi⟩ := hin
      obtain ⟨x, hx⟩ := (looks_name w1).1 ⟨i, hi⟩
      exact .inl ⟨i, hi, (fits_look w1 w2 hg hx hy hi hm).2 (h1 x hx)⟩
    · exact .inr ⟨fun i hi => hin ⟨i, hi⟩, hya ▸ h2 fun i hi => hin ⟨i, hi⟩⟩

/-! ### Fitting -/

theorem sameKind_trans {a b e : FKind} (h : SameKind a b) (h' : SameKind b e) : SameKind a e := by
  cases a <;> cases b <;> simp only [SameKind] at h <;> cases e <;> simp only [SameKind] at h' ⊢
  · exact h.trans h'

theorem sameKind_symm {a b : FKind} (h : SameKind a b) : SameKind b a := by
  cases a <;> cases b <;> simp only [SameKind] at h ⊢
  · exact h.symm

theorem sameKind_cloned {a : Attr} (h : a.kind ≠ .unknown) : SameKind a.kind (clonedAttr a).kind := by
  unfold clonedAttr
  cases hk : a.kind <;> simp_all [SameKind]

/-- Same kind and parent, with respect to what merging compares. -/
structure LookAlike (x x' : Look) : Prop where
  opt : x'.attr.opt = x.attr.opt
  kind : SameKind x.attr.kind x'.attr.kind
  parent : x'.parent = x.parent

theorem alike_cl (h : x.attr.kind ≠ .unknown) (hr : x.attr.kind = .root → x.Solid) : LookAlike x x.cl := by
  refine ⟨?_, sameKind_cloned h, rfl⟩
  show (clonedAttr x.attr).opt = _
  by_cases hk : x.attr.kind = .root
  · exact (solid_locs (hr hk)).2
  · exact (cloned_locs h fun e => absurd e hk).2

theorem alike_plus (h : x.Solid) : LookAlike x (x.plus y) := by
  have := alike_cl h.1 fun _ => h
  exact ⟨this.opt, this.kind, this.parent⟩

theorem sameKind_root {a b : FKind} (h : SameKind a b) : a = .root ↔ b = .root := by
  cases a <;> cases b <;> simp_all [SameKind]

theorem sameKind_unknown {a b : FKind} (h : SameKind a b) : a ≠ .unknown ∧ b ≠ .unknown := by
  cases a <;> cases b <;> simp_all [SameKind]

theorem Fit.left {x' : Look} (a : LookAlike x x') : Fit strict x' y ↔ Fit strict x y := by
  unfold Fit
  rw [a.opt, a.parent, ← sameKind_root a.kind]
  refine and_congr_right fun _ => ?_
  constructor
  · intro h hs; exact ⟨(h hs).1, sameKind_trans a.kind (h hs).2⟩
  · intro h hs; exact ⟨(h hs).1, sameKind_trans (sameKind_symm a.kind) (h hs).2⟩

theorem Fit.symm (h : Fit strict x y) : Fit strict y x := by
  refine ⟨?_, fun hs => ⟨(h.2 hs).1.symm, sameKind_symm (h.2 hs).2⟩⟩
  rcases h.1 with a | a | ⟨p, q, e1, e2, e3⟩
  · exact .inr (.inl a)
  · exact .inl a
  · exact .inr (.inr ⟨q, p, e2, e1, e3.symm⟩)

theorem Fit.right {y' : Look} (a : LookAlike y y') : Fit strict x y' ↔ Fit strict x y :=
  ⟨fun h => ((Fit.left a).1 h.symm).symm, fun h => ((Fit.left a).2 h.symm).symm⟩

/-- Transitive, if both of the first two are the root or none is. -/
theorem Fit.trans (h : Fit strict x y) (h' : Fit strict y z) (h1 : x.attr.kind = .root ↔ y.attr.kind = .root) : Fit strict x z := by
  refine ⟨?_, fun hs => ⟨(h.2 hs).1.trans (h'.2 hs).1, sameKind_trans (h.2 hs).2 (h'.2 hs).2⟩⟩
  rcases h.1 with a | a | ⟨p, q, e1, e2, e3⟩
  · exact .inl a
  · exact .inl (h1.2 a)
  · rcases h'.1 with b | b | ⟨p', q', k1, k2, k3⟩
    · exact .inl (h1.2 b)
    · exact .inr (.inl b)
    · rw [e2] at k1; cases k1
      exact .inr (.inr ⟨p, q', e1, k2, e3.trans k3⟩)

/-! ### Three models -/

/-- Three models with roots of the same name, and features of known kind. -/
structure Three (m1 m2 m3 : FModel) (root : Str) : Prop where
  wf1 : WF m1
  wf2 : WF m2
  wf3 : WF m3
  root1 : ∃ r, m1.root = some r ∧ (root, r) ∈ m1.features
  root2 : ∃ r, m2.root = some r ∧ (root, r) ∈ m2.features
  root3 : ∃ r, m3.root = some r ∧ (root, r) ∈ m3.features
  solid1 : ∀ n x, Looks m1 n x → x.Solid
  solid2 : ∀ n x, Looks m2 n x → x.Solid
  kinds3 : ∀ n x, Looks m3 n x → x.attr.kind ≠ .unknown

theorem root_name (w : WF m) {root : Str} (h : ∃ r, m.root = some r ∧ (root, r) ∈ m.features) (hx : Looks m n x) :
    x.attr.kind = .root ↔ n = root := by
  rw [(looks_root w hx).1]
  obtain ⟨r, a, b⟩ := h
  constructor
  · rintro ⟨r', k1, k2⟩
    rw [a] at k1; cases k1
    exact w.id_unique k2 b
  · rintro rfl; exact ⟨r, a, b⟩

theorem root_entry (w : WF m) {root : Str} (h : ∃ r, m.root = some r ∧ (root, r) ∈ m.features) {r : Id} (hr : m.root = some r)
    (hn : (n, r) ∈ m.features) : n = root := by
  obtain ⟨r', a, b⟩ := h
  rw [hr] at a; cases a
  exact w.id_unique hn b

theorem no_look (w : WF m) : (∀ i, (n, i) ∉ m.features) ↔ ∀ x, ¬ Looks m n x := by
  constructor
  · rintro h x ⟨i, f, hi, _⟩; exact h i hi
  · intro h i hi
    obtain ⟨x, hx⟩ := (looks_name w).1 ⟨i, hi⟩
    exact h x hx

section
variable {root : Str} (t : Three m1 m2 m3 root) {c12 c23 c' : FModel}
include t

/-- Looks of the first two merged. -/
theorem Three.left (M : MergedModel m1 m2 c12) (hz : Looks c12 n z) :
    (∃ x y, Looks m1 n x ∧ Looks m2 n y ∧ z = x.plus y) ∨ (∃ x, Looks m1 n x ∧ (∀ y, ¬ Looks m2 n y) ∧ z = x.cl) ∨
    (∃ y, Looks m2 n y ∧ (∀ x, ¬ Looks m1 n x) ∧ z = y.cl) := by
  by_cases h1 : ∃ x, Looks m1 n x
  · obtain ⟨x, hx⟩ := h1
    by_cases h2 : ∃ y, Looks m2 n y
    · obtain ⟨y, hy⟩ := h2
      exact .inl ⟨x, y, hx, hy, looks_unique M.wf hz (merged_both M t.wf1 hx hy)⟩
    · have h2 : ∀ y, ¬ Looks m2 n y := fun y hy => h2 ⟨y, hy⟩
      exact .inr (.inl ⟨x, hx, h2, looks_unique M.wf hz (merged_alone M t.wf1 hx ((no_look t.wf2).2 h2))⟩)
  · have h1 : ∀ y, ¬ Looks m1 n y := fun y hy => h1 ⟨y, hy⟩
    have hz' := hz
    obtain ⟨i, _, hi, _⟩ := hz'
    rcases (M.names n).1 ⟨i, hi⟩ with a | a
    · obtain ⟨x, hx⟩ := (looks_name t.wf1).1 a
      exact absurd hx (h1 x)
    · obtain ⟨y, hy⟩ := (looks_name t.wf2).1 a
      refine .inr (.inr ⟨y, hy, h1, looks_unique M.wf hz (merged_second M t.wf1 t.wf2 ((no_look t.wf1).2 h1) hy ?_)⟩)
      intro n r k1 k2
      obtain ⟨r1, k3, k4⟩ := t.root1
      exact ⟨r1, (root_entry t.wf2 t.root2 k1 k2) ▸ k4⟩

/-- Looks of the last two merged. -/
theorem Three.right (M : MergedModel m2 m3 c23) (hz : Looks c23 n z) :
    (∃ x y, Looks m2 n x ∧ Looks m3 n y ∧ z = x.plus y) ∨ (∃ x, Looks m2 n x ∧ (∀ y, ¬ Looks m3 n y) ∧ z = x.cl) ∨
    (∃ y, Looks m3 n y ∧ (∀ x, ¬ Looks m2 n x) ∧ z = y.cl) := by
  by_cases h1 : ∃ x, Looks m2 n x
  · obtain ⟨x, hx⟩ := h1
    by_cases h2 : ∃ y, Looks m3 n y
    · obtain ⟨y, hy⟩ := h2
      exact .inl ⟨x, y, hx, hy, looks_unique M.wf hz (merged_both M t.wf2 hx hy)⟩
    · have h2 : ∀ y, ¬ Looks m3 n y := fun y hy => h2 ⟨y, hy⟩
      exact .inr (.inl ⟨x, hx, h2, looks_unique M.wf hz (merged_alone M t.wf2 hx ((no_look t.wf3).2 h2))⟩)
  · have h1 : ∀ y, ¬ Looks m2 n y := fun y hy => h1 ⟨y, hy⟩
    have hz' := hz
    obtain ⟨i, _, hi, _⟩ := hz'
    rcases (M.names n).1 ⟨i, hi⟩ with a | a
    · obtain ⟨x, hx⟩ := (looks_name t.wf2).1 a
      exact absurd hx (h1 x)
    · obtain ⟨y, hy⟩ := (looks_name t.wf3).1 a
      refine .inr (.inr ⟨y, hy, h1, looks_unique M.wf hz (merged_second M t.wf2 t.wf3 ((no_look t.wf2).2 h1) hy ?_)⟩)
      intro n r k1 k2
      obtain ⟨r1, k3, k4⟩ := t.root2
      exact ⟨r1, (root_entry t.wf3 t.root3 k1 k2) ▸ k4⟩

/-- A feature of the third that is not in the second is not the root. -/
theorem Three.not_root (hz : Looks m3 n z) (h2 : ∀ y, ¬ Looks m2 n y) : z.attr.kind ≠ .root := by
  intro h
  have := (root_name t.wf3 t.root3 hz).1 h
  subst this
  obtain ⟨r, _, a⟩ := t.root2
  obtain ⟨y, hy⟩ := (looks_name t.wf2).1 ⟨r, a⟩
  exact h2 y hy

theorem Three.alike3 (hz : Looks m3 n z) (h2 : ∀ y, ¬ Looks m2 n y) : LookAlike z z.cl :=
  alike_cl (t.kinds3 n z hz) fun e => absurd e (t.not_root hz h2)

theorem Three.fit_left (a12 : AllFit strict m1 m2) (M : MergedModel m1 m2 c12) (a : AllFit strict c12 m3) :
    AllFit strict m2 m3 ∧ ∀ c23, MergedModel m2 m3 c23 → AllFit strict m1 c23 := by
  have f13 : ∀ n x z, Looks m1 n x → Looks m3 n z → Fit strict x z := by
    intro n x z hx hz
    by_cases h2 : ∃ y, Looks m2 n y
    · obtain ⟨y, hy⟩ := h2
      exact (Fit.left (alike_plus (t.solid1 n x hx))).1 ((a n z hz).1 _ (merged_both M t.wf1 hx hy))
    · refine (Fit.left (alike_cl (t.solid1 n x hx).1 fun _ => t.solid1 n x hx)).1 ((a n z hz).1 _ (merged_alone M t.wf1 hx ?_))
      exact (no_look t.wf2).2 fun y hy => h2 ⟨y, hy⟩
  have f23 : ∀ n y z, Looks m2 n y → Looks m3 n z → Fit strict y z := by
    intro n y z hy hz
    by_cases h1 : ∃ x, Looks m1 n x
    · obtain ⟨x, hx⟩ := h1
      refine ((a12 n y hy).1 x hx).symm.trans (f13 n x z hx hz) ?_
      rw [root_name t.wf2 t.root2 hy, root_name t.wf1 t.root1 hx]
    · refine (Fit.left (alike_cl (t.solid2 n y hy).1 fun _ => t.solid2 n y hy)).1 ((a n z hz).1 _
        (merged_second M t.wf1 t.wf2 ((no_look t.wf1).2 fun x hx => h1 ⟨x, hx⟩) hy ?_))
      intro n r k1 k2
      obtain ⟨r1, k3, k4⟩ := t.root1
      exact ⟨r1, (root_entry t.wf2 t.root2 k1 k2) ▸ k4⟩
  refine ⟨fun n z hz => ⟨fun y hy => f23 n y z hy hz, fun _ => t.kinds3 n z hz⟩, fun c23 M' n v hv => ?_⟩
  rcases t.right M' hv with ⟨y, z, hy, hz, rfl⟩ | ⟨y, hy, _, rfl⟩ | ⟨z, hz, h2, rfl⟩
  · have al := alike_plus (y := z) (t.solid2 n y hy)
    exact ⟨fun x hx => (Fit.right al).2 ((a12 n y hy).1 x hx), fun _ => (sameKind_unknown al.kind).2⟩
  · have al := alike_cl (t.solid2 n y hy).1 fun _ => t.solid2 n y hy
    exact ⟨fun x hx => (Fit.right al).2 ((a12 n y hy).1 x hx), fun _ => (sameKind_unknown al.kind).2⟩
  · have al := t.alike3 hz h2
    exact ⟨fun x hx => (Fit.right al).2 (f13 n x z hx hz), fun _ => (sameKind_unknown al.kind).2⟩

theorem Three.fit_right (a23 : AllFit strict m2 m3) (M : MergedModel m2 m3 c23) (a : AllFit strict m1 c23) :
    AllFit strict m1 m2 ∧ ∀ c12, MergedModel m1 m2 c12 → AllFit strict c12 m3 := by
  have f12 : ∀ n x y, Looks m1 n x → Looks m2 n y → Fit strict x y := by
    intro n x y hx hy
    by_cases h3 : ∃ z, Looks m3 n z
    · obtain ⟨z, hz⟩ := h3
      exact (Fit.right (alike_plus (t.solid2 n y hy))).1 ((a n _ (merged_both M t.wf2 hy hz)).1 x hx)
    · refine (Fit.right (alike_cl (t.solid2 n y hy).1 fun _ => t.solid2 n y hy)).1 ((a n _ (merged_alone M t.wf2 hy ?_)).1 x hx)
      exact (no_look t.wf3).2 fun y hy => h3 ⟨y, hy⟩
  have f13 : ∀ n x z, Looks m1 n x → Looks m3 n z → Fit strict x z := by
    intro n x z hx hz
    by_cases h2 : ∃ y, Looks m2 n y
    · obtain ⟨y, hy⟩ := h2
      refine (f12 n x y hx hy).trans ((a23 n z hz).1 y hy) ?_
      rw [root_name t.wf2 t.root2 hy, root_name t.wf1 t.root1 hx]
    · have h2 : ∀ y, ¬ Looks m2 n y := fun y hy => h2 ⟨y, hy⟩
      refine (Fit.right (t.alike3 hz h2)).1 ((a n _ (merged_second M t.wf2 t.wf3 ((no_look t.wf2).2 h2) hz ?_)).1 x hx)
      intro n r k1 k2
      obtain ⟨r1, k3, k4⟩ := t.root2
      exact ⟨r1, (root_entry t.wf3 t.root3 k1 k2) ▸ k4⟩
  refine ⟨fun n y hy => ⟨fun x hx => f12 n x y hx hy, fun _ => (t.solid2 n y hy).1⟩, fun c12 M' n z hz =>
    ⟨fun v hv => ?_, fun _ => t.kinds3 n z hz⟩⟩
  rcases t.left M' hv with ⟨x, y, hx, hy, rfl⟩ | ⟨x, hx, _, rfl⟩ | ⟨y, hy, h2, rfl⟩
  · exact (Fit.left (alike_plus (t.solid1 n x hx))).2 (f13 n x z hx hz)
  · exact (Fit.left (alike_cl (t.solid1 n x hx).1 fun _ => t.solid1 n x hx)).2 (f13 n x z hx hz)
  · exact (Fit.left (alike_cl (t.solid2 n y hy).1 fun _ => t.solid2 n y hy)).2 ((a23 n z hz).1 y hy)

/-- Both groupings give the same features. -/
theorem Three.same (M12 : MergedModel m1 m2 c12) (M23 : MergedModel m2 m3 c23) (ML : MergedModel c12 m3 c)
    (MR : MergedModel m1 c23 c') (n : Str) (v : Look) : Looks c n v ↔ Looks c' n v := by
  have r21 : ∀ n r, m2.root = some r → (n, r) ∈ m2.features → ∃ i, (n, i) ∈ m1.features := by
    intro n r k1 k2
    obtain ⟨r1, k3, k4⟩ := t.root1
    exact ⟨r1, (root_entry t.wf2 t.root2 k1 k2) ▸ k4⟩
  have r32 : ∀ n r, m3.root = some r → (n, r) ∈ m3.features → ∃ i, (n, i) ∈ m2.features := by
    intro n r k1 k2
    obtain ⟨r1, k3, k4⟩ := t.root2
    exact ⟨r1, (root_entry t.wf3 t.root3 k1 k2) ▸ k4⟩
  have r3c : ∀ n r, m3.root = some r → (n, r) ∈ m3.features → ∃ i, (n, i) ∈ c12.features := by
    intro n r k1 k2
    exact (M12.names n).2 (.inr (r32 n r k1 k2))
  have rc1 : ∀ n r, c23.root = some r → (n, r) ∈ c23.features → ∃ i, (n, i) ∈ m1.features := by
    intro n r k1 k2
    obtain ⟨n', i, r', b1, b2, b3, b4⟩ := M23.root
    rw [k1] at b3; cases b3
    have := M23.wf.id_unique k2 b4; subst this
    exact r21 n i b1 b2
  have n12 : (∀ x, ¬ Looks m1 n x) → (∀ y, ¬ Looks m2 n y) → ∀ i, (n, i) ∉ c12.features := by
    intro h1 h2 i hi
    rcases (M12.names n).1 ⟨i, hi⟩ with ⟨j, a⟩ | ⟨j, a⟩
    · exact (no_look t.wf1).2 h1 j a
    · exact (no_look t.wf2).2 h2 j a
  have n23 : (∀ x, ¬ Looks m2 n x) → (∀ y, ¬ Looks m3 n y) → ∀ i, (n, i) ∉ c23.features := by
    intro h1 h2 i hi
    rcases (M23.names n).1 ⟨i, hi⟩ with ⟨j, a⟩ | ⟨j, a⟩
    · exact (no_look t.wf2).2 h1 j a
    · exact (no_look t.wf3).2 h2 j a
  have key : (∃ u, Looks c n u ∧ Looks c' n u) ∨ ((∀ u, ¬ Looks c n u) ∧ ∀ u, ¬ Looks c' n u) := by
    by_cases h1 : ∃ x, Looks m1 n x
    · obtain ⟨x, hx⟩ := h1
      have sx := t.solid1 n x hx
      by_cases h2 : ∃ y, Looks m2 n y
      · obtain ⟨y, hy⟩ := h2
        have sy := t.solid2 n y hy
        have hr : x.attr.kind = .root → y.attr.kind = .root := by
          rw [root_name t.wf2 t.root2 hy, root_name t.wf1 t.root1 hx]; exact id
        by_cases h3 : ∃ z, Looks m3 n z
        · obtain ⟨z, hz⟩ := h3
          refine .inl ⟨_, merged_both ML M12.wf (merged_both M12 t.wf1 hx hy) hz, ?_⟩
          rw [plus_plus sx sy hr]
          exact merged_both MR t.wf1 hx (merged_both M23 t.wf2 hy hz)
        · have h3 := (no_look t.wf3).2 fun z hz => h3 ⟨z, hz⟩
          refine .inl ⟨_, merged_alone ML M12.wf (merged_both M12 t.wf1 hx hy) h3, ?_⟩
          rw [plus_cl sx sy hr]
          exact merged_both MR t.wf1 hx (merged_alone M23 t.wf2 hy h3)
      · have h2' : ∀ y, ¬ Looks m2 n y := fun y hy => h2 ⟨y, hy⟩
        have h2 := (no_look t.wf2).2 h2'
        by_cases h3 : ∃ z, Looks m3 n z
        · obtain ⟨z, hz⟩ := h3
          refine .inl ⟨_, merged_both ML M12.wf (merged_alone M12 t.wf1 hx h2) hz, ?_⟩
          have hzr := t.not_root hz h2'
          rw [cl_plus sx (fun _ => ⟨t.kinds3 n z hz, fun e => absurd e hzr⟩)
            (fun _ => (cloned_locs (t.kinds3 n z hz) fun e => absurd e hzr).1)]
          exact merged_both MR t.wf1 hx (merged_second M23 t.wf2 t.wf3 h2 hz r32)
        · have h3' : ∀ y, ¬ Looks m3 n y := fun y hy => h3 ⟨y, hy⟩
          have h3 := (no_look t.wf3).2 h3'
          refine .inl ⟨_, merged_alone ML M12.wf (merged_alone M12 t.wf1 hx h2) h3, ?_⟩
          rw [cl_cl]
          exact merged_alone MR t.wf1 hx (n23 h2' h3')
    · have h1' : ∀ y, ¬ Looks m1 n y := fun y hy => h1 ⟨y, hy⟩
      have h1 := (no_look t.wf1).2 h1'
      by_cases h2 : ∃ y, Looks m2 n y
      · obtain ⟨y, hy⟩ := h2
        have sy := t.solid2 n y hy
        by_cases h3 : ∃ z, Looks m3 n z
        · obtain ⟨z, hz⟩ := h3
          refine .inl ⟨_, merged_both ML M12.wf (merged_second M12 t.wf1 t.wf2 h1 hy r21) hz, ?_⟩
          have := merged_second MR t.wf1 M23.wf h1 (merged_both M23 t.wf2 hy hz) rc1
          have hyr : y.attr.kind ≠ .root := by
            intro e
            rw [root_name t.wf2 t.root2 hy] at e
            subst e
            obtain ⟨r, _, hr⟩ := t.root1
            exact h1 r hr
          have e : y.cl.plus z = (y.plus z).cl := by
            unfold Look.cl Look.plus
            simp only [cloned_idem]
            rw [cloned_with_locs _ sy.1 fun e => absurd e hyr, (solid_locs sy).1]
          rw [e]; exact this
        · have h3 := (no_look t.wf3).2 fun z hz => h3 ⟨z, hz⟩
          exact .inl ⟨_, merged_alone ML M12.wf (merged_second M12 t.wf1 t.wf2 h1 hy r21) h3,
            merged_second MR t.wf1 M23.wf h1 (merged_alone M23 t.wf2 hy h3) rc1⟩
      · have h2' : ∀ y, ¬ Looks m2 n y := fun y hy => h2 ⟨y, hy⟩
        have h2 := (no_look t.wf2).2 h2'
        by_cases h3 : ∃ z, Looks m3 n z
        · obtain ⟨z, hz⟩ := h3
          refine .inl ⟨_, merged_second ML M12.wf t.wf3 (n12 h1' h2') hz r3c, ?_⟩
          have := merged_second MR t.wf1 M23.wf h1 (merged_second M23 t.wf2 t.wf3 h2 hz r32) rc1
          rw [cl_cl] at this; exact this
        · have h3' : ∀ y, ¬ Looks m3 n y := fun y hy => h3 ⟨y, hy⟩
          refine .inr ⟨(no_look ML.wf).1 fun i hi => ?_, (no_look MR.wf).1 fun i hi => ?_⟩
          · rcases (ML.names n).1 ⟨i, hi⟩ with ⟨j, a⟩ | ⟨j, a⟩
            · exact n12 h1' h2' j a
            · exact (no_look t.wf3).2 h3' j a
          · rcases (MR.names n).1 ⟨i, hi⟩ with ⟨j, a⟩ | ⟨j, a⟩
            · exact h1 j a
            · exact n23 h2' h3' j a
  rcases key with ⟨u, k1, k2⟩ | ⟨k1, k2⟩
  · constructor
    · intro h; rw [looks_unique ML.wf h k1]; exact k2
    · intro h; rw [looks_unique MR.wf h k2]; exact k1
  · exact ⟨fun h => absurd h (k1 v), fun h => absurd h (k2 v)⟩

end

end Verif

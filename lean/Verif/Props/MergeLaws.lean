import Verif.Props.MergedConfigurations
import Verif.Props.SourceRange
/-!
# Merging with itself, and in the other order (C102)
-/

namespace Verif.Spec
open Verif

/-- The two models have the same root and features with the same attributes, parents and, apart from their
    order and revisions, locations. -/
structure SameFeatures (c c' : FModel) : Prop where
  root : ∀ n r n' r', c.root = some r → (n, r) ∈ c.features → c'.root = some r' → (n', r') ∈ c'.features → n = n'
  names : ∀ n, (∃ i, (n, i) ∈ c.features) ↔ ∃ i, (n, i) ∈ c'.features
  attrs : ∀ n i i' f f', (n, i) ∈ c.features → (n, i') ∈ c'.features → data c i = some (.feat f) → data c' i' = some (.feat f') →
    { f.attr with locs := [] } = { f'.attr with locs := [] } ∧
    (∀ r ∈ f.attr.locs, ∃ r' ∈ f'.attr.locs, r.eq r' = true) ∧ ∀ r' ∈ f'.attr.locs, ∃ r ∈ f.attr.locs, r'.eq r = true
  parents : ∀ n i i' p p' pn pn', (n, i) ∈ c.features → (n, i') ∈ c'.features → FParent c i p → FParent c' i' p' →
    (pn, p) ∈ c.features → (pn', p') ∈ c'.features → pn = pn'

end Verif.Spec

namespace Verif.Props
open Verif Verif.Spec

variable {d d' : Desc} {m m1 m2 c c' : FModel} {F : IntFloats}

/-! ## Nothing new -/

theorem boolFold_same {α} {f : FModel → α → Option (FModel × Bool)} : ∀ {l : List α} {c c' : FModel} {b : Bool},
    (∀ x ∈ l, ∀ c c' b, f c x = some (c', b) → c' = c) → FModel.boolFold f c l = some (c', b) → c' = c
  | [], c, c', b, _, h => by simp only [FModel.boolFold, Option.some.injEq, Prod.mk.injEq] at h; exact h.1.symm
  | x :: xs, c, c', b, hf, h => by
    unfold FModel.boolFold at h
    cases hx : f c x with
    | none => rw [hx] at h; cases h
    | some r =>
      obtain ⟨c1, b1⟩ := r
      have e := hf x (List.mem_cons_self ..) c c1 b1 hx
      subst e
      rw [hx] at h
      cases b1 with
      | false => simp only [Option.some.injEq, Prod.mk.injEq] at h; exact h.1.symm
      | true => exact boolFold_same (fun y hy => hf y (List.mem_cons_of_mem _ hy)) h

theorem mergeSubtree_same (E : Env) (strict : Bool) (w1 : WF m1) (w2 : WF m2)
    (hn : ∀ n j g, (n, j) ∈ m2.features → data m2 j = some (.feat g) →
      ∃ i f, (n, i) ∈ m1.features ∧ data m1 i = some (.feat f) ∧ newLocs f g = []) :
    ∀ (fuel : Nat) (c : FModel) (j : Id) (c' : FModel) (b : Bool), Known m2 j →
      FModel.mergeSubtree E strict m1 m2 fuel c j = some (c', b) → c' = c := by
  intro fuel
  induction fuel with
  | zero => intro c j c' b _ h; cases h
  | succ fuel ih =>
    intro c j c' b hj h
    unfold FModel.mergeSubtree at h
    cases h1 : FModel.mergeOne E strict m1 m2 c j with
    | none => rw [h1] at h; cases h
    | some r =>
      obtain ⟨c1, b1⟩ := r
      have : c1 = c := by
        obtain ⟨⟨n, j'⟩, hm, rfl⟩ := List.mem_map.1 hj
        obtain ⟨g, hg, gn⟩ := w2.feat_ok _ hm
        simp only at hg gn
        obtain ⟨i, f, e1, e2, e3⟩ := hn n j' g hm hg
        unfold FModel.mergeOne at h1
        rw [feat?_of_data hg] at h1
        simp only [gn, getFeature_mem w1.names e1, feat?_of_data e2] at h1
        cases hc : m1.compareProperties m2 i j' strict with
        | none => rw [hc] at h1; cases h1
        | some b =>
          rw [hc] at h1
          cases b with
          | false => simp only [Option.some.injEq, Prod.mk.injEq] at h1; exact h1.1.symm
          | true =>
            unfold newLocs at e3
            simp only [e3, List.map_nil, FModel.copyRun, Option.map_some, Option.some.injEq, Prod.mk.injEq] at h1
            exact h1.1.symm
      subst this
      rw [h1] at h
      cases b1 with
      | false => simp only [Option.some.injEq, Prod.mk.injEq] at h; exact h.1.symm
      | true =>
        simp only at h
        obtain ⟨cs, k1, k2, k3⟩ := childrenF w2 E (.inl hj)
        rw [k1] at h
        exact boolFold_same (fun x hx c c' b => ih c x c' b (w2.via_known hj ((k3 x).1 hx)).1) h

/-- If the second model has no conflict with the first, and no feature and no location that the first does not
    have, the result of merging is a clone of the first. -/
theorem C102_nothing_new (h : Describes d m1) (E : Env) (strict : Bool) (hroot : c!"root" ∉ d.attrs.map Attr.name)
    (hk : ConstraintsKnown d) (w2 : WF m2) (hh : SameHeap m1 m2) (hm : ∀ j, Known m2 j → Mergeable strict m1 m2 j)
    (hn : ∀ n j g, (n, j) ∈ m2.features → data m2 j = some (.feat g) →
      ∃ i f, (n, i) ∈ m1.features ∧ data m1 i = some (.feat f) ∧ ∀ r ∈ g.attr.locs, ∃ l ∈ f.attr.locs, l.eq r = true) :
    ∃ c0, m1.clone E = .built c0 ∧ m1.mergeFeatureModels E m2 strict = some (some c0) := by
  have hr : ∀ n r, m2.root = some r → (n, r) ∈ m2.features → ∃ i, (n, i) ∈ m1.features := by
    intro n r _ hx
    obtain ⟨g, hg, _⟩ := w2.feat_ok _ hx
    obtain ⟨i, _, e, _⟩ := hn n r g hx hg
    exact ⟨i, e⟩
  have hn' : ∀ n j g, (n, j) ∈ m2.features → data m2 j = some (.feat g) →
      ∃ i f, (n, i) ∈ m1.features ∧ data m1 i = some (.feat f) ∧ newLocs f g = [] := by
    intro n j g hj hg
    obtain ⟨i, f, e1, e2, e3⟩ := hn n j g hj hg
    refine ⟨i, f, e1, e2, ?_⟩
    unfold newLocs
    rw [List.filter_eq_nil_iff]
    intro r hrr
    obtain ⟨l, l1, l2⟩ := e3 r hrr
    simp only [Bool.not_eq_true', Bool.not_eq_false, List.any_eq_true]
    exact ⟨l, l1, l2⟩
  rcases merge_inv h E strict hroot hk w2 hh hr with ⟨⟨j, j1, j2⟩, _⟩ | ⟨_, c0, c, b, hc0, _, _, _⟩
  · exact absurd (hm j j1) j2
  · refine ⟨c0, hc0, ?_⟩
    obtain ⟨r, _, hrr, hrk, _⟩ := w2.root_ok
    have b' := b
    unfold FModel.mergeFeatureModels at b'
    rw [if_neg (by simp [consistent_of_WF h.wf E])] at b'
    simp only [hc0, hrr] at b'
    cases hs : FModel.mergeSubtree E strict m1 m2 (m2.next + 1) c0 r with
    | none => rw [hs] at b'; cases b'
    | some x =>
      obtain ⟨c1, b1⟩ := x
      have := mergeSubtree_same E strict h.wf w2 hn' _ c0 r c1 b1 hrk hs
      subst this
      rw [hs] at b'
      cases b1 with
      | false => simp at b'
      | true =>
        have : c1 = c := by
          cases hcc : c1.consistent E with
          | none => simp [hcc] at b'
          | some y => cases y <;> simp [hcc] at b'; exact b'
        subst this
        exact b

theorem range_eq_refl (r : Range) : r.eq r = true := (C14_range_eq_partial r r).2 ⟨rfl, rfl, rfl, rfl, rfl⟩

theorem range_eq_symm {r s : Range} (h : r.eq s = true) : s.eq r = true := by
  rw [C14_range_eq_partial] at h ⊢
  exact ⟨h.1.symm, h.2.1.symm, h.2.2.1.symm, h.2.2.2.1.symm, h.2.2.2.2.symm⟩

theorem sameKind_refl {k : FKind} (h : k ≠ .unknown) : SameKind k k := by
  cases k <;> first | trivial | rfl | exact absurd rfl h

/-- Merging a model with itself gives a clone of it; strictly, if its features have a kind. -/
theorem C102_self (h : Describes d m) (E : Env) (strict : Bool) (hroot : c!"root" ∉ d.attrs.map Attr.name)
    (hk : ConstraintsKnown d) (hkind : strict = true → ∀ i f, Known m i → data m i = some (.feat f) → f.attr.kind ≠ .unknown) :
    ∃ c, m.clone E = .built c ∧ m.mergeFeatureModels E m strict = some (some c) := by
  refine C102_nothing_new h E strict hroot hk h.wf ⟨rfl, rfl⟩ ?_ ?_
  · intro j hj
    obtain ⟨⟨n, j'⟩, hm, rfl⟩ := List.mem_map.1 hj
    obtain ⟨g, hg, _⟩ := h.wf.feat_ok _ hm
    refine ⟨n, g, hm, hg, .inl ⟨j', hm, g, g, hg, hg, ?_, fun hs => ⟨rfl, sameKind_refl (hkind hs j' g hj hg), .inr .rfl⟩⟩⟩
    by_cases hr : m.root = some j'
    · exact .inl ((root_of_kind h.wf hj hg).2 hr)
    · obtain ⟨q, hq, hqk⟩ := h.wf.has_fparent (.inl hj) hr
      obtain ⟨⟨qn, q'⟩, hqm, rfl⟩ := List.mem_map.1 hqk
      exact .inr (.inr ⟨q', q', qn, qn, hq, hq, hqm, hqm, rfl⟩)
  · intro n j g hj hg
    exact ⟨j, g, hj, hg, fun r hr => ⟨r, hr, range_eq_refl r⟩⟩

/-! ## The other order -/

theorem fits_symm {strict : Bool} {i j : Id} (h : Spec.Fits strict m1 m2 i j) : Spec.Fits strict m2 m1 j i := by
  obtain ⟨f, g, h1, h2, h3, h4⟩ := h
  refine ⟨g, f, h2, h1, ?_, ?_⟩
  · rcases h3 with h | h | ⟨p, q, pn, qn, a, b, c, d, e⟩
    · exact .inr (.inl h)
    · exact .inl h
    · exact .inr (.inr ⟨q, p, qn, pn, b, a, d, c, e.symm⟩)
  · intro hs
    obtain ⟨a, b, c⟩ := h4 hs
    have hb : SameKind g.attr.kind f.attr.kind := by
      cases hf : f.attr.kind <;> cases hg : g.attr.kind <;> rw [hf, hg] at b <;> first | exact b.elim | trivial | exact b.symm
    refine ⟨a.symm, hb, ?_⟩
    rcases c with c | c
    · left
      rw [c] at b
      cases hg : g.attr.kind <;> rw [hg] at b <;> first | rfl | exact b.elim
    · exact .inr c.symm

/-- Models that can be merged in both orders: each can be cloned and knows the root of the other, and no feature is
    without kind. -/
structure CanMergeBoth (d d' : Desc) (m1 m2 : FModel) : Prop where
  first : Describes d m1
  second : Describes d' m2
  root : c!"root" ∉ d.attrs.map Attr.name
  root' : c!"root" ∉ d'.attrs.map Attr.name
  constraints : ConstraintsKnown d
  constraints' : ConstraintsKnown d'
  kinds : ∀ x ∈ d.attrs, x.kind ≠ .unknown
  kinds' : ∀ x ∈ d'.attrs, x.kind ≠ .unknown
  heap : SameHeap m1 m2
  rootKnown : ∀ n r, m2.root = some r → (n, r) ∈ m2.features → ∃ i, (n, i) ∈ m1.features
  rootKnown' : ∀ n r, m1.root = some r → (n, r) ∈ m1.features → ∃ i, (n, i) ∈ m2.features

theorem CanMergeBoth.swap (p : CanMergeBoth d d' m1 m2) : CanMergeBoth d' d m2 m1 :=
  ⟨p.second, p.first, p.root', p.root, p.constraints', p.constraints, p.kinds', p.kinds, ⟨p.heap.heap.symm, p.heap.next.symm⟩,
    p.rootKnown', p.rootKnown⟩

theorem desc_kinds (h : Describes d m) (hk : ∀ x ∈ d.attrs, x.kind ≠ .unknown) {n : Str} {i : Id} {f : Feat} (hi : (n, i) ∈ m.features)
    (hf : data m i = some (.feat f)) : f.attr.kind ≠ .unknown := by
  rcases (h.names n).1 ⟨i, hi⟩ with rfl | hn
  · obtain ⟨r, rf, _, r2, r3, r4⟩ := h.root
    have := h.wf.entry_unique hi r2; subst this
    rw [hf] at r3; cases r3
    rw [r4]; exact FKind.noConfusion
  · obtain ⟨a, ha, rfl⟩ := List.mem_map.1 hn
    obtain ⟨i', f1, _, g1, g2, g3, _⟩ := h.feat a ha
    have := h.wf.entry_unique hi g1; subst this
    rw [hf] at g2; cases g2
    rw [g3]; exact hk a ha

theorem mergeable_symm (p : CanMergeBoth d d' m1 m2) {strict : Bool} (h : ∀ j, Known m2 j → Mergeable strict m1 m2 j) :
    ∀ i, Known m1 i → Mergeable strict m2 m1 i := by
  intro i hi
  obtain ⟨⟨n, i'⟩, hm, rfl⟩ := List.mem_map.1 hi
  obtain ⟨f, hf, _⟩ := p.first.wf.feat_ok _ hm
  refine ⟨n, f, hm, hf, ?_⟩
  by_cases hn : ∃ j, (n, j) ∈ m2.features
  · obtain ⟨j, hj⟩ := hn
    obtain ⟨n', g, e1, e2, e3⟩ := h j (known_of_mem hj)
    have := p.second.wf.id_unique hj e1; subst this
    rcases e3 with ⟨x, x1, x2⟩ | ⟨x1, _⟩
    · have := p.first.wf.entry_unique hm x1; subst this
      exact .inl ⟨j, hj, fits_symm x2⟩
    · exact absurd hm (x1 i')
  · exact .inr ⟨fun j hj => hn ⟨j, hj⟩, desc_kinds p.first p.kinds hm hf⟩

/-- Whether there is a conflict does not depend on the order. -/
theorem C102_conflict_either_way (p : CanMergeBoth d d' m1 m2) (E E' : Env) (strict : Bool) :
    m1.mergeFeatureModels E m2 strict = some none ↔ m2.mergeFeatureModels E' m1 strict = some none := by
  have key : ∀ {d d' : Desc} {m1 m2 : FModel}, CanMergeBoth d d' m1 m2 → ∀ E E', m1.mergeFeatureModels E m2 strict = some none →
      m2.mergeFeatureModels E' m1 strict = some none := by
    intro d d' m1 m2 p E E' h
    have q := p.swap
    rw [C30_null_iff p.first E strict p.root p.constraints p.second.wf p.heap p.rootKnown] at h
    rw [C30_null_iff q.first E' strict q.root q.constraints q.second.wf q.heap q.rootKnown]
    obtain ⟨j, h1, h2⟩ := h
    apply Classical.byContradiction
    intro hn
    refine h2 (mergeable_symm q (fun i hi => ?_) j h1)
    apply Classical.byContradiction
    intro hm
    exact hn ⟨i, hi, hm⟩
  exact ⟨key p E E', key p.swap E' E⟩

theorem merged_parent_first (h : MergedModel m1 m2 c) {n : Str} {i p : Id} {pn : Str} {f : Feat}
    (hi : (n, i) ∈ m1.features) (hf : data m1 i = some (.feat f)) (hp : FParent m1 i p) (hpn : (pn, p) ∈ m1.features)
    {x q : Id} {qn : Str} (hx : (n, x) ∈ c.features) (hq : FParent c x q) (hqn : (qn, q) ∈ c.features) : qn = pn := by
  obtain ⟨x', _, _, e1, _, _, _, _, e2⟩ := h.first n i f hi hf
  have := h.wf.entry_unique hx e1; subst this
  obtain ⟨p', e3, e4⟩ := e2 p pn hp hpn
  have := hq.functional e3; subst this
  exact h.wf.id_unique hqn e4

theorem merged_parent_second (h : MergedModel m1 m2 c) {n : Str} {j p : Id} {pn : Str} {g : Feat}
    (hj : (n, j) ∈ m2.features) (hg : data m2 j = some (.feat g)) (hnot : ∀ i, (n, i) ∉ m1.features)
    (hp : FParent m2 j p) (hpn : (pn, p) ∈ m2.features)
    {x q : Id} {qn : Str} (hx : (n, x) ∈ c.features) (hq : FParent c x q) (hqn : (qn, q) ∈ c.features) : qn = pn := by
  obtain ⟨x', _, e1, _, _, e2⟩ := h.second n j g hj hg hnot
  have := h.wf.entry_unique hx e1; subst this
  obtain ⟨p', e3, e4⟩ := e2 p pn hp hpn
  obtain ⟨fp, hfp⟩ := h.wf.known_data (known_of_mem e4)
  have := hq.functional (.direct e3 ⟨_, hfp⟩); subst this
  exact h.wf.id_unique hqn e4

theorem root_no_parent (w : WF m) {r q : Id} (hr : m.root = some r) : ¬ FParent m r q := by
  intro h
  have := w.root_par hr
  cases h with
  | direct x _ => rw [this] at x; cases x
  | skip x _ _ => rw [this] at x; cases x

theorem clonedAttr_congr {a b : Attr} (hn : a.name = b.name) (ho : a.opt = b.opt) (hk : SameKind a.kind b.kind) :
    { clonedAttr a with locs := [] } = { clonedAttr b with locs := [] } := by
  obtain ⟨n, k, o, l, out⟩ := a
  obtain ⟨n', k', o', l', out'⟩ := b
  simp only at hn ho hk
  subst hn ho
  cases k <;> cases k' <;> first | exact hk.elim | rfl | skip
  have : _ = _ := hk
  subst this
  rfl

theorem clonedAttr_locs {a : Attr} (h : a.kind ≠ .unknown) (hr : a.kind = .root → a.locs = []) : (clonedAttr a).locs = a.locs := by
  unfold clonedAttr
  split
  · exact absurd ‹_› h
  · exact (hr ‹_›).symm
  · rfl
  · rfl

theorem desc_root_locs (h : Describes d m) {n : Str} {i : Id} {f : Feat} (hi : (n, i) ∈ m.features) (hf : data m i = some (.feat f))
    (hk : f.attr.kind = .root) : f.attr.locs = [] := by
  have := (root_of_kind h.wf (known_of_mem hi) hf).1 hk
  obtain ⟨r, rf, r1, r2, r3, r4⟩ := h.root
  rw [this] at r1; cases r1
  rw [hf] at r3; cases r3
  rw [r4]

/-- The features of the result of a strict merge do not depend on the order: attributes, parents and, as sets, the
    locations. -/
theorem C102_order_partial (p : CanMergeBoth d d' m1 m2) (hl : CaseClear m1 m2) (E E' : Env)
    (h : m1.mergeFeatureModels E m2 true = some (some c)) (h' : m2.mergeFeatureModels E' m1 true = some (some c')) :
    SameFeatures c c' := by
  have q := p.swap
  obtain ⟨hm, M⟩ : (∀ j, Known m2 j → Mergeable true m1 m2 j) ∧ MergedModel m1 m2 c := by
    rcases C30_merge_partial p.first E true p.root p.constraints p.second.wf p.heap p.rootKnown with ⟨_, b⟩ | ⟨b, c1, b1, b2⟩
    · rw [b] at h; cases h
    · rw [b1] at h; cases h; exact ⟨b, b2⟩
  obtain ⟨hm', M'⟩ : (∀ j, Known m1 j → Mergeable true m2 m1 j) ∧ MergedModel m2 m1 c' := by
    rcases C30_merge_partial q.first E' true q.root q.constraints q.second.wf q.heap q.rootKnown with ⟨_, b⟩ | ⟨b, c1, b1, b2⟩
    · rw [b] at h'; cases h'
    · rw [b1] at h'; cases h'; exact ⟨b, b2⟩
  have w1 := p.first.wf
  have w2 := p.second.wf
  have fits : ∀ n i j f g, (n, i) ∈ m1.features → (n, j) ∈ m2.features → data m1 i = some (.feat f) → data m2 j = some (.feat g) →
      (f.attr.kind = .root ∨ g.attr.kind = .root ∨ SameParent m1 m2 i j) ∧ f.attr.opt = g.attr.opt ∧ SameKind f.attr.kind g.attr.kind := by
    intro n i j f g hi hj hf hg
    obtain ⟨n', g', e1, e2, e3⟩ := hm j (known_of_mem hj)
    have := w2.id_unique hj e1; subst this
    rcases e3 with ⟨x, x1, f', g', x2, x3, x4, x5⟩ | ⟨x1, _⟩
    · have := w1.entry_unique hi x1; subst this
      rw [hf] at x2; cases x2
      rw [hg] at x3; cases x3
      obtain ⟨y1, y2, _⟩ := x5 rfl
      exact ⟨x4, y1, y2⟩
    · exact absurd hi (x1 i)
  have rootSame : ∀ n i j f g, (n, i) ∈ m1.features → (n, j) ∈ m2.features → data m1 i = some (.feat f) → data m2 j = some (.feat g) →
      (m1.root = some i ↔ m2.root = some j) := by
    intro n i j f g hi hj hf hg
    obtain ⟨_, _, hk⟩ := fits n i j f g hi hj hf hg
    rw [← root_of_kind w1 (known_of_mem hi) hf, ← root_of_kind w2 (known_of_mem hj) hg]
    constructor
    · intro e; rw [e] at hk
      cases hg' : g.attr.kind <;> rw [hg'] at hk <;> first | rfl | exact hk.elim
    · intro e; rw [e] at hk
      cases hg' : f.attr.kind <;> rw [hg'] at hk <;> first | rfl | exact hk.elim
  have hnames : ∀ n, (∃ i, (n, i) ∈ c.features) ↔ ∃ i, (n, i) ∈ c'.features := by
    intro n; rw [M.names, M'.names]; exact Or.comm
  -- the name of the root
  have hroot : ∃ n i j r r', m1.root = some i ∧ m2.root = some j ∧ (n, i) ∈ m1.features ∧ (n, j) ∈ m2.features ∧
      c.root = some r ∧ (n, r) ∈ c.features ∧ c'.root = some r' ∧ (n, r') ∈ c'.features := by
    obtain ⟨n, i, r, a1, a2, a3, a4⟩ := M.root
    obtain ⟨n', j, r', b1, b2, b3, b4⟩ := M'.root
    obtain ⟨i', hi'⟩ := p.rootKnown n' j b1 b2
    obtain ⟨f, hf, _⟩ := w1.feat_ok _ hi'
    obtain ⟨g, hg, _⟩ := w2.feat_ok _ b2
    have hr := (rootSame n' i' j f g hi' b2 hf hg).2 b1
    rw [a1] at hr; cases hr
    have := w1.id_unique a2 hi'; subst this
    exact ⟨n, i, j, r, r', a1, b1, a2, b2, a3, a4, b3, b4⟩
  refine ⟨?_, hnames, ?_, ?_⟩
  · intro n r n' r' h1 h2 h3 h4
    obtain ⟨k, i, j, s, s', _, _, _, _, e1, e2, e3, e4⟩ := hroot
    rw [h1] at e1; cases e1
    rw [h3] at e3; cases e3
    exact (M.wf.id_unique h2 e2).trans (M'.wf.id_unique h4 e4).symm
  · intro n x x' f f' hx hx' hf hf'
    by_cases hi : ∃ i, (n, i) ∈ m1.features
    · obtain ⟨i, hi⟩ := hi
      obtain ⟨f1, hf1, n1⟩ := w1.feat_ok _ hi
      simp only at hf1 n1
      obtain ⟨y, fy, ls, y1, y2, y3, y4, y5, _⟩ := M.first n i f1 hi hf1
      have := M.wf.entry_unique hx y1; subst this
      rw [hf] at y2; cases y2
      have l1 := clonedAttr_locs (desc_kinds p.first p.kinds hi hf1) (desc_root_locs p.first hi hf1)
      by_cases hj : ∃ j, (n, j) ∈ m2.features
      · obtain ⟨j, hj⟩ := hj
        obtain ⟨g1, hg1, n2⟩ := w2.feat_ok _ hj
        simp only at hg1 n2
        obtain ⟨z, fz, ls', z1, z2, z3, z4, z5, _⟩ := M'.first n j g1 hj hg1
        have := M'.wf.entry_unique hx' z1; subst this
        rw [hf'] at z2; cases z2
        have l2 := clonedAttr_locs (desc_kinds p.second p.kinds' hj hg1) (desc_root_locs p.second hj hg1)
        obtain ⟨_, o1, o2⟩ := fits n i j f1 g1 hi hj hf1 hg1
        have e1 := y4 j g1 hj hg1
        have e2 := z4 i f1 hi hf1
        subst e1 e2
        rw [y3, z3]
        have hcg := clonedAttr_congr (n1.trans n2.symm) o1 o2
        refine ⟨hcg, ?_, ?_⟩
        · simp only [l1, l2, List.mem_append]
          rintro r (hr | hr)
          · by_cases hin : ∃ s ∈ g1.attr.locs, s.eq r = true
            · obtain ⟨s, s1, s2⟩ := hin
              exact ⟨s, .inl s1, range_eq_symm s2⟩
            · refine ⟨r, .inr ?_, range_eq_refl r⟩
              unfold newLocs
              rw [List.mem_filter]
              refine ⟨hr, ?_⟩
              simp only [Bool.not_eq_true', List.any_eq_false]
              intro s hs hse
              exact hin ⟨s, hs, hse⟩
          · exact ⟨r, .inl (List.mem_filter.1 hr).1, range_eq_refl r⟩
        · simp only [l1, l2, List.mem_append]
          rintro r (hr | hr)
          · by_cases hin : ∃ s ∈ f1.attr.locs, s.eq r = true
            · obtain ⟨s, s1, s2⟩ := hin
              exact ⟨s, .inl s1, range_eq_symm s2⟩
            · refine ⟨r, .inr ?_, range_eq_refl r⟩
              unfold newLocs
              rw [List.mem_filter]
              refine ⟨hr, ?_⟩
              simp only [Bool.not_eq_true', List.any_eq_false]
              intro s hs hse
              exact hin ⟨s, hs, hse⟩
          · exact ⟨r, .inl (List.mem_filter.1 hr).1, range_eq_refl r⟩
      · have e1 := y5 fun j hj' => hj ⟨j, hj'⟩
        subst e1
        obtain ⟨z, fz, z1, z2, z3, _⟩ := M'.second n i f1 hi hf1 (fun j hj' => hj ⟨j, hj'⟩)
        have := M'.wf.entry_unique hx' z1; subst this
        rw [hf'] at z2; cases z2
        rw [y3, z3]
        simp only [List.append_nil]
        exact ⟨trivial, fun r hr => ⟨r, hr, range_eq_refl r⟩, fun r hr => ⟨r, hr, range_eq_refl r⟩⟩
    · have hj : ∃ j, (n, j) ∈ m2.features := by
        rcases (M.names n).1 ⟨x, hx⟩ with e | e
        · exact absurd e hi
        · exact e
      obtain ⟨j, hj⟩ := hj
      obtain ⟨g1, hg1, n2⟩ := w2.feat_ok _ hj
      simp only at hg1 n2
      obtain ⟨z, fz, ls', z1, z2, z3, z4, z5, _⟩ := M'.first n j g1 hj hg1
      have := M'.wf.entry_unique hx' z1; subst this
      rw [hf'] at z2; cases z2
      have e1 := z5 fun i hi' => hi ⟨i, hi'⟩
      subst e1
      obtain ⟨y, fy, y1, y2, y3, _⟩ := M.second n j g1 hj hg1 (fun i hi' => hi ⟨i, hi'⟩)
      have := M.wf.entry_unique hx y1; subst this
      rw [hf] at y2; cases y2
      rw [y3, z3]
      simp only [List.append_nil]
      exact ⟨trivial, fun r hr => ⟨r, hr, range_eq_refl r⟩, fun r hr => ⟨r, hr, range_eq_refl r⟩⟩
  · intro n x x' pp pp' pn pn' hx hx' hp hp' hpn hpn'
    -- a parent in the first model
    have up1 : ∀ i f, (n, i) ∈ m1.features → data m1 i = some (.feat f) → ∃ a an, FParent m1 i a ∧ (an, a) ∈ m1.features := by
      intro i f hi hf
      have hr : m1.root ≠ some i := by
        intro e
        obtain ⟨k, i', _, s, _, a1, _, a2, _, a3, a4, _⟩ := hroot
        rw [e] at a1; cases a1
        have := w1.id_unique hi a2; subst this
        have := M.wf.entry_unique hx a4; subst this
        exact root_no_parent M.wf a3 hp
      obtain ⟨a, h1, h2⟩ := w1.has_fparent (.inl (known_of_mem hi)) hr
      obtain ⟨⟨an, a'⟩, h3, rfl⟩ := List.mem_map.1 h2
      exact ⟨a', an, h1, h3⟩
    have up2 : ∀ j g, (n, j) ∈ m2.features → data m2 j = some (.feat g) → ∃ a an, FParent m2 j a ∧ (an, a) ∈ m2.features := by
      intro i f hi hf
      have hr : m2.root ≠ some i := by
        intro e
        obtain ⟨k, _, j', _, s, _, a1, _, a2, _, _, a3, a4⟩ := hroot
        rw [e] at a1; cases a1
        have := w2.id_unique hi a2; subst this
        have := M'.wf.entry_unique hx' a4; subst this
        exact root_no_parent M'.wf a3 hp'
      obtain ⟨a, h1, h2⟩ := w2.has_fparent (.inl (known_of_mem hi)) hr
      obtain ⟨⟨an, a'⟩, h3, rfl⟩ := List.mem_map.1 h2
      exact ⟨a', an, h1, h3⟩
    by_cases hi : ∃ i, (n, i) ∈ m1.features
    · obtain ⟨i, hi⟩ := hi
      obtain ⟨f1, hf1, _⟩ := w1.feat_ok _ hi
      simp only at hf1
      obtain ⟨a, an, a1, a2⟩ := up1 i f1 hi hf1
      have e1 := merged_parent_first M hi hf1 a1 a2 hx hp hpn
      by_cases hj : ∃ j, (n, j) ∈ m2.features
      · obtain ⟨j, hj⟩ := hj
        obtain ⟨g1, hg1, _⟩ := w2.feat_ok _ hj
        simp only at hg1
        obtain ⟨b, bn, b1, b2⟩ := up2 j g1 hj hg1
        have e2 := merged_parent_first M' hj hg1 b1 b2 hx' hp' hpn'
        rw [e1, e2]
        obtain ⟨o, _, _⟩ := fits n i j f1 g1 hi hj hf1 hg1
        rcases o with o | o | ⟨x, y, xn, yn, o1, o2, o3, o4, o5⟩
        · exact absurd a1 (root_no_parent w1 ((root_of_kind w1 (known_of_mem hi) hf1).1 o))
        · exact absurd b1 (root_no_parent w2 ((root_of_kind w2 (known_of_mem hj) hg1).1 o))
        · have := a1.functional o1; subst this
          have := b1.functional o2; subst this
          rw [w1.id_unique a2 o3, w2.id_unique b2 o4]
          exact hl _ _ _ _ o3 o4 o5
      · rw [e1, merged_parent_second M' hi hf1 (fun j hj' => hj ⟨j, hj'⟩) a1 a2 hx' hp' hpn']
    · have hj : ∃ j, (n, j) ∈ m2.features := by
        rcases (M.names n).1 ⟨x, hx⟩ with e | e
        · exact absurd e hi
        · exact e
      obtain ⟨j, hj⟩ := hj
      obtain ⟨g1, hg1, _⟩ := w2.feat_ok _ hj
      simp only at hg1
      obtain ⟨b, bn, b1, b2⟩ := up2 j g1 hj hg1
      rw [merged_parent_first M' hj hg1 b1 b2 hx' hp' hpn',
        merged_parent_second M hj hg1 (fun i hi' => hi ⟨i, hi'⟩) b1 b2 hx hp hpn]

/-- The constraints of the result are those of the model that comes first, so for models with different constraints
    the order matters. -/
theorem C102_constraints_of_first (p : CanMergeBoth d d' m1 m2) (E E' : Env) (strict : Bool)
    (h : m1.mergeFeatureModels E m2 strict = some (some c)) (h' : m2.mergeFeatureModels E' m1 strict = some (some c')) (cl : CClass) :
    (c.store cl).map Stored.tree = (m1.store cl).map Stored.tree ∧ (c'.store cl).map Stored.tree = (m2.store cl).map Stored.tree := by
  have q := p.swap
  constructor
  · rcases C30_merge_partial p.first E strict p.root p.constraints p.second.wf p.heap p.rootKnown with ⟨_, b⟩ | ⟨b, c1, b1, b2⟩
    · rw [b] at h; cases h
    · rw [b1] at h; cases h; exact (b2.store cl).1
  · rcases C30_merge_partial q.first E' strict q.root q.constraints q.second.wf q.heap q.rootKnown with ⟨_, b⟩ | ⟨b, c1, b1, b2⟩
    · rw [b] at h'; cases h'
    · rw [b1] at h'; cases h'; exact (b2.store cl).1

/-! ### Concrete models -/

theorem overlap_second_described : Describes (descOf overlap.2) overlap.2 := by
  refine pair_described overlap_wf.2 ?_ (by intro cl; cases cl <;> rfl) rfl ?_
  · intro i f hi hf
    cases hi
    simp [data, overlap, pairOf, ofNodes, featNode] at hf
    rw [← hf]
  · intro i f hk hf
    have hk : i ∈ [4, 5, 6, 7, 8] := hk
    simp at hk
    rcases hk with rfl | rfl | rfl | rfl | rfl <;>
      (simp [data, overlap, pairOf, ofNodes, featNode] at hf; subst hf; exact ⟨rfl, rfl, rfl⟩)

theorem canMergeBoth_of (h1 : Describes (descOf m1) m1) (h2 : Describes (descOf m2) m2)
    (r1 : c!"root" ∉ (descOf m1).attrs.map Attr.name) (r2 : c!"root" ∉ (descOf m2).attrs.map Attr.name)
    (c1 : (descOf m1).constraints = []) (c2 : (descOf m2).constraints = [])
    (k1 : ∀ x ∈ (descOf m1).attrs, x.kind = .binary) (k2 : ∀ x ∈ (descOf m2).attrs, x.kind = .binary) (hh : SameHeap m1 m2)
    (hr : ∀ e ∈ m2.features, m2.root = some e.2 → e.1 ∈ m1.features.map Prod.fst)
    (hr' : ∀ e ∈ m1.features, m1.root = some e.2 → e.1 ∈ m2.features.map Prod.fst) : CanMergeBoth (descOf m1) (descOf m2) m1 m2 where
  first := h1
  second := h2
  root := r1
  root' := r2
  constraints := by intro x hx; rw [c1] at hx; cases hx
  constraints' := by intro x hx; rw [c2] at hx; cases hx
  kinds := by intro x hx; rw [k1 x hx]; exact FKind.noConfusion
  kinds' := by intro x hx; rw [k2 x hx]; exact FKind.noConfusion
  heap := hh
  rootKnown := by
    intro n r h1 h2
    obtain ⟨⟨n', i⟩, h3, rfl⟩ := List.mem_map.1 (hr _ h2 h1)
    exact ⟨i, h3⟩
  rootKnown' := by
    intro n r h1 h2
    obtain ⟨⟨n', i⟩, h3, rfl⟩ := List.mem_map.1 (hr' _ h2 h1)
    exact ⟨i, h3⟩

/-- The hypotheses of `C102_order_partial` are met by two models of which each has features of its own, and both
    merges succeed; those of `C102_self` are met by the first. -/
example : CanMergeBoth (descOf overlap.1) (descOf overlap.2) overlap.1 overlap.2 ∧ CaseClear overlap.1 overlap.2 ∧
    (∃ c, overlap.1.mergeFeatureModels (stdEnv true) overlap.2 true = some (some c) ∧
      c.features.map Prod.fst = [c!"root", c!"A", c!"B", c!"C", c!"D", c!"E"]) ∧
    (∃ c, overlap.2.mergeFeatureModels (stdEnv true) overlap.1 true = some (some c) ∧
      c.features.map Prod.fst = [c!"root", c!"A", c!"B", c!"D", c!"E", c!"C"]) ∧
    ∀ strict, ∃ c, overlap.1.clone (stdEnv true) = .built c ∧ overlap.1.mergeFeatureModels (stdEnv true) overlap.1 strict = some (some c) := by
  refine ⟨canMergeBoth_of overlap_described overlap_second_described (by decide) (by decide) rfl rfl (by decide) (by decide) ⟨rfl, rfl⟩
    (by decide) (by decide), caseClear_of (by decide), ?_, ?_, ?_⟩
  · obtain ⟨c, h1, h2⟩ := of_commits (r := overlap.1.mergeFeatureModels (stdEnv true) overlap.2 true)
      (p := fun c => decide (c.features.map Prod.fst = [c!"root", c!"A", c!"B", c!"C", c!"D", c!"E"])) (by decide)
    exact ⟨c, h1, by simpa using h2⟩
  · obtain ⟨c, h1, h2⟩ := of_commits (r := overlap.2.mergeFeatureModels (stdEnv true) overlap.1 true)
      (p := fun c => decide (c.features.map Prod.fst = [c!"root", c!"A", c!"B", c!"D", c!"E", c!"C"])) (by decide)
    exact ⟨c, h1, by simpa using h2⟩
  · intro strict
    refine C102_self overlap_described (stdEnv true) strict (by decide) (by unfold ConstraintsKnown; decide) ?_
    intro _ i f hi hf
    have hi : i ∈ [0, 1, 2, 3] := hi
    simp at hi
    rcases hi with rfl | rfl | rfl | rfl <;> cases hf <;> exact FKind.noConfusion

/-- Without `Strict` the order matters for the features too: A is optional in one result and mandatory in the other. -/
theorem C102_order_fails : ∃ m1 m2 c c', WF m1 ∧ WF m2 ∧ SameHeap m1 m2 ∧
    m1.mergeFeatureModels (stdEnv true) m2 false = some (some c) ∧ m2.mergeFeatureModels (stdEnv true) m1 false = some (some c') ∧
    ¬ SameFeatures c c' := by
  obtain ⟨c, h1, h2⟩ := of_commits (r := optPair.1.mergeFeatureModels (stdEnv true) optPair.2 false)
    (p := fun c => decide ((c!"A", 5) ∈ c.features) && decide (data c 5 = some (.feat { attr := { name := c!"A", kind := .binary, opt := true } })))
    (by decide)
  obtain ⟨c', h1', h2'⟩ := of_commits (r := optPair.2.mergeFeatureModels (stdEnv true) optPair.1 false)
    (p := fun c => decide ((c!"A", 5) ∈ c.features) && decide (data c 5 = some (.feat { attr := { name := c!"A", kind := .binary, opt := false } })))
    (by decide)
  simp only [Bool.and_eq_true, decide_eq_true_eq] at h2 h2'
  refine ⟨optPair.1, optPair.2, c, c', wf_of_check (fun i => i) (ofNodes_fresh _ _ _ _ _) (by decide),
    wf_of_check (fun i => i) (ofNodes_fresh _ _ _ _ _) (by decide), ⟨rfl, rfl⟩, h1, h1', fun h => ?_⟩
  have := (h.attrs c!"A" 5 5 _ _ h2.1 h2'.1 h2.2 h2'.2).1
  simp at this

end Verif.Props

import Verif.Merge.Three
import Verif.Xml.DeskLemmas
import Verif.Props.MergeLaws
/-!
# Merging three models (C105)
-/

namespace Verif.Spec
open Verif

/-- The model when the heap is that of `c`. -/
def later (m c : FModel) : FModel := { m with heap := c.heap, next := c.next }

/-- The two models have the same root, features with the same members and parents, and the same constraints. -/
structure EqualFeatures (c c' : FModel) : Prop where
  root : ∀ n r n' r', c.root = some r → (n, r) ∈ c.features → c'.root = some r' → (n', r') ∈ c'.features → n = n'
  names : ∀ n, (∃ i, (n, i) ∈ c.features) ↔ ∃ i, (n, i) ∈ c'.features
  attrs : ∀ n i i' f f', (n, i) ∈ c.features → (n, i') ∈ c'.features → data c i = some (.feat f) → data c' i' = some (.feat f') →
    f.attr = f'.attr
  parents : ∀ n i i' pn, (n, i) ∈ c.features → (n, i') ∈ c'.features →
    ((∃ p, FParent c i p ∧ (pn, p) ∈ c.features) ↔ ∃ p, FParent c' i' p ∧ (pn, p) ∈ c'.features)
  name : c.name = c'.name
  path : c.path = c'.path
  commit : c.commit = c'.commit
  store : ∀ cl, (c.store cl).map Stored.tree = (c'.store cl).map Stored.tree ∧
    (c.store cl).map Stored.info = (c'.store cl).map Stored.info

/-- Three models that can be merged: on one heap, the first two can be cloned, the roots have the same name, no
    feature is without kind, and there are no groups (only in the first, unless merged strictly). -/
structure CanMergeThree (strict : Bool) (d1 d2 : Desc) (m1 m2 m3 : FModel) : Prop where
  first : Describes d1 m1
  second : Describes d2 m2
  third : WF m3
  root1 : c!"root" ∉ d1.attrs.map Attr.name
  root2 : c!"root" ∉ d2.attrs.map Attr.name
  constraints1 : ConstraintsKnown d1
  constraints2 : ConstraintsKnown d2
  kinds1 : ∀ x ∈ d1.attrs, x.kind ≠ .unknown
  kinds2 : ∀ x ∈ d2.attrs, x.kind ≠ .unknown
  kinds3 : ∀ i f, Known m3 i → data m3 i = some (.feat f) → f.attr.kind ≠ .unknown
  groups1 : m1.rels = []
  groups : strict = true → m2.rels = [] ∧ m3.rels = []
  heap2 : SameHeap m1 m2
  heap3 : SameHeap m1 m3
  roots : ∃ n r1 r2 r3, m1.root = some r1 ∧ (n, r1) ∈ m1.features ∧ m2.root = some r2 ∧ (n, r2) ∈ m2.features ∧
    m3.root = some r3 ∧ (n, r3) ∈ m3.features

end Verif.Spec

namespace Verif.Props
open Verif Verif.Spec

variable {d d1 d2 : Desc} {m m' m1 m2 m3 c c' : FModel} {strict : Bool}

theorem copy_later (w : WF m) (wc : WF c) (hf : Frame m1.next m1.heap c) (hh : SameHeap m1 m) : Copy m (later m c) := by
  refine ⟨rfl, fun i hi => ?_, wc.fresh⟩
  show c.heap i = m.heap i
  rw [hf.low i (hh.next ▸ w.owned_lt hi), hh.heap]

theorem Copy.back (h : Copy m m') (w : WF m) : Copy m' m :=
  ⟨by rw [h.mem], fun i hi => (h.heap i (h.owned.1 hi)).symm, w.fresh⟩

theorem looks_copy (h : Copy m m') (w : WF m) {n : Str} {x : Look} (hx : Looks m n x) : Looks m' n x := by
  obtain ⟨i, f, a1, a2, a3, a4⟩ := hx
  have ho : Owned m i := .inl (known_of_mem a1)
  have b := Copy.back h w
  refine ⟨i, f, by rw [h.features]; exact a1, by rw [h.data ho]; exact a2, a3, fun pn => ?_⟩
  rw [a4]
  constructor
  · rintro ⟨p, k1, k2⟩; exact ⟨p, h.fparent w ho k1, by rw [h.features]; exact k2⟩
  · rintro ⟨p, k1, k2⟩; exact ⟨p, b.fparent (h.wf w) (h.owned.2 ho) k1, by rw [b.features]; exact k2⟩

theorem merged_copy_second (h : Copy m2 m') (w : WF m2) (M : MergedModel m1 m' c) : MergedModel m1 m2 c := by
  have hd : ∀ n j, (n, j) ∈ m2.features → data m' j = data m2 j := fun n j hj => h.data (.inl (known_of_mem hj))
  refine { M with names := ?_, first := ?_, second := ?_ }
  · intro n; rw [M.names, h.features]
  · intro n i f hi hf
    obtain ⟨i', f', ls, b1, b2, b3, b4, b5, b6⟩ := M.first n i f hi hf
    rw [h.features] at b4 b5
    exact ⟨i', f', ls, b1, b2, b3, fun j g hj hg => b4 j g hj (by rw [hd n j hj]; exact hg), b5, b6⟩
  · intro n j g hj hg hn
    obtain ⟨i', f', b1, b2, b3, b4⟩ := M.second n j g (by rw [h.features]; exact hj) (by rw [hd n j hj]; exact hg) hn
    refine ⟨i', f', b1, b2, b3, fun q qn hq hqn => b4 q qn ?_ (by rw [h.features]; exact hqn)⟩
    exact h.fparent w (.inl (known_of_mem hj)) hq

theorem merged_copy_first (h : Copy m1 m') (w : WF m1) (M : MergedModel m' m2 c) : MergedModel m1 m2 c := by
  have hd : ∀ n j, (n, j) ∈ m1.features → data m' j = data m1 j := fun n j hj => h.data (.inl (known_of_mem hj))
  refine { M with names := ?_, root := ?_, first := ?_, second := ?_, name := ?_, path := ?_, commit := ?_, store := ?_ }
  · intro n; rw [M.names, h.features]
  · obtain ⟨n, i, r, a1, a2, a3⟩ := M.root
    exact ⟨n, i, r, by rw [← h.root]; exact a1, by rw [← h.features]; exact a2, a3⟩
  · intro n i f hi hf
    obtain ⟨i', f', ls, b1, b2, b3, b4, b5, b6⟩ := M.first n i f (by rw [h.features]; exact hi) (by rw [hd n i hi]; exact hf)
    refine ⟨i', f', ls, b1, b2, b3, b4, b5, fun p pn hp hpn => b6 p pn ?_ (by rw [h.features]; exact hpn)⟩
    exact h.fparent w (.inl (known_of_mem hi)) hp
  · intro n j g hj hg hn
    exact M.second n j g hj hg (by rw [h.features]; exact hn)
  · rw [M.name, h.mem]
  · rw [M.path, h.mem]
  · rw [M.commit, h.mem]
  · intro cl; rw [← h.store cl]; exact M.store cl

theorem desc_solid (h : Describes d m) (hk : ∀ x ∈ d.attrs, x.kind ≠ .unknown) {n : Str} {x : Look} (hx : Looks m n x) : x.Solid := by
  obtain ⟨i, f, a1, a2, a3, _⟩ := hx
  refine ⟨a3 ▸ desc_kinds h hk a1 a2, ?_⟩
  rw [← a3]
  intro hr
  obtain ⟨r, rf, b1, b2, b3, b4⟩ := h.root
  have := (root_of_kind h.wf (known_of_mem a1) a2).1 hr
  rw [b1] at this; cases this
  rw [a2] at b3; cases b3
  rw [b4]

theorem rootBare_of (h : Describes d m) : RootBare m := by
  intro i f hi hf
  obtain ⟨r, rf, b1, b2, b3, b4⟩ := h.root
  rw [hi] at b1; cases b1
  rw [hf] at b3; cases b3
  rw [b4]

theorem three_of (p : CanMergeThree strict d1 d2 m1 m2 m3) : ∃ n, Three m1 m2 m3 n := by
  obtain ⟨n, r1, r2, r3, a1, a2, a3, a4, a5, a6⟩ := p.roots
  exact ⟨n,
    { wf1 := p.first.wf
      wf2 := p.second.wf
      wf3 := p.third
      root1 := ⟨r1, a1, a2⟩
      root2 := ⟨r2, a3, a4⟩
      root3 := ⟨r3, a5, a6⟩
      solid1 := fun _ _ => desc_solid p.first p.kinds1
      solid2 := fun _ _ => desc_solid p.second p.kinds2
      kinds3 := fun n x ⟨i, f, b1, b2, b3, _⟩ => b3 ▸ p.kinds3 i f (known_of_mem b1) b2 }⟩

theorem equal_of_looks (w : WF c) (w' : WF c') (h : ∀ n x, Looks c n x ↔ Looks c' n x) (hn : c.name = c'.name) (hp : c.path = c'.path)
    (hc : c.commit = c'.commit) (hs : ∀ cl, (c.store cl).map Stored.tree = (c'.store cl).map Stored.tree ∧
      (c.store cl).map Stored.info = (c'.store cl).map Stored.info) : EqualFeatures c c' := by
  refine ⟨?_, ?_, ?_, ?_, hn, hp, hc, hs⟩
  · intro n r n' r' a1 a2 a3 a4
    obtain ⟨x, hx⟩ := (looks_name w).1 ⟨r, a2⟩
    have := (looks_root w hx).1.2 ⟨r, a1, a2⟩
    obtain ⟨r'', b1, b2⟩ := (looks_root w' ((h n x).1 hx)).1.1 this
    rw [a3] at b1; cases b1
    exact w'.id_unique b2 a4
  · intro n
    rw [looks_name w, looks_name w']
    exact exists_congr fun x => h n x
  · intro n i i' f f' a1 a2 a3 a4
    obtain ⟨x, hx, e⟩ := looks_of w a1 a3
    obtain ⟨y, hy, e'⟩ := looks_of w' a2 a4
    rw [← e, ← e', looks_unique w' ((h n x).1 hx) hy]
  · intro n i i' pn a1 a2
    obtain ⟨x, hx⟩ := (looks_name w).1 ⟨i, a1⟩
    obtain ⟨j, f, b1, b2, b3, b4⟩ := hx
    have := w.entry_unique a1 b1; subst this
    obtain ⟨j', f', e1, e2, e3, e4⟩ := (h n x).1 ⟨i, f, b1, b2, b3, b4⟩
    have := w'.entry_unique a2 e1; subst this
    rw [← b4, ← e4]

/-- Merging the first two, and the third into the result. -/
def mergeLeft (E E' : Env) (strict : Bool) (m1 m2 m3 : FModel) : Option (Option FModel) :=
  match m1.mergeFeatureModels E m2 strict with
  | some (some c12) => c12.mergeFeatureModels E' (later m3 c12) strict
  | r => r

/-- Merging the last two, and the result into the first. -/
def mergeRight (E E' : Env) (strict : Bool) (m1 m2 m3 : FModel) : Option (Option FModel) :=
  match m2.mergeFeatureModels E m3 strict with
  | some (some c23) => (later m1 c23).mergeFeatureModels E' c23 strict
  | r => r

theorem later_rels (m c : FModel) : (later m c).rels = m.rels := rfl

/-- Merging from the left: either conflicts, or the merged model. -/
theorem left_run (p : CanMergeThree strict d1 d2 m1 m2 m3) (E E' : Env) :
    (mergeLeft E E' strict m1 m2 m3 = some none ∧ (AllFit strict m1 m2 → ∃ c12, MergedModel m1 m2 c12 ∧ ¬ AllFit strict c12 m3)) ∨
    (∃ c12 c, mergeLeft E E' strict m1 m2 m3 = some (some c) ∧ AllFit strict m1 m2 ∧ MergedModel m1 m2 c12 ∧ AllFit strict c12 m3 ∧
      MergedModel c12 m3 c) := by
  obtain ⟨ρ, t⟩ := three_of p
  have w1 := p.first.wf
  have w2 := p.second.wf
  have w3 := p.third
  have r21 : ∀ n r, m2.root = some r → (n, r) ∈ m2.features → ∃ i, (n, i) ∈ m1.features := by
    intro n r k1 k2
    obtain ⟨r1, k3, k4⟩ := t.root1
    exact ⟨r1, (root_entry w2 t.root2 k1 k2) ▸ k4⟩
  unfold mergeLeft
  have g12 : strict = true → m1.rels = [] ∧ m2.rels = [] := fun hs => ⟨p.groups1, (p.groups hs).1⟩
  rcases merge_inv p.first E strict p.root1 p.constraints1 w2 p.heap2 r21 with ⟨⟨j, a1, a2⟩, b⟩ | ⟨a, c0, c12, b, _, h', h0, hi⟩
  · rw [b]
    exact .inl ⟨rfl, fun h => absurd ((mergeable_look w1 w2 g12).2 h j a1) a2⟩
  · rw [b]
    simp only
    have M12 := merged_of_inv p.first h' h0 w2 hi
    have a12 := (mergeable_look w1 w2 g12).1 a
    obtain ⟨hd, hck, hrel, hbare⟩ := merged_describes p.first p.constraints1 p.groups1 w2 (rootBare_of p.second) h' h0 (by
      intro n r r' k1 k2 k3
      obtain ⟨r2, k4, k5⟩ := t.root2
      have := root_entry w1 t.root1 k1 k2; subst this
      have := w2.entry_unique k3 k5; subst this
      exact k4) hi
    have cp := copy_later w3 hi.wf hi.frame p.heap3
    have w3' := cp.wf w3
    have hroot : c!"root" ∉ (descOf c12).attrs.map Attr.name := by
      intro hin
      have hne : c!"root" ≠ (descOf c12).root := fun e => hd.root_new (e ▸ hin)
      obtain ⟨rc, fc, q1, q2, _, _⟩ := hd.root
      obtain ⟨r1, k1, k2⟩ := t.root1
      obtain ⟨r', k3, k4⟩ := merged_root M12 w1 k1 k2
      rw [q1] at k3; cases k3
      have hρ := M12.wf.id_unique q2 k4
      rw [hρ] at hne
      obtain ⟨f1, g1, e1, e2, _⟩ := p.first.root
      rw [k1] at e1; cases e1
      have e1 := w1.id_unique k2 e2
      obtain ⟨f2, g2, e3, e4, _⟩ := p.second.root
      obtain ⟨r2, k5, k6⟩ := t.root2
      rw [k5] at e3; cases e3
      have e2 := w2.id_unique k6 e4
      rcases (M12.names _).1 ((hd.names _).2 (.inr hin)) with x | x
      · rcases (p.first.names _).1 x with y | y
        · exact hne (y.trans e1.symm)
        · exact p.root1 y
      · rcases (p.second.names _).1 x with y | y
        · exact hne (y.trans e2.symm)
        · exact p.root2 y
    have r3 : ∀ n r, (later m3 c12).root = some r → (n, r) ∈ (later m3 c12).features → ∃ i, (n, i) ∈ c12.features := by
      intro n r k1 k2
      have := root_entry w3 t.root3 k1 k2; subst this
      obtain ⟨r1, _, k3⟩ := t.root1
      exact (M12.names _).2 (.inl ⟨r1, k3⟩)
    have gc : strict = true → c12.rels = [] ∧ (later m3 c12).rels = [] := fun hs => ⟨hrel, (p.groups hs).2⟩
    have hlook : AllFit strict c12 (later m3 c12) ↔ AllFit strict c12 m3 :=
      ⟨fun h n y hy => h n y (looks_copy cp w3 hy), fun h n y hy => h n y (looks_copy (Copy.back cp w3) w3' hy)⟩
    rcases merge_run hd E' strict hroot hck w3' ⟨rfl, rfl⟩ r3 with ⟨⟨j, e1, e2⟩, e3⟩ | ⟨e1, c, e2, e3, _⟩
    · refine .inl ⟨e3, fun _ => ⟨c12, M12, fun h => e2 ?_⟩⟩
      exact (mergeable_look hi.wf w3' gc).2 (hlook.2 h) j e1
    · exact .inr ⟨c12, c, e2, a12, M12, hlook.1 ((mergeable_look hi.wf w3' gc).1 e1), merged_copy_second cp w3 e3⟩

/-- Merging from the right. -/
theorem right_run (p : CanMergeThree strict d1 d2 m1 m2 m3) (E E' : Env) :
    (mergeRight E E' strict m1 m2 m3 = some none ∧ (AllFit strict m2 m3 → ∃ c23, MergedModel m2 m3 c23 ∧ ¬ AllFit strict m1 c23)) ∨
    (∃ c23 c, mergeRight E E' strict m1 m2 m3 = some (some c) ∧ AllFit strict m2 m3 ∧ MergedModel m2 m3 c23 ∧ AllFit strict m1 c23 ∧
      MergedModel m1 c23 c) := by
  obtain ⟨ρ, t⟩ := three_of p
  have w1 := p.first.wf
  have w2 := p.second.wf
  have w3 := p.third
  have r32 : ∀ n r, m3.root = some r → (n, r) ∈ m3.features → ∃ i, (n, i) ∈ m2.features := by
    intro n r k1 k2
    obtain ⟨r1, k3, k4⟩ := t.root2
    exact ⟨r1, (root_entry w3 t.root3 k1 k2) ▸ k4⟩
  have h23 : SameHeap m2 m3 := ⟨p.heap3.heap.trans p.heap2.heap.symm, p.heap3.next.trans p.heap2.next.symm⟩
  have h21 : SameHeap m2 m1 := ⟨p.heap2.heap.symm, p.heap2.next.symm⟩
  unfold mergeRight
  rcases merge_inv p.second E strict p.root2 p.constraints2 w3 h23 r32 with ⟨⟨j, a1, a2⟩, b⟩ | ⟨a, c0, c23, b, _, h', h0, hi⟩
  · rw [b]
    exact .inl ⟨rfl, fun h => absurd ((mergeable_look w2 w3 p.groups).2 h j a1) a2⟩
  · rw [b]
    simp only
    have M23 := merged_of_inv p.second h' h0 w3 hi
    have a23 := (mergeable_look w2 w3 p.groups).1 a
    have cp := copy_later w1 hi.wf hi.frame h21
    have w1' := cp.wf w1
    have rc : ∀ n r, c23.root = some r → (n, r) ∈ c23.features → ∃ i, (n, i) ∈ (later m1 c23).features := by
      intro n r k1 k2
      obtain ⟨n', i, r', b1, b2, b3, b4⟩ := M23.root
      rw [k1] at b3; cases b3
      have := hi.wf.id_unique k2 b4; subst this
      have := root_entry w2 t.root2 b1 b2; subst this
      obtain ⟨r1, _, k3⟩ := t.root1
      exact ⟨r1, k3⟩
    have gc : strict = true → (later m1 c23).rels = [] ∧ c23.rels = [] := fun hs =>
      ⟨p.groups1, hi.rels.trans (rels_of_groups h' (show d2.groups = [] from groups_of_rels p.second (p.groups hs).1))⟩
    have hlook : AllFit strict (later m1 c23) c23 ↔ AllFit strict m1 c23 := by
      constructor
      · intro h n y hy
        exact ⟨fun x hx => (h n y hy).1 x (looks_copy cp w1 hx), fun hn => (h n y hy).2 hn⟩
      · intro h n y hy
        exact ⟨fun x hx => (h n y hy).1 x (looks_copy (Copy.back cp w1) w1' hx), fun hn => (h n y hy).2 hn⟩
    rcases merge_run (cp.describes p.first) E' strict p.root1 p.constraints1 hi.wf ⟨rfl, rfl⟩ rc with ⟨⟨j, e1, e2⟩, e3⟩ | ⟨e1, c, e2, e3, _⟩
    · refine .inl ⟨e3, fun _ => ⟨c23, M23, fun h => e2 ?_⟩⟩
      exact (mergeable_look w1' hi.wf gc).2 (hlook.2 h) j e1
    · exact .inr ⟨c23, c, e2, a23, M23, hlook.1 ((mergeable_look w1' hi.wf gc).1 e1), merged_copy_first cp w1 e3⟩

/-- It does not matter which two of three models are merged first: there is a conflict both ways or none, and then the
    merged models have the same features and constraints. -/
theorem C105_grouping_partial (p : CanMergeThree strict d1 d2 m1 m2 m3) (E1 E2 E3 E4 : Env) :
    (mergeLeft E1 E2 strict m1 m2 m3 = some none ∧ mergeRight E3 E4 strict m1 m2 m3 = some none) ∨
    ∃ c c', mergeLeft E1 E2 strict m1 m2 m3 = some (some c) ∧ mergeRight E3 E4 strict m1 m2 m3 = some (some c') ∧
      EqualFeatures c c' := by
  obtain ⟨ρ, t⟩ := three_of p
  rcases left_run p E1 E2 with ⟨l1, l2⟩ | ⟨c12, c, l1, l2, l3, l4, l5⟩
  · rcases right_run p E3 E4 with ⟨r1, r2⟩ | ⟨c23, c', r1, r2, r3, r4, r5⟩
    · exact .inl ⟨l1, r1⟩
    · obtain ⟨k1, k2⟩ := t.fit_right r2 r3 r4
      obtain ⟨c12, k3, k4⟩ := l2 k1
      exact absurd (k2 c12 k3) k4
  · rcases right_run p E3 E4 with ⟨r1, r2⟩ | ⟨c23, c', r1, r2, r3, r4, r5⟩
    · obtain ⟨k1, k2⟩ := t.fit_left l2 l3 l4
      obtain ⟨c23, k3, k4⟩ := r2 k1
      exact absurd (k2 c23 k3) k4
    · refine .inr ⟨c, c', l1, r1, equal_of_looks l5.wf r5.wf (t.same l3 r3 l5 r5) ?_ ?_ ?_ ?_⟩
      · rw [l5.name, l3.name, r5.name]
      · rw [l5.path, l3.path, r5.path]
      · rw [l5.commit, l3.commit, r5.commit]
      · intro cl
        exact ⟨by rw [(l5.store cl).1, (l3.store cl).1, (r5.store cl).1], by rw [(l5.store cl).2, (l3.store cl).2, (r5.store cl).2]⟩

/-! ### Concrete models -/

/-- Three models on one heap: `root -- A`, `root -- {A, B -- C}` and `root -- {B -- D, E}`. -/
def threeNodes : List Node :=
  [featNode "root" none [1] .root, featNode "A" (some 0) [],
   featNode "root" none [3, 4] .root, featNode "A" (some 2) [], featNode "B" (some 2) [5], featNode "C" (some 4) [],
   featNode "root" none [7, 9] .root, featNode "B" (some 6) [8], featNode "D" (some 7) [], featNode "E" (some 6) []]

def three1 : FModel := ofNodes threeNodes (some 0) [(c!"root", 0), (c!"A", 1)] []
def three2 : FModel := ofNodes threeNodes (some 2) [(c!"root", 2), (c!"A", 3), (c!"B", 4), (c!"C", 5)] []
def three3 : FModel := ofNodes threeNodes (some 6) [(c!"root", 6), (c!"B", 7), (c!"D", 8), (c!"E", 9)] []

theorem three_wf : WF three1 ∧ WF three2 ∧ WF three3 :=
  ⟨wf_of_check (fun i => i) (ofNodes_fresh _ _ _ _ _) (by decide), wf_of_check (fun i => i) (ofNodes_fresh _ _ _ _ _) (by decide),
    wf_of_check (fun i => i) (ofNodes_fresh _ _ _ _ _) (by decide)⟩

theorem three_can (strict : Bool) : CanMergeThree strict (descOf three1) (descOf three2) three1 three2 three3 where
  first := by
    refine pair_described three_wf.1 ?_ (by intro cl; cases cl <;> rfl) rfl ?_
    · intro i f hi hf
      cases hi
      simp [data, three1, ofNodes, threeNodes, featNode] at hf
      rw [← hf]
    · intro i f hk hf
      have hk : i ∈ [0, 1] := hk
      simp at hk
      rcases hk with rfl | rfl <;> (simp [data, three1, ofNodes, threeNodes, featNode] at hf; subst hf; exact ⟨rfl, rfl, rfl⟩)
  second := by
    refine pair_described three_wf.2.1 ?_ (by intro cl; cases cl <;> rfl) rfl ?_
    · intro i f hi hf
      cases hi
      simp [data, three2, ofNodes, threeNodes, featNode] at hf
      rw [← hf]
    · intro i f hk hf
      have hk : i ∈ [2, 3, 4, 5] := hk
      simp at hk
      rcases hk with rfl | rfl | rfl | rfl <;> (simp [data, three2, ofNodes, threeNodes, featNode] at hf; subst hf; exact ⟨rfl, rfl, rfl⟩)
  third := three_wf.2.2
  root1 := by decide
  root2 := by decide
  constraints1 := by unfold ConstraintsKnown; decide
  constraints2 := by unfold ConstraintsKnown; decide
  kinds1 := by decide
  kinds2 := by decide
  kinds3 := by
    intro i f hk hf
    have hk : i ∈ [6, 7, 8, 9] := hk
    simp at hk
    rcases hk with rfl | rfl | rfl | rfl <;> (simp [data, three3, ofNodes, threeNodes, featNode] at hf; subst hf; simp)
  groups1 := rfl
  groups := fun _ => ⟨rfl, rfl⟩
  heap2 := ⟨rfl, rfl⟩
  heap3 := ⟨rfl, rfl⟩
  roots := ⟨c!"root", 0, 2, 6, rfl, by decide, rfl, by decide, rfl, by decide⟩

/-- The hypotheses of `C105_grouping_partial` are met by models with new and common features, and they are merged. -/
theorem C105_not_vacuous : (∀ strict, CanMergeThree strict (descOf three1) (descOf three2) three1 three2 three3) ∧
    ∃ c, mergeLeft (stdEnv true) (stdEnv true) true three1 three2 three3 = some (some c) ∧
      c.features.map Prod.fst = [c!"root", c!"A", c!"B", c!"C", c!"D", c!"E"] ∧ parentNamed c c!"D" = some c!"B" := by
  refine ⟨three_can, ?_⟩
  obtain ⟨c, h1, h2⟩ := of_commits (r := mergeLeft (stdEnv true) (stdEnv true) true three1 three2 three3)
    (p := fun c => decide (c.features.map Prod.fst = [c!"root", c!"A", c!"B", c!"C", c!"D", c!"E"] ∧ parentNamed c c!"D" = some c!"B"))
    (by decide)
  exact ⟨c, h1, by simpa using h2⟩

/-- `root`, and twice `root -- alternative {X, Y}`. -/
def groupNodes : List Node :=
  [featNode "root" none [] .root,
   featNode "root" none [2] .root, { data := .rel .alternative, parent := some 1, edges := [3, 4] }, featNode "X" (some 2) [], featNode "Y" (some 2) [],
   featNode "root" none [6] .root, { data := .rel .alternative, parent := some 5, edges := [7, 8] }, featNode "X" (some 6) [], featNode "Y" (some 6) []]

def bare3 : FModel := ofNodes groupNodes (some 0) [(c!"root", 0)] []
def groupA : FModel := ofNodes groupNodes (some 1) [(c!"root", 1), (c!"X", 3), (c!"Y", 4)] [2]
def groupB : FModel := ofNodes groupNodes (some 5) [(c!"root", 5), (c!"X", 7), (c!"Y", 8)] [6]

/-- Strictly it does matter if there are groups: merging drops the groups of the second model, and then its features
    conflict with those of a third with the same groups. -/
theorem C105_groups_fail : WF bare3 ∧ WF groupA ∧ WF groupB ∧
    mergeLeft (stdEnv true) (stdEnv true) true bare3 groupA groupB = some none ∧
    ∃ c, mergeRight (stdEnv true) (stdEnv true) true bare3 groupA groupB = some (some c) ∧
      c.features.map Prod.fst = [c!"root", c!"X", c!"Y"] := by
  refine ⟨wf_of_check (fun i => i) (ofNodes_fresh _ _ _ _ _) (by decide), wf_of_check (fun i => i) (ofNodes_fresh _ _ _ _ _) (by decide),
    wf_of_check (fun i => i) (ofNodes_fresh _ _ _ _ _) (by decide), ?_, ?_⟩
  · have : (match mergeLeft (stdEnv true) (stdEnv true) true bare3 groupA groupB with | some none => true | _ => false) = true := by
      decide
    revert this
    generalize mergeLeft (stdEnv true) (stdEnv true) true bare3 groupA groupB = r
    intro h
    match r, h with
    | some none, _ => rfl
  · obtain ⟨c, h1, h2⟩ := of_commits (r := mergeRight (stdEnv true) (stdEnv true) true bare3 groupA groupB)
      (p := fun c => decide (c.features.map Prod.fst = [c!"root", c!"X", c!"Y"])) (by decide)
    exact ⟨c, h1, by simpa using h2⟩

/-- `root -- X`, `root`, and `root -- X` with X of no kind. -/
def kindNodes : List Node :=
  [featNode "root" none [1] .root, featNode "X" (some 0) [], featNode "root" none [] .root,
   featNode "root" none [4] .root, featNode "X" (some 3) [] .unknown]

def unkindA : FModel := ofNodes kindNodes (some 0) [(c!"root", 0), (c!"X", 1)] []
def unkindB : FModel := ofNodes kindNodes (some 2) [(c!"root", 2)] []
def unkindC : FModel := ofNodes kindNodes (some 3) [(c!"root", 3), (c!"X", 4)] []

/-- And it matters, not strictly, if a feature has no kind: it can be merged with another, but not be copied. -/
theorem C105_kinds_fail : WF unkindA ∧ WF unkindB ∧ WF unkindC ∧
    mergeRight (stdEnv true) (stdEnv true) false unkindA unkindB unkindC = some none ∧
    ∃ c, mergeLeft (stdEnv true) (stdEnv true) false unkindA unkindB unkindC = some (some c) ∧
      c.features.map Prod.fst = [c!"root", c!"X"] := by
  refine ⟨wf_of_check (fun i => i) (ofNodes_fresh _ _ _ _ _) (by decide), wf_of_check (fun i => i) (ofNodes_fresh _ _ _ _ _) (by decide),
    wf_of_check (fun i => i) (ofNodes_fresh _ _ _ _ _) (by decide), ?_, ?_⟩
  · have : (match mergeRight (stdEnv true) (stdEnv true) false unkindA unkindB unkindC with | some none => true | _ => false) = true := by
      decide
    revert this
    generalize mergeRight (stdEnv true) (stdEnv true) false unkindA unkindB unkindC = r
    intro h
    match r, h with
    | some none, _ => rfl
  · obtain ⟨c, h1, h2⟩ := of_commits (r := mergeLeft (stdEnv true) (stdEnv true) false unkindA unkindB unkindC)
      (p := fun c => decide (c.features.map Prod.fst = [c!"root", c!"X"])) (by decide)
    exact ⟨c, h1, by simpa using h2⟩

end Verif.Props

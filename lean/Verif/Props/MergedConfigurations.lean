import Verif.Solver.Merged
import Verif.Props.Merge
import Verif.Props.KeptConfigurations
import Verif.Props.Edits
/-!
# The configurations of a merged model (C101)
-/

namespace Verif.Props
open Verif Verif.Spec

variable {d : Desc} {m1 m2 c : FModel} {F : IntFloats} {a : Assign}

/-- The models that are compared: two models on one heap, the first of which can be cloned faithfully and has
    features of known kind and no ranges (a clone has no step functions, C29), the root of the second being
    known to the first. -/
structure CanMerge (d : Desc) (m1 m2 : FModel) : Prop where
  first : Describes d m1
  root : c!"root" ∉ d.attrs.map Attr.name
  constraints : ConstraintsKnown d
  kinds : ∀ x ∈ d.attrs, x.kind ≠ .unknown
  ranges : NoRange d
  second : WF m2
  heap : SameHeap m1 m2
  rootKnown : ∀ n r, m2.root = some r → (n, r) ∈ m2.features → ∃ i, (n, i) ∈ m1.features

/-- The configurations of a merged model, in both modes: those of the first model that give each new feature
    of the second what it asks for as a child of its parent.  Groups and constraints of the second model do
    not matter. -/
theorem C101_merged (p : CanMerge d m1 m2) (E : Env) (strict : Bool) (hc : m1.mergeFeatureModels E m2 strict = some (some c)) :
    Valid F c a ↔ Valid F m1 a ∧
      ∀ n j g, (n, j) ∈ m2.features → data m2 j = some (.feat g) → (∀ i, (n, i) ∉ m1.features) → Asks F m2 a j g.attr := by
  rcases merge_inv p.first E strict p.root p.constraints p.second p.heap p.rootKnown with ⟨_, b⟩ | ⟨_, c0, c', b, _, h2, h0, hi⟩
  · rw [b] at hc; cases hc
  rw [b] at hc; cases hc
  rw [valid_merged h2.wf p.second hi h0 p.rootKnown, valid_desc h2, ← cloned_valid p.kinds p.ranges, ← valid_desc p.first]
  have key : ∀ cl, ∀ s ∈ c0.store cl, ∀ n ∈ s.tree.features, ∃ i, (n, i) ∈ c0.features := by
    intro cl s hs n hn
    obtain ⟨x, hx, _, rfl⟩ := (mem_store h2 cl s).1 hs
    rw [h0, p.first.names]
    exact p.constraints x hx n hn
  intro s hs
  simp only [allStored, List.mem_append] at hs
  rcases hs with (hs | hs) | hs
  · exact key .boolean s hs
  · exact key .nonBoolean s hs
  · exact key .mixed s hs

/-- No two names of the models differ in case only. -/
def CaseClear (m1 m2 : FModel) : Prop := ∀ n i k j, (n, i) ∈ m1.features → (k, j) ∈ m2.features → lower n = lower k → n = k

/-- A model without groups, and without ranges with a value. -/
structure Plain (m : FModel) : Prop where
  rels : m.rels = []
  ranges : ∀ i f lo hi st, Known m i → data m i = some (.feat f) → f.attr.kind = .numeric (.range lo hi) st → hi < lo

theorem allowed_plain {vs : Values} {st st' : Option StepFn} {v : Int} (h : ∀ lo hi, vs = .range lo hi → hi < lo) :
    Allowed F vs st v ↔ Allowed F vs st' v := by
  cases vs with
  | list l => exact .rfl
  | range lo hi =>
    have := h lo hi rfl
    exact ⟨fun x => (orbit_empty this x).elim, fun x => (orbit_empty this x).elim⟩

theorem plain_parent {m : FModel} (w : WF m) (hp : m.rels = []) {i q : Id} (hi : Known m i) (h : FParent m i q) : par m i = some q ∧ IsFeat m q := by
  cases h with
  | direct h1 h2 => exact ⟨h1, h2⟩
  | skip h1 h2 _ =>
    have := w.owned_rel (w.par_edge _ _ (.inl hi) h1).1 h2
    rw [hp] at this; cases this

/-- What holds: merged strictly, with a second model without groups and ranges and without names that differ in
    case only, the result has the configurations that are valid in the first model and, its constraints apart,
    in the second. -/
theorem C101_both_partial (p : CanMerge d m1 m2) (E : Env) (hc : m1.mergeFeatureModels E m2 true = some (some c))
    (hp : Plain m2) (hl : CaseClear m1 m2) : Valid F c a ↔ Valid F m1 a ∧ TreeValid F m2 a := by
  have w1 := p.first.wf
  have w2 := p.second
  have hmerge : ∀ j, Known m2 j → Mergeable true m1 m2 j := by
    rcases C30_merge_partial p.first E true p.root p.constraints p.second p.heap p.rootKnown with ⟨_, b⟩ | ⟨b, _⟩
    · rw [b] at hc; cases hc
    · exact b
  have fits : ∀ n j g, (n, j) ∈ m2.features → data m2 j = some (.feat g) →
      (∀ i, (n, i) ∉ m1.features) ∨ ∃ i f, (n, i) ∈ m1.features ∧ data m1 i = some (.feat f) ∧
        (f.attr.kind = .root ∨ g.attr.kind = .root ∨ SameParent m1 m2 i j) ∧ f.attr.opt = g.attr.opt ∧
        SameKind f.attr.kind g.attr.kind ∧ (f.attr.kind = .root ∨ (Spec.InGroup m1 i ↔ Spec.InGroup m2 j)) := by
    intro n j g hj hg
    obtain ⟨n', g', e1, e2, e3⟩ := hmerge j (known_of_mem hj)
    have := w2.id_unique hj e1; subst this
    rcases e3 with ⟨i, x1, f, g', x2, x3, x4, x5⟩ | ⟨x1, _⟩
    · rw [hg] at x3; cases x3
      obtain ⟨y1, y2, y3⟩ := x5 rfl
      exact .inr ⟨i, f, x1, x2, x4, y1, y2, y3⟩
    · exact .inl x1
  have named : ∀ (m : FModel), WF m → ∀ n i f, (n, i) ∈ m.features → data m i = some (.feat f) → f.attr.name = n := by
    intro m w n i f hi hf
    obtain ⟨f', e1, e2⟩ := w.feat_ok _ hi
    simp only at e1 e2
    rw [hf] at e1; cases e1; exact e2
  rw [C101_merged p E true hc]
  refine and_congr_right fun v1 => ?_
  constructor
  · intro k
    refine ⟨?_, ?_, ?_, ?_, ?_, ?_⟩
    · intro r hr
      obtain ⟨⟨n, r'⟩, hm, rfl⟩ := List.mem_map.1 (w2.root_known hr)
      obtain ⟨g, hg, _⟩ := w2.feat_ok _ hm
      have hgk : g.attr.kind = .root := (root_of_kind w2 (known_of_mem hm) hg).2 hr
      rcases fits n r' g hm hg with x | ⟨i, f, x1, x2, _, _, x3, _⟩
      · obtain ⟨i, hi⟩ := p.rootKnown n r' hr hm
        exact absurd hi (x i)
      · have hfk : f.attr.kind = .root := by
          rw [hgk] at x3
          cases hf : f.attr.kind <;> rw [hf] at x3 <;> first | rfl | exact x3.elim
        have hir := (root_of_kind w1 (known_of_mem x1) x2).1 hfk
        rw [selected_name w2 hm, ← selected_name w1 x1]
        exact v1.root i hir
    · intro j g q hj hg hk hq hs
      obtain ⟨⟨n, j'⟩, hm, rfl⟩ := List.mem_map.1 hj
      rcases fits n j' g hm hg with x | ⟨i, f, x1, x2, x3, _, x4, _⟩
      · refine (k n j' g hm hg x).child hk ?_ q hq
        rw [named m2 w2 n j' g hm hg]
        exact (selected_name w2 hm).1 hs
      · have hfk : f.attr.kind = .binary := by
          rw [hk] at x4
          cases hf : f.attr.kind <;> rw [hf] at x4 <;> first | rfl | exact x4.elim
        obtain ⟨p', q', pn, qn, y1, y2, y3, y4, y5⟩ : SameParent m1 m2 i j' := by
          rcases x3 with x | x | x
          · rw [hfk] at x; cases x
          · rw [hk] at x; cases x
          · exact x
        have := hq.functional y2; subst this
        have := hl pn p' qn q y3 y4 y5; subst this
        rw [selected_name w2 y4, ← selected_name w1 y3]
        exact v1.parent i f p' (known_of_mem x1) x2 hfk y1 ((selected_name w1 x1).2 ((selected_name w2 hm).1 hs))
    · intro j g q hj hg hk ho hq hqf hs
      obtain ⟨⟨n, j'⟩, hm, rfl⟩ := List.mem_map.1 hj
      rcases fits n j' g hm hg with x | ⟨i, f, x1, x2, x3, x6, x4, x5⟩
      · rw [selected_name w2 hm, ← named m2 w2 n j' g hm hg]
        exact (k n j' g hm hg x).mandatory hk ho q (.direct hq hqf) hs
      · have hfk : f.attr.kind = .binary := by
          rw [hk] at x4
          cases hf : f.attr.kind <;> rw [hf] at x4 <;> first | rfl | exact x4.elim
        obtain ⟨p', q', pn, qn, y1, y2, y3, y4, y5⟩ : SameParent m1 m2 i j' := by
          rcases x3 with x | x | x
          · rw [hfk] at x; cases x
          · rw [hk] at x; cases x
          · exact x
        have : q = q' := FParent.functional (.direct hq hqf) y2; subst this
        have := hl pn p' qn q y3 y4 y5; subst this
        have hng : ¬ Spec.InGroup m2 j' := by
          rintro ⟨r, z1, z2⟩
          simp only [] at hq
          rw [hq] at z1; cases z1
          obtain ⟨_, z⟩ := hqf
          obtain ⟨_, z'⟩ := z2
          rw [z] at z'; cases z'
        have hng1 : ¬ Spec.InGroup m1 i := by
          rcases x5 with x | x
          · rw [hfk] at x; cases x
          · exact fun y => hng (x.1 y)
        obtain ⟨z1, z2⟩ : par m1 i = some p' ∧ IsFeat m1 p' := by
          cases y1 with
          | direct a b => exact ⟨a, b⟩
          | skip a b _ => exact absurd ⟨_, a, b⟩ hng1
        rw [selected_name w2 hm, ← selected_name w1 x1]
        exact v1.mandatory i f p' (known_of_mem x1) x2 hfk (x6.trans ho) z1 z2
          ((selected_name w1 y3).2 ((selected_name w2 y4).1 hs))
    · intro r q hr; rw [hp.rels] at hr; cases hr
    · intro r q hr; rw [hp.rels] at hr; cases hr
    · intro j g vs st hj hg hk
      obtain ⟨⟨n, j'⟩, hm, rfl⟩ := List.mem_map.1 hj
      have hra : ∀ lo hi, vs = .range lo hi → hi < lo := by
        rintro lo hi rfl
        exact hp.ranges j' g lo hi st hj hg hk
      rcases fits n j' g hm hg with x | ⟨i, f, x1, x2, x3, _, x4, _⟩
      · exact (allowed_plain hra).1 ((k n j' g hm hg x).number vs st hk)
      · rw [hk] at x4
        cases hf : f.attr.kind with
        | numeric vs' st' =>
          rw [hf] at x4
          have : vs' = vs := x4
          subst this
          have := v1.numeric i f vs' st' (known_of_mem x1) x2 hf
          rw [named m1 w1 n i f x1 x2] at this
          rw [named m2 w2 n j' g hm hg]
          exact (allowed_plain hra).1 this
        | _ => rw [hf] at x4; exact x4.elim
  · intro v2 n j g hm hg hnot
    have hn := named m2 w2 n j g hm hg
    refine ⟨?_, ?_, ?_⟩
    · intro hk hs q hq
      exact v2.parent j g q (known_of_mem hm) hg hk hq ((selected_name w2 hm).2 (by rw [← hn]; exact hs))
    · intro hk ho q hq hs
      obtain ⟨z1, z2⟩ := plain_parent w2 hp.rels (known_of_mem hm) hq
      rw [hn]
      exact (selected_name w2 hm).1 (v2.mandatory j g q (known_of_mem hm) hg hk ho z1 z2 hs)
    · intro vs st hk
      refine (allowed_plain ?_).1 (v2.numeric j g vs st (known_of_mem hm) hg hk)
      rintro lo hi rfl
      exact hp.ranges j g lo hi st (known_of_mem hm) hg hk

/-- So, if the second model has no constraints either, those that are valid in both. -/
theorem C101_valid_in_both_partial (p : CanMerge d m1 m2) (E : Env) (hc : m1.mergeFeatureModels E m2 true = some (some c))
    (hp : Plain m2) (hs : ∀ cl, m2.store cl = []) (hl : CaseClear m1 m2) : Valid F c a ↔ Valid F m1 a ∧ Valid F m2 a := by
  rw [C101_both_partial p E hc hp hl, valid_cons (m := m2)]
  have h1 : m2.booleans = [] := hs .boolean
  have h2 : m2.nonBooleans = [] := hs .nonBoolean
  have h3 : m2.mixeds = [] := hs .mixed
  have : ConsHold m2 a := by
    unfold ConsHold
    rw [h1, h2, h3]
    exact ⟨by simp, by simp⟩
  simp [this]

/-- Constraints of the second model are lost, for all models: a configuration that only they rule out is one
    of the merged model. -/
theorem C101_constraints_lost (p : CanMerge d m1 m2) (E : Env) (hc : m1.mergeFeatureModels E m2 true = some (some c))
    (hp : Plain m2) (hl : CaseClear m1 m2) {s : Stored} (hs : s ∈ m2.booleans) (h1 : Valid F m1 a) (h2 : TreeValid F m2 a)
    (hv : meaning (value m2 a) a.div0 s.tree ≠ some (.bool true)) : Valid F c a ∧ ¬ Valid F m2 a :=
  ⟨(C101_both_partial p E hc hp hl).2 ⟨h1, h2⟩, fun v => hv (v.boolean s (List.mem_append_left _ hs))⟩

/-- Groups of the second model are lost, for all models: of two new mandatory members of an alternative group
    a configuration of the merged model has both, so it is not one of the second model. -/
theorem C101_alternative_lost (p : CanMerge d m1 m2) (E : Env) (strict : Bool) (hc : m1.mergeFeatureModels E m2 strict = some (some c))
    {r q : Id} (hr : r ∈ m2.rels) (hk : data m2 r = some (.rel .alternative)) (hq : par m2 r = some q) (hqf : IsFeat m2 q)
    {n k : Str} {i j : Id} {f g : Feat} (hne : i ≠ j)
    (hi : (n, i) ∈ m2.features) (hir : i ∈ edg m2 r) (hf : data m2 i = some (.feat f)) (fb : f.attr.kind = .binary) (fm : f.attr.opt = false)
    (hn : ∀ x, (n, x) ∉ m1.features)
    (hj : (k, j) ∈ m2.features) (hjr : j ∈ edg m2 r) (hg : data m2 j = some (.feat g)) (gb : g.attr.kind = .binary) (gm : g.attr.opt = false)
    (hkn : ∀ x, (k, x) ∉ m1.features)
    (hv : Valid F c a) (hs : Selected m2 a q) : Selected m2 a i ∧ Selected m2 a j ∧ ¬ Valid F m2 a := by
  have w2 := p.second
  obtain ⟨_, asks⟩ := (C101_merged p E strict hc).1 hv
  have par_of : ∀ x, x ∈ edg m2 r → FParent m2 x q := fun x hx =>
    .skip (w2.edge_par r x (.inr hr) hx).2 ⟨_, hk⟩ (.direct hq hqf)
  have h1 : Selected m2 a i := ⟨f, hf, (asks n i f hi hf hn).mandatory fb fm q (par_of i hir) hs⟩
  have h2 : Selected m2 a j := ⟨g, hg, (asks k j g hj hg hkn).mandatory gb gm q (par_of j hjr) hs⟩
  refine ⟨h1, h2, fun v => ?_⟩
  obtain ⟨x, _, _, x3⟩ := v.alternative r q hr hk hq hs
  exact hne ((x3 i hir h1).trans (x3 j hjr h2).symm)

/-- If the first model knows all features of the second, the configurations are those of the first, whatever the
    second says about them: groups, constraints and, unless the merge is strict, optional features. -/
theorem C101_first_wins (p : CanMerge d m1 m2) (E : Env) (strict : Bool) (hc : m1.mergeFeatureModels E m2 strict = some (some c))
    (hn : ∀ n j, (n, j) ∈ m2.features → ∃ i, (n, i) ∈ m1.features) : Valid F c a ↔ Valid F m1 a := by
  rw [C101_merged p E strict hc]
  refine ⟨And.left, fun v => ⟨v, fun n j _ hj _ hnot => ?_⟩⟩
  obtain ⟨i, hi⟩ := hn n j hj
  exact absurd hi (hnot i)

/-! ### Concrete models -/

/-- A model without groups and constraints whose features are Boolean can be merged with one on its heap. -/
theorem canMerge_of (hd : Describes (descOf m1) m1) (hroot : c!"root" ∉ (descOf m1).attrs.map Attr.name)
    (hc : (descOf m1).constraints = []) (hb : ∀ x ∈ (descOf m1).attrs, x.kind = .binary) (w2 : WF m2) (hh : SameHeap m1 m2)
    (hr : ∀ e ∈ m2.features, m2.root = some e.2 → e.1 ∈ m1.features.map Prod.fst) : CanMerge (descOf m1) m1 m2 where
  first := hd
  root := hroot
  constraints := by intro x hx; rw [hc] at hx; cases hx
  kinds := by intro x hx; rw [hb x hx]; exact FKind.noConfusion
  ranges := by intro x hx lo hi st hk; rw [hb x hx] at hk; cases hk
  second := w2
  heap := hh
  rootKnown := by
    intro n r h1 h2
    obtain ⟨⟨n', i⟩, h3, rfl⟩ := List.mem_map.1 (hr _ h2 h1)
    exact ⟨i, h3⟩

theorem plain_of {m : FModel} (hr : m.rels = [])
    (hb : ∀ e ∈ m.features, (match data m e.2 with | some (.feat f) => decide (f.attr.kind = .binary ∨ f.attr.kind = .root) | _ => true) = true) :
    Plain m where
  rels := hr
  ranges := by
    intro i f lo hi st hk hf hkind
    obtain ⟨e, he, rfl⟩ := List.mem_map.1 hk
    have := hb e he
    rw [hf] at this
    simp only [decide_eq_true_eq] at this
    rcases this with h | h <;> rw [h] at hkind <;> cases hkind

theorem caseClear_of (h : ∀ e ∈ m1.features, ∀ e' ∈ m2.features, lower e.1 = lower e'.1 → e.1 = e'.1) : CaseClear m1 m2 :=
  fun n i k j h1 h2 h3 => h (n, i) h1 (k, j) h2 h3

theorem overlap_canMerge : CanMerge (descOf overlap.1) overlap.1 overlap.2 :=
  canMerge_of overlap_described (by decide) rfl (by decide) overlap_wf.2 ⟨rfl, rfl⟩ (by decide)

/-- The hypotheses of `C101_valid_in_both_partial` are met by two models of which each has features of its own;
    everything selected is a configuration of the result. -/
example (F : IntFloats) : ∃ c, overlap.1.mergeFeatureModels (stdEnv true) overlap.2 true = some (some c) ∧
    (∀ a, Valid F c a ↔ Valid F overlap.1 a ∧ Valid F overlap.2 a) ∧ Valid F c allOn ∧
    ¬ Valid F c { allOn with bool := fun n => decide (n ≠ c!"C") } := by
  obtain ⟨c, h1, _⟩ := of_commits (r := overlap.1.mergeFeatureModels (stdEnv true) overlap.2 true) (p := fun _ => true) (by decide)
  have key : ∀ a, Valid F c a ↔ Valid F overlap.1 a ∧ Valid F overlap.2 a := fun a =>
    C101_valid_in_both_partial overlap_canMerge (stdEnv true) h1 (plain_of rfl (by decide)) (by intro cl; cases cl <;> rfl)
      (caseClear_of (by decide))
  refine ⟨c, h1, key, (key _).2 ⟨allOn_valid overlap_wf.1 rfl rfl ?_, allOn_valid overlap_wf.2 rfl rfl ?_⟩, ?_⟩
  · intro i f hi hf vs st hk
    have : i ∈ [0, 1, 2, 3] := hi
    simp only [List.mem_cons, List.not_mem_nil, or_false] at this
    rcases this with rfl | rfl | rfl | rfl <;> cases hf <;> cases hk
  · intro i f hi hf vs st hk
    have : i ∈ [4, 5, 6, 7, 8] := hi
    simp only [List.mem_cons, List.not_mem_nil, or_false] at this
    rcases this with rfl | rfl | rfl | rfl | rfl <;> cases hf <;> cases hk
  · intro v
    obtain ⟨v1, _⟩ := (key _).1 v
    obtain ⟨f, hf, hb⟩ := v1.mandatory 3 _ 0 (by decide) rfl rfl rfl rfl ⟨_, rfl⟩ ⟨_, rfl, by decide⟩
    cases hf
    revert hb; decide

/-- `root -- A`, A optional. -/
def aNode (n : String) (p : Id) (opt : Bool) : Node := ⟨.feat { attr := { name := n.toList, kind := .binary, opt := opt } }, some p, []⟩

/-- `root` and `root -- {A | B}`, an alternative group of mandatory features. -/
def altPair : FModel × FModel :=
  (ofNodes [featNode "root" none [] .root, featNode "root" none [2] .root, ⟨.rel .alternative, some 1, [3, 4]⟩,
      aNode "A" 2 false, aNode "B" 2 false] (some 0) [(c!"root", 0)] [],
   ofNodes [featNode "root" none [] .root, featNode "root" none [2] .root, ⟨.rel .alternative, some 1, [3, 4]⟩,
      aNode "A" 2 false, aNode "B" 2 false] (some 1) [(c!"root", 1), (c!"A", 3), (c!"B", 4)] [2])

theorem lone_described {m : FModel} (w : WF m) {r : Id} (h1 : m.root = some r) (h2 : m.features = [(c!"root", r)])
    (h3 : data m r = some (.feat { attr := { name := c!"root", kind := .root } })) (hr : m.rels = [])
    (hs : ∀ cl, m.store cl = []) : Describes (descOf m) m := by
  refine pair_described w ?_ hs hr ?_
  · intro i f hi hf
    rw [h1] at hi; cases hi
    rw [h3] at hf; cases hf
    rfl
  · intro i f hk hf
    unfold Known at hk
    rw [h2] at hk
    simp at hk
    subst hk
    rw [h3] at hf; cases hf
    exact ⟨rfl, rfl, rfl⟩

/-- So the result of merging, with `Strict` and without, can have no configuration in common with the second
    model: here one asks for A and B, the other rules that out. -/
theorem C101_fails (F : IntFloats) (strict : Bool) : ∃ m1 m2 c, WF m1 ∧ WF m2 ∧ SameHeap m1 m2 ∧
    m1.mergeFeatureModels (stdEnv true) m2 strict = some (some c) ∧ (∃ a, Valid F c a) ∧ (∃ a, Valid F m1 a ∧ Valid F m2 a) ∧
    ∀ a, Valid F c a → ¬ Valid F m2 a := by
  have w1 : WF altPair.1 := wf_of_check (fun i => i) (ofNodes_fresh _ _ _ _ _) (by decide)
  have w2 : WF altPair.2 := wf_of_check (fun i => i) (ofNodes_fresh _ _ _ _ _) (by decide)
  have pm : CanMerge (descOf altPair.1) altPair.1 altPair.2 :=
    canMerge_of (lone_described w1 rfl rfl rfl rfl (by intro cl; cases cl <;> rfl)) (by decide) rfl (by decide) w2 ⟨rfl, rfl⟩ (by decide)
  obtain ⟨c, h1, _⟩ := of_commits (r := altPair.1.mergeFeatureModels (stdEnv true) altPair.2 strict) (p := fun _ => true)
    (by cases strict <;> decide)
  have hone : ∀ a : Assign, a.bool c!"root" = true → Valid F altPair.1 a := by
    intro a ha
    refine ⟨?_, ?_, ?_, ?_, ?_, ?_, ?_, ?_⟩
    · intro r hr; cases hr; exact ⟨_, rfl, ha⟩
    · intro i f p hi hf hk
      have : i ∈ [0] := hi
      simp only [List.mem_singleton] at this
      subst this; cases hf; cases hk
    · intro i f p hi hf hk
      have : i ∈ [0] := hi
      simp only [List.mem_singleton] at this
      subst this; cases hf; cases hk
    · intro r p hr; cases hr
    · intro r p hr; cases hr
    · intro i f vs st hi hf hk
      have : i ∈ [0] := hi
      simp only [List.mem_singleton] at this
      subst this; cases hf; cases hk
    · intro x hx; cases hx
    · intro x hx; cases hx
  have hmem2 : ∀ n j, (n, j) ∈ altPair.2.features → j = 1 ∨ j = 3 ∨ j = 4 := by
    intro n j hj
    have hj : (n, j) ∈ [(c!"root", 1), (c!"A", 3), (c!"B", 4)] := hj
    simp at hj
    rcases hj with h | h | h <;> simp [h.2]
  have hfp : ∀ j q, Known altPair.2 j → FParent altPair.2 j q → q = 1 := by
    intro j q hj hq
    have hk := fparent_isKnown w2 (.inl hj) hq
    obtain ⟨⟨n, q'⟩, hm, rfl⟩ := List.mem_map.1 hk
    obtain ⟨⟨_, j'⟩, hm', rfl⟩ := List.mem_map.1 hj
    rcases hmem2 _ _ hm' with rfl | rfl | rfl
    · have : par altPair.2 1 = none := rfl
      cases hq with
      | direct x _ => rw [this] at x; cases x
      | skip x _ _ => rw [this] at x; cases x
    · exact hq.functional (.skip (r := 2) rfl ⟨_, rfl⟩ (.direct rfl ⟨_, rfl⟩))
    · exact hq.functional (.skip (r := 2) rfl ⟨_, rfl⟩ (.direct rfl ⟨_, rfl⟩))
  refine ⟨altPair.1, altPair.2, c, w1, w2, ⟨rfl, rfl⟩, h1, ⟨allOn, ?_⟩, ⟨{ allOn with bool := fun n => decide (n ≠ c!"B") }, hone _ (by decide), ?_⟩, ?_⟩
  · rw [C101_merged pm _ _ h1]
    refine ⟨hone _ rfl, fun n j g hj hg hnot => ⟨?_, fun _ _ _ _ _ => rfl, ?_⟩⟩
    · intro _ _ q hq
      have := hfp j q (known_of_mem hj) hq
      subst this
      exact ⟨_, rfl, rfl⟩
    · intro vs st hk
      rcases hmem2 n j hj with rfl | rfl | rfl <;> cases hg <;> cases hk
  · refine ⟨?_, ?_, ?_, ?_, ?_, ?_, ?_, ?_⟩
    · intro r hr; cases hr; exact ⟨_, rfl, by decide⟩
    · intro i f q hi hf hk hq _
      have := hfp i q hi hq
      subst this
      exact ⟨_, rfl, by decide⟩
    · intro i f q hi hf hk ho hq hqf
      obtain ⟨⟨n, i'⟩, hm, rfl⟩ := List.mem_map.1 hi
      rcases hmem2 n i' hm with rfl | rfl | rfl
      · cases hf; cases hk
      · cases hq; obtain ⟨_, h⟩ := hqf; cases h
      · cases hq; obtain ⟨_, h⟩ := hqf; cases h
    · intro r q hr hd hq _
      have hr : r ∈ [2] := hr
      simp only [List.mem_singleton] at hr
      subst hr
      refine ⟨3, by decide, ⟨_, rfl, by decide⟩, ?_⟩
      intro x hx hs
      have hx : x ∈ [3, 4] := hx
      simp at hx
      rcases hx with rfl | rfl
      · rfl
      · obtain ⟨f, hf, hb⟩ := hs
        cases hf
        revert hb; decide
    · intro r q hr hd
      have hr : r ∈ [2] := hr
      simp only [List.mem_singleton] at hr
      subst hr
      cases hd
    · intro i f vs st hi hf hk
      obtain ⟨⟨n, i'⟩, hm, rfl⟩ := List.mem_map.1 hi
      rcases hmem2 n i' hm with rfl | rfl | rfl <;> cases hf <;> cases hk
    · intro x hx; cases hx
    · intro x hx; cases hx
  · intro a v
    have hr : Selected altPair.2 a 1 := by
      obtain ⟨v1, _⟩ := (C101_merged pm _ _ h1).1 v
      obtain ⟨f, hf, hb⟩ := v1.root 0 rfl
      cases hf
      exact ⟨_, rfl, hb⟩
    have hno : ∀ n, n ≠ c!"root" → ∀ x, (n, x) ∉ altPair.1.features := by
      intro n hn x hx
      have hx : (n, x) ∈ [(c!"root", 0)] := hx
      simp at hx
      exact hn hx.1
    exact (C101_alternative_lost pm (stdEnv true) strict h1 (r := 2) (q := 1) (n := c!"A") (k := c!"B") (i := 3) (j := 4) (by decide) rfl rfl
      ⟨_, rfl⟩ (by decide) (by decide) (by decide) rfl rfl rfl (hno _ (by decide)) (by decide) (by decide) rfl rfl rfl
      (hno _ (by decide)) v hr).2.2

theorem fparent_other {m m' : FModel} {i q : Id} (hh : m'.heap = m.heap) (h : FParent m i q) : FParent m' i q := by
  induction h with
  | direct a b => exact .direct (by unfold par at *; rw [hh]; exact a) (by unfold IsFeat data at *; rw [hh]; exact b)
  | skip a b _ ih => exact .skip (by unfold par at *; rw [hh]; exact a) (by unfold IsRel data at *; rw [hh]; exact b) ih

/-- `root` and `root -- B` with the constraint that B is not selected, B being optional. -/
def notPair : FModel × FModel :=
  (ofNodes [featNode "root" none [] .root, featNode "root" none [2] .root, aNode "B" 1 true] (some 0) [(c!"root", 0)] [],
   ofNodes [featNode "root" none [] .root, featNode "root" none [2] .root, aNode "B" 1 true] (some 1) [(c!"root", 1), (c!"B", 2)] []
     [⟨.un .not (.feature c!"B"), [some 2], none⟩])

/-- The hypotheses of `C101_constraints_lost` are met: everything selected. -/
example (F : IntFloats) : ∃ c, notPair.1.mergeFeatureModels (stdEnv true) notPair.2 true = some (some c) ∧
    Valid F c allOn ∧ ¬ Valid F notPair.2 allOn := by
  have w1 : WF notPair.1 := wf_of_check (fun i => i) (ofNodes_fresh _ _ _ _ _) (by decide)
  have w2 : WF notPair.2 := wf_of_check (fun i => i) (ofNodes_fresh _ _ _ _ _) (by decide)
  have w2' : WF { notPair.2 with booleans := [] } := wf_of_check (fun i => i) (ofNodes_fresh _ _ _ _ _) (by decide)
  have pm : CanMerge (descOf notPair.1) notPair.1 notPair.2 :=
    canMerge_of (lone_described w1 rfl rfl rfl rfl (by intro cl; cases cl <;> rfl)) (by decide) rfl (by decide) w2 ⟨rfl, rfl⟩ (by decide)
  obtain ⟨c, h1, _⟩ := of_commits (r := notPair.1.mergeFeatureModels (stdEnv true) notPair.2 true) (p := fun _ => true) (by decide)
  have hn : ∀ i f, i ∈ [0, 1, 2] → data notPair.1 i = some (.feat f) → ∀ vs st, f.attr.kind ≠ .numeric vs st := by
    intro i f hi hf vs st hk
    simp only [List.mem_cons, List.not_mem_nil, or_false] at hi
    rcases hi with rfl | rfl | rfl <;> cases hf <;> cases hk
  refine ⟨c, h1, C101_constraints_lost pm (stdEnv true) h1 (plain_of rfl (by decide)) (caseClear_of (by decide))
    (s := ⟨.un .not (.feature c!"B"), [some 2], none⟩) (by simp [notPair, ofNodes]) ?_ ?_ ?_⟩
  · refine allOn_valid w1 rfl rfl ?_
    intro i f hi
    have : i ∈ [0] := hi
    exact hn i f (by simp at this; simp [this])
  · have := (valid_cons (F := F) (m := { notPair.2 with booleans := [] }) (a := allOn)).1 (allOn_valid w2' rfl rfl (by
      intro i f hi
      have : i ∈ [1, 2] := hi
      refine hn i f ?_
      simp only [List.mem_cons, List.not_mem_nil, or_false] at this ⊢
      exact .inr this))
    obtain ⟨t, _⟩ := this
    refine ⟨t.root, fun i f p a b c d => t.parent i f p a b c (fparent_other (m := notPair.2) (m' := { notPair.2 with booleans := [] }) rfl d), t.mandatory, t.alternative, t.or, t.numeric⟩
  · have : ¬ IsNum notPair.2 c!"B" := by
      rintro ⟨i, f, vs, st, h1, h2, h3⟩
      have h1 : (c!"B", i) ∈ [(c!"root", 1), (c!"B", 2)] := h1
      simp at h1
      subst h1
      cases h2; cases h3
    simp only [meaning, value, if_neg this, allOn]
    decide

/-- `root -- A`: optional in one, mandatory in the other. -/
def optPair : FModel × FModel :=
  (ofNodes [featNode "root" none [1] .root, aNode "A" 0 true, featNode "root" none [3] .root, aNode "A" 2 false]
    (some 0) [(c!"root", 0), (c!"A", 1)] [],
   ofNodes [featNode "root" none [1] .root, aNode "A" 0 true, featNode "root" none [3] .root, aNode "A" 2 false]
    (some 2) [(c!"root", 2), (c!"A", 3)] [])

/-- The hypotheses of `C101_first_wins` are met, without `Strict`, by models that disagree. -/
theorem C101_optional_wins (F : IntFloats) : ∃ m1 m2 c, WF m1 ∧ WF m2 ∧ SameHeap m1 m2 ∧
    m1.mergeFeatureModels (stdEnv true) m2 false = some (some c) ∧ ∃ a, Valid F c a ∧ ¬ Valid F m2 a := by
  have w1 : WF optPair.1 := wf_of_check (fun i => i) (ofNodes_fresh _ _ _ _ _) (by decide)
  have w2 : WF optPair.2 := wf_of_check (fun i => i) (ofNodes_fresh _ _ _ _ _) (by decide)
  have hd : Describes (descOf optPair.1) optPair.1 := by
    refine pair_described w1 ?_ (by intro cl; cases cl <;> rfl) rfl ?_
    · intro i f hi hf; cases hi; cases hf; rfl
    · intro i f hk hf
      have hk : i ∈ [0, 1] := hk
      simp at hk
      rcases hk with rfl | rfl <;> cases hf <;> exact ⟨rfl, rfl, rfl⟩
  have pm : CanMerge (descOf optPair.1) optPair.1 optPair.2 := canMerge_of hd (by decide) rfl (by decide) w2 ⟨rfl, rfl⟩ (by decide)
  obtain ⟨c, h1, _⟩ := of_commits (r := optPair.1.mergeFeatureModels (stdEnv true) optPair.2 false) (p := fun _ => true) (by decide)
  refine ⟨optPair.1, optPair.2, c, w1, w2, ⟨rfl, rfl⟩, h1, { allOn with bool := fun n => decide (n = c!"root") }, ?_, ?_⟩
  · rw [C101_first_wins pm (stdEnv true) false h1]
    · refine ⟨?_, ?_, ?_, ?_, ?_, ?_, ?_, ?_⟩
      · intro r hr; cases hr; exact ⟨_, rfl, by decide⟩
      · intro i f q hi hf hk hq hs
        have hi : i ∈ [0, 1] := hi
        simp at hi
        rcases hi with rfl | rfl
        · cases hf; cases hk
        · obtain ⟨f', hf', hb⟩ := hs
          cases hf'
          exact absurd hb (by decide)
      · intro i f q hi hf hk ho
        have hi : i ∈ [0, 1] := hi
        simp at hi
        rcases hi with rfl | rfl <;> cases hf
        · cases hk
        · cases ho
      · intro r p hr; cases hr
      · intro r p hr; cases hr
      · intro i f vs st hi hf hk
        have hi : i ∈ [0, 1] := hi
        simp at hi
        rcases hi with rfl | rfl <;> cases hf <;> cases hk
      · intro x hx; cases hx
      · intro x hx; cases hx
    · intro n j hj
      have hj : (n, j) ∈ [(c!"root", 2), (c!"A", 3)] := hj
      simp at hj
      rcases hj with ⟨rfl, _⟩ | ⟨rfl, _⟩
      · exact ⟨0, by decide⟩
      · exact ⟨1, by decide⟩
  · intro v
    obtain ⟨f, hf, hb⟩ := v.mandatory 3 _ 2 (by decide) rfl rfl rfl rfl ⟨_, rfl⟩ ⟨_, rfl, by decide⟩
    cases hf
    revert hb; decide

end Verif.Props

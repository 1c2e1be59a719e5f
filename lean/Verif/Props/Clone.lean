import Verif.FM.DescOf
import Verif.Props.CopyTransactions
import Verif.FM.Examples
import Verif.Props.Build
/-!
# Cloning models (C29)

`Spec.Describes d m` says that `m` has exactly the features, attributes, parents, groups and
constraints of `d`.
-/

namespace Verif.Props
open Verif Verif.Spec

/-- What holds: the clone of a described model has the same description, if its features have no
    members that the copy drops (an output string, a step function; anything but the name for
    features of unknown kind), no feature besides the root is called `root`, and the constraints
    mention features of the model only.  The claim fails without these conditions
    (`C29_drops`, `C29_root_locations`, `C29_feature_called_root`, `C29_unbound_constraint`), and
    without a description, where a group holds only some children of its feature
    (`C29_group_absorbs`). -/
theorem C29_clone_partial {d : Desc} {m : FModel} (h : Describes d m) (E : Env)
    (hroot : c!"root" ∉ d.attrs.map Attr.name) (hk : ConstraintsKnown d)
    (ha : ∀ a ∈ d.attrs, a.output = [] ∧ (∀ v s, a.kind = .numeric v s → s = none) ∧
      (a.kind = .unknown → a.opt = false ∧ a.locs = [])) :
    ∃ c, m.clone E = .built c ∧ Describes d c := by
  obtain ⟨c, h1, h2⟩ := clone_describes h E hroot hk
  refine ⟨c, h1, ?_⟩
  have : d.cloned = d := by
    have : d.attrs.map clonedAttr = d.attrs := by
      rw [List.map_congr_left (g := id), List.map_id]
      intro a hm
      obtain ⟨h1, h2, h3⟩ := ha a hm
      have hkr : a.kind ≠ .root := by
        intro hkr
        obtain ⟨i, f, p, f1, f2, f3, f4, f5⟩ := h.feat a hm
        have hr := h.wf.one_root i f (known_of_mem f1) f2 (by rw [f3]; exact hkr)
        obtain ⟨r, rf, r1, r2, _⟩ := h.root
        rw [r1] at hr; cases hr
        exact h.root_new (h.wf.id_unique r2 f1 ▸ List.mem_map_of_mem hm)
      obtain ⟨n, k, o, l, out⟩ := a
      simp only at h1 h2 h3 hkr
      subst h1
      unfold clonedAttr
      cases k with
      | unknown => obtain ⟨rfl, rfl⟩ := h3 rfl; rfl
      | root => exact absurd rfl hkr
      | binary => rfl
      | numeric v s => have := h2 v s rfl; subst this; rfl
    unfold Desc.cloned
    rw [this]
  rw [this] at h2
  exact h2

/-- Which models have a description: well-formed ones whose groups contain all children of their
    feature, whose root has nothing but a name, and whose constraints are registered.  (Registration
    is what `C09_registered` shows for added constraints.) -/
theorem C29_described {m : FModel} (w : WF m) (b : Bound m) (hb : RootBare m) (hg : GroupsFull m) (hf : Filed m)
    (hr : Registered m) : ∃ d, Describes d m := ⟨_, describes_descOf w b hb hg hf hr⟩

/-- Two models with the same description have features of the same names, with the same attributes
    and the same parents, and the same constraints; used to read `C29_clone_partial`. -/
theorem C29_same {d : Desc} {m c : FModel} (h : Describes d m) (h' : Describes d c) :
    (∀ n, (∃ i, (n, i) ∈ m.features) ↔ ∃ i, (n, i) ∈ c.features) ∧
    (∀ n i j f, (n, i) ∈ m.features → (n, j) ∈ c.features → data m i = some (.feat f) →
      ∃ f', data c j = some (.feat f') ∧ f'.attr = f.attr) ∧
    (∀ n i j p pn, (n, i) ∈ m.features → (n, j) ∈ c.features → FParent m i p → (pn, p) ∈ m.features →
      ∃ q, FParent c j q ∧ (pn, q) ∈ c.features) ∧
    (∀ cl, (c.store cl).map Stored.tree = (m.store cl).map Stored.tree ∧
      (c.store cl).map Stored.info = (m.store cl).map Stored.info) := by
  refine ⟨fun n => (h.names n).trans (h'.names n).symm, ?_, ?_, ?_⟩
  · intro n i j f hi hj hf
    rcases (h.names n).1 ⟨i, hi⟩ with rfl | hn
    · obtain ⟨r, rf, r1, r2, r3, r4⟩ := h.root
      obtain ⟨r', rf', r1', r2', r3', r4'⟩ := h'.root
      have e1 := h.wf.entry_unique hi r2
      have e2 := h'.wf.entry_unique hj r2'
      subst e1 e2
      rw [hf] at r3; cases r3
      exact ⟨rf', r3', by rw [r4, r4']⟩
    · obtain ⟨a, ha, rfl⟩ := List.mem_map.1 hn
      obtain ⟨i', f1, _, g1, g2, g3, _⟩ := h.feat a ha
      obtain ⟨j', f2, _, k1, k2, k3, _⟩ := h'.feat a ha
      have e1 := h.wf.entry_unique hi g1
      have e2 := h'.wf.entry_unique hj k1
      subst e1 e2
      rw [hf] at g2; cases g2
      exact ⟨f2, k2, by rw [g3, k3]⟩
  · intro n i j p pn hi hj hp hpn
    rcases (h.names n).1 ⟨i, hi⟩ with rfl | hn
    · obtain ⟨r, rf, r1, r2, r3, r4⟩ := h.root
      have e1 := h.wf.entry_unique hi r2
      subst e1
      have := h.wf.root_par r1
      cases hp with
      | direct hp _ => rw [this] at hp; cases hp
      | skip hp _ _ => rw [this] at hp; cases hp
    · obtain ⟨a, ha, rfl⟩ := List.mem_map.1 hn
      obtain ⟨i', f1, q1, g1, g2, g3, g4, g5⟩ := h.feat a ha
      obtain ⟨j', f2, q2, k1, k2, k3, k4, k5⟩ := h'.feat a ha
      have e1 := h.wf.entry_unique hi g1
      have e2 := h'.wf.entry_unique hj k1
      subst e1 e2
      have := hp.functional g5
      subst this
      have := h.wf.id_unique hpn g4
      subst this
      exact ⟨q2, k5, k4⟩
  · intro cl
    rw [h.store, h'.store]
    simp [Function.comp_def]

/-- The clone shares no object with the original, and no object of the original changes. -/
theorem C29_independent {m c : FModel} (w : WF m) (E : Env) (h : m.clone E = .built c) :
    (∀ i, m.heap i ≠ none → c.heap i = m.heap i) ∧
    (∀ i, Owned m i → c.heap i = m.heap i ∧ ¬ Owned c i) ∧
    (∀ i, Owned c i → m.heap i = none ∧ (∀ p, par c i = some p → m.heap p = none) ∧ ∀ x ∈ edg c i, m.heap x = none) ∧
    (∀ i, Mentioned c i → m.heap i = none) ∧ (∀ i, c.root = some i → m.heap i = none) :=
  C19_original_unchanged w E h (ops := []) rfl

/-! ### A model to clone -/

/-- The model of `someCalls` (Props/Build.lean) is cloned. -/
example : ∃ m c, nothing.build (stdEnv true) (builderOf someCalls) = .built m ∧ m.clone (revEnv true) = .built c ∧
    Describes someDesc m ∧ Describes someDesc c := by
  obtain ⟨m, h1, h2⟩ := C28_builds_partial nothing_fresh (stdEnv true) someCalls_buildable someDesc_known
  obtain ⟨c, h3, h4⟩ := C29_clone_partial h2 (revEnv true) (by decide) someDesc_known (by
    intro a ha
    simp [someDesc] at ha
    rcases ha with rfl | rfl | rfl <;> simp)
  exact ⟨m, c, h1, h3, h2, h4⟩

/-- `chain` and `grouped` have descriptions. -/
example : (∃ d, Describes d chain) ∧ ∃ d, Describes d grouped := by
  have hreg : ∀ m : FModel, (∀ cl, m.store cl = []) →
      (∀ i f, Known m i → data m i = some (.feat f) → f.constraints = [] ∧ f.implications = [] ∧ f.excludes = []) → Registered m :=
    fun m h1 h2 => (registered_nil h1).2 h2
  constructor
  · refine C29_described chain_wf chain_bound ?_ ?_ ?_ (hreg _ (by intro cl; cases cl <;> rfl) ?_)
    · intro i f hi hf
      cases hi
      simp [data, chain, ofNodes, featNode] at hf
      rw [← hf]
    · intro r hr; cases hr
    · intro cl s hs; cases cl <;> cases hs
    · intro i f hk hf
      have hk : i ∈ [0, 1, 2, 3] := hk
      simp at hk
      rcases hk with rfl | rfl | rfl | rfl <;> (simp [data, chain, ofNodes, featNode] at hf; subst hf; exact ⟨rfl, rfl, rfl⟩)
  · refine C29_described grouped_wf grouped_bound ?_ ?_ ?_ (hreg _ (by intro cl; cases cl <;> rfl) ?_)
    · intro i f hi hf
      cases hi
      simp [data, grouped, ofNodes, featNode] at hf
      rw [← hf]
    · intro r hr
      have : r = 1 := by simpa [grouped, ofNodes] using hr
      subst this
      refine ⟨0, by decide, by decide, by decide, ?_⟩
      intro c hc
      have : c ∈ [2, 3] := hc
      simp at this
      rcases this with rfl | rfl <;> exact ⟨_, rfl⟩
    · intro cl s hs; cases cl <;> cases hs
    · intro i f hk hf
      have hk : i ∈ [0, 2, 3, 4] := hk
      simp at hk
      rcases hk with rfl | rfl | rfl | rfl <;> (simp [data, grouped, ofNodes, featNode] at hf; subst hf; exact ⟨rfl, rfl, rfl⟩)

/-- The hypotheses of `C20_same_partial` are met: the copy transaction on `chain` removes A, given
    as a pointer into `chain`, and adds D; the modify transaction on the clone gets a pointer into
    the clone. -/
example : ∃ c a, WF chain ∧ chain.clone (stdEnv true) = .built c ∧ WF c ∧ Bound c ∧
    SameRun (stdEnv true) chain c
      [(.removeFeature (.ptr (some 1)) true, .removeFeature (.ptr (some a)) true),
       (.addFeature { name := c!"D", kind := .binary } none, .addFeature { name := c!"D", kind := .binary } none)] := by
  have hd : ∃ d, Describes d chain ∧ c!"root" ∉ d.attrs.map Attr.name ∧ ConstraintsKnown d := by
    refine ⟨descOf chain, describes_descOf chain_wf chain_bound ?_ ?_ ?_ ((registered_nil (by intro cl; cases cl <;> rfl)).2 ?_),
      by decide, by unfold ConstraintsKnown; decide⟩
    · intro i f hi hf
      cases hi
      simp [data, chain, ofNodes, featNode] at hf
      rw [← hf]
    · intro r hr; cases hr
    · intro cl s hs; cases cl <;> cases hs
    · intro i f hk hf
      have hk : i ∈ [0, 1, 2, 3] := hk
      simp at hk
      rcases hk with rfl | rfl | rfl | rfl <;> (simp [data, chain, ofNodes, featNode] at hf; subst hf; exact ⟨rfl, rfl, rfl⟩)
  obtain ⟨d, d1, d2, d3⟩ := hd
  obtain ⟨c, c1, c2⟩ := clone_describes d1 (stdEnv true) d2 d3
  obtain ⟨c', e1, e2⟩ := BuildRes.of_passes (r := chain.clone (stdEnv true))
    (p := fun c => decide (c.features = [(c!"root", 4), (c!"A", 5), (c!"B", 6), (c!"C", 7)]) && decide (c.rels = []) &&
      decide (allStored c = []) && decide (c.root = some 4) &&
      ((List.range c.next).all fun j => match data c j with | some (.rel _) => false | _ => true) &&
      (c.exec (stdEnv true) (.removeFeature (.ptr (some 5)) true)).passes fun m =>
        (m.exec (stdEnv true) (.addFeature { name := c!"D", kind := .binary } none)).passes fun _ => true) (by decide)
  rw [c1] at e1; cases e1
  simp only [Bool.and_eq_true, decide_eq_true_eq] at e2
  obtain ⟨⟨⟨⟨⟨f1, f2⟩, f3⟩, f4⟩, f6⟩, f5⟩ := e2
  obtain ⟨m1, g1, g2⟩ := Out.of_passes f5
  obtain ⟨m2, g3, _⟩ := Out.of_passes g2
  have w := c2.wf
  refine ⟨c, 5, chain_wf, c1, w, c2.bound, ⟨rfl, c!"A", 5, ?_, .inr rfl, .inr ⟨1, rfl, by decide⟩⟩, ?_, m1, g1, rfl, ?_, m2, g3, trivial⟩
  · rw [f1]; decide
  · intro i hi
    cases hi
    refine ⟨by simp [Known, f1], by rw [f4]; decide, ?_⟩
    simp only [if_true]
    constructor
    · rintro j _ ⟨s, hs, _⟩; rw [f3] at hs; cases hs
    · intro j hj hrel x hx
      exfalso
      obtain ⟨k, hk⟩ := hrel
      have hlt := w.fresh j (by rw [heap_of_data hk]; simp)
      have := List.all_eq_true.1 f6 j (List.mem_range.2 hlt)
      rw [hk] at this; cases this
  · exact ⟨by decide, by intro i hi; cases hi⟩

/-! ### Where the claim fails -/

/-- The clone of a described model has no output strings and no step functions, whatever the
    original has. -/
theorem C29_drops {d : Desc} {m : FModel} (h : Describes d m) (E : Env) (hroot : c!"root" ∉ d.attrs.map Attr.name)
    (hk : ConstraintsKnown d) :
    ∃ c, m.clone E = .built c ∧ ∀ a ∈ d.attrs, ∃ i f, (a.name, i) ∈ c.features ∧ data c i = some (.feat f) ∧
      f.attr.output = [] ∧ ∀ v s, f.attr.kind = .numeric v s → s = none := by
  obtain ⟨c, h1, h2⟩ := clone_describes h E hroot hk
  refine ⟨c, h1, ?_⟩
  intro a ha
  obtain ⟨i, f, p, f1, f2, f3, _⟩ := h2.feat (clonedAttr a) (List.mem_map_of_mem ha)
  rw [clonedAttr_name] at f1
  refine ⟨i, f, f1, f2, ?_⟩
  rw [f3]
  unfold clonedAttr
  split
  · simp
  · simp
  · next hb => exact ⟨rfl, fun v s hs => by simp [hb] at hs⟩
  · exact ⟨rfl, fun v s hs => by simp at hs; exact hs.2.symm⟩

/-- A stored constraint with a feature that is not in the model makes `clone` abort (null without
    assertions). -/
theorem C29_unbound_constraint {d : Desc} {m : FModel} (h : Describes d m) (E : Env)
    (hroot : c!"root" ∉ d.attrs.map Attr.name) (hk : ¬ ConstraintsKnown d) :
    m.clone E = if E.asserts then .ub else .null := clone_fails h E hroot hk

/-- Locations of the root are lost. -/
theorem C29_root_locations : ∃ m c : FModel, ∃ i f, WF m ∧ m.clone (stdEnv true) = .built c ∧
    (∃ r f, m.root = some r ∧ data m r = some (.feat f) ∧ f.attr.locs ≠ []) ∧
    c.root = some i ∧ data c i = some (.feat f) ∧ f.attr.locs = [] := by
  let m := ofNodes [⟨.feat { attr := { name := c!"R", kind := .root, locs := [⟨[c!"a.cpp"], none, none, .necessary, none, none⟩] } }, none, []⟩]
    (some 0) [(c!"R", 0)] []
  obtain ⟨c, h1, h2⟩ := BuildRes.of_passes (r := m.clone (stdEnv true))
    (p := fun c => decide (c.root = some 2) &&
      decide (data c 2 = some (.feat { attr := { name := c!"R", kind := .root } }))) (by decide)
  simp only [Bool.and_eq_true, decide_eq_true_eq] at h2
  exact ⟨m, c, 2, _, wf_of_check (fun i => i) (ofNodes_fresh _ _ _ _ _) (by decide), h1,
    ⟨0, _, rfl, rfl, by decide⟩, h2.1, h2.2, rfl⟩

/-- A feature called `root` below a root of another name: whether `clone` works depends on the
    order of the hash map. -/
theorem C29_feature_called_root : ∃ m c : FModel, WF m ∧ m.clone (stdEnv true) = .built c ∧ m.clone (revEnv true) = .ub := by
  let m := ofNodes [featNode "R" none [1] .root, featNode "root" (some 0) []] (some 0) [(c!"R", 0), (c!"root", 1)] []
  obtain ⟨c, h1, _⟩ := BuildRes.of_passes (r := m.clone (stdEnv true)) (p := fun _ => true) (by decide)
  exact ⟨m, c, wf_of_check (fun i => i) (ofNodes_fresh _ _ _ _ _) (by decide), h1, rfl⟩

/-- A child beside the group of its parent is in the group in the clone. -/
theorem C29_group_absorbs : ∃ m c : FModel, ∃ r r' b b' : Id, WF m ∧ m.clone (stdEnv true) = .built c ∧
    (c!"B", b) ∈ m.features ∧ (c!"B", b') ∈ c.features ∧ m.rels = [r] ∧ c.rels = [r'] ∧
    b ∉ edg m r ∧ b' ∈ edg c r' := by
  let m := ofNodes [featNode "R" none [1, 3] .root, ⟨.rel .alternative, some 0, [2]⟩, featNode "A" (some 1) [],
    featNode "B" (some 0) []] (some 0) [(c!"R", 0), (c!"A", 2), (c!"B", 3)] [1]
  obtain ⟨c, h1, h2⟩ := BuildRes.of_passes (r := m.clone (stdEnv true))
    (p := fun c => decide ((c!"B", 7) ∈ c.features) && decide (c.rels = [8]) && decide (7 ∈ edg c 8)) (by decide)
  simp only [Bool.and_eq_true, decide_eq_true_eq] at h2
  exact ⟨m, c, 1, 8, 3, 7, wf_of_check (fun i => i) (ofNodes_fresh _ _ _ _ _) (by decide), h1, by decide, h2.1.1, rfl, h2.1.2,
    by decide, h2.2⟩

end Verif.Props

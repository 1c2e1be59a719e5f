import Verif.Merge.TwoRoots
import Verif.Props.Clone
/-!
# Merging models (C30)
-/

namespace Verif.Props
open Verif Verif.Spec

variable {d : Desc} {m1 m2 : FModel}

/-- What holds, for both modes: two models on one heap, the first of which can be cloned faithfully enough
    (C29), the root of the second having a name that the first knows.  If some feature of the second cannot be
    merged (`Mergeable`) the result is null; otherwise it is a model with exactly the features of both, with
    their parents and locations (`MergedModel`).  The claim does not ask for the condition on the root
    (`C30_foreign_root_crashes`), and for features of both models it asks for one parent
    (`C30_parent_differs_in_case`, `C30_parent_of_root_ignored`). -/
theorem C30_merge_partial (h : Describes d m1) (E : Env) (strict : Bool) (hroot : c!"root" ∉ d.attrs.map Attr.name)
    (hk : ConstraintsKnown d) (w2 : WF m2) (hh : SameHeap m1 m2)
    (hr : ∀ n r, m2.root = some r → (n, r) ∈ m2.features → ∃ i, (n, i) ∈ m1.features) :
    ((∃ j, Known m2 j ∧ ¬ Mergeable strict m1 m2 j) ∧ m1.mergeFeatureModels E m2 strict = some none) ∨
    ((∀ j, Known m2 j → Mergeable strict m1 m2 j) ∧ ∃ c, m1.mergeFeatureModels E m2 strict = some (some c) ∧ MergedModel m1 m2 c) := by
  rcases merge_run h E strict hroot hk w2 hh hr with a | ⟨a, c, b1, b2, _⟩
  · exact .inl a
  · exact .inr ⟨a, c, b1, b2⟩

/-- So it is null exactly if there is a conflict. -/
theorem C30_null_iff (h : Describes d m1) (E : Env) (strict : Bool) (hroot : c!"root" ∉ d.attrs.map Attr.name)
    (hk : ConstraintsKnown d) (w2 : WF m2) (hh : SameHeap m1 m2)
    (hr : ∀ n r, m2.root = some r → (n, r) ∈ m2.features → ∃ i, (n, i) ∈ m1.features) :
    m1.mergeFeatureModels E m2 strict = some none ↔ ∃ j, Known m2 j ∧ ¬ Mergeable strict m1 m2 j := by
  rcases C30_merge_partial h E strict hroot hk w2 hh hr with ⟨a, b⟩ | ⟨a, c, b, _⟩
  · exact ⟨fun _ => a, fun _ => b⟩
  · constructor
    · intro e; rw [b] at e; cases e
    · rintro ⟨j, h1, h2⟩; exact absurd (a j h1) h2

/-- No object of the inputs is changed, and the merged model shares none with them. -/
theorem C30_inputs_unchanged (h : Describes d m1) (E : Env) (strict : Bool) (hroot : c!"root" ∉ d.attrs.map Attr.name)
    (hk : ConstraintsKnown d) (w2 : WF m2) (hh : SameHeap m1 m2)
    (hr : ∀ n r, m2.root = some r → (n, r) ∈ m2.features → ∃ i, (n, i) ∈ m1.features) {c : FModel}
    (hc : m1.mergeFeatureModels E m2 strict = some (some c)) :
    (∀ i, m1.heap i ≠ none → c.heap i = m1.heap i) ∧ (∀ i, Owned m1 i ∨ Owned m2 i → c.heap i = m1.heap i ∧ ¬ Owned c i) := by
  rcases merge_run h E strict hroot hk w2 hh hr with ⟨_, b⟩ | ⟨_, c', b, _, hf⟩
  · rw [b] at hc; cases hc
  · rw [b] at hc; cases hc
    refine ⟨fun i hi => hf.low i (h.wf.fresh i hi), ?_⟩
    intro i hi
    have hlt : i < m1.next := by
      rcases hi with hi | hi
      · exact h.wf.owned_lt hi
      · exact hh.next ▸ w2.owned_lt hi
    refine ⟨hf.low i hlt, ?_⟩
    rintro (a | a)
    · obtain ⟨e, he, rfl⟩ := List.mem_map.1 a
      exact Nat.not_lt.2 (hf.features e he) hlt
    · exact Nat.not_lt.2 (hf.rels i a) hlt

/-- A common feature has one parent up to case, unless it is the root of one of the models. -/
theorem C30_common_parent {strict : Bool} (w1 : WF m1) (w2 : WF m2) {n : Str} {i j : Id} (hi : (n, i) ∈ m1.features)
    (hj : (n, j) ∈ m2.features) (hm : Mergeable strict m1 m2 j) :
    m1.root = some i ∨ m2.root = some j ∨ SameParent m1 m2 i j := by
  obtain ⟨n', g, h1, h2, h3⟩ := hm
  have := w2.id_unique h1 hj; subst this
  rcases h3 with ⟨i', h4, f', g', h5, h6, h7, _⟩ | ⟨h4, _⟩
  · have := w1.entry_unique h4 hi; subst this
    rcases h7 with a | a | a
    · exact .inl ((root_of_kind w1 (known_of_mem hi) h5).1 a)
    · exact .inr (.inl ((root_of_kind w2 (known_of_mem hj) h6).1 a))
    · exact .inr (.inr a)
  · exact absurd hi (h4 i)

/-- If the first model does not know the root of the second, no model is returned, and without a conflict the
    call crashes: for all models that can be cloned. -/
theorem C30_foreign_root_crashes (h : Describes d m1) (E : Env) (strict : Bool) (hroot : c!"root" ∉ d.attrs.map Attr.name)
    (hk : ConstraintsKnown d) (w2 : WF m2) {n : Str} {r : Id} (hr : m2.root = some r) (hn : (n, r) ∈ m2.features)
    (hnot : ∀ i, (n, i) ∉ m1.features) :
    (∀ c, m1.mergeFeatureModels E m2 strict ≠ some (some c)) ∧
    ((∀ j, Known m2 j → Mergeable strict m1 m2 j) → m1.mergeFeatureModels E m2 strict = none) := by
  obtain ⟨c0, h1, h2, h0, hi⟩ := clone_start (m2 := m2) h E hroot hk
  have w0 := h2.wf
  obtain ⟨g, hg, gn⟩ := w2.feat_ok _ hn
  simp only at hg gn
  have hkind : g.attr.kind = .root := (root_of_kind w2 (known_of_mem hn) hg).2 hr
  -- the root is added below the root
  obtain ⟨r', e1, s1⟩ := parentFeature_spec w2 (.inl (known_of_mem hn))
  have hr' : r' = none := by
    cases r' with
    | none => rfl
    | some p =>
      have hp := (s1 p).1 rfl
      have := w2.root_par hr
      cases hp with
      | direct hp _ => rw [this] at hp; cases hp
      | skip hp _ _ => rw [this] at hp; cases hp
  subst hr'
  have hfresh : (clonedAttr g.attr).name ∉ c0.features.map Prod.fst := by
    rw [clonedAttr_name, gn]
    intro a
    obtain ⟨⟨_, x⟩, hx, rfl⟩ := List.mem_map.1 a
    obtain ⟨i, a⟩ := (h0 _).1 ⟨x, hx⟩
    exact hnot i a
  obtain ⟨c1, p, k1, k2, k3, k4, k5⟩ := execAddFeature_ok w0 hfresh (parent := none) (fun i e => by cases e)
  have hone : FModel.mergeOne E strict m1 m2 c0 r = some (c1, true) := by
    unfold FModel.mergeOne
    rw [feat?_of_data hg]
    simp only [gn]
    rw [getFeature_none.2 (by
      intro a
      obtain ⟨⟨_, i⟩, ha, rfl⟩ := List.mem_map.1 a
      exact hnot i ha)]
    simp only [featureCopy_eq, hkind, e1, FModel.copyRun, FModel.copyExec]
    rw [if_neg (by simp)]
    simp only [k1]
    simp
  have t1 : TwoRoots c1 := by
    obtain ⟨r0, f0, q1, q2, q3, q4⟩ := h2.root
    have hne : r0 ≠ c0.next := fun e => w0.not_owned_next (e ▸ .inl (known_of_mem q2))
    refine ⟨?_, r0, c0.next, f0, { attr := clonedAttr g.attr }, hne, ?_, ?_, ?_, ?_, by rw [q4], ?_⟩
    · intro j hj
      rw [data_ne_none, k2.data] at hj
      rw [k3]
      by_cases e : j = c0.next
      · rw [e]; exact Nat.lt_succ_self _
      · rw [upd_ne _ _ e, ← data_ne_none] at hj
        exact Nat.lt_succ_of_lt (w0.fresh j hj)
    · exact (k2.known r0).2 (.inl (known_of_mem q2))
    · exact (k2.known _).2 (.inr rfl)
    · rw [k2.data, upd_ne _ _ hne]; exact q3
    · rw [k2.data]; simp
    · simp [clonedAttr, hkind]
  have hrun : ∀ c b, FModel.mergeSubtree E strict m1 m2 (m2.next + 1) c0 r = some (c, b) → TwoRoots c := by
    intro c b hm
    unfold FModel.mergeSubtree at hm
    rw [hone] at hm
    simp only at hm
    obtain ⟨cs, l1, _, _⟩ := childrenF w2 E (.inl (known_of_mem hn))
    rw [l1] at hm
    exact twoRoots_fold (fun c x c' b => twoRoots_mergeSubtree E strict m2.next c x c' b) t1 hm
  have hmerge : m1.mergeFeatureModels E m2 strict = match FModel.mergeSubtree E strict m1 m2 (m2.next + 1) c0 r with
      | none => none
      | some (_, false) => some none
      | some (c, true) =>
        match c.consistent E with
        | some true => some (some c)
        | _ => none := by
    unfold FModel.mergeFeatureModels
    rw [if_neg (by simp [consistent_of_WF h.wf E])]
    simp only [h1, hr]
    rfl
  rw [hmerge]
  cases hm : FModel.mergeSubtree E strict m1 m2 (m2.next + 1) c0 r with
  | none => exact ⟨by simp, by simp⟩
  | some x =>
    obtain ⟨c, b⟩ := x
    have t := hrun c b hm
    cases b with
    | false =>
      refine ⟨by simp, fun ha => ?_⟩
      have := mergeSubtree_true E strict h.wf w2 ha _ _ _ _ _ (known_of_mem hn) hm
      cases this
    | true => exact ⟨by simp [t.inconsistent E], fun _ => by simp [t.inconsistent E]⟩

/-! ### Concrete models -/

/-- Two models on one heap. -/
def pairOf (nodes : List Node) (r1 : Id) (fs1 : List (Str × Id)) (r2 : Id) (fs2 : List (Str × Id)) : FModel × FModel :=
  (ofNodes nodes (some r1) fs1 [], ofNodes nodes (some r2) fs2 [])

/-- The name of the feature above the feature with the given name. -/
def parentNamed (m : FModel) (n : Str) : Option Str :=
  match m.getFeature n with
  | none => none
  | some i =>
    match m.parentFeature i with
    | some (some p) => m.nameOf p
    | _ => none

/-- `root -- {A -- B, C}` and `root -- {A -- {B, D -- E}}`. -/
def overlap : FModel × FModel :=
  pairOf [featNode "root" none [1, 3] .root, featNode "A" (some 0) [2], featNode "B" (some 1) [], featNode "C" (some 0) [],
      featNode "root" none [5] .root, featNode "A" (some 4) [6, 7], featNode "B" (some 5) [], featNode "D" (some 5) [8],
      featNode "E" (some 7) []]
    0 [(c!"root", 0), (c!"A", 1), (c!"B", 2), (c!"C", 3)]
    4 [(c!"root", 4), (c!"A", 5), (c!"B", 6), (c!"D", 7), (c!"E", 8)]

theorem overlap_wf : WF overlap.1 ∧ WF overlap.2 :=
  ⟨wf_of_check (fun i => i) (ofNodes_fresh _ _ _ _ _) (by decide), wf_of_check (fun i => i) (ofNodes_fresh _ _ _ _ _) (by decide)⟩

/-- A model without groups and constraints and with a bare root has a description. -/
theorem pair_described {m : FModel} (w : WF m) (hb : RootBare m) (h0 : ∀ cl, m.store cl = []) (hr : m.rels = [])
    (hreg : ∀ i f, Known m i → data m i = some (.feat f) → f.constraints = [] ∧ f.implications = [] ∧ f.excludes = []) :
    Describes (descOf m) m := by
  have hs : allStored m = [] := by
    have h1 : m.booleans = [] := h0 .boolean
    have h2 : m.nonBooleans = [] := h0 .nonBoolean
    have h3 : m.mixeds = [] := h0 .mixed
    simp [allStored, h1, h2, h3]
  refine describes_descOf w ?_ hb ?_ ?_ ((registered_nil h0).2 hreg)
  · constructor <;> · intro s h; rw [hs] at h; cases h
  · intro r h; rw [hr] at h; cases h
  · intro cl s hs; rw [h0] at hs; cases hs

theorem overlap_described : Describes (descOf overlap.1) overlap.1 := by
  refine pair_described overlap_wf.1 ?_ (by intro cl; cases cl <;> rfl) rfl ?_
  · intro i f hi hf
    cases hi
    simp [data, overlap, pairOf, ofNodes, featNode] at hf
    rw [← hf]
  · intro i f hk hf
    have hk : i ∈ [0, 1, 2, 3] := hk
    simp at hk
    rcases hk with rfl | rfl | rfl | rfl <;>
      (simp [data, overlap, pairOf, ofNodes, featNode] at hf; subst hf; exact ⟨rfl, rfl, rfl⟩)

/-- The hypotheses of `C30_merge_partial` are met, and the models are merged strictly. -/
example : (∃ d, Describes d overlap.1 ∧ c!"root" ∉ d.attrs.map Attr.name ∧ ConstraintsKnown d) ∧ WF overlap.2 ∧
    SameHeap overlap.1 overlap.2 ∧
    (∀ n r, overlap.2.root = some r → (n, r) ∈ overlap.2.features → ∃ i, (n, i) ∈ overlap.1.features) ∧
    ∃ c, overlap.1.mergeFeatureModels (stdEnv true) overlap.2 true = some (some c) ∧
      c.features.map Prod.fst = [c!"root", c!"A", c!"B", c!"C", c!"D", c!"E"] ∧
      parentNamed c c!"D" = some c!"A" ∧ parentNamed c c!"E" = some c!"D" := by
  refine ⟨⟨_, overlap_described, by decide, by unfold ConstraintsKnown; decide⟩, overlap_wf.2, ⟨rfl, rfl⟩, ?_, ?_⟩
  · intro n r h1 h2
    cases h1
    have : (n, 4) ∈ [(c!"root", 4), (c!"A", 5), (c!"B", 6), (c!"D", 7), (c!"E", 8)] := h2
    simp at this
    subst this
    exact ⟨0, by decide⟩
  · obtain ⟨c, h1, h2⟩ := of_commits (r := overlap.1.mergeFeatureModels (stdEnv true) overlap.2 true)
      (p := fun c => decide (c.features.map Prod.fst = [c!"root", c!"A", c!"B", c!"C", c!"D", c!"E"] ∧
        parentNamed c c!"D" = some c!"A" ∧ parentNamed c c!"E" = some c!"D")) (by decide)
    exact ⟨c, h1, by simpa using h2⟩

/-- `root -- A -- X` and `root -- a -- X`. -/
def casePair : FModel × FModel :=
  pairOf [featNode "root" none [1] .root, featNode "A" (some 0) [2], featNode "X" (some 1) [],
      featNode "root" none [4] .root, featNode "a" (some 3) [5], featNode "X" (some 4) []]
    0 [(c!"root", 0), (c!"A", 1), (c!"X", 2)] 3 [(c!"root", 3), (c!"a", 4), (c!"X", 5)]

/-- Parents whose names differ in case only are taken for the same although they are two features of the
    result: here the second model has X below `a`, the result has both `A` and `a`, and X is below `A`. -/
theorem C30_parent_differs_in_case : ∃ m1 m2 c, WF m1 ∧ WF m2 ∧ SameHeap m1 m2 ∧
    m1.mergeFeatureModels (stdEnv true) m2 true = some (some c) ∧ parentNamed m2 c!"X" = some c!"a" ∧
    c.features.map Prod.fst = [c!"root", c!"A", c!"X", c!"a"] ∧ parentNamed c c!"X" = some c!"A" := by
  obtain ⟨c, h1, h2⟩ := of_commits (r := casePair.1.mergeFeatureModels (stdEnv true) casePair.2 true)
    (p := fun c => decide (c.features.map Prod.fst = [c!"root", c!"A", c!"X", c!"a"] ∧ parentNamed c c!"X" = some c!"A"))
    (by decide)
  exact ⟨casePair.1, casePair.2, c, wf_of_check (fun i => i) (ofNodes_fresh _ _ _ _ _) (by decide),
    wf_of_check (fun i => i) (ofNodes_fresh _ _ _ _ _) (by decide), ⟨rfl, rfl⟩, h1, by decide, by simpa using h2⟩

/-- `S -- B` and `B -- S`. -/
def swapPair : FModel × FModel :=
  pairOf [featNode "S" none [1] .root, featNode "B" (some 0) [], featNode "B" none [3] .root, featNode "S" (some 2) []]
    0 [(c!"S", 0), (c!"B", 1)] 2 [(c!"B", 2), (c!"S", 3)]

/-- Without `Strict`, a feature that is the root of one model is merged with one below the root of the other:
    the models disagree about which of S and B is the parent, and the result is that of the first. -/
theorem C30_parent_of_root_ignored : ∃ m1 m2 c, WF m1 ∧ WF m2 ∧ SameHeap m1 m2 ∧
    m1.mergeFeatureModels (stdEnv true) m2 false = some (some c) ∧ parentNamed m2 c!"S" = some c!"B" ∧
    parentNamed c c!"S" = none ∧ parentNamed c c!"B" = some c!"S" := by
  obtain ⟨c, h1, h2⟩ := of_commits (r := swapPair.1.mergeFeatureModels (stdEnv true) swapPair.2 false)
    (p := fun c => decide (parentNamed c c!"S" = none ∧ parentNamed c c!"B" = some c!"S"))
    (by decide)
  exact ⟨swapPair.1, swapPair.2, c, wf_of_check (fun i => i) (ofNodes_fresh _ _ _ _ _) (by decide),
    wf_of_check (fun i => i) (ofNodes_fresh _ _ _ _ _) (by decide), ⟨rfl, rfl⟩, h1, by decide, by simpa using h2⟩

/-- `root -- A` and `base -- B`. -/
def rootPair : FModel × FModel :=
  pairOf [featNode "root" none [1] .root, featNode "A" (some 0) [], featNode "base" none [3] .root, featNode "B" (some 2) []]
    0 [(c!"root", 0), (c!"A", 1)] 2 [(c!"base", 2), (c!"B", 3)]

/-- An instance of `C30_foreign_root_crashes`: no feature is common, and the call crashes. -/
theorem C30_crashes : ∃ m1 m2, WF m1 ∧ WF m2 ∧ SameHeap m1 m2 ∧
    (∀ n i j, (n, i) ∈ m1.features → (n, j) ∉ m2.features) ∧
    ∀ strict, m1.mergeFeatureModels (stdEnv true) m2 strict = none := by
  refine ⟨rootPair.1, rootPair.2, wf_of_check (fun i => i) (ofNodes_fresh _ _ _ _ _) (by decide),
    wf_of_check (fun i => i) (ofNodes_fresh _ _ _ _ _) (by decide), ⟨rfl, rfl⟩, ?_, ?_⟩
  · intro n i j h1 h2
    have h1 : (n, i) ∈ [(c!"root", 0), (c!"A", 1)] := h1
    have h2 : (n, j) ∈ [(c!"base", 2), (c!"B", 3)] := h2
    simp at h1 h2
    rcases h1 with ⟨rfl, _⟩ | ⟨rfl, _⟩ <;> rcases h2 with ⟨h, _⟩ | ⟨h, _⟩ <;> exact absurd h (by decide)
  · intro strict
    have : ∀ s, Option.isNone (rootPair.1.mergeFeatureModels (stdEnv true) rootPair.2 s) = true := by
      intro s; cases s <;> decide
    exact Option.isNone_iff_eq_none.1 (this strict)

/-- `root` and `root -- U` where U has no kind. -/
def unknownPair : FModel × FModel :=
  pairOf [featNode "root" none [] .root, featNode "root" none [2] .root, featNode "U" (some 1) [] .unknown]
    0 [(c!"root", 0)] 1 [(c!"root", 1), (c!"U", 2)]

/-- A feature of unknown kind that only the second model has makes the result null: nothing is in conflict. -/
theorem C30_unknown_kind : ∃ m1 m2, WF m1 ∧ WF m2 ∧ SameHeap m1 m2 ∧
    (∀ n i j, (n, i) ∈ m1.features → (n, j) ∈ m2.features → Fits true m1 m2 i j) ∧
    m1.mergeFeatureModels (stdEnv true) m2 true = some none := by
  refine ⟨unknownPair.1, unknownPair.2, wf_of_check (fun i => i) (ofNodes_fresh _ _ _ _ _) (by decide),
    wf_of_check (fun i => i) (ofNodes_fresh _ _ _ _ _) (by decide), ⟨rfl, rfl⟩, ?_, ?_⟩
  · intro n i j h1 h2
    have h1 : (n, i) ∈ [(c!"root", 0)] := h1
    have h2 : (n, j) ∈ [(c!"root", 1), (c!"U", 2)] := h2
    simp at h1 h2
    obtain ⟨rfl, rfl⟩ := h1
    rcases h2 with ⟨_, rfl⟩ | ⟨h, _⟩
    · exact ⟨_, _, rfl, rfl, .inl rfl, fun _ => ⟨rfl, trivial, .inl rfl⟩⟩
    · exact absurd h (by decide)
  · have : (match unknownPair.1.mergeFeatureModels (stdEnv true) unknownPair.2 true with | some none => true | _ => false) = true := by
      decide
    split at this
    · assumption
    · cases this

/-- A location. -/
def place (rev : String) : Range :=
  { path := [c!"f.cpp"], start := none, stop := none, category := .necessary, member := none,
    revision := some ⟨rev.toList, none⟩ }

/-- Two models whose feature A has locations that differ in the revision. -/
def revPair : FModel × FModel :=
  pairOf [featNode "root" none [1] .root, ⟨.feat { attr := { name := c!"A", kind := .binary, locs := [place "r1"] } }, some 0, []⟩,
      featNode "root" none [3] .root, ⟨.feat { attr := { name := c!"A", kind := .binary, locs := [place "r2"] } }, some 2, []⟩]
    0 [(c!"root", 0), (c!"A", 1)] 2 [(c!"root", 2), (c!"A", 3)]

/-- Locations of the same code in two revisions count as equal (C14), so the second is lost. -/
theorem C30_revision_lost : ∃ m1 m2 c, WF m1 ∧ WF m2 ∧ SameHeap m1 m2 ∧
    m1.mergeFeatureModels (stdEnv true) m2 true = some (some c) ∧
    (∃ j g, (c!"A", j) ∈ m2.features ∧ data m2 j = some (.feat g) ∧ g.attr.locs = [place "r2"]) ∧
    ∀ i f, (c!"A", i) ∈ c.features → data c i = some (.feat f) → f.attr.locs = [place "r1"] := by
  obtain ⟨c, h1, h2⟩ := of_commits (r := revPair.1.mergeFeatureModels (stdEnv true) revPair.2 true)
    (p := fun c => c.features.all fun e => decide (e.1 ≠ c!"A") || match data c e.2 with
      | some (.feat f) => decide (f.attr.locs = [place "r1"])
      | _ => true) (by decide)
  refine ⟨revPair.1, revPair.2, c, wf_of_check (fun i => i) (ofNodes_fresh _ _ _ _ _) (by decide),
    wf_of_check (fun i => i) (ofNodes_fresh _ _ _ _ _) (by decide), ⟨rfl, rfl⟩, h1, ⟨3, _, by decide, rfl, rfl⟩, ?_⟩
  intro i f hi hf
  have := List.all_eq_true.1 h2 _ hi
  simp only [hf] at this
  simpa using this

end Verif.Props

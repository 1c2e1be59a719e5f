import Verif.FM.Buildable
import Verif.FM.Examples
/-!
# Building models (C28)

`builderOf calls` is the builder after the calls, `world.build E` is `buildFeatureModel` on a heap
that already holds other objects.  `Spec.Buildable calls d` says that the calls describe a tree and
`d` is its description; `Spec.Describes d m` says that `m` has exactly these features with these
attributes, parents, groups and constraints.
-/

namespace Verif.Props
open Verif Verif.Spec

/-- For calls that describe a tree the builder returns a model with exactly these features, parents,
    groups and constraints. -/
theorem C28_builds_partial {world : FModel} (hf : ∀ i, world.heap i ≠ none → i < world.next) (E : Env) {calls : List BCall}
    {d : Desc} (hb : Buildable calls d) (hk : ConstraintsKnown d) :
    ∃ m, world.build E (builderOf calls) = .built m ∧ Describes d m := build_ok hf E hb hk

/-- The calls can come in any order; only the constraints keep the order of their calls. -/
theorem C28_any_order_partial {world : FModel} (hf : ∀ i, world.heap i ≠ none → i < world.next) (E : Env)
    {calls calls' : List BCall} {d : Desc} (hb : Buildable calls d) (hk : ConstraintsKnown d) (hp : calls'.Perm calls) :
    ∃ m, world.build E (builderOf calls') = .built m ∧ Describes { d with constraints := constraintsOf calls' } m := by
  have pa : (attrsOf calls').Perm (attrsOf calls) := hp.filterMap _
  have pr : (rootsOf calls').Perm (rootsOf calls) := hp.filterMap _
  have pg : (groupsOf calls').Perm (groupsOf calls) := hp.filterMap _
  have pc : (constraintsOf calls').Perm (constraintsOf calls) := hp.filterMap _
  have pn : (namesOf calls').Perm (namesOf calls) := hp.filterMap _
  have pp : (pathsOf calls').Perm (pathsOf calls) := hp.filterMap _
  have pm : (commitsOf calls').Perm (commitsOf calls) := hp.filterMap _
  have one : ∀ {l l' : List Str} {x y : Str}, l'.Perm l → (l = [] ∧ x = y) ∨ l = [x] → (l' = [] ∧ x = y) ∨ l' = [x] := by
    intro l l' x y hl h
    rcases h with ⟨rfl, h⟩ | rfl
    · exact .inl ⟨hl.eq_nil, h⟩
    · exact .inr hl.eq_singleton
  have names : ∀ n, n ∈ (attrsOf calls').map Attr.name ↔ n ∈ (attrsOf calls).map Attr.name :=
    fun n => (pa.map _).mem_iff
  have hb' : Buildable calls' { d with attrs := attrsOf calls', groups := groupsOf calls', constraints := constraintsOf calls' } :=
    { attrs := rfl
      kinds := fun a ha => hb.kinds a (pa.mem_iff.1 ha)
      distinct := (pa.map _).nodup_iff.2 hb.distinct
      root := one pr hb.root
      root_new := by simp only [names]; exact hb.root_new
      default_root := by rw [names]; exact hb.default_root
      edges := by
        intro p c hx
        simp only [names]
        exact hb.edges p c (hp.mem_iff.1 hx)
      no_edge := fun a ha hx => hb.no_edge a (pa.mem_iff.1 ha) (fun p hp' => hx p (hp.mem_iff.2 hp'))
      acyclic := by
        obtain ⟨rk, h⟩ := hb.acyclic
        exact ⟨rk, fun a ha => h a (pa.mem_iff.1 ha)⟩
      groups := rfl
      one_group := (pg.map _).nodup_iff.2 hb.one_group
      groups_known := by
        intro g hg
        simp only [names]
        exact hb.groups_known g (pg.mem_iff.1 hg)
      constraints := rfl
      name := one pn hb.name
      path := one pp hb.path
      commit := one pm hb.commit }
  have hk' : ConstraintsKnown { d with attrs := attrsOf calls', groups := groupsOf calls', constraints := constraintsOf calls' } := by
    intro x hx n hn
    simp only [names]
    rw [← hb.attrs]
    exact hk x (by rw [hb.constraints]; exact pc.mem_iff.1 hx) n hn
  obtain ⟨m, h1, h2⟩ := build_ok hf E hb' hk'
  refine ⟨m, h1, h2.congr rfl rfl rfl rfl ?_ ?_ ?_ ?_ ?_⟩
  · show (d.attrs.map Attr.name).Nodup
    rw [hb.attrs]; exact hb.distinct
  · intro a
    show a ∈ d.attrs ↔ a ∈ attrsOf calls'
    rw [hb.attrs]; exact pa.mem_iff.symm
  · intro a _; rfl
  · intro g
    show g ∈ d.groups ↔ g ∈ groupsOf calls'
    rw [hb.groups]; exact pg.mem_iff.symm
  · intro cl; rfl

/-- Two features of one name: null, whatever the other calls are. -/
theorem C28_duplicate {world : FModel} (hf : ∀ i, world.heap i ≠ none → i < world.next) (E : Env) {calls : List BCall}
    (hk : ∀ a ∈ attrsOf calls, a.kind ≠ .root) (hd : ¬ ((attrsOf calls).map Attr.name).Nodup) :
    world.build E (builderOf calls) = .null := build_duplicate hf E hk hd

/-- An edge from or to a feature that is not made, or from a feature to itself: null, whatever the
    other calls are. -/
theorem C28_missing {world : FModel} (hf : ∀ i, world.heap i ≠ none → i < world.next) (E : Env) {calls : List BCall}
    {r : Str} (hk : ∀ a ∈ attrsOf calls, a.kind ≠ .root) (hr : (rootsOf calls = [] ∧ r = c!"root") ∨ rootsOf calls = [r])
    (hm : ∃ p c, .addEdge p c ∈ calls ∧
      (¬ (p = r ∨ p ∈ (attrsOf calls).map Attr.name) ∨ ¬ (c = r ∨ c ∈ (attrsOf calls).map Attr.name) ∨ p = c)) :
    world.build E (builderOf calls) = .null := build_missing hf E hk (lastOr_cases hr) hm

/-- A constraint on a feature that is not made: null. -/
theorem C28_constraint_missing {world : FModel} (hf : ∀ i, world.heap i ≠ none → i < world.next) (E : Env)
    {calls : List BCall} {d : Desc} (hb : Buildable calls d) (hk : ¬ ConstraintsKnown d) :
    world.build E (builderOf calls) = .null := build_constraint_missing hf E hb hk

/-! ### A tree -/

/-- A heap with nothing on it. -/
def nothing : FModel := ofNodes [] none [] []

theorem nothing_fresh : ∀ i, nothing.heap i ≠ none → i < nothing.next := ofNodes_fresh _ _ _ _ _

/-- Edges before features, the root last. -/
def someCalls : List BCall :=
  [.addEdge c!"A" c!"B", .setVmName c!"M", .makeFeature { name := c!"B", kind := .binary, opt := true },
   .emplaceRelationship .or c!"A", .makeFeature { name := c!"A", kind := .binary },
   .addConstraint .boolean (.bin .implies (.feature c!"B") (.feature c!"N")),
   .makeFeature { name := c!"N", kind := .numeric (.range 0 5) none }, .addEdge c!"R" c!"A", .makeRoot c!"R"]

def someDesc : Desc :=
  { name := c!"M", path := [], commit := [], root := c!"R"
    attrs := [{ name := c!"B", kind := .binary, opt := true }, { name := c!"A", kind := .binary },
              { name := c!"N", kind := .numeric (.range 0 5) none }]
    parent := fun n => if n = c!"B" then c!"A" else c!"R"
    groups := [(c!"A", .or)]
    constraints := [(.boolean, .bin .implies (.feature c!"B") (.feature c!"N"))] }

theorem someCalls_buildable : Buildable someCalls someDesc where
  attrs := by decide
  kinds := by decide
  distinct := by decide
  root := .inr (by decide)
  root_new := by decide
  default_root := by decide
  edges := by
    intro p c hx
    simp [someCalls] at hx
    rcases hx with ⟨rfl, rfl⟩ | ⟨rfl, rfl⟩ <;> decide
  no_edge := by
    intro a ha hx
    have : a.name ≠ c!"B" := by rintro e; rw [e] at hx; exact hx c!"A" (by decide)
    simp [someDesc, this]
  acyclic := ⟨fun n => if n = c!"R" then 0 else if n = c!"A" then 1 else 2, by decide⟩
  groups := by decide
  one_group := by decide
  groups_known := by decide
  constraints := by decide
  name := .inr (by decide)
  path := .inl (by decide)
  commit := .inl (by decide)

theorem someDesc_known : ConstraintsKnown someDesc := by unfold ConstraintsKnown; decide

/-- `C28_builds_partial` applies. -/
example : ∃ m, nothing.build (stdEnv true) (builderOf someCalls) = .built m ∧ Describes someDesc m :=
  C28_builds_partial nothing_fresh _ someCalls_buildable someDesc_known

/-- `C28_any_order_partial` applies to the reversed calls. -/
example : ∃ m, nothing.build (stdEnv true) (builderOf someCalls.reverse) = .built m ∧ Describes someDesc m :=
  C28_any_order_partial nothing_fresh _ someCalls_buildable someDesc_known (List.reverse_perm _)

example : nothing.build (stdEnv true) (builderOf (.makeFeature { name := c!"A", kind := .unknown } :: someCalls)) = .null :=
  C28_duplicate nothing_fresh _ (by decide) (by decide)

example : nothing.build (stdEnv true) (builderOf (.addEdge c!"X" c!"A" :: someCalls)) = .null :=
  C28_missing (r := c!"R") nothing_fresh _ (by decide) (.inr (by decide)) ⟨c!"X", c!"A", by decide, .inl (by decide)⟩

/-! ### Where the claim fails -/

/-- Edges that form a cycle are accepted: the builder returns a model that is not a tree. -/
theorem C28_cycle_accepted : ∃ m, nothing.build (stdEnv true) (builderOf
    [.makeFeature { name := c!"A", kind := .binary }, .makeFeature { name := c!"B", kind := .binary },
     .addEdge c!"A" c!"B", .addEdge c!"B" c!"A"]) = .built m ∧ ¬ WF m := by
  obtain ⟨m, h1, h2⟩ := BuildRes.of_passes (r := nothing.build (stdEnv true) (builderOf
    [.makeFeature { name := c!"A", kind := .binary }, .makeFeature { name := c!"B", kind := .binary },
     .addEdge c!"A" c!"B", .addEdge c!"B" c!"A"]))
    (p := fun m => decide (Known m 1) && decide (par m 1 = some 2) && decide (par m 2 = some 1)) (by decide)
  simp only [Bool.and_eq_true, decide_eq_true_eq] at h2
  exact ⟨m, h1, not_wf_cycle (.inl h2.1.1) h2.1.2 h2.2⟩

/-- The order matters for a feature named `root`: made after `makeRoot` it is accepted, before it
    the result is null. -/
theorem C28_order_of_root : ∃ m,
    nothing.build (stdEnv true) (builderOf [.makeRoot c!"R", .makeFeature { name := c!"root", kind := .binary }]) = .built m ∧
    nothing.build (stdEnv true) (builderOf [.makeFeature { name := c!"root", kind := .binary }, .makeRoot c!"R"]) = .null := by
  obtain ⟨m, h1, _⟩ := BuildRes.of_passes (r := nothing.build (stdEnv true)
    (builderOf [.makeRoot c!"R", .makeFeature { name := c!"root", kind := .binary }])) (p := fun _ => true) (by decide)
  exact ⟨m, h1, rfl⟩

/-- The order matters when a feature gets two parents: the last edge wins. -/
theorem C28_last_edge_wins : ∃ m m' : FModel, ∃ a b c : Id,
    nothing.build (stdEnv true) (builderOf
      [.makeFeature { name := c!"A", kind := .binary }, .makeFeature { name := c!"B", kind := .binary },
       .makeFeature { name := c!"C", kind := .binary }, .addEdge c!"A" c!"C", .addEdge c!"B" c!"C"]) = .built m ∧
    nothing.build (stdEnv true) (builderOf
      [.makeFeature { name := c!"A", kind := .binary }, .makeFeature { name := c!"B", kind := .binary },
       .makeFeature { name := c!"C", kind := .binary }, .addEdge c!"B" c!"C", .addEdge c!"A" c!"C"]) = .built m' ∧
    m.features = [(c!"root", 0), (c!"A", a), (c!"B", b), (c!"C", c)] ∧ m'.features = m.features ∧
    par m c = some b ∧ par m' c = some a ∧ a ≠ b := by
  obtain ⟨m, h1, h2⟩ := BuildRes.of_passes (r := nothing.build (stdEnv true) (builderOf
      [.makeFeature { name := c!"A", kind := .binary }, .makeFeature { name := c!"B", kind := .binary },
       .makeFeature { name := c!"C", kind := .binary }, .addEdge c!"A" c!"C", .addEdge c!"B" c!"C"]))
    (p := fun m => decide (m.features = [(c!"root", 0), (c!"A", 1), (c!"B", 2), (c!"C", 3)]) && decide (par m 3 = some 2))
    (by decide)
  obtain ⟨m', h3, h4⟩ := BuildRes.of_passes (r := nothing.build (stdEnv true) (builderOf
      [.makeFeature { name := c!"A", kind := .binary }, .makeFeature { name := c!"B", kind := .binary },
       .makeFeature { name := c!"C", kind := .binary }, .addEdge c!"B" c!"C", .addEdge c!"A" c!"C"]))
    (p := fun m => decide (m.features = [(c!"root", 0), (c!"A", 1), (c!"B", 2), (c!"C", 3)]) && decide (par m 3 = some 1))
    (by decide)
  simp only [Bool.and_eq_true, decide_eq_true_eq] at h2 h4
  exact ⟨m, m', 1, 2, 3, h1, h3, h2.1, by rw [h2.1, h4.1], h2.2, h4.2, by decide⟩

/-- A relationship for a feature that was not made is undefined instead of null. -/
theorem C28_relationship_missing : nothing.build (stdEnv false) (builderOf
    [.makeFeature { name := c!"A", kind := .binary }, .emplaceRelationship .or c!"X"]) = .ub := rfl

/-- In general: calls that describe a tree, and anywhere between them one that asks for a relationship below a
    feature that is not made. -/
theorem C28_relationship_unknown {world : FModel} (hf : ∀ i, world.heap i ≠ none → i < world.next) (E : Env)
    {pre post : List BCall} {d : Desc} (hb : Buildable (pre ++ post) d) (hk : ConstraintsKnown d) (k : RKind) {x : Str}
    (hx : ¬ (x = d.root ∨ x ∈ d.attrs.map Attr.name)) :
    world.build E (builderOf (pre ++ .emplaceRelationship k x :: post)) = .ub := by
  obtain ⟨m1, m2, h1, h2, h4⟩ := build_steps hf E hb
  have hg : groupsOf (pre ++ post) = groupsOf pre ++ groupsOf post := List.filterMap_append
  have hc : constraintsOf (pre ++ post) = constraintsOf pre ++ constraintsOf post := List.filterMap_append
  have hone := hb.one_group
  have hgk := hb.groups_known
  unfold ConstraintsKnown at hk
  rw [hb.constraints, hc] at hk
  rw [hg] at hone hgk
  obtain ⟨m3, h5, h6⟩ := phase3 E pre m2 _ h4
    (by rw [List.map_append] at hone; simpa using (List.nodup_append.1 hone).1)
    (by simp only [hb.attrs]; exact fun g hg => hgk g (List.mem_append_left _ hg))
    (fun y hy => hk y (List.mem_append_left _ hy))
  have e1 : (pre ++ BCall.emplaceRelationship k x :: post).filterMap BCall.featOp = (pre ++ post).filterMap BCall.featOp := by
    rw [List.filterMap_append, List.filterMap_append, List.filterMap_cons]; rfl
  have e2 : (pre ++ BCall.emplaceRelationship k x :: post).filterMap BCall.modelOp = (pre ++ post).filterMap BCall.modelOp := by
    rw [List.filterMap_append, List.filterMap_append, List.filterMap_cons]; rfl
  have e3 : (pre ++ BCall.emplaceRelationship k x :: post).filterMap BCall.relOp =
      pre.filterMap BCall.relOp ++ .addRelationship k (.name x) :: post.filterMap BCall.relOp := by
    rw [List.filterMap_append, List.filterMap_cons]; rfl
  have hn : m3.getFeature x = none := by
    cases hg : m3.getFeature x with
    | none => rfl
    | some i => exact absurd ((h6.names x).1 ⟨i, getFeature_some hg⟩) hx
  have hub : m3.exec E (.addRelationship k (.name x)) = .ub := by
    have : ∀ m' : FModel, m'.features = m3.features → m'.resolve (.name x) = none := by
      intro m' h
      show m'.getFeature x = none
      rw [getFeature_none] at hn ⊢
      rw [h]; exact hn
    have h := this { m3.put m3.next { data := .rel k } with next := m3.next + 1, rels := m3.rels ++ [m3.next] } rfl
    simp only [FModel.exec, FModel.execAddRelationship]
    exact (by rw [h] : (match FModel.resolve { m3.put m3.next { data := .rel k } with next := m3.next + 1, rels := m3.rels ++ [m3.next] }
      (.name x) with | none => Out.ub | some _ => _) = _)
  rw [builderOf_eq, e1, e2, e3]
  have hall : FModel.outFold (FModel.exec E) m2 (pre.filterMap BCall.relOp ++ .addRelationship k (.name x) :: post.filterMap BCall.relOp) = .ub := by
    have key : ∀ (xs ys : List Op) (a b : FModel), FModel.outFold (FModel.exec E) a xs = .ok b →
        FModel.outFold (FModel.exec E) a (xs ++ ys) = FModel.outFold (FModel.exec E) b ys := by
      intro xs ys
      induction xs with
      | nil => intro a b h; cases h; rfl
      | cons y xs ih =>
        intro a b h
        simp only [List.cons_append, FModel.outFold] at h ⊢
        cases hy : FModel.exec E a y with
        | ok a' => rw [hy] at h; exact ih a' b h
        | err e a' => rw [hy] at h; cases h
        | ub => rw [hy] at h; cases h
    rw [key _ _ _ _ h5]
    simp only [FModel.outFold, hub]
  have hcommit : m2.commitOps E (pre.filterMap BCall.relOp ++ .addRelationship k (.name x) :: post.filterMap BCall.relOp) = .ub := by
    simp only [FModel.commitOps, hall]
  simp only [FModel.build, h1, h2, hcommit]

example : nothing.build (stdEnv true) (builderOf (someCalls.take 4 ++ .emplaceRelationship .or c!"X" :: someCalls.drop 4)) = .ub :=
  C28_relationship_unknown nothing_fresh _ (pre := someCalls.take 4) (post := someCalls.drop 4) someCalls_buildable
    someDesc_known .or (by decide)

end Verif.Props

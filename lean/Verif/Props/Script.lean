import Verif.FM.ScriptLemmas
import Verif.Props.KeptConfigurations
import Verif.Props.Edits
/-!
# Scripts that edit a model

C83.  A script is a list of transactions, each a list of modifications that name their features.  `Desc.edit` says on
a description what a modification means, `Desc.Can` when it makes sense.
-/

namespace Verif.Props
open Verif Verif.Spec Verif.Xml Verif.Z3Solver

variable {d : Desc} {m : FModel} {F : IntFloats}

/-- What a script makes of a description. -/
noncomputable def edited (d : Desc) (ts : List (List Edit)) : Desc := ts.flatten.foldl Desc.edit d

/-- Every transaction of a script whose modifications make sense is committed, and what is there in the end is what the
    modifications say.  Missing: children for features that have a group, locations of the root, removing features and
    replacing roots that constraints mention. -/
theorem C83_script_partial (E : Env) (h : Describes d m) (hk : ConstraintsKnown d) {ts : List (List Edit)} (hc : d.CanRun ts) :
    ∃ m', runScript E m ts = some m' ∧ Describes (edited d ts) m' := by
  obtain ⟨m', h1, h2, _⟩ := describes_script E ts d m h hk hc
  exact ⟨m', h1, h2⟩

/-- Its valid configurations are those of the edited description. -/
theorem C83_configurations_partial (E : Env) (h : Describes d m) (hk : ConstraintsKnown d) {ts : List (List Edit)} (hc : d.CanRun ts) :
    ∃ m', runScript E m ts = some m' ∧ ∀ F a, Valid F m' a ↔ DescValid F (edited d ts) a := by
  obtain ⟨m', h1, h2⟩ := C83_script_partial E h hk hc
  exact ⟨m', h1, fun F a => valid_desc h2⟩

/-- A document is loaded, edited, saved and loaded again: the edited model comes back. -/
theorem C83_document_partial {sci : Str → Option Str} {world world' : FModel} (hf : ∀ i, world.heap i ≠ none → i < world.next)
    (hf' : ∀ i, world'.heap i ≠ none → i < world'.next) (E E' : Env) {cwd cwd' : Str} {x : Spec.Doc} (h : x.Ok sci)
    (hd : DocDescribes cwd x d) (hk : ConstraintsKnown d) :
    ∃ m gs, load sci E world cwd x.toXml = .built m ∧ (∀ n k, (n, k) ∈ gs ↔ k = .alternative ∧ Exclusive d n) ∧
      ∀ ts, Desc.CanRun { d with groups := gs } ts → Writable (edited { d with groups := gs } ts) →
        ∃ m' y m'' d'', runScript E m ts = some m' ∧ write E m' = some y ∧ Conforms y ∧ load sci E' world' cwd' y = .built m'' ∧
          Describes d'' m'' ∧ WrittenAs (edited { d with groups := gs } ts) d'' ∧
          (Faithful (edited { d with groups := gs } ts) → SameModel (edited { d with groups := gs } ts) d'') := by
  obtain ⟨m, gs, h1, h2, h3⟩ := C57_loads_partial hf E h hd hk
  refine ⟨m, gs, h1, h3, fun ts hc hw => ?_⟩
  obtain ⟨m', h4, h5⟩ := C83_script_partial E h2 hk hc
  obtain ⟨y, m'', d'', h6, h7, h8, h9, h10⟩ := C33_roundtrip_partial h5 hw E E' sci cwd' hf'
  exact ⟨m', y, m'', d'', h4, h6, h7, h8, h9, h10, fun hk => same_of_faithful h10 hk⟩

/-- So do its configurations, those a user enumerates included. -/
theorem C83_saved_configurations_partial (E E' E₁ E₂ : Env) (h : Describes d m) (hk : ConstraintsKnown d) {ts : List (List Edit)}
    (hc : d.CanRun ts) (hw : Writable (edited d ts)) (hl : DescClear F (edited d ts)) (hg : Carried (edited d ts))
    (sci : Str → Option Str) (cwd : Str) {world : FModel} (hf : ∀ i, world.heap i ≠ none → i < world.next)
    (O O' : Oracle) (hO : ∀ k ts, O.check k ts ≠ .unknown) (hO' : ∀ k ts, O'.check k ts ≠ .unknown) :
    ∃ m' x m'', runScript E m ts = some m' ∧ write E m' = some x ∧ load sci E' world cwd x = .built m'' ∧
      (∀ a, Valid F m' a ↔ Valid F m'' a) ∧ (∀ a, Valid F m'' a ↔ DescValid F (edited d ts) a) ∧
      ∃ k, ∀ fuel, k ≤ fuel → SameLists (getAllConfigs E₁ F O fuel m') (getAllConfigs E₂ F O' fuel m'') := by
  obtain ⟨m', h1, h2⟩ := C83_script_partial E h hk hc
  obtain ⟨x, m'', h3, h4, h5, h6⟩ := C72_kept_partial h2 hw hl hg E E' E₁ E₂ sci cwd hf O O' hO hO'
  exact ⟨m', x, m'', h1, h3, h4, h5, fun a => by rw [← h5, valid_desc h2], h6⟩

/-! ## A child beside a group -/

/-- The modification that adds the optional feature `D` to the root of `grouped`, beside the group of `A` and `B`. -/
def addD : Edit := .add { name := c!"D", kind := .binary, opt := true } c!"root"

/-- What is read back: the exclusions of the group, but no group. -/
def besideCalls : List BCall :=
  [.setVmName c!"M", .setPath [], .setCommit [], .addEdge c!"root" c!"A", .addEdge c!"root" c!"B", .addEdge c!"root" c!"D",
   .makeRoot c!"root", .addEdge c!"root" c!"A", .addEdge c!"A" c!"C",
   .addConstraint .boolean (.bin .excludes (.feature c!"A") (.feature c!"B")),
   .makeFeature { name := c!"A", kind := .binary }, .addEdge c!"A" c!"C",
   .makeFeature { name := c!"C", kind := .binary }, .addEdge c!"root" c!"B",
   .addConstraint .boolean (.bin .excludes (.feature c!"B") (.feature c!"A")),
   .makeFeature { name := c!"B", kind := .binary }, .addEdge c!"root" c!"D",
   .makeFeature { name := c!"D", kind := .binary, opt := true }]

def besideDesc : Desc where
  name := c!"M"
  path := []
  commit := []
  root := c!"root"
  attrs := attrsOf besideCalls
  parent := fun n => if n = c!"C" then c!"A" else c!"root"
  groups := []
  constraints := constraintsOf besideCalls

theorem beside_buildable : Buildable besideCalls besideDesc where
  attrs := by decide
  kinds := by decide
  distinct := by decide
  root := .inr (by decide)
  root_new := by decide
  default_root := by decide
  edges := by
    intro p c hx
    simp [besideCalls] at hx
    rcases hx with ⟨rfl, rfl⟩ | ⟨rfl, rfl⟩ | ⟨rfl, rfl⟩ | ⟨rfl, rfl⟩ | ⟨rfl, rfl⟩ | ⟨rfl, rfl⟩ | ⟨rfl, rfl⟩ <;> decide
  no_edge := by
    intro a ha hx
    have : a.name ≠ c!"C" := by rintro e; rw [e] at hx; exact hx c!"A" (by decide)
    simp [besideDesc, this]
  acyclic := ⟨fun n => if n = c!"C" then 2 else if n = c!"root" then 0 else 1, by decide⟩
  groups := rfl
  one_group := by decide
  groups_known := by decide
  constraints := rfl
  name := .inr (by rfl)
  path := .inr (by rfl)
  commit := .inr (by rfl)

theorem grouped_described : Describes (descOf grouped) grouped := by
  refine describes_descOf grouped_wf grouped_bound ?_ ?_ ?_ ((registered_nil (by intro cl; cases cl <;> rfl)).2 ?_)
  · intro i f hi hf
    cases hi
    simp [data, grouped, ofNodes, featNode] at hf
    rw [← hf]
  · intro r hr
    have hr : r ∈ [1] := hr
    rw [List.mem_singleton] at hr
    subst hr
    refine ⟨0, by unfold Known; decide, rfl, rfl, fun c hc => ?_⟩
    have hc : c ∈ [2, 3] := hc
    simp only [List.mem_cons, List.not_mem_nil, or_false] at hc
    rcases hc with rfl | rfl <;> exact ⟨_, rfl⟩
  · intro cl s hs; cases cl <;> cases hs
  · intro i f hk hf
    have hk : i ∈ [0, 2, 3, 4] := hk
    simp at hk
    rcases hk with rfl | rfl | rfl | rfl <;> (simp [data, grouped, ofNodes, featNode] at hf; subst hf; exact ⟨rfl, rfl, rfl⟩)

theorem grouped_valid (F : IntFloats) : Valid F grouped (pick false true) := by
  rw [valid_desc grouped_described]
  refine ⟨rfl, by decide, ?_, ?_, ?_, ?_, ?_⟩
  · intro x hx _ _ hn hp
    have hx : x ∈ (descOf grouped).attrs := hx
    have : ∀ x ∈ (descOf grouped).attrs, (descOf grouped).parent x.name = c!"root" ∨
        (pick false true).bool ((descOf grouped).parent x.name) = false := by decide
    rcases this x hx with h | h
    · exact absurd (by rw [h]; decide : ((descOf grouped).parent x.name, RKind.alternative) ∈ (descOf grouped).groups) (hn _)
    · rw [h] at hp; cases hp
  · intro n hn _
    have hn : (n, RKind.alternative) ∈ [(c!"root", RKind.alternative)] := hn
    simp only [List.mem_singleton, Prod.mk.injEq, and_true] at hn
    subst hn
    decide
  · intro n hn
    have hn : (n, RKind.or) ∈ [(c!"root", RKind.alternative)] := hn
    simp at hn
  · intro x hx vs st hk
    have : ∀ x ∈ (descOf grouped).attrs, x.kind = .binary := by decide
    rw [this x hx] at hk
    cases hk
  · intro x hx; cases hx

/-- With a child beside the group, saving loses the group and keeps the exclusions of its members, which are mandatory
    then: a model with valid configurations is read back without any. -/
theorem C83_beside_group (F : IntFloats) (sci : Str → Option Str) : WF grouped ∧ ∃ m' x m'', runScript (stdEnv true) grouped [[addD]] = some m' ∧
    write (stdEnv true) m' = some x ∧ load sci (stdEnv true) nothing [] x = .built m'' ∧
    Valid F m' (pick false true) ∧ ∀ a, ¬ Valid F m'' a := by
  refine ⟨grouped_wf, ?_⟩
  have hp : ((runScript (stdEnv true) grouped [[addD]]).bind fun m => (write (stdEnv true) m).map (parseVm sci [])) =
    some (.ok besideCalls) := rfl
  obtain ⟨m', h1, hp⟩ := Option.bind_eq_some_iff.1 hp
  obtain ⟨x, h2, hp⟩ := Option.map_eq_some_iff.1 hp
  obtain ⟨m'', gs, h3, h4, h5⟩ := load_calls nothing_fresh (stdEnv true) hp beside_buildable (by unfold ConstraintsKnown; decide)
  refine ⟨m', x, m'', h1, h2, h3, ?_, fun a v => ?_⟩
  · obtain ⟨m1, e1, e2⟩ := C77_optional grouped_wf (stdEnv true) (n := c!"D") (p := 0) (by intro i hi; simp [grouped, ofNodes] at hi) (by unfold Known; decide)
    have h : (grouped.exec (stdEnv true) (.addFeature { name := c!"D", kind := .binary, opt := true } (some 0))).passes
      fun m => decide (m.consistent (stdEnv true) = some true) := by decide
    obtain ⟨m2, e3, e4⟩ := Out.of_passes h
    rw [e1] at e3
    cases e3
    have : runScript (stdEnv true) grouped [[addD]] = some m1 := by
      have ho : addD.op grouped = .addFeature { name := c!"D", kind := .binary, opt := true } (some 0) := rfl
      simp only [runScript, runTransaction, FModel.commitOps, List.map_cons, List.map_nil, ho, FModel.outFold, e1, of_decide_eq_true e4,
        Option.bind_some]
    rw [this] at h1
    cases h1
    exact (e2 F _).2 ⟨grouped_valid F, fun h => by cases h⟩
  · rw [valid_desc h4] at v
    have hg : ∀ k, (c!"root", k) ∉ gs := by
      intro k hk
      have := ((h5 _ _).1 hk).2.mandatory
      revert this
      decide
    have hA : a.bool c!"A" = true := v.mandatory { name := c!"A", kind := .binary } (show _ ∈ besideDesc.attrs by decide) rfl rfl hg v.root
    have hB : a.bool c!"B" = true := v.mandatory { name := c!"B", kind := .binary } (show _ ∈ besideDesc.attrs by decide) rfl rfl hg v.root
    have hc := v.constraints (.boolean, .bin .excludes (.feature c!"A") (.feature c!"B")) (show _ ∈ besideDesc.constraints by decide)
    have hn : ∀ n, ¬ DNum { besideDesc with groups := gs } n := by
      rintro n ⟨x, hx, _, v, st, hk⟩
      have : ∀ x ∈ besideDesc.attrs, x.kind = .binary := by decide
      rw [this x hx] at hk
      cases hk
    simp [DHolds, meaning, opMeaning, dvalue, hn, hA, hB] at hc

/-! ## Not vacuous -/

/-- Three transactions on the alternative of `A` and `B`: a new optional child of `A` that implies it, then a child of
    that, a location for `A` and the child moved to `B`, then the child is removed and `A` becomes a group. -/
def aScript : List (List Edit) :=
  [[.add { name := c!"C", kind := .binary, opt := true } c!"A", .name c!"New", .constrain .boolean (.bin .implies (.feature c!"C") (.feature c!"A"))],
   [.add { name := c!"D", kind := .binary } c!"C", .locate c!"A" aLoc, .move c!"B" c!"D"],
   [.remove c!"D" false, .group .or c!"A"]]

theorem under_leaf {n x : Str} (h : ∀ a ∈ d.attrs, d.parent a.name ≠ n) (u : d.Under n x) : x = n := by
  induction u with
  | refl => rfl
  | step ha _ ih => exact absurd ih (h _ ha)

theorem aScript_can : (pairDesc false false (some .alternative) false).CanRun aScript := by
  simp only [aScript, Desc.CanRun, Desc.CanAll, List.foldl_cons, List.foldl_nil, Desc.Can]
  refine ⟨⟨⟨by decide, .inr (by decide), ?_, ?_⟩, ?_, trivial, ?_, ?_, ?_, trivial⟩,
    ⟨⟨by decide, .inr ?_, ?_, ?_⟩, ?_, ?_, ?_, ⟨?_, .inr ?_, ?_, ?_⟩, ?_, trivial⟩, ⟨⟨?_, ?_, ?_⟩, ?_, ⟨?_, ?_⟩, ?_, trivial⟩, trivial⟩
  all_goals simp [Desc.edit, Desc.Has, pairDesc, pairCalls, attrsOf, groupsOf, constraintsOf]
  · decide
  · intro u
    exact absurd (under_leaf (by simp) u) (by decide)
  · intro x u
    rw [under_leaf (by simp) u]
    decide
  · refine ⟨{ name := c!"A", kind := .binary, locs := [aLoc] }, ⟨.inl rfl, ?_⟩, rfl⟩
    have : ∀ (p : Prop) [Decidable p], ¬ p → decide p = false := fun p _ h => decide_eq_false h
    refine @this _ (Classical.propDecidable _) fun u => ?_
    exact absurd (under_leaf (by simp) u) (by decide)

example (E : Env) : ∃ m m', Describes (pairDesc false false (some .alternative) false) m ∧ runScript E m aScript = some m' ∧
    Describes (edited (pairDesc false false (some .alternative) false) aScript) m' := by
  obtain ⟨m, h⟩ := pair_model false false (some .alternative) false
  obtain ⟨m', h1, h2⟩ := C83_script_partial E h (pair_known _ _ _ _) aScript_can
  exact ⟨m, m', h, h1, h2⟩

/-- A document with `A` and `B`, and a script that makes an alternative of them and adds the rest of `richDesc`. -/
def baseDoc : Spec.Doc where
  name := c!"M"
  binary := [{ name := c!"root", children := [c!"A", c!"B"] }, { name := c!"A", output := some c!"-a" }, { name := c!"B" }]

def baseDesc : Desc where
  name := c!"M"
  path := []
  commit := []
  root := c!"root"
  attrs := [{ name := c!"A", kind := .binary, output := c!"-a" }, { name := c!"B", kind := .binary }]
  parent := fun _ => c!"root"
  groups := []
  constraints := []

def richScript : List (List Edit) :=
  [[.group .alternative c!"root", .add { name := c!"S", kind := .binary } c!"A",
    .add { name := c!"C", kind := .binary, opt := true } c!"B", .add { name := c!"N", kind := .numeric (.list [-1, 5]) none } c!"B"],
   [.group .or c!"A", .constrain .boolean (.bin .implies (.feature c!"C") (.feature c!"B")),
    .constrain .boolean (.bin .excludes (.bin .and (.feature c!"A") (.feature c!"S")) (.feature c!"B")),
    .constrain .nonBoolean (.bin .greater (.feature c!"N") (.int 2))]]

theorem base_ok (sci : Str → Option Str) : baseDoc.Ok sci where
  name := .inr (solid_of (by decide))
  path := by intro t h; cases h
  commit := by intro t h; cases h
  binary := by
    intro o ho
    simp only [baseDoc, List.mem_cons, List.not_mem_nil, or_false] at ho
    rcases ho with rfl | rfl | rfl
    all_goals
      refine ⟨solid_of (by decide), ?_, ?_, ?_, ?_, ?_, ?_, ?_, ?_⟩ <;> simp
    · exact ⟨solid_of (by decide), solid_of (by decide)⟩
    · decide
  numeric := by intro l hl; cases hl
  constraints := by intro cl l hl; cases hl

theorem base_says : DocDescribes [] baseDoc baseDesc where
  name := rfl
  path := rfl
  commit := rfl
  root := .inr (by decide)
  attrs := rfl
  distinct := by decide
  parent := by decide
  children := by decide
  no_parent := by decide
  acyclic := ⟨fun n => if n = c!"root" then 0 else 1, by decide⟩
  groups := rfl
  constraints := rfl

theorem base_exclusive (n : Str) : ¬ Exclusive baseDesc n := by
  intro h
  have hm := h.many
  have he := h.excludes
  by_cases hn : n = c!"root"
  · subst hn
    obtain ⟨k, hk⟩ := he { name := c!"A", kind := .binary, output := c!"-a" } (by decide) { name := c!"B", kind := .binary } (by decide) (by decide)
    cases hk
  · have : baseDesc.kids n = [] := by
      have h' : ¬ c!"root" = n := fun e => hn e.symm
      simp [Desc.kids, baseDesc, h']
    rw [this] at hm
    simp at hm

theorem rich_edited : edited baseDesc richScript = richDesc := by
  simp only [edited, richScript, List.flatten_cons, List.flatten_nil, List.append_nil, List.cons_append, List.nil_append,
    List.foldl_cons, List.foldl_nil, Desc.edit]
  unfold richDesc
  congr 1
  funext x
  dsimp only [baseDesc]
  by_cases h1 : x = c!"N"
  · subst h1; rfl
  · by_cases h2 : x = c!"C"
    · subst h2; rfl
    · simp only [h1, h2, if_false]

theorem richScript_can : baseDesc.CanRun richScript := by
  simp only [richScript, Desc.CanRun, Desc.CanAll, List.foldl_cons, List.foldl_nil, Desc.Can]
  simp [Desc.edit, Desc.Has, baseDesc, Constraint.features]

example (sci : Str → Option Str) (E E' : Env) : ∃ m m' y m'' d'', load sci E nothing [] baseDoc.toXml = .built m ∧
    runScript E m richScript = some m' ∧ write E m' = some y ∧ load sci E' nothing [] y = .built m'' ∧
    Describes d'' m'' ∧ WrittenAs richDesc d'' := by
  obtain ⟨m, gs, h1, h2, h3⟩ := C83_document_partial (sci := sci) nothing_fresh nothing_fresh E E' (cwd' := []) (base_ok sci) base_says
    (by unfold ConstraintsKnown; decide)
  have : gs = [] := List.eq_nil_iff_forall_not_mem.2 fun g hg => base_exclusive g.1 ((h2 g.1 g.2).1 hg).2
  subst this
  obtain ⟨m', y, m'', d'', h4, h5, _, h6, h7, h8, _⟩ := h3 richScript richScript_can (by rw [show { baseDesc with groups := [] } = baseDesc from rfl, rich_edited]; exact rich_writable)
  refine ⟨m, m', y, m'', d'', h1, h4, h5, h6, h7, ?_⟩
  rw [← rich_edited]
  exact h8

/-- The conditions of `C83_saved_configurations_partial` are met. -/
example : ∃ m, Describes baseDesc m ∧ ConstraintsKnown baseDesc ∧ baseDesc.CanRun richScript ∧ Writable (edited baseDesc richScript) ∧
    DescClear exactFloats (edited baseDesc richScript) ∧ Carried (edited baseDesc richScript) := by
  obtain ⟨m, gs, _, h2, h3⟩ := C57_loads_partial (sci := fun _ => none) nothing_fresh (stdEnv true) (base_ok _) base_says
    (by unfold ConstraintsKnown; decide)
  have : gs = [] := List.eq_nil_iff_forall_not_mem.2 fun g hg => base_exclusive g.1 ((h3 g.1 g.2).1 hg).2
  subst this
  rw [rich_edited]
  exact ⟨m, h2, by unfold ConstraintsKnown; decide, richScript_can, rich_writable, rich_clear, rich_carried⟩

end Verif.Props

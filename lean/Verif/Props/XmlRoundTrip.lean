import Verif.Xml.Stable
import Verif.Props.Xml
/-!
# Writing a model and reading it again

C33.
-/

namespace Verif.Props
open Verif Verif.Spec Verif.Xml

variable {d : Desc} {m : FModel}

/-- A model with a root named `root` or `base`, only binary and numeric features, locations with start
    and end and constraints that can be printed is written, and what is written is read as the model
    `WrittenAs` describes: features, their tree, optionality, categories and positions are kept; output
    strings, step functions, revisions and member offsets are lost, values of a list but the last are
    narrowed; groups become exclusions and are found again as alternatives only if they have at least two
    children and none of them is optional.  The claim is that nothing is lost, for every model. -/
theorem C33_roundtrip_partial (h : Describes d m) (hw : Writable d) (E E' : Env) (sci : Str → Option Str) (cwd : Str)
    {world : FModel} (hf : ∀ i, world.heap i ≠ none → i < world.next) :
    ∃ x m' d', write E m = some x ∧ Conforms x ∧ load sci E' world cwd x = .built m' ∧ Describes d' m' ∧ WrittenAs d d' :=
  roundTrip h hw E E' sci cwd hf

/-- A model without the things that are lost is read back as it is, up to the order of features and of
    implications and exclusions. -/
theorem C33_faithful_partial (h : Describes d m) (hw : Writable d) (hk : Faithful d) (E E' : Env) (sci : Str → Option Str)
    (cwd : Str) {world : FModel} (hf : ∀ i, world.heap i ≠ none → i < world.next) :
    ∃ x m' d', write E m = some x ∧ load sci E' world cwd x = .built m' ∧ Describes d' m' ∧ SameModel d d' := by
  obtain ⟨x, m', d', h1, _, h3, h4, h5⟩ := roundTrip h hw E E' sci cwd hf
  exact ⟨x, m', d', h1, h3, h4, same_of_faithful h5 hk⟩

/-- Nothing more is lost the second time: what was read back can be written again, and is then read back
    as it is. -/
theorem C33_stable (h : Describes d m) (hw : Writable d) (E₁ E₂ E₃ E₄ : Env) (sci : Str → Option Str) (cwd : Str)
    {world world' : FModel} (hf : ∀ i, world.heap i ≠ none → i < world.next) (hf' : ∀ i, world'.heap i ≠ none → i < world'.next) :
    ∃ x m' d' x' m'' d'', write E₁ m = some x ∧ load sci E₂ world cwd x = .built m' ∧ Describes d' m' ∧ WrittenAs d d' ∧
      write E₃ m' = some x' ∧ load sci E₄ world' cwd x' = .built m'' ∧ Describes d'' m'' ∧ SameModel d' d'' := by
  obtain ⟨x, m', d', h1, _, h3, h4, h5⟩ := roundTrip h hw E₁ E₂ sci cwd hf
  obtain ⟨x', m'', d'', k1, k3, k4, k5⟩ := C33_faithful_partial h4 (writable_of_written h5 hw) (faithful_of_written h5) E₃ E₄ sci cwd hf'
  exact ⟨x, m', d', x', m'', d'', h1, h3, h4, h5, k1, k3, k4, k5⟩

/-! ## What is lost -/

theorem kids_of_written {d d' : Desc} (h5 : WrittenAs d d') (n : Str) : (d'.kids n).Perm ((d.kids n).map kept) := by
  have e : (d.kids n).map kept = (d.attrs.map kept).filter fun a => decide (d'.parent a.name = n) := by
    rw [List.filter_map]
    unfold Desc.kids
    congr 1
    exact List.filter_congr fun a ha => by
      show decide (d.parent a.name = n) = decide (d'.parent a.name = n)
      rw [h5.parent a ha]
  rw [e]
  exact h5.attrs.filter _

section
variable (h : Describes d m) (hw : Writable d) {E E' : Env} {sci : Str → Option Str} {cwd : Str} {world : FModel}
  (hf : ∀ i, world.heap i ≠ none → i < world.next) {x : Xml} {m' : FModel} (hx : write E m = some x)
  (hl : load sci E' world cwd x = .built m')
include h hw hf hx hl

theorem reread : ∃ d', Describes d' m' ∧ WrittenAs d d' := by
  obtain ⟨y, m₂, d', h1, _, h3, h4, h5⟩ := roundTrip h hw E E' sci cwd hf
  rw [hx] at h1; cases h1
  rw [hl] at h3; cases h3
  exact ⟨d', h4, h5⟩

/-- No output string, step function, member offset or revision range is ever kept. -/
theorem C33_lost {n : Str} {i : Id} {f : Feat} (hi : (n, i) ∈ m'.features) (hd : data m' i = some (.feat f)) :
    f.attr.output = [] ∧ (∀ v s, f.attr.kind = .numeric v s → s = none) ∧
      ∀ r ∈ f.attr.locs, r.member = none ∧ r.revision = none := by
  obtain ⟨d', h4, h5⟩ := reread h hw hf hx hl
  rcases entry_cases h4 hi with ⟨_, _, f', hf', ha⟩ | ⟨a, ha, rfl, f', p, hf', hfa, _, _⟩
  · rw [hd] at hf'; cases hf'
    rw [ha]
    exact ⟨rfl, nofun, by simp⟩
  · rw [hd] at hf'; cases hf'
    obtain ⟨b, hb, rfl⟩ := List.mem_map.1 (h5.attrs.mem_iff.1 ha)
    rw [hfa]
    refine ⟨rfl, ?_, ?_⟩
    · intro v s e
      have e : keptKind b.kind = .numeric v s := e
      cases hk : b.kind with
      | numeric v' s' => rw [hk] at e; cases e; rfl
      | _ => rw [hk] at e; cases e
    · intro r hr
      obtain ⟨r', _, rfl⟩ := List.mem_map.1 hr
      exact ⟨rfl, rfl⟩

/-- A group of at least two mandatory features is read back as alternative, also if it was an
    or-group; its features now exclude each other by constraints too. -/
theorem C33_group_alternative {n : Str} {k : RKind} (hg : (n, k) ∈ d.groups) (h2 : 2 ≤ (d.kids n).length)
    (hm : ∀ a ∈ d.kids n, a.opt = false) {i : Id} (hi : (n, i) ∈ m'.features) :
    (∃ r, edg m' i = [r] ∧ data m' r = some (.rel .alternative)) ∧
      ∀ a ∈ d.kids n, ∀ b ∈ d.kids n, a.name ≠ b.name →
        ∃ s ∈ m'.booleans, s.tree = .bin .excludes (.feature a.name) (.feature b.name) := by
  obtain ⟨d', h4, h5⟩ := reread h hw hf hx hl
  have hkids := kids_of_written h5 n
  have hmem : ∀ a, a ∈ d.kids n ↔ a ∈ d.attrs ∧ d.parent a.name = n := by simp [Desc.kids]
  have hmates : ∀ a ∈ d.kids n, ∀ b ∈ d.kids n, a.name ≠ b.name → GroupMates d a.name b.name := by
    intro a ha b hb hne
    obtain ⟨a1, a2⟩ := (hmem a).1 ha
    obtain ⟨b1, b2⟩ := (hmem b).1 hb
    exact ⟨hne, List.mem_map_of_mem a1, List.mem_map_of_mem b1, by rw [a2, b2], k, by rw [a2]; exact hg⟩
  refine ⟨?_, ?_⟩
  · have hex : Exclusive d' n := by
      refine ⟨by rw [hkids.length_eq]; simpa using h2, ?_, ?_⟩
      · intro a ha
        obtain ⟨b, hb, rfl⟩ := List.mem_map.1 (hkids.mem_iff.1 ha)
        exact hm b hb
      · intro a ha b hb hne
        obtain ⟨a', ha', rfl⟩ := List.mem_map.1 (hkids.mem_iff.1 ha)
        obtain ⟨b', hb', rfl⟩ := List.mem_map.1 (hkids.mem_iff.1 hb)
        exact (excludes_of_written h5 _ _).2 (.inr (hmates a' ha' b' hb' hne))
    obtain ⟨r, r1, r2, _⟩ := h4.grouped n .alternative i ((h5.groups n _).2 ⟨rfl, hex⟩) hi
    exact ⟨r, r1, r2⟩
  · intro a ha b hb hne
    have he : excludes a.name b.name ∈ d'.ofClass .boolean :=
      mem_ofClass.2 ⟨(constraints_of_written h5 _).2 (.inl ⟨_, _, .inr ⟨rfl, .inr (hmates a ha b hb hne)⟩⟩), rfl⟩
    have hs := h4.store .boolean
    have : (⟨(excludes a.name b.name).2, (excludes a.name b.name).2.features.map m'.getFeature, (excludes a.name b.name).1.info⟩ : Stored) ∈ m'.store .boolean := by
      rw [hs]
      exact List.mem_map.2 ⟨_, he, rfl⟩
    exact ⟨_, this, rfl⟩

/-- A group with one feature, or with an optional one, is not read back as a group. -/
theorem C33_group_dissolved {n : Str} (h2 : (d.kids n).length < 2 ∨ ∃ a ∈ d.kids n, a.opt = true) {i : Id}
    (hi : (n, i) ∈ m'.features) : ∀ c ∈ edg m' i, IsFeat m' c := by
  obtain ⟨d', h4, h5⟩ := reread h hw hf hx hl
  have hkids := kids_of_written h5 n
  refine h4.ungrouped n i hi ?_
  intro k hk
  have hex := ((h5.groups n k).1 hk).2
  rcases h2 with h2 | ⟨a, ha, ho⟩
  · have := hex.many
    rw [hkids.length_eq, List.length_map] at this
    omega
  · have := hex.mandatory (kept a) (hkids.mem_iff.2 (List.mem_map_of_mem ha))
    rw [show (kept a).opt = a.opt from rfl, ho] at this
    cases this

end

/-! ## What cannot be written or read -/

theorem writeFeatures_none {E : Env} {m : FModel} {i : Id} (h : writeFeature E m i = none) :
    ∀ {is : List Id}, i ∈ is → writeFeatures E m is = none
  | j :: is, hi => by
    unfold writeFeatures
    rcases List.mem_cons.1 hi with rfl | hi
    · rw [h]
    · cases writeFeature E m j with
      | none => rfl
      | some x => simp [writeFeatures_none h hi]

theorem writeRanges_none {r : Range} (h : r.start = none ∨ r.stop = none) : ∀ {rs : List Range}, r ∈ rs → writeRanges rs = none
  | q :: rs, hr => by
    unfold writeRanges
    rcases List.mem_cons.1 hr with rfl | hr
    · have : writeRange r = none := by
        unfold writeRange
        rcases h with h | h
        · rw [h]
        · rw [h]; cases r.start <;> rfl
      rw [this]
    · cases writeRange q with
      | none => rfl
      | some x => simp [writeRanges_none h hr]

/-- Writing is undefined if a location of a feature has no start or end, or a numeric feature has an
    empty list of values. -/
theorem C33_undefined (w : WF m) (E : Env) {n : Str} {i : Id} {f : Feat} (hi : (n, i) ∈ m.features) (hd : data m i = some (.feat f))
    (hk : f.attr.kind ≠ .unknown)
    (hb : (∃ r ∈ f.attr.locs, r.start = none ∨ r.stop = none) ∨ ∃ s, f.attr.kind = .numeric (.list []) s) : write E m = none := by
  obtain ⟨r, is, hr, hit, _, hnd, hmem, _⟩ := C25_preorder w E
  have hi' := (hmem i).2 (known_of_mem hi)
  have hnone : writeFeature E m i = none := by
    unfold writeFeature
    rw [feat?_of_data hd]
    dsimp only
    rcases hb with ⟨r, hr, he⟩ | ⟨s, he⟩
    · have : locationsElem f.attr.locs = none := by
        unfold locationsElem
        rw [if_neg (by intro e; rw [e] at hr; cases hr), writeRanges_none he hr]
        rfl
      rw [this]
      split
      · contradiction
      · rfl
    · rw [he]
      have : numericElem (.numeric (.list []) s) = none := rfl
      rw [this]
      split
      · contradiction
      · rfl
  unfold write
  rw [hit]
  dsimp only
  have hc : isBinary m i = true ∨ isNumeric m i = true := by
    unfold isBinary isNumeric
    rw [feat?_of_data hd]
    dsimp only
    cases hk' : f.attr.kind <;> simp
    exact hk hk'
  rcases hc with hc | hc
  · rw [writeFeatures_none hnone (List.mem_filter.2 ⟨hi', hc⟩)]
  · rw [writeFeatures_none hnone (List.mem_filter.2 ⟨hi', hc⟩)]
    split
    · contradiction
    · rfl

/-- The root `R` with child `A`. -/
def otherRoot : FModel := ofNodes [featNode "R" none [1] .root, featNode "A" (some 0) []] (some 0) [(c!"R", 0), (c!"A", 1)] []

theorem otherRoot_wf : WF otherRoot := wf_of_check (fun i => i) (ofNodes_fresh _ _ _ _ _) (by decide)

/-- A root with another name is read back as a child of a new root. -/
theorem C33_other_root (sci : Str → Option Str) : WF otherRoot ∧ ∃ x m' i j r f, write (stdEnv true) otherRoot = some x ∧
    load sci (stdEnv true) nothing [] x = .built m' ∧ m'.root = some r ∧ (c!"root", r) ∈ m'.features ∧
    (c!"R", i) ∈ m'.features ∧ par m' i = some r ∧ data m' i = some (.feat f) ∧ f.attr.kind = .binary ∧
    (c!"A", j) ∈ m'.features ∧ par m' j = some i := by
  refine ⟨otherRoot_wf, ?_⟩
  let calls : List BCall := [.setVmName c!"M", .setPath [], .setCommit [], .addEdge c!"R" c!"A",
    .makeFeature { name := c!"R", kind := .binary }, .addEdge c!"R" c!"A", .makeFeature { name := c!"A", kind := .binary }]
  have hp : (write (stdEnv true) otherRoot).map (parseVm sci []) = some (.ok calls) := rfl
  obtain ⟨x, hx, hp⟩ := Option.map_eq_some_iff.1 hp
  let good (m : FModel) : Bool := decide (m.root = some 0) && decide ((c!"root", 0) ∈ m.features) && decide ((c!"R", 1) ∈ m.features) &&
    decide (par m 1 = some 0) && ((data m 1).any fun | .feat f => decide (f.attr.kind = .binary) | _ => false) &&
    decide ((c!"A", 2) ∈ m.features) && decide (par m 2 = some 1)
  obtain ⟨m, h1, h2⟩ := BuildRes.of_passes (r := nothing.build (stdEnv true) (builderOf calls))
    (p := fun m => (detectAlternatives (stdEnv true) m).passes good) (by decide)
  obtain ⟨m', h3, h4⟩ := Out.of_passes h2
  simp only [good, Bool.and_eq_true, decide_eq_true_eq] at h4
  obtain ⟨⟨⟨⟨⟨⟨g1, g2⟩, g3⟩, g4⟩, g5⟩, g6⟩, g7⟩ := h4
  obtain ⟨f, f1, f2⟩ : ∃ f, data m' 1 = some (.feat f) ∧ f.attr.kind = .binary := by
    cases hd : data m' 1 with
    | none => rw [hd] at g5; cases g5
    | some nd =>
      rw [hd] at g5
      cases nd with
      | feat f => exact ⟨f, rfl, by simpa using g5⟩
      | rel k => cases g5
  refine ⟨x, m', 1, 2, 0, f, hx, ?_, g1, g2, g3, g4, f1, f2, g6, g7⟩
  unfold load
  simp only [hp, h1, h3]

/-- The root with a feature of no kind. -/
def unknownKind : FModel :=
  ofNodes [featNode "root" none [1] .root, featNode "A" (some 0) [] .unknown] (some 0) [(c!"root", 0), (c!"A", 1)] []

theorem unknownKind_wf : WF unknownKind := wf_of_check (fun i => i) (ofNodes_fresh _ _ _ _ _) (by decide)

/-- A feature of no kind is named by its parent but not written; what is written cannot be read. -/
theorem C33_unknown_kind (sci : Str → Option Str) : WF unknownKind ∧ ∃ x, write (stdEnv true) unknownKind = some x ∧
    load sci (stdEnv true) nothing [] x = .null := by
  refine ⟨unknownKind_wf, ?_⟩
  let calls : List BCall := [.setVmName c!"M", .setPath [], .setCommit [], .addEdge c!"root" c!"A", .makeRoot c!"root"]
  have hp : (write (stdEnv true) unknownKind).map (parseVm sci []) = some (.ok calls) := rfl
  obtain ⟨x, hx, hp⟩ := Option.map_eq_some_iff.1 hp
  have h1 : nothing.build (stdEnv true) (builderOf calls) = .null := rfl
  refine ⟨x, hx, ?_⟩
  unfold load
  simp only [hp, h1]

/-! ## Not vacuous -/

def aLoc : Range where
  path := [c!"src", c!"a.cpp"]
  start := some ⟨3, 1⟩
  stop := some ⟨4, 20⟩
  category := .inessential
  member := none
  revision := none

/-- `root` with an or-group of `A` and `N`; `B` is an optional child of `A`. -/
def orCalls : List BCall :=
  [.setVmName c!"M", .setPath c!"/src", .makeRoot c!"root",
   .makeFeature { name := c!"A", kind := .binary, output := c!"-a", locs := [aLoc] },
   .makeFeature { name := c!"B", kind := .binary, opt := true }, .addEdge c!"A" c!"B",
   .makeFeature { name := c!"N", kind := .numeric (.list [4294967297, 4294967297]) none }, .emplaceRelationship .or c!"root",
   .addConstraint .boolean (.bin .implies (.feature c!"B") (.feature c!"N")),
   .addConstraint .boolean (.bin .excludes (.bin .or (.feature c!"A") (.feature c!"N")) (.feature c!"B"))]

def orDesc : Desc where
  name := c!"M"
  path := c!"/src"
  commit := []
  root := c!"root"
  attrs := attrsOf orCalls
  parent := fun n => if n = c!"B" then c!"A" else c!"root"
  groups := [(c!"root", .or)]
  constraints := constraintsOf orCalls

theorem orCalls_buildable : Buildable orCalls orDesc where
  attrs := by decide
  kinds := by decide
  distinct := by decide
  root := .inr (by decide)
  root_new := by decide
  default_root := by decide
  edges := by
    intro p c hx
    simp [orCalls] at hx
    obtain ⟨rfl, rfl⟩ := hx
    decide
  no_edge := by
    intro a ha hx
    have : a.name ≠ c!"B" := by rintro e; rw [e] at hx; exact hx c!"A" (by decide)
    simp [orDesc, this]
  acyclic := ⟨fun n => if n = c!"root" then 0 else if n = c!"A" then 1 else 2, by decide⟩
  groups := by decide
  one_group := by decide
  groups_known := by decide
  constraints := by decide
  name := .inr (by decide)
  path := .inr (by decide)
  commit := .inl (by decide)

theorem orDesc_known : ConstraintsKnown orDesc := by unfold ConstraintsKnown; decide

theorem orDesc_writable : Writable orDesc where
  name := .inr (solid_of (by decide))
  path := .inr (solid_of (by decide))
  commit := .inl rfl
  root := rfl
  names := by
    intro a ha
    rw [show orDesc.attrs = attrsOf orCalls from rfl] at ha
    simp only [attrsOf, orCalls, List.filterMap_cons, List.filterMap_nil, List.mem_cons, List.not_mem_nil, or_false] at ha
    rcases ha with rfl | rfl | rfl
    all_goals exact ⟨solid_of (by decide), by decide⟩
  siblings := by decide
  kinds := by
    intro a ha
    rw [show orDesc.attrs = attrsOf orCalls from rfl] at ha
    simp only [attrsOf, orCalls, List.filterMap_cons, List.filterMap_nil, List.mem_cons, List.not_mem_nil, or_false] at ha
    rcases ha with rfl | rfl | rfl
    · trivial
    · trivial
    · refine ⟨by decide, ?_⟩
      simp only [List.mem_cons, List.not_mem_nil, or_false, or_self, forall_eq]
      exact ⟨by decide, by decide⟩
  locs := by
    intro a ha
    rw [show orDesc.attrs = attrsOf orCalls from rfl] at ha
    simp only [attrsOf, orCalls, List.filterMap_cons, List.filterMap_nil, List.mem_cons, List.not_mem_nil, or_false] at ha
    rcases ha with rfl | rfl | rfl
    · intro r hr
      simp only [List.mem_cons, List.not_mem_nil, or_false] at hr
      subst hr
      refine ⟨⟨_, rfl, by decide, by decide⟩, ⟨_, rfl, by decide, by decide⟩, ?_, ?_, ?_⟩
      · simp [CleanPath, aLoc]
      · intro c hc; cases hc; decide
      · intro c hc; cases hc; decide
    · simp
    · simp
  known := orDesc_known
  constraints := by
    intro x hx
    rw [show orDesc.constraints = constraintsOf orCalls from rfl] at hx
    simp only [constraintsOf, orCalls, List.filterMap_cons, List.filterMap_nil, List.mem_cons, List.not_mem_nil, or_false] at hx
    rcases hx with rfl | rfl
    · exact .inr ⟨rfl, rfl⟩
    · exact .inl ⟨by simp [IdentNames, IsIdent]; decide, by simp [Readable], by simp [FitsInt64]⟩

/-- A model that can be written, with an or-group, an output string, a location, wide values and a
    constraint that is printed as an implication. -/
theorem C33_not_vacuous : ∃ m, Describes orDesc m ∧ Writable orDesc ∧ (c!"root", .or) ∈ orDesc.groups ∧
    (orDesc.kids c!"root").length = 2 ∧ ∀ a ∈ orDesc.kids c!"root", a.opt = false := by
  obtain ⟨m, _, h⟩ := C28_builds_partial nothing_fresh (stdEnv true) orCalls_buildable orDesc_known
  exact ⟨m, h, orDesc_writable, by decide, by decide, by decide⟩

/-- What was read back is an example for `C33_faithful_partial`. -/
theorem C33_faithful_not_vacuous : ∃ d m, Describes d m ∧ Writable d ∧ Faithful d ∧ (c!"root", .alternative) ∈ d.groups := by
  obtain ⟨m, h, hw, hg, h2, hm⟩ := C33_not_vacuous
  obtain ⟨x, m', d', _, _, _, h4, h5⟩ := C33_roundtrip_partial h hw (stdEnv true) (stdEnv true) (fun _ => none) [] nothing_fresh
  refine ⟨d', m', h4, writable_of_written h5 hw, faithful_of_written h5, (h5.groups _ _).2 ⟨rfl, ?_⟩⟩
  have hkids := kids_of_written h5 c!"root"
  refine ⟨by rw [hkids.length_eq, List.length_map, h2]; decide, ?_, ?_⟩
  · intro a ha
    obtain ⟨b, hb, rfl⟩ := List.mem_map.1 (hkids.mem_iff.1 ha)
    exact hm b hb
  · intro a ha b hb hne
    obtain ⟨a', ha', rfl⟩ := List.mem_map.1 (hkids.mem_iff.1 ha)
    obtain ⟨b', hb', rfl⟩ := List.mem_map.1 (hkids.mem_iff.1 hb)
    obtain ⟨a1, a2⟩ := List.mem_filter.1 ha'
    obtain ⟨b1, b2⟩ := List.mem_filter.1 hb'
    simp only [decide_eq_true_eq] at a2 b2
    exact (excludes_of_written h5 a'.name b'.name).2 (.inr ⟨hne, List.mem_map_of_mem (f := Attr.name) a1, List.mem_map_of_mem (f := Attr.name) b1, by
      show orDesc.parent a'.name = orDesc.parent b'.name
      rw [a2, b2], .or, by
      show (orDesc.parent a'.name, RKind.or) ∈ orDesc.groups
      rw [a2]; exact hg⟩)

/-- The claim fails: this model is read back with other values, without its output string and with an
    alternative group in place of the or-group. -/
theorem C33_fails (E E' : Env) (sci : Str → Option Str) (cwd : Str) : ∃ m, Describes orDesc m ∧ ∃ x m' d',
    write E m = some x ∧ load sci E' nothing cwd x = .built m' ∧ Describes d' m' ∧
    { name := c!"N", kind := .numeric (.list [1, 4294967297]) none } ∈ d'.attrs ∧
    (∀ a ∈ d'.attrs, a.output = []) ∧ ∀ g ∈ d'.groups, g.2 ≠ .or := by
  obtain ⟨m, h, hw, _⟩ := C33_not_vacuous
  obtain ⟨x, m', d', h1, _, h3, h4, h5⟩ := C33_roundtrip_partial h hw E E' sci cwd nothing_fresh
  refine ⟨m, h, x, m', d', h1, h3, h4, h5.attrs.mem_iff.2 (List.mem_map.2 ⟨{ name := c!"N", kind := .numeric (.list [4294967297, 4294967297]) none }, by decide, by decide⟩), ?_, ?_⟩
  · intro a ha
    obtain ⟨b, _, rfl⟩ := List.mem_map.1 (h5.attrs.mem_iff.1 ha)
    rfl
  · rintro ⟨n, k⟩ hg e
    have := ((h5.groups n k).1 hg).1
    rw [this] at e
    cases e

end Verif.Props

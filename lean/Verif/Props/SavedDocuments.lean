import Verif.Xml.Canonical
import Verif.Props.KeptConfigurations
/-!
# Saving is reproducible

C103.
-/

namespace Verif.Props
open Verif Verif.Spec Verif.Xml

variable {d d' : Desc} {m m' : FModel}

/-- Models that say the same are written as the same document, whatever the order in which their features
    were built, the addresses of their objects and the order of hash tables. -/
theorem C103_same_document (h : Describes d m) (h' : Describes d' m') (hw : Writable d) (hw' : Writable d') (hs : SaysSame d d')
    (E E' : Env) : ∃ x, write E m = some x ∧ write E' m' = some x := by
  obtain ⟨x, h1, _⟩ := write_spec h hw E
  exact ⟨x.toXml, h1, by rw [← same_document h h' hw hw' hs E E', h1]⟩

/-- The document of a model does not depend on addresses or on the order of hash tables. -/
theorem C103_reproducible (h : Describes d m) (hw : Writable d) (E E' : Env) : ∃ x, write E m = some x ∧ write E' m = some x :=
  C103_same_document h h hw hw (same_refl d) E E'

/-- A copy is written as the same document as the model. -/
theorem C103_clone (h : Describes d m) (hw : Writable d) (hr : c!"root" ∉ d.attrs.map Attr.name) (E₁ E₂ E₃ : Env) :
    ∃ c x, m.clone E₁ = .built c ∧ write E₂ m = some x ∧ write E₃ c = some x := by
  obtain ⟨c, h1, h2⟩ := clone_describes h E₁ hr hw.known
  obtain ⟨x, h3, h4⟩ := C103_same_document h h2 hw (writable_cloned hw) (same_cloned hw) E₂ E₃
  exact ⟨c, x, h1, h3, h4⟩

section
variable (h : Describes d m) (hw : Writable d) {E E' : Env} {sci : Str → Option Str} {cwd : Str} {world : FModel}
  (hf : ∀ i, world.heap i ≠ none → i < world.next) {x : Xml} (hx : write E m = some x)
  (hl : load sci E' world cwd x = .built m')
include h hw hf hx hl

/-- What was read from a document is written as this document again, if no feature implies itself, no
    implication is kept among other than Boolean constraints, and, without any Boolean constraint, there is
    no group of several features either.  The claim is without these conditions. -/
theorem C103_fixpoint_partial (hc : Calm d) (hn : NoneNew d) (E'' : Env) : write E'' m' = some x := by
  obtain ⟨d', h4, h5⟩ := reread h hw hf hx hl
  rw [← same_document h h4 hw (writable_of_written h5 hw) (same_written h5 hc hn) E E'', hx]

/-- The conditions are needed: if the document is the same, they hold. -/
theorem C103_fixpoint_iff (E'' : Env) : write E'' m' = some x ↔ Calm d ∧ NoneNew d := by
  refine ⟨fun hx' => ?_, fun ⟨hc, hn⟩ => C103_fixpoint_partial h hw hf hx hl hc hn E''⟩
  obtain ⟨d', h4, h5⟩ := reread h hw hf hx hl
  obtain ⟨d'', h6, h7⟩ := reread h4 (writable_of_written h5 hw) hf hx' hl
  refine ⟨(calm_written h5).1 ?_, fun he => ?_⟩
  · have key : ∀ a b, impliesCount d' a b = (if a = b then 2 else 1) * impliesCount d' a b + elsewhere d' a b := fun a b => by
      rw [← implied_written h7, ← implications_eq h4, ← implications_eq h6]
    refine ⟨fun a ha => impliesCount_zero.1 ?_ ha, fun a b => ?_⟩
    · have := key a a
      rw [if_pos rfl] at this
      omega
    · have := key a b
      split at this <;> omega
  · have he' := (boolean_element h4 hx').2 ((boolean_element h hx).1 he)
    obtain ⟨l, e, hl⟩ := h5.boolean
    rw [he'] at e
    have el : l = [] := (List.append_eq_nil_iff.1 e.symm).1
    subst el
    refine fun a b => ⟨fun hi => ?_, fun hi => ?_, fun hi => ?_⟩
    · exact absurd ((hl (implies a b)).2 ⟨a, b, .inl ⟨rfl, hi⟩⟩) (by simp)
    · exact absurd ((hl (excludes a b)).2 ⟨a, b, .inr ⟨rfl, .inl hi⟩⟩) (by simp)
    · exact absurd ((hl (excludes a b)).2 ⟨a, b, .inr ⟨rfl, .inr hi⟩⟩) (by simp)

/-- The second document is final if and only if no feature implies itself and no implication is kept among
    other than Boolean constraints. -/
theorem C103_settles_iff {E₂ E₃ : Env} {world' : FModel} (hf' : ∀ i, world'.heap i ≠ none → i < world'.next) {x' : Xml} {m'' : FModel}
    (hx' : write E₂ m' = some x') (hl' : load sci E₃ world' cwd x' = .built m'') (E₄ : Env) : write E₄ m'' = some x' ↔ Calm d := by
  obtain ⟨d', h4, h5⟩ := reread h hw hf hx hl
  rw [C103_fixpoint_iff h4 (writable_of_written h5 hw) hf' hx' hl' E₄, calm_written h5]
  exact ⟨fun h => h.1, fun h => ⟨h, noneNew_written h5⟩⟩

end

/-! ## Documents that never settle -/

/-- `M (n + 1)` was read from the document written for `M n`. -/
def SavedAndLoaded (sci : Str → Option Str) (cwd : Str) (M : Nat → FModel) : Prop :=
  ∀ n, ∃ (E E' : Env) (world : FModel) (x : Xml), (∀ i, world.heap i ≠ none → i < world.next) ∧ write E (M n) = some x ∧
    load sci E' world cwd x = .built (M (n + 1))

/-- How often implications are held after saving and loading `n` times. -/
theorem C103_grows {sci : Str → Option Str} {cwd : Str} {M : Nat → FModel} (h : Describes d (M 0)) (hw : Writable d)
    (hM : SavedAndLoaded sci cwd M) (n : Nat) (a b : Str) :
    implications (M n) a b + (if a = b then elsewhere d a b else 0) =
      if a = b then 2 ^ n * (implications (M 0) a b + elsewhere d a b) else implications (M 0) a b + n * elsewhere d a b := by
  have : ∃ dn, Describes dn (M n) ∧ Writable dn ∧ elsewhere dn a b = elsewhere d a b ∧
      impliesCount dn a b + (if a = b then elsewhere d a b else 0) =
        if a = b then 2 ^ n * (impliesCount d a b + elsewhere d a b) else impliesCount d a b + n * elsewhere d a b := by
    induction n with
    | zero => exact ⟨d, h, hw, rfl, by split <;> simp⟩
    | succ n ih =>
      obtain ⟨dn, h1, h2, h3, h4⟩ := ih
      obtain ⟨E, E', world, x, hf, hx, hl⟩ := hM n
      obtain ⟨d', k1, k2⟩ := reread h1 h2 hf hx hl
      refine ⟨d', k1, writable_of_written k2 h2, by rw [elsewhere_written k2, h3], ?_⟩
      rw [implied_written k2, h3]
      by_cases e : a = b
      · simp only [if_pos e] at h4 ⊢
        rw [Nat.pow_succ, Nat.mul_right_comm, ← h4]
        omega
      · simp only [if_neg e] at h4 ⊢
        rw [Nat.add_mul n 1]
        omega
  obtain ⟨dn, h1, _, _, h4⟩ := this
  rw [implications_eq h1, implications_eq h]
  exact h4

/-- A feature that implies itself does so twice as often each time. -/
theorem C103_self_doubles {sci : Str → Option Str} {cwd : Str} {M : Nat → FModel} (h : Describes d (M 0)) (hw : Writable d)
    (hM : SavedAndLoaded sci cwd M) {a : Str} (ha : Implies d a a) (n : Nat) : 2 ^ n ≤ implications (M n) a a := by
  have e := C103_grows h hw hM n a a
  rw [if_pos rfl, if_pos rfl, implications_eq h] at e
  have hc : 0 < impliesCount d a a := Nat.pos_of_ne_zero fun e => impliesCount_zero.1 e ha
  have h1 : 2 ^ n * (1 + elsewhere d a a) ≤ 2 ^ n * (impliesCount d a a + elsewhere d a a) := Nat.mul_le_mul_left _ (by omega)
  have h2 : elsewhere d a a ≤ 2 ^ n * elsewhere d a a := Nat.le_mul_of_pos_left _ (Nat.two_pow_pos n)
  rw [Nat.mul_add] at h1
  omega

/-- An implication kept among other than Boolean constraints is repeated once more each time. -/
theorem C103_other_class_repeats {sci : Str → Option Str} {cwd : Str} {M : Nat → FModel} (h : Describes d (M 0)) (hw : Writable d)
    (hM : SavedAndLoaded sci cwd M) {a b : Str} (hab : a ≠ b) {k : CKind} (hk : k.cls ≠ .boolean)
    (hc : (k, .bin .implies (.feature a) (.feature b)) ∈ d.constraints) (n : Nat) : n + 1 ≤ implications (M n) a b := by
  have e := C103_grows h hw hM n a b
  rw [if_neg hab, if_neg hab, implications_eq h] at e
  have h1 : 0 < impliesCount d a b := Nat.pos_of_ne_zero fun e => impliesCount_zero.1 e ⟨k, hc⟩
  have h2 : 0 < elsewhere d a b := List.countP_pos_iff.2 ⟨_, hc, by simpa using hk⟩
  have h3 : n * 1 ≤ n * elsewhere d a b := Nat.mul_le_mul_left _ h2
  omega

/-- Every model that can be written can be saved and loaded over and over. -/
theorem C103_repeatable (h : Describes d m) (hw : Writable d) (E E' : Env) (sci : Str → Option Str) (cwd : Str) :
    ∃ M, M 0 = m ∧ SavedAndLoaded sci cwd M := by
  have step : ∀ s : { m : FModel // ∃ d, Describes d m ∧ Writable d }, ∃ t : { m : FModel // ∃ d, Describes d m ∧ Writable d },
      ∃ x, write E s.1 = some x ∧ load sci E' nothing cwd x = .built t.1 := by
    rintro ⟨m, d, h, hw⟩
    obtain ⟨x, m', d', h1, _, h3, h4, h5⟩ := roundTrip h hw E E' sci cwd nothing_fresh
    exact ⟨⟨m', d', h4, writable_of_written h5 hw⟩, x, h1, h3⟩
  let M : Nat → { m : FModel // ∃ d, Describes d m ∧ Writable d } := fun n => n.rec ⟨m, d, h, hw⟩ fun _ s => Classical.choose (step s)
  refine ⟨fun n => (M n).1, rfl, fun n => ?_⟩
  obtain ⟨x, h1, h2⟩ := Classical.choose_spec (step (M n))
  exact ⟨E, E', nothing, x, nothing_fresh, h1, h2⟩

/-! ## Examples -/

theorem orDesc_calm : Calm orDesc where
  self := by
    rintro a ⟨k, hk⟩
    simp [orDesc, orCalls, constraintsOf] at hk
    obtain ⟨_, rfl, h⟩ := hk
    cases h
  own := fun a b => by simp [elsewhere, orDesc, orCalls, constraintsOf, CKind.cls]

theorem orDesc_noneNew : NoneNew orDesc := fun h => by
  have : orDesc.ofClass .boolean ≠ [] := by decide
  exact absurd h this

/-- The document of this model with an or-group, wide values and a location is final. -/
theorem C103_fixpoint_not_vacuous (E E' E'' : Env) (sci : Str → Option Str) (cwd : Str) : ∃ m x m', Describes orDesc m ∧ write E m = some x ∧
    load sci E' nothing cwd x = .built m' ∧ write E'' m' = some x := by
  obtain ⟨m, h, hw, _⟩ := C33_not_vacuous
  obtain ⟨x, m', _, h1, _, h3, _⟩ := roundTrip h hw E E' sci cwd nothing_fresh
  exact ⟨m, x, m', h, h1, h3, C103_fixpoint_partial h hw nothing_fresh h1 h3 orDesc_calm orDesc_noneNew E''⟩

/-- The model of `orCalls`, built in another order and without the output string. -/
def orCalls' : List BCall :=
  [.addConstraint .boolean (.bin .excludes (.bin .or (.feature c!"A") (.feature c!"N")) (.feature c!"B")),
   .makeFeature { name := c!"N", kind := .numeric (.list [1, 4294967297]) none }, .addEdge c!"A" c!"B",
   .makeFeature { name := c!"B", kind := .binary, opt := true },
   .makeFeature { name := c!"A", kind := .binary, locs := [aLoc] }, .emplaceRelationship .or c!"root",
   .addConstraint .boolean (.bin .implies (.feature c!"B") (.feature c!"N")),
   .makeRoot c!"root", .setPath c!"/src", .setVmName c!"M"]

def orDesc' : Desc where
  name := c!"M"
  path := c!"/src"
  commit := []
  root := c!"root"
  attrs := attrsOf orCalls'
  parent := fun n => if n = c!"B" then c!"A" else c!"root"
  groups := [(c!"root", .or)]
  constraints := constraintsOf orCalls'

theorem orCalls'_buildable : Buildable orCalls' orDesc' where
  attrs := by decide
  kinds := by decide
  distinct := by decide
  root := .inr (by decide)
  root_new := by decide
  default_root := by decide
  edges := by
    intro p c hx
    simp [orCalls'] at hx
    obtain ⟨rfl, rfl⟩ := hx
    decide
  no_edge := by
    intro a ha hx
    have : a.name ≠ c!"B" := by rintro e; rw [e] at hx; exact hx c!"A" (by decide)
    simp [orDesc', this]
  acyclic := ⟨fun n => if n = c!"root" then 0 else if n = c!"A" then 1 else 2, by decide⟩
  groups := by decide
  one_group := by decide
  groups_known := by decide
  constraints := by decide
  name := .inr (by decide)
  path := .inr (by decide)
  commit := .inl (by decide)

theorem orDesc'_known : ConstraintsKnown orDesc' := by unfold ConstraintsKnown; decide

theorem orDesc'_writable : Writable orDesc' where
  name := .inr (solid_of (by decide))
  path := .inr (solid_of (by decide))
  commit := .inl rfl
  root := rfl
  names := by
    intro a ha
    rw [show orDesc'.attrs = attrsOf orCalls' from rfl] at ha
    simp only [attrsOf, orCalls', List.filterMap_cons, List.filterMap_nil, List.mem_cons, List.not_mem_nil, or_false] at ha
    rcases ha with rfl | rfl | rfl
    all_goals exact ⟨solid_of (by decide), by decide⟩
  siblings := by decide
  kinds := by
    intro a ha
    rw [show orDesc'.attrs = attrsOf orCalls' from rfl] at ha
    simp only [attrsOf, orCalls', List.filterMap_cons, List.filterMap_nil, List.mem_cons, List.not_mem_nil, or_false] at ha
    rcases ha with rfl | rfl | rfl
    · refine ⟨by decide, ?_⟩
      simp only [List.mem_cons, List.not_mem_nil, or_false, forall_eq_or_imp, forall_eq]
      exact ⟨⟨by decide, by decide⟩, by decide, by decide⟩
    · trivial
    · trivial
  locs := by
    intro a ha
    rw [show orDesc'.attrs = attrsOf orCalls' from rfl] at ha
    simp only [attrsOf, orCalls', List.filterMap_cons, List.filterMap_nil, List.mem_cons, List.not_mem_nil, or_false] at ha
    rcases ha with rfl | rfl | rfl
    · simp
    · simp
    · intro r hr
      simp only [List.mem_cons, List.not_mem_nil, or_false] at hr
      subst hr
      refine ⟨⟨_, rfl, by decide, by decide⟩, ⟨_, rfl, by decide, by decide⟩, ?_, ?_, ?_⟩
      · simp [CleanPath, aLoc]
      · intro c hc; cases hc; decide
      · intro c hc; cases hc; decide
  known := orDesc'_known
  constraints := by
    intro x hx
    rw [show orDesc'.constraints = constraintsOf orCalls' from rfl] at hx
    simp only [constraintsOf, orCalls', List.filterMap_cons, List.filterMap_nil, List.mem_cons, List.not_mem_nil, or_false] at hx
    rcases hx with rfl | rfl
    · exact .inl ⟨by simp [IdentNames, IsIdent]; decide, by simp [Spec.Readable], by simp [FitsInt64]⟩
    · exact .inr ⟨rfl, rfl⟩

theorem orDesc_same : SaysSame orDesc orDesc' where
  name := rfl
  path := rfl
  commit := rfl
  root := rfl
  attrs := by decide
  attrs' := by decide
  parent := fun _ _ => rfl
  excluded := by
    have e : ∀ n, n ∈ orDesc'.attrs.map Attr.name ↔ n ∈ orDesc.attrs.map Attr.name := by
      intro n
      simp [orDesc, orDesc', orCalls, orCalls', attrsOf]
      constructor <;> rintro (h | h | h) <;> simp [h]
    intro a b
    refine or_congr ?_ ?_
    · unfold Excludes
      simp [orDesc, orDesc', orCalls, orCalls', constraintsOf]
    · unfold GroupMates
      rw [e, e]
      rfl
  implied := by
    intro a b
    simp [impliesCount, orDesc, orDesc', orCalls, orCalls', constraintsOf, List.countP_cons]
  present := by intro cl; cases cl <;> decide
  texts := by intro cl; cases cl <;> decide

/-- Models built in different orders. -/
theorem C103_same_not_vacuous (E E' : Env) : ∃ m m' x, Describes orDesc m ∧ Describes orDesc' m' ∧ orDesc.attrs ≠ orDesc'.attrs ∧
    write E m = some x ∧ write E' m' = some x := by
  obtain ⟨m, _, h⟩ := C28_builds_partial nothing_fresh (stdEnv true) orCalls_buildable orDesc_known
  obtain ⟨m', _, h'⟩ := C28_builds_partial nothing_fresh (stdEnv true) orCalls'_buildable orDesc'_known
  obtain ⟨x, h1, h2⟩ := C103_same_document h h' orDesc_writable orDesc'_writable orDesc_same E E'
  exact ⟨m, m', x, h, h', by decide, h1, h2⟩

theorem C103_clone_not_vacuous (E : Env) : ∃ m c x, Describes orDesc m ∧ m.clone E = .built c ∧ write E m = some x ∧ write E c = some x := by
  obtain ⟨m, h, hw, _⟩ := C33_not_vacuous
  obtain ⟨c, x, h1, h2, h3⟩ := C103_clone h hw (by decide) E E E
  exact ⟨m, c, x, h, h1, h2, h3⟩

/-- The first document of a model with a group and without constraints is not the second. -/
theorem C103_first_differs (oa ob : Bool) (k : RKind) (E E' E'' : Env) (sci : Str → Option Str) (cwd : Str) :
    ∃ m x m', Describes (pairDesc oa ob (some k) false) m ∧ write E m = some x ∧ load sci E' nothing cwd x = .built m' ∧ write E'' m' ≠ some x := by
  obtain ⟨m, _, h⟩ := C28_builds_partial nothing_fresh (stdEnv true) (pair_buildable oa ob (some k) false) (pair_known oa ob (some k) false)
  obtain ⟨x, m', _, h1, _, h3, _⟩ := roundTrip h (pair_writable ..) E E' sci cwd nothing_fresh
  refine ⟨m, x, m', h, h1, h3, fun e => ?_⟩
  refine (((C103_fixpoint_iff h (pair_writable ..) nothing_fresh h1 h3 E'').1 e).2 ?_ c!"A" c!"B").2.2 ?_
  · cases k <;> rfl
  · refine ⟨by decide, ?_, ?_, rfl, k, (pair_groups ..).2 ⟨rfl, rfl⟩⟩ <;> rw [pair_attrs] <;> simp

/-- `root` with children `A` and `B`; `A` implies one of them. -/
def loopCalls (k : CKind) (b : Bool) : List BCall :=
  [.setVmName c!"M", .makeRoot c!"root", .makeFeature { name := c!"A", kind := .binary }, .makeFeature { name := c!"B", kind := .binary },
   .addConstraint k (.bin .implies (.feature c!"A") (.feature (if b then c!"A" else c!"B")))]

def loopDesc (k : CKind) (b : Bool) : Desc where
  name := c!"M"
  path := []
  commit := []
  root := c!"root"
  attrs := [{ name := c!"A", kind := .binary }, { name := c!"B", kind := .binary }]
  parent := fun _ => c!"root"
  groups := []
  constraints := [(k, .bin .implies (.feature c!"A") (.feature (if b then c!"A" else c!"B")))]

theorem loop_buildable (k : CKind) (b : Bool) : Buildable (loopCalls k b) (loopDesc k b) where
  attrs := rfl
  kinds := by simp [loopCalls, attrsOf]
  distinct := by simp [loopCalls, attrsOf]
  root := .inr rfl
  root_new := by simp [loopCalls, attrsOf, loopDesc]
  default_root := by simp [loopCalls, attrsOf]
  edges := by intro p c hx; simp [loopCalls] at hx
  no_edge := fun _ _ _ => rfl
  acyclic := ⟨fun n => if n = c!"root" then 0 else 1, by simp [loopCalls, attrsOf, loopDesc]⟩
  groups := rfl
  one_group := by simp [loopCalls, groupsOf]
  groups_known := by simp [loopCalls, groupsOf]
  constraints := rfl
  name := .inr rfl
  path := .inl ⟨rfl, rfl⟩
  commit := .inl ⟨rfl, rfl⟩

theorem loop_known (k : CKind) (b : Bool) : ConstraintsKnown (loopDesc k b) := by
  intro x hx n hn
  simp only [loopDesc, List.mem_singleton] at hx
  subst hx
  cases b <;> simp [Constraint.features] at hn <;> simp [loopDesc, hn]

theorem loop_writable (k : CKind) (b : Bool) : Writable (loopDesc k b) where
  name := .inr (show Solid c!"M" from solid_of (by decide))
  path := .inl rfl
  commit := .inl rfl
  root := rfl
  names := by
    intro a ha
    simp only [loopDesc, List.mem_cons, List.not_mem_nil, or_false] at ha
    rcases ha with rfl | rfl
    all_goals exact ⟨solid_of (by decide), by decide⟩
  siblings := by
    intro a ha b hb _
    simp only [loopDesc, List.mem_cons, List.not_mem_nil, or_false] at ha hb
    rcases ha with rfl | rfl <;> rcases hb with rfl | rfl <;> decide
  kinds := by
    intro a ha
    simp only [loopDesc, List.mem_cons, List.not_mem_nil, or_false] at ha
    rcases ha with rfl | rfl <;> trivial
  locs := by
    intro a ha
    simp only [loopDesc, List.mem_cons, List.not_mem_nil, or_false] at ha
    rcases ha with rfl | rfl <;> simp
  known := loop_known k b
  constraints := by
    intro x hx
    simp only [loopDesc, List.mem_singleton] at hx
    subst hx
    cases b <;> exact .inl ⟨by simp [IdentNames, IsIdent]; decide, by simp [Spec.Readable], by simp [FitsInt64]⟩

/-- The documents of these models never settle: saved and loaded `n` times they hold the implication `2 ^ n` and
    `n + 1` times. -/
theorem C103_fails (sci : Str → Option Str) (cwd : Str) (i : MixedInfo) :
    (∃ M, Describes (loopDesc .boolean true) (M 0) ∧ SavedAndLoaded sci cwd M ∧ ∀ n, implications (M n) c!"A" c!"A" = 2 ^ n) ∧
    ∃ M, Describes (loopDesc (.mixed i) false) (M 0) ∧ SavedAndLoaded sci cwd M ∧ ∀ n, implications (M n) c!"A" c!"B" = n + 1 := by
  constructor
  · obtain ⟨m, _, h⟩ := C28_builds_partial nothing_fresh (stdEnv true) (loop_buildable .boolean true) (loop_known .boolean true)
    obtain ⟨M, rfl, hM⟩ := C103_repeatable h (loop_writable ..) (stdEnv true) (stdEnv true) sci cwd
    refine ⟨M, h, hM, fun n => ?_⟩
    have e := C103_grows h (loop_writable ..) hM n c!"A" c!"A"
    rw [implications_eq h] at e
    simpa [elsewhere, impliesCount, loopDesc, CKind.cls] using e
  · obtain ⟨m, _, h⟩ := C28_builds_partial nothing_fresh (stdEnv true) (loop_buildable (.mixed i) false) (loop_known (.mixed i) false)
    obtain ⟨M, rfl, hM⟩ := C103_repeatable h (loop_writable ..) (stdEnv true) (stdEnv true) sci cwd
    refine ⟨M, h, hM, fun n => ?_⟩
    have e := C103_grows h (loop_writable ..) hM n c!"A" c!"B"
    rw [implications_eq h] at e
    simp [elsewhere, impliesCount, loopDesc, CKind.cls] at e
    omega

end Verif.Props

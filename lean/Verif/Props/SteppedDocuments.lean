import Verif.Props.RangeSteps
import Verif.Props.Generator
import Verif.Solver.NoStep
/-!
# Property C87: documents with numeric options that have a range and a step function

From the text of the document to the configurations; the arithmetic of the steps is that of doubles.
-/

namespace Verif.Spec
open Verif Verif.Xml

/-- The values of a numeric option as one would read it. -/
inductive NumberOf (o : DocOption) : (Int → Prop) → Prop
  | list {vs : List Int} : o.values = some (.list vs) → NumberOf o (· ∈ vs)
  | none {lo hi : Int} : o.values = some (.range lo hi) → hi < lo → NumberOf o (fun _ => False)
  /-- `x + k`, from `lo` by `k` up to `hi` -/
  | sum {lo hi : Int} {t a b : Str} {f : StepFn} {d : Decimal} {k : Nat} : o.values = some (.range lo hi) →
      o.step = some (t, f) → StepText t a .addition b → Props.OneNumber a b d → d.mantissa = k * 10 ^ d.scale →
      0 < k → k ≤ 2 ^ 53 → -(2 ^ 53) ≤ lo → hi + k ≤ 2 ^ 53 →
      NumberOf o (fun v => v ≤ hi ∧ ∃ i : Nat, v = lo + i * k)
  /-- `x * k`, from `lo` times `k` up to `hi` -/
  | product {lo hi : Int} {t a b : Str} {f : StepFn} {d : Decimal} {k : Nat} : o.values = some (.range lo hi) →
      o.step = some (t, f) → StepText t a .multiplication b → Props.OneNumber a b d → d.mantissa = k * 10 ^ d.scale →
      2 ≤ k → k ≤ 2 ^ 53 → 0 < lo → hi * k ≤ 2 ^ 53 →
      NumberOf o (fun v => v ≤ hi ∧ ∃ i : Nat, v = lo * (k : Int) ^ i)

/-- A numeric option other than a root. -/
def Doc.Number (x : Doc) (o : DocOption) : Prop := (true, o) ∈ x.options ∧ isRootName o.name = false

/-- The valid configurations of a document, its tree and groups being those of `d`. -/
structure DocValid (x : Doc) (d : Desc) (a : Assign) : Prop where
  root : a.bool d.root = true
  parent : ∀ x ∈ d.attrs, x.kind = .binary → a.bool x.name = true → a.bool (d.parent x.name) = true
  mandatory : ∀ x ∈ d.attrs, x.kind = .binary → x.opt = false → (∀ k, (d.parent x.name, k) ∉ d.groups) →
    a.bool (d.parent x.name) = true → a.bool x.name = true
  alternative : ∀ n, (n, .alternative) ∈ d.groups → a.bool n = true →
    ∃ x ∈ d.kids n, a.bool x.name = true ∧ ∀ y ∈ d.kids n, a.bool y.name = true → y.name = x.name
  or : ∀ n, (n, .or) ∈ d.groups → a.bool n = true → ∃ x ∈ d.kids n, a.bool x.name = true
  numeric : ∀ o P, x.Number o → NumberOf o P → P (a.int o.name)
  constraints : ∀ x ∈ d.constraints, DHolds d a x

/-- `DescClear` without the condition on ranges. -/
structure DescPlain (d : Desc) : Prop where
  root : Char.ofNat 0 ∉ d.root
  names : ∀ x ∈ d.attrs, Char.ofNat 0 ∉ x.name
  leaves : ∀ x ∈ d.constraints, ∀ n ∈ x.2.features, Char.ofNat 0 ∉ n
  kinds : ∀ x ∈ d.attrs, x.kind ≠ .unknown
  parents : ∀ x ∈ d.attrs, x.kind = .binary → ¬ DNum d (d.parent x.name)
  owners : ∀ g ∈ d.groups, ¬ DNum d g.1
  members : ∀ g ∈ d.groups, ∀ x ∈ d.kids g.1, x.kind = .binary
  nonempty : ∀ g ∈ d.groups, g.2 = .alternative → d.kids g.1 ≠ []
  sorts : ∀ x ∈ d.constraints, match x.1 with
    | .mixed _ => sortOf (fun _ => .int) x.2 = some .bool
    | _ => sortOf (dsort d) x.2 = some .bool

/-- Numeric options that have no values although their range is not empty: without a step function, with a
    step up to one half from a number that is not negative, and doubled from -1. -/
inductive NoNumber (o : DocOption) : Prop
  | noStep {lo hi : Int} : o.values.getD (.range 0 0) = .range lo hi → o.step = none → lo ≤ hi → NoNumber o
  | small {lo hi : Int} {t a b : Str} {f : StepFn} {d : Decimal} : o.values = some (.range lo hi) →
      o.step = some (t, f) → StepText t a .addition b → Props.OneNumber a b d → 2 * d.mantissa ≤ 10 ^ d.scale →
      0 ≤ lo → lo < 2 ^ 52 → lo ≤ hi → NoNumber o
  | doubled {hi : Int} {f : StepFn} : o.values = some (.range (-1) hi) → o.step = some (c!"x * 2", f) → -1 ≤ hi → NoNumber o

end Verif.Spec

namespace Verif.Props
open Verif Verif.Spec Verif.Tools Verif.Xml Verif.Z3Solver

variable {pow : Dbl → Dbl → Dbl}

theorem ends_of_values {F : IntFloats} {st : Option StepFn} {hi : Int} : ∀ {fuel lo acc vs},
    rangeLoop F st hi fuel lo acc = .values vs → Ends (stepOf F st) hi lo := by
  intro fuel
  induction fuel with
  | zero => intro lo acc vs h; cases h
  | succ fuel ih =>
    intro lo acc vs h
    simp only [rangeLoop] at h
    by_cases hl : lo ≤ hi
    · rw [if_pos hl] at h
      cases st with
      | none => cases h
      | some f =>
        simp only at h
        cases hy : f.nextInt F lo with
        | none => rw [hy] at h; cases h
        | some y =>
          rw [hy] at h
          exact .step hl (by simpa [stepOf] using hy) (ih h)
    · exact .out (by omega)

/-- The kind of feature an option stands for. -/
theorem number_kind (o : DocOption) : (o.attr true).kind = .numeric (o.values.getD (.range 0 0)) (o.step.map Prod.snd) := rfl

/-- The values of a numeric option are the ones expected, and stepping through them ends. -/
theorem C87_values_partial {o : DocOption} (ho : o.Ok) {P : Int → Prop} (h : NumberOf o P) {vs : Values} {st : Option StepFn}
    (hk : (o.attr true).kind = .numeric vs st) :
    (∀ v, Allowed (ieee pow) vs st v ↔ P v) ∧ ∀ lo hi, vs = .range lo hi → Ends (stepOf (ieee pow) st) hi lo := by
  rw [number_kind] at hk
  obtain ⟨rfl, rfl⟩ := (FKind.numeric.injEq ..).mp hk
  cases h with
  | list hv =>
    rw [hv]
    exact ⟨fun v => Iff.rfl, nofun⟩
  | none hv hlt =>
    rw [hv]
    refine ⟨fun v => ⟨fun h => ?_, False.elim⟩, ?_⟩
    · have key : ∀ {lo hi' v}, Orbit (stepOf (ieee pow) (o.step.map Prod.snd)) lo hi' v → lo ≤ hi' := by
        intro lo hi' v h
        induction h with
        | start h => exact h
        | step _ _ _ ih => exact ih
      exact absurd (key h) (by omega)
    · rintro _ _ ⟨⟩
      exact .out hlt
  | sum hv hs ht hn hd hk hk' hlo hhi =>
    obtain ⟨g, hg, hr⟩ := C84_sum_partial (pow := pow) ht hn hd hk hk' hlo hhi
    obtain ⟨_, hf⟩ := ho.step _ _ hs
    rw [hg] at hf
    cases hf
    rw [hv, hs]
    refine ⟨fun v => (hr.allowed v).trans And.comm, ?_⟩
    rintro _ _ ⟨⟩
    obtain ⟨vs, k, _, hl⟩ := hr.loop
    exact ends_of_values (hl k (Nat.le_refl _))
  | product hv hs ht hn hd hk hk' hlo hhi =>
    obtain ⟨g, hg, hr⟩ := C84_product_partial (pow := pow) ht hn hd hk hk' hlo hhi
    obtain ⟨_, hf⟩ := ho.step _ _ hs
    rw [hg] at hf
    cases hf
    rw [hv, hs]
    refine ⟨fun v => (hr.allowed v).trans And.comm, ?_⟩
    rintro _ _ ⟨⟩
    obtain ⟨vs, k, _, hl⟩ := hr.loop
    exact ends_of_values (hl k (Nat.le_refl _))

theorem option_ok {sci : Str → Option Str} {x : Spec.Doc} (h : x.Ok sci) {b : Bool} {o : DocOption} (ho : (b, o) ∈ x.options) : o.Ok := by
  simp only [Doc.options, List.mem_append, List.mem_map, Prod.mk.injEq] at ho
  rcases ho with ⟨o', ho, _, rfl⟩ | ⟨o', ho, _, rfl⟩
  · exact h.binary _ ho
  · cases hn : x.numeric with
    | none => rw [hn] at ho; cases ho
    | some l => rw [hn] at ho; exact h.numeric l hn _ ho

/-- The numeric features of a document are its numeric options. -/
theorem numeric_attr {x : Spec.Doc} {y : Attr} : (y ∈ x.attrs ∧ ∃ vs st, y.kind = .numeric vs st) ↔ ∃ o, x.Number o ∧ y = o.attr true := by
  simp only [Doc.attrs, List.mem_map, List.mem_filter, Bool.not_eq_true', Doc.Number]
  constructor
  · rintro ⟨⟨⟨b, o⟩, ⟨ho, hr⟩, rfl⟩, vs, st, hk⟩
    cases b with
    | false => cases hk
    | true => exact ⟨o, ⟨ho, hr⟩, rfl⟩
  · rintro ⟨o, ⟨ho, hr⟩, rfl⟩
    exact ⟨⟨(true, o), ⟨ho, hr⟩, rfl⟩, _, _, number_kind o⟩

variable {sci : Str → Option Str} {x : Spec.Doc} {d : Desc}

/-- The valid configurations are those with the values that the steps give. -/
theorem C87_valid_partial (hok : x.Ok sci) (hd : d.attrs = x.attrs) (hn : ∀ o, x.Number o → ∃ P, NumberOf o P) (a : Assign) :
    DescValid (ieee pow) d a ↔ DocValid x d a := by
  constructor
  · intro v
    refine ⟨v.root, v.parent, v.mandatory, v.alternative, v.or, fun o P ho hP => ?_, v.constraints⟩
    have hm := (numeric_attr.2 ⟨o, ho, rfl⟩).1
    exact ((C87_values_partial (pow := pow) (option_ok hok ho.1) hP (number_kind o)).1 _).1
      (v.numeric _ (hd ▸ hm) _ _ (number_kind o))
  · intro v
    refine ⟨v.root, v.parent, v.mandatory, v.alternative, v.or, fun y hy vs st hk => ?_, v.constraints⟩
    obtain ⟨o, ho, rfl⟩ := numeric_attr.1 ⟨hd ▸ hy, vs, st, hk⟩
    obtain ⟨P, hP⟩ := hn o ho
    exact ((C87_values_partial (pow := pow) (option_ok hok ho.1) hP hk).1 _).2 (v.numeric o P ho hP)

theorem stepped_clear (hok : x.Ok sci) (hd : d.attrs = x.attrs) (hn : ∀ o, x.Number o → ∃ P, NumberOf o P) (hp : DescPlain d) :
    DescClear (ieee pow) d := by
  refine ⟨hp.root, hp.names, hp.leaves, hp.kinds, ?_, hp.parents, hp.owners, hp.members, hp.nonempty, hp.sorts⟩
  intro y hy lo hi st hk
  obtain ⟨o, ho, rfl⟩ := numeric_attr.1 ⟨hd ▸ hy, _, st, hk⟩
  obtain ⟨P, hP⟩ := hn o ho
  exact (C87_values_partial (pow := pow) (option_ok hok ho.1) hP hk).2 lo hi rfl

variable {M : Machine} {fs : Files} {a : Args}

/-- Given a document with stepped ranges, the generator writes one entry for each valid configuration, or
    ends with 1 and writes nothing if there are none. -/
theorem C87_generator_partial {y : Xml} {text : Str} (hM : M.floats = ieee pow) (hf : a.file ≠ []) (ht : a.type = .all) (hfile : fs a.file = some text)
    (hx : M.xml text = some y) (hy : LaidOut x y) (hok : x.Ok M.sci) (hd : DocDescribes M.cwd x d) (hk : ConstraintsKnown d)
    (hn : ∀ o, x.Number o → ∃ P, NumberOf o P) (hp : DescPlain (withGroups d)) (hxor : ∀ c ∈ d.constraints, NoXor c.2)
    (hh : ∀ i, M.heap.heap i ≠ none → i < M.heap.next) (hO : ∀ k ts, M.oracle.check k ts ≠ .unknown) (ho : a.out ≠ [])
    (hstd : a.out ≠ c!"-") (hopen : M.canOpen a.out = true) :
    ∃ k, ∀ fuel, k ≤ fuel →
      ((¬ ∃ b, DocValid x (withGroups d) b) ∧ generate M fuel fs a = .exit 1 fs []) ∨
      ((∃ b, DocValid x (withGroups d) b) ∧
        ∃ es fs' order, order.Perm d.attrs ∧ generate M fuel fs a = .exit 0 fs' [] ∧ fs' a.out = some (M.yaml es) ∧
          (es.map Prod.fst).Perm ((List.range es.length).map natText) ∧
          ∃ as : List Assign, as.length = es.length ∧
            (∀ (k : Nat) (b : Assign), as[k]? = some b → DocValid x (withGroups d) b ∧ (natText k, entryText order b) ∈ es) ∧
            as.Pairwise (fun b c => ∃ z ∈ d.attrs, attrValue z b ≠ attrValue z c) ∧
            ∀ b, DocValid x (withGroups d) b → ∃ c ∈ as, ∀ z ∈ d.attrs, attrValue z b = attrValue z c) := by
  have hv : ∀ b, DescValid M.floats (withGroups d) b ↔ DocValid x (withGroups d) b := by
    intro b
    rw [hM]
    exact C87_valid_partial (d := withGroups d) hok hd.attrs hn b
  have hc : DescClear M.floats (withGroups d) := by
    rw [hM]
    exact stepped_clear (d := withGroups d) hok hd.attrs hn hp
  obtain ⟨k, h⟩ := C64_writes_all_partial hf ht hfile hx hy hok hd hk hc hxor hh hO ho hstd hopen
  refine ⟨k, fun fuel hk => ?_⟩
  rcases h fuel hk with ⟨h1, h2⟩ | ⟨⟨b, hb⟩, order, es, fs', hw, h2, h3⟩
  · exact .inl ⟨fun ⟨b, hb⟩ => h1 ⟨b, (hv b).2 hb⟩, h2⟩
  · obtain ⟨as, e1, e2, e3, e4⟩ := hw.entries
    exact .inr ⟨⟨b, (hv b).1 hb⟩, es, fs', order, hw.perm, h2, h3, hw.keys, as, e1,
      fun k b hb => ⟨(hv b).1 (e2 k b hb).1, (e2 k b hb).2⟩, e3, fun b hb => e4 b ((hv b).2 hb)⟩

/-- For an option without values, the loop of the solver never ends well. -/
theorem no_number_loop {o : DocOption} (ho : o.Ok) (h : NoNumber o) : ∃ lo hi st,
    (o.attr true).kind = .numeric (.range lo hi) st ∧ ∀ fuel vs, rangeLoop (ieee pow) st hi fuel lo [] ≠ .values vs := by
  cases h with
  | noStep hv hs hle =>
    refine ⟨_, _, none, by rw [number_kind, hv, hs]; rfl, fun fuel vs => ?_⟩
    cases fuel with
    | zero => simp [rangeLoop]
    | succ fuel => simp [rangeLoop, hle]
  | small hv hs ht hn hd hlo hlo' hle =>
    obtain ⟨g, hg, hr⟩ := C84_small_step_never_ends (pow := pow) ht hn hd hlo hlo' hle
    obtain ⟨_, hf⟩ := ho.step _ _ hs
    rw [hg] at hf
    cases hf
    exact ⟨_, _, some _, by rw [number_kind, hv, hs]; rfl, fun fuel vs => by rw [hr]; nofun⟩
  | @doubled hi f hv hs hle =>
    obtain ⟨g, hg, hr⟩ := C84_negative_doubling_overflows (pow := pow)
    obtain ⟨_, hf⟩ := ho.step _ _ hs
    rw [hg] at hf
    cases hf
    refine ⟨-1, hi, some _, by rw [number_kind, hv, hs]; rfl, fun fuel vs h => ?_⟩
    have h1 := hr hi (fuel + 64) hle (by omega)
    have h2 := ends_of_values h
    obtain ⟨ws, _, k, h3⟩ := rangeLoop_ends h2
    have h4 := h3 (max k 64) (by omega) []
    rw [hr hi (max k 64) hle (by omega)] at h4
    cases h4

/-- The claim is false for documents that have an option of the other sort, even when nothing else is wrong
    with them: they are read without a complaint, but asking for their configurations crashes or does not
    end. -/
theorem C87_no_configurations {y : Xml} {text : Str} (hM : M.floats = ieee pow) (hf : a.file ≠ []) (ht : a.type = .all) (hfile : fs a.file = some text)
    (hx : M.xml text = some y) (hy : LaidOut x y) (hok : x.Ok M.sci) (hd : DocDescribes M.cwd x d) (hk : ConstraintsKnown d)
    (hh : ∀ i, M.heap.heap i ≠ none → i < M.heap.next) {o : DocOption} (ho : x.Number o) (hn : NoNumber o) (fuel : Nat) :
    (∃ m, loadFeatureModel M fs a.file = .built m ∧ ∀ E O,
      (initSolver E (ieee pow) fuel m = .crash ∧ getAllConfigs E (ieee pow) O fuel m = .crash) ∨
      (initSolver E (ieee pow) fuel m = .endless ∧ getAllConfigs E (ieee pow) O fuel m = .endless)) ∧
    (generate M fuel fs a = .crash ∨ generate M fuel fs a = .endless) := by
  obtain ⟨m, gs, hl, hm, hgs⟩ := C57_any_layout_partial hh M.env hok hd hk hy
  have hl' : loadFeatureModel M fs a.file = .built m := by simp only [loadFeatureModel, hfile, hx]; exact hl
  obtain ⟨lo, hi, st, hkind, hloop⟩ := no_number_loop (pow := pow) (option_ok hok ho.1) hn
  have hattrs : ∀ z ∈ ({ d with groups := gs } : Desc).attrs, z.kind ≠ .unknown := by
    intro z hz e
    have hz : z ∈ x.attrs := hd.attrs ▸ hz
    simp only [Doc.attrs, List.mem_map] at hz
    obtain ⟨⟨b, o⟩, _, rfl⟩ := hz
    cases b <;> cases e
  obtain ⟨i, f, p, f1, f2, f3, _⟩ := hm.feat (o.attr true) (by
    show _ ∈ d.attrs
    rw [hd.attrs]
    exact (numeric_attr.2 ⟨o, ho, rfl⟩).1)
  have hkinds : ∀ i f, Known m i → data m i = some (.feat f) → f.attr.kind ≠ .unknown := by
    intro i f hi' hdat e
    rcases hm.attr_of (hm.wf.entry_mem hi' hdat) hdat with ⟨_, _, e'⟩ | ⟨c, hc, e', _⟩
    · rw [e'] at e; cases e
    · rw [e'] at e; exact hattrs c hc e
  have hinit : ∀ E, initSolver E (ieee pow) fuel m = .crash ∨ initSolver E (ieee pow) fuel m = .endless := by
    intro E
    rcases load_bad_range (F := ieee pow) hm.wf E fuel hkinds (known_of_mem f1) f2 (by rw [f3]; exact hkind) (hloop fuel) with h | ⟨h, _⟩
    · exact .inl h
    · exact .inr h
  refine ⟨⟨m, hl', fun E O => ?_⟩, ?_⟩
  · rcases hinit E with h | h
    · exact .inl ⟨h, by unfold getAllConfigs; rw [h]⟩
    · exact .inr ⟨h, by unfold getAllConfigs; rw [h]⟩
  · unfold generate
    rw [if_neg hf, show verifyFeatureModel M fs a.file = true by simp [verifyFeatureModel, hfile, hx], if_neg (by simp), hl', ht]
    dsimp only
    rw [if_neg (by simp), hM]
    unfold getAllConfigs
    rcases hinit M.env with h | h
    · rw [h]; exact .inl rfl
    · rw [h]; exact .inr rfl

/-! ## The hypotheses are met -/

/-- The root and a number with a range from 1 to 10, with a step function or without. -/
def steppedOption (st : Option (Str × StepFn)) : DocOption :=
  { name := c!"N", output := some c!"-n ", values := some (.range 1 10), step := st }

def steppedDoc (st : Option (Str × StepFn)) : Spec.Doc where
  name := c!"M"
  binary := [{ name := c!"root" }]
  numeric := some [steppedOption st]

def steppedDesc (st : Option (Str × StepFn)) : Desc where
  name := c!"M"
  path := c!"/home"
  commit := []
  root := c!"root"
  attrs := [(steppedOption st).attr true]
  parent := fun _ => c!"root"
  groups := []
  constraints := []

/-- `x + 3` -/
def threeMore : Str × StepFn := (c!"x + 3", ⟨.var c!"x", .addition, .num (some ⟨3, 0⟩)⟩)

theorem threeMore_text : StepText threeMore.1 c!"x" .addition c!"3" := step_text_of (by decide) .add

theorem threeMore_parsed : parseStepText threeMore.1 = .ok threeMore.2 := by decide

theorem steppedDoc_ok {st : Option (Str × StepFn)} (hst : ∀ t f, st = some (t, f) → Solid t ∧ parseStepText t = .ok f) (sci : Str → Option Str) :
    (steppedDoc st).Ok sci where
  name := .inr (solid_of (s := c!"M") (by decide))
  path := by intro t h; cases h
  commit := by intro t h; cases h
  binary := by
    intro o ho
    simp only [steppedDoc, List.mem_cons, List.not_mem_nil, or_false] at ho
    subst ho
    refine ⟨solid_of (by decide), ?_, ?_, ?_, ?_, ?_, ?_, ?_, ?_⟩ <;> simp
  numeric := by
    intro l hl o ho
    cases hl
    simp only [List.mem_cons, List.not_mem_nil, or_false] at ho
    subst ho
    refine ⟨solid_of (s := c!"N") (by decide), ?_, ?_, ?_, ?_, ?_, ?_, hst, ?_⟩ <;> simp [steppedOption]
    · decide
    · exact ⟨⟨by decide, by decide⟩, by decide, by decide⟩
  constraints := by
    intro cl l hl
    cases hl

theorem steppedDoc_says (st : Option (Str × StepFn)) : DocDescribes c!"/home" (steppedDoc st) (steppedDesc st) where
  name := rfl
  path := rfl
  commit := rfl
  root := .inr rfl
  attrs := rfl
  distinct := by simp [steppedDoc, Doc.attrs, Doc.options, steppedOption, isRootName]
  parent := by simp [steppedDoc, Doc.options, steppedOption]
  children := by simp [steppedDoc, Doc.options, steppedOption]
  no_parent := by simp [steppedDesc]
  acyclic := ⟨fun n => if n = c!"root" then 0 else 1, by
    intro a ha
    rw [List.mem_singleton.1 (show a ∈ [(steppedOption st).attr true] from ha)]
    show (if c!"root" = c!"root" then 0 else 1) < if c!"N" = c!"root" then 0 else 1
    decide⟩
  groups := rfl
  constraints := rfl

theorem steppedDesc_groups (st : Option (Str × StepFn)) : ∀ g, g ∉ (withGroups (steppedDesc st)).groups := by
  classical
  intro g hg
  simp only [withGroups, List.mem_map, List.mem_filter, decide_eq_true_eq] at hg
  obtain ⟨n, ⟨_, hn⟩, _⟩ := hg
  have : ((steppedDesc st).kids n).length ≤ 1 := List.length_filter_le _ _
  exact absurd hn.many (by omega)

theorem steppedDesc_plain (st : Option (Str × StepFn)) : DescPlain (withGroups (steppedDesc st)) where
  root := show Char.ofNat 0 ∉ c!"root" by decide
  names := by
    intro x hx
    rw [List.mem_singleton.1 (show x ∈ [(steppedOption st).attr true] from hx)]
    show Char.ofNat 0 ∉ c!"N"
    decide
  leaves := nofun
  kinds := by
    intro x hx
    rw [List.mem_singleton.1 (show x ∈ [(steppedOption st).attr true] from hx)]
    nofun
  parents := by
    intro x hx
    rw [List.mem_singleton.1 (show x ∈ [(steppedOption st).attr true] from hx)]
    nofun
  owners := fun g hg => absurd hg (steppedDesc_groups st g)
  members := fun g hg => absurd hg (steppedDesc_groups st g)
  nonempty := fun g hg => absurd hg (steppedDesc_groups st g)
  sorts := nofun

theorem steppedDoc_number {st : Option (Str × StepFn)} {o : DocOption} : (steppedDoc st).Number o ↔ o = steppedOption st := by
  simp only [Doc.Number, steppedDoc, Doc.options]
  constructor
  · rintro ⟨h, _⟩
    simpa using h
  · rintro rfl
    exact ⟨by simp, show isRootName c!"N" = false by decide⟩

theorem threeMore_numbers : NumberOf (steppedOption (some threeMore)) (fun v => v ≤ 10 ∧ ∃ i : Nat, v = 1 + i * (3 : Nat)) :=
  .sum (k := 3) (d := ⟨3, 0⟩) rfl rfl threeMore_text
    (.inl ⟨⟨'x', [], rfl, by decide, by simp⟩, .int (by simp) (by decide)⟩) (by decide) (by decide) (by decide) (by decide) (by decide)

theorem threeMore_valid (b : Assign) : DocValid (steppedDoc (some threeMore)) (withGroups (steppedDesc (some threeMore))) b ↔
    b.bool c!"root" = true ∧ b.int c!"N" ∈ [(1 : Int), 4, 7, 10] := by
  have hv : ∀ v : Int, (v ≤ 10 ∧ ∃ i : Nat, v = 1 + i * (3 : Nat)) ↔ v ∈ [(1 : Int), 4, 7, 10] := by
    intro v
    simp only [List.mem_cons, List.not_mem_nil, or_false]
    constructor
    · rintro ⟨h, i, rfl⟩; omega
    · intro h
      exact ⟨by omega, ((v - 1) / 3).toNat, by omega⟩
  have hone : ∀ x, x ∈ (withGroups (steppedDesc (some threeMore))).attrs → x = (steppedOption (some threeMore)).attr true :=
    fun x hx => List.mem_singleton.1 hx
  constructor
  · intro v
    exact ⟨v.root, (hv _).1 (v.numeric _ _ (steppedDoc_number.2 rfl) threeMore_numbers)⟩
  · rintro ⟨h1, h2⟩
    refine ⟨h1, ?_, ?_, fun n hn => absurd hn (steppedDesc_groups _ _), fun n hn => absurd hn (steppedDesc_groups _ _), ?_, nofun⟩
    · intro x hx hk; rw [hone x hx] at hk; cases hk
    · intro x hx hk; rw [hone x hx] at hk; cases hk
    · intro o P ho hP
      rw [steppedDoc_number.1 ho] at hP ⊢
      have ok : (steppedOption (some threeMore)).Ok := option_ok (sci := fun _ => none)
        (steppedDoc_ok (by rintro _ _ ⟨⟩; exact ⟨solid_of (by decide), threeMore_parsed⟩) _) (steppedDoc_number.2 rfl).1
      refine ((C87_values_partial (pow := somePow) ok hP (number_kind _)).1 _).1 ?_
      exact ((C87_values_partial (pow := somePow) ok threeMore_numbers (number_kind _)).1 _).2 ((hv _).2 h2)

/-- For a number from 1 to 10 in steps of 3 the generator writes four configurations. -/
theorem C87_four_configurations (hM : M.floats = ieee pow) (hf : a.file ≠ []) (ht : a.type = .all) {text : Str} (hfile : fs a.file = some text)
    (hx : M.xml text = some (steppedDoc (some threeMore)).toXml) (hh : ∀ i, M.heap.heap i ≠ none → i < M.heap.next) (hcwd : M.cwd = c!"/home")
    (hO : ∀ k ts, M.oracle.check k ts ≠ .unknown) (ho : a.out ≠ []) (hstd : a.out ≠ c!"-") (hopen : M.canOpen a.out = true) :
    ∃ k, ∀ fuel, k ≤ fuel → ∃ fs' es, generate M fuel fs a = .exit 0 fs' [] ∧ fs' a.out = some (M.yaml es) ∧ es.length = 4 := by
  obtain ⟨k, h⟩ := C87_generator_partial (d := steppedDesc (some threeMore)) hM hf ht hfile hx (.inl rfl)
    (steppedDoc_ok (by rintro _ _ ⟨⟩; exact ⟨solid_of (by decide), threeMore_parsed⟩) _) (hcwd ▸ steppedDoc_says _) nofun
    (fun o ho => ⟨_, steppedDoc_number.1 ho ▸ threeMore_numbers⟩) (steppedDesc_plain _) nofun hh hO ho hstd hopen
  refine ⟨k, fun fuel hk => ?_⟩
  rcases h fuel hk with ⟨hn, _⟩ | ⟨_, es, fs', order, _, h1, h2, _, as, e1, e2, e3, e4⟩
  · exact absurd ⟨⟨fun _ => true, fun _ => 1, fun _ => 0⟩, (threeMore_valid _).2 ⟨rfl, by decide⟩⟩ hn
  · refine ⟨fs', es, h1, h2, ?_⟩
    have hone : ∀ x, x ∈ (steppedDesc (some threeMore)).attrs → x = (steppedOption (some threeMore)).attr true :=
      fun x hx => List.mem_singleton.1 hx
    have hval : ∀ b c : Assign, attrValue ((steppedOption (some threeMore)).attr true) b = attrValue ((steppedOption (some threeMore)).attr true) c ↔
        b.int c!"N" = c.int c!"N" := by
      intro b c
      show ZVal.int (b.int c!"N") = ZVal.int (c.int c!"N") ↔ _
      simp
    have hnd : (as.map fun b => b.int c!"N").Nodup := by
      refine List.pairwise_map.2 (e3.imp ?_)
      rintro b c ⟨z, hz, hne⟩ e
      rw [hone z hz] at hne
      exact hne ((hval b c).2 e)
    have hmem : ∀ v, v ∈ as.map (fun b => b.int c!"N") ↔ v ∈ [(1 : Int), 4, 7, 10] := by
      intro v
      constructor
      · intro hv
        obtain ⟨b, hb, rfl⟩ := List.mem_map.1 hv
        obtain ⟨i, hi⟩ := List.getElem?_of_mem hb
        exact ((threeMore_valid b).1 (e2 i b hi).1).2
      · intro hv
        obtain ⟨c, hc, he⟩ := e4 ⟨fun _ => true, fun _ => v, fun _ => 0⟩ ((threeMore_valid _).2 ⟨rfl, hv⟩)
        exact List.mem_map.2 ⟨c, hc, ((hval _ c).1 (he _ (List.mem_singleton.2 rfl))).symm⟩
    have hp := (List.perm_ext_iff_of_nodup hnd (by decide)).2 hmem
    rw [← e1, ← List.length_map (f := fun b : Assign => b.int c!"N"), hp.length_eq]
    rfl

/-- Without the step function it ends with a crash or not at all. -/
example (hM : M.floats = ieee pow) (hf : a.file ≠ []) (ht : a.type = .all) {text : Str} (hfile : fs a.file = some text)
    (hx : M.xml text = some (steppedDoc none).toXml) (hh : ∀ i, M.heap.heap i ≠ none → i < M.heap.next) (hcwd : M.cwd = c!"/home")
    (fuel : Nat) : generate M fuel fs a = .crash ∨ generate M fuel fs a = .endless :=
  (C87_no_configurations (d := steppedDesc none) hM hf ht hfile hx (.inl rfl) (steppedDoc_ok (fun _ _ h => by cases h) _) (hcwd ▸ steppedDoc_says _) nofun hh
    (steppedDoc_number.2 rfl) (.noStep (lo := 1) (hi := 10) rfl rfl (by decide)) fuel).2

end Verif.Props

import Verif.Solver.Lazy
/-!
# A solver filled by hand

`Solver` can be used without a factory: features, groups and constraints are added call by call, and
configurations asked for in between.
-/

namespace Verif
open Verif.Spec Verif.FModel Verif.Z3Solver

/-! ## The code -/

/-- Calls of a solver (Solver.h:28-131).  The features, groups and constraints are those of a model. -/
inductive Tell
  | bool (n : Str)
  | int (n : Str) (vs : List Int)
  | feature (i : Id) (inGroup : Bool)
  | group (r : Id)
  | constraint (c : Stored)
  | mixed (c : Stored)
  | remove (i : Id)
  | next | current | valid

/-- A call that adds something. -/
def SRes.reply : SRes → Option (Reply × Z3Solver)
  | .ok s => some (.done, s)
  | .err e s => some (.error e, s)
  | _ => none

/-- One call (Z3Solver.cpp:9-192, 233-248); `none`: it does not return. -/
def Z3Solver.tell (F : IntFloats) (fuel : Nat) (m : FModel) (O : Oracle) (s : Z3Solver) : Tell → Option (Reply × Z3Solver)
  | .bool n => (s.addBool n).reply
  | .int n vs => (s.addInt n vs).reply
  | .feature i g => (addFeature F fuel m s i g).reply
  | .group r => (addRelationship m s r).reply
  | .constraint c => (addConstraint m s c).reply
  | .mixed c => (addMixed m s c).reply
  | .remove _ => some (.error .notSupported, s)
  | .next => s.ask m O .next
  | .current => s.ask m O .current
  | .valid => s.ask m O .valid

/-- A sequence of calls. -/
def Z3Solver.tells (F : IntFloats) (fuel : Nat) (m : FModel) (O : Oracle) (s : Z3Solver) : List Tell → Option (List Reply × Z3Solver)
  | [] => some ([], s)
  | q :: qs =>
    match s.tell F fuel m O q with
    | none => none
    | some (r, s) => (s.tells F fuel m O qs).map fun (rs, s) => (r :: rs, s)

/-! ## What is expected -/

namespace Spec

/-- The value of an option, given by its name and kind. -/
def valueAs (a : Assign) : Str × ZSort → ZVal
  | (n, .bool) => .bool (a.bool n)
  | (n, .int) => .int (a.int n)

/-- The configuration has exactly these options, with the values the assignment gives them. -/
structure ShowsOpts (opts : List (Str × ZSort)) (a : Assign) (c : Config) : Prop where
  has : ∀ e ∈ opts, c.value e.1 = some (written (valueAs a e))
  only : ∀ n, c.value n ≠ none → ∃ e ∈ opts, e.1 = n

/-- The assignment gives the options of the configuration the values they have there. -/
def Agrees (opts : List (Str × ZSort)) (a : Assign) (d : Config) : Prop :=
  ∀ e ∈ opts, ∀ t, d.value e.1 = some t → t = written (valueAs a e)

/-- The options added, what has to hold, and the configurations given. -/
structure Hand where
  opts : List (Str × ZSort)
  holds : Assign → Prop
  given : List Config

def Hand.has (p : Hand) (n : Str) : Prop := ∃ e ∈ p.opts, e.1 = n

/-- The next configuration: of the options added so far, with what has to hold, and agreeing with none of
    those given; or there is no other. -/
inductive HNext (p : Hand) : Reply → Hand → Prop
  | another {a c} : p.holds a → ShowsOpts p.opts a c → (∀ d ∈ p.given, ¬ Agrees p.opts a d) →
      HNext p (.config c) { p with given := p.given ++ [c] }
  | none : (∀ a, p.holds a → ∃ d ∈ p.given, Agrees p.opts a d) → HNext p (.error .unsat) p

/-- The current configuration: the one given last, with some values for options added since. -/
inductive HCurrent (p : Hand) : Reply → Hand → Prop
  | last {c d a} : p.given.getLast? = some c → ShowsOpts p.opts a d → (∀ n t, c.value n = some t → d.value n = some t) →
      HCurrent p (.config d) p
  | first {r q} : p.given = [] → HNext p r q → HCurrent p r q

/-- The kind of option a feature is. -/
def optSort (f : Feat) : ZSort :=
  match f.attr.kind with
  | .numeric _ _ => .int
  | _ => .bool

/-- All parents of the feature are options. -/
def ParentsIn (m : FModel) (p : Hand) (i : Id) : Prop := ∀ q g, FParent m i q → data m q = some (.feat g) → p.has g.attr.name

inductive HStep (F : IntFloats) (m : FModel) (p : Hand) : Tell → Reply → Hand → Prop
  | bool {n} : ¬ p.has n → HStep F m p (.bool n) .done { p with opts := p.opts ++ [(n, .bool)] }
  | boolAgain {n} : p.has n → HStep F m p (.bool n) (.error .alreadyPresent) p
  | int {n vs} : ¬ p.has n →
      HStep F m p (.int n vs) .done { p with opts := p.opts ++ [(n, .int)], holds := fun a => p.holds a ∧ a.int n ∈ vs }
  | intAgain {n vs} : p.has n → HStep F m p (.int n vs) (.error .alreadyPresent) p
  | feature {i g f} : data m i = some (.feat f) → ParentsIn m p i → ¬ p.has f.attr.name →
      HStep F m p (.feature i g) .done
        { p with opts := p.opts ++ [(f.attr.name, optSort f)], holds := fun a => p.holds a ∧ FeatOk F m a i g }
  | noParent {i g} : ¬ ParentsIn m p i → HStep F m p (.feature i g) (.error .parentNotPresent) p
  | featureAgain {i g f} : data m i = some (.feat f) → ParentsIn m p i → p.has f.attr.name →
      HStep F m p (.feature i g) (.error .alreadyPresent) p
  | group {r} : HStep F m p (.group r) .done { p with holds := fun a => p.holds a ∧ RelOk m a r }
  | constraint {c} : HStep F m p (.constraint c) .done
      { p with holds := fun a => p.holds a ∧ meaning (value m a) a.div0 (notBoth c.tree) = some (.bool true) }
  | mixed {c} : HStep F m p (.mixed c) .done
      { p with holds := fun a => p.holds a ∧ MixedHolds m a { c with tree := notBoth c.tree } }
  | remove {i} : HStep F m p (.remove i) (.error .notSupported) p
  | next {r q} : HNext p r q → HStep F m p .next r q
  | current {r q} : HCurrent p r q → HStep F m p .current r q
  | valid {b} : p.given = [] → (b = true ↔ ∃ a, p.holds a) → HStep F m p .valid (.bool b) p
  | late : p.given ≠ [] → HStep F m p .valid (.error .illegalState) p

/-- A Boolean feature whose parent has been added as a number. -/
def Misfit (m : FModel) (p : Hand) (i : Id) : Prop :=
  ∃ f q g, data m i = some (.feat f) ∧ f.attr.kind = .binary ∧ FParent m i q ∧ data m q = some (.feat g) ∧
    (g.attr.name, ZSort.int) ∈ p.opts ∧ ¬ p.has f.attr.name

/-- A sequence of calls; `none`: a Boolean feature is added below a number, which Z3 refuses. -/
inductive HSteps (F : IntFloats) (m : FModel) : Hand → List Tell → Option (List Reply) → Prop
  | nil {p} : HSteps F m p [] (some [])
  | cons {p q a r as rs} : HStep F m p a r q → HSteps F m q as rs → HSteps F m p (a :: as) (rs.map (r :: ·))
  | misfit {p i g as} : Misfit m p i → HSteps F m p (.feature i g :: as) none

/-- Calls with proper names and with features, groups and constraints of the model. -/
def TellOk (m : FModel) : Tell → Prop
  | .bool n => Char.ofNat 0 ∉ n
  | .int n _ => Char.ofNat 0 ∉ n
  | .feature i _ => Known m i
  | .group r => r ∈ m.rels
  | .constraint c => Tellable m c
  | .mixed c => sortOf (fun _ => .int) c.tree = some .bool ∧ (∀ n ∈ c.tree.features, Char.ofNat 0 ∉ n) ∧
      BindsOk m c.tree.features c.binds ∧ c.info ≠ none
  | _ => True

end Spec

/-! ## Proofs -/

/-- The entry of an option. -/
def optOf (e : Str × ZSort) : Str × ZTerm :=
  (e.1, match e.2 with | .bool => .boolConst e.1 | .int => .intConst e.1)

theorem optOf_eval (e : Str × ZSort) (a : Assign) : (optOf e).2.eval a = valueAs a e := by
  obtain ⟨n, σ⟩ := e
  cases σ <;> rfl

theorem proj_optOf (o : List (Str × ZSort)) (a : Assign) : proj (o.map optOf) a = o.map (valueAs a) := by
  simp [proj, List.map_map, Function.comp_def, optOf_eval]

theorem constOptions_optOf (o : List (Str × ZSort)) : ConstOptions (o.map optOf) := by
  intro e he
  obtain ⟨⟨n, σ⟩, _, rfl⟩ := List.mem_map.1 he
  cases σ
  · exact ⟨n, .inl rfl⟩
  · exact ⟨n, .inr rfl⟩

theorem valueAs_sort (e : Str × ZSort) (a b : Assign) : (valueAs a e).sort = (valueAs b e).sort := by
  obtain ⟨n, σ⟩ := e
  cases σ <;> rfl

theorem configOf_showsOpts {o : List (Str × ZSort)} (hnd : (o.map Prod.fst).Nodup) (a : Assign) :
    ShowsOpts o a (configOf (o.map optOf) a) := by
  have hkeys : KeysNodup (o.map (fun e => (e.1, (e.1, valueAs a e)))) := by
    simp only [KeysNodup, List.map_map]
    exact hnd
  have hfold : configOf (o.map optOf) a =
      (o.map (fun e => (e.1, (e.1, valueAs a e)))).foldl
        (fun (c : Config) e => mapSet e.1 ((fun (x : Str × ZVal) => mkOption x.1 x.2.text) e.2) c) [] := by
    unfold configOf
    rw [List.foldl_map, List.foldl_map]
    simp only [optOf_eval]
    rfl
  have hfind := fun n => mapFind_foldl (fun (x : Str × ZVal) => mkOption x.1 x.2.text) _ hkeys [] n
  rw [← hfold] at hfind
  constructor
  · intro e he
    have h1 := hfind e.1
    rw [(mapFind_mem hkeys).2 (List.mem_map.2 ⟨e, he, rfl⟩)] at h1
    simp only [Config.value, h1, Option.map_some, mkOption, written_text, convert_written]
  · intro n hn
    have h1 := hfind n
    cases hm : mapFind n (o.map (fun e => (e.1, (e.1, valueAs a e)))) with
    | none =>
      rw [hm] at h1
      simp only [Config.value, h1, mapFind, Option.map_none] at hn
      exact absurd rfl hn
    | some v =>
      obtain ⟨e, he, heq⟩ := List.mem_map.1 ((mapFind_mem hkeys).1 hm)
      exact ⟨e, he, (Prod.mk.inj heq).1⟩

theorem mem_of_name {opts : List (Str × ZSort)} (hnd : (opts.map Prod.fst).Nodup) {e e' : Str × ZSort} (he : e ∈ opts) (he' : e' ∈ opts)
    (h : e.1 = e'.1) : e = e' := by
  induction opts with
  | nil => cases he
  | cons x xs ih =>
    rw [List.map_cons, List.nodup_cons] at hnd
    rcases List.mem_cons.1 he with rfl | h1 <;> rcases List.mem_cons.1 he' with rfl | h2
    · rfl
    · exact absurd (List.mem_map.2 ⟨e', h2, h.symm⟩) hnd.1
    · exact absurd (List.mem_map.2 ⟨e, h1, h⟩) hnd.1
    · exact ih hnd.2 h1 h2

/-- An assignment agrees with a configuration made from the first options exactly if it has the same
    values for these. -/
theorem agrees_iff {o r : List (Str × ZSort)} (hnd : ((o ++ r).map Prod.fst).Nodup) (a b : Assign) :
    Agrees (o ++ r) b (configOf (o.map optOf) a) ↔ o.map (valueAs b) = o.map (valueAs a) := by
  have hndo : (o.map Prod.fst).Nodup := by
    rw [List.map_append, List.nodup_append] at hnd
    exact hnd.1
  have hs := configOf_showsOpts hndo a
  rw [List.map_inj_left]
  constructor
  · intro h e he
    exact written_inj (valueAs_sort ..) (h e (List.mem_append_left _ he) _ (hs.has e he)).symm
  · intro h e he t ht
    obtain ⟨e', he', hn⟩ := hs.only e.1 (by rw [ht]; intro h; cases h)
    have := mem_of_name hnd (List.mem_append_left _ he') he hn
    subst this
    rw [hs.has e' he'] at ht
    rw [h e' he']
    exact (Option.some.inj ht).symm

/-- The solver after `p`. -/
structure HAt (p : Hand) (s : Z3Solver) : Prop where
  options : s.options = p.opts.map optOf
  names : (p.opts.map Prod.fst).Nodup
  given : ∃ ps : List (List (Str × ZSort) × Assign), p.given = ps.map (fun x => configOf (x.1.map optOf) x.2) ∧
    (∀ x ∈ ps, ∃ r, p.opts = x.1 ++ r) ∧ s.current = ps.getLast?.map Prod.snd ∧
    ∀ b, Sat b s.asserted ↔ p.holds b ∧ ∀ x ∈ ps, x.1.map (valueAs b) ≠ x.1.map (valueAs x.2)

theorem hat_next {O : Oracle} (hO : ∀ k ts, O.check k ts ≠ .unknown) {p : Hand} {s : Z3Solver} (h : HAt p s) :
    (∃ c s', s.getNext O = .ok c s' ∧ HNext p (.config c) { p with given := p.given ++ [c] } ∧
      HAt { p with given := p.given ++ [c] } s') ∨
    (∃ s', s.getNext O = .err .unsat s' ∧ HNext p (.error .unsat) p ∧ HAt p s') := by
  obtain ⟨ho, hnd, ps, hg, hpre, hcur, hsat⟩ := h
  unfold getNext
  cases hk : O.check s.checks s.asserted with
  | unknown => exact absurd hk (hO _ _)
  | unsat =>
    refine .inr ⟨_, rfl, .none fun a ha => ?_, ho, hnd, ps, hg, hpre, hcur, hsat⟩
    have hn := O.complete _ _ hk a
    rw [hsat] at hn
    have : ∃ x ∈ ps, x.1.map (valueAs a) = x.1.map (valueAs x.2) := Classical.byContradiction fun hx =>
      hn ⟨ha, fun b hb e => hx ⟨b, hb, e⟩⟩
    obtain ⟨x, hx, e⟩ := this
    obtain ⟨r, hr⟩ := hpre x hx
    refine ⟨_, hg ▸ List.mem_map.2 ⟨x, hx, rfl⟩, ?_⟩
    rw [hr] at hnd ⊢
    exact (agrees_iff hnd _ _).2 e
  | sat a =>
    have hs := (hsat a).1 (O.sound _ _ _ hk)
    refine .inl ⟨_, _, rfl, .another hs.1 (ho ▸ configOf_showsOpts hnd a) ?_, ho, hnd, ps ++ [(p.opts, a)], ?_, ?_, ?_, ?_⟩
    · intro d hd ha
      rw [hg] at hd
      obtain ⟨x, hx, rfl⟩ := List.mem_map.1 hd
      obtain ⟨r, hr⟩ := hpre x hx
      rw [hr] at hnd ha
      exact hs.2 x hx ((agrees_iff hnd _ _).1 ha)
    · simp [hg, ho]
    · intro x hx
      rcases List.mem_append.1 hx with hx | hx
      · exact hpre x hx
      · rw [List.mem_singleton.1 hx]; exact ⟨[], by simp⟩
    · simp
    · intro b
      rw [ho, sat_excluding (constOptions_optOf _), hsat, and_assoc, proj_optOf, proj_optOf]
      refine and_congr_right fun _ => ?_
      simp [List.mem_append, or_imp, forall_and]

theorem hat_current {O : Oracle} (hO : ∀ k ts, O.check k ts ≠ .unknown) {p : Hand} {s : Z3Solver} (h : HAt p s) :
    ∃ r q s', (s.getCurrent O).reply = some (r, s') ∧ HCurrent p r q ∧ HAt q s' := by
  obtain ⟨ps, hg, hpre, hcur, _⟩ := h.given
  cases hs : s.current with
  | none =>
    have has : ps = [] := by
      rw [hs] at hcur
      exact List.getLast?_eq_none_iff.1 (Option.map_eq_none_iff.1 hcur.symm)
    have hp : p.given = [] := by rw [hg, has]; rfl
    simp only [getCurrent, hs]
    rcases hat_next hO h with ⟨c, s', e, hn, ha⟩ | ⟨s', e, hn, ha⟩
    · exact ⟨_, _, _, by rw [e]; rfl, .first hp hn, ha⟩
    · exact ⟨_, _, _, by rw [e]; rfl, .first hp hn, ha⟩
  | some a =>
    simp only [getCurrent, hs]
    rw [hs] at hcur
    obtain ⟨x, hx, rfl⟩ := Option.map_eq_some_iff.1 hcur.symm
    refine ⟨_, p, s, rfl, .last (c := configOf (x.1.map optOf) x.2) (a := x.2) ?_ (h.options ▸ configOf_showsOpts h.names _) ?_, h⟩
    · rw [hg, List.getLast?_map, hx]; rfl
    · intro n t ht
      obtain ⟨r, hr⟩ := hpre x (List.mem_of_getLast? hx)
      have hnd := h.names
      rw [hr, List.map_append, List.nodup_append] at hnd
      have hso := configOf_showsOpts hnd.1 x.2
      obtain ⟨e, he, rfl⟩ := hso.only n (by rw [ht]; intro h; cases h)
      rw [hso.has e he] at ht
      rw [← ht, h.options]
      exact (configOf_showsOpts h.names x.2).has e (hr ▸ List.mem_append_left _ he)

theorem hat_valid {O : Oracle} (hO : ∀ k ts, O.check k ts ≠ .unknown) {F : IntFloats} {m : FModel} {p : Hand} {s : Z3Solver} (h : HAt p s) :
    ∃ r s', s.ask m O .valid = some (r, s') ∧ HStep F m p .valid r p ∧ HAt p s' := by
  obtain ⟨ho, hnd, ps, hg, hpre, hcur, hsat⟩ := h
  cases hs : s.current with
  | some a =>
    refine ⟨_, s, by simp only [ask, hasValid, hs, Option.isSome_some, if_true], .late ?_, ho, hnd, ps, hg, hpre, hcur, hsat⟩
    intro e
    rw [hg, List.map_eq_nil_iff] at e
    rw [e, hs] at hcur
    cases hcur
  | none =>
    have has : ps = [] := by
      rw [hs] at hcur
      exact List.getLast?_eq_none_iff.1 (Option.map_eq_none_iff.1 hcur.symm)
    subst has
    have hsat' : ∀ b, Sat b s.asserted ↔ p.holds b := by simpa using hsat
    cases hk : O.check s.checks s.asserted with
    | unknown => exact absurd hk (hO _ _)
    | unsat =>
      refine ⟨.bool false, { s with checks := s.checks + 1 }, by simp only [ask, hasValid, hs, hk, Option.isSome_none, Bool.false_eq_true, if_false],
        .valid hg ?_, ho, hnd, [], hg, hpre, hs.trans (hs.symm.trans hcur), hsat⟩
      simp only [Bool.false_eq_true, false_iff]
      rintro ⟨a, ha⟩
      exact O.complete _ _ hk a ((hsat' a).2 ha)
    | sat a =>
      refine ⟨.bool true, { s with checks := s.checks + 1 }, by simp only [ask, hasValid, hs, hk, Option.isSome_none, Bool.false_eq_true, if_false],
        .valid hg ?_, ho, hnd, [], hg, hpre, hs.trans (hs.symm.trans hcur), hsat⟩
      simp only [true_iff]
      exact ⟨a, (hsat' a).1 (O.sound _ _ _ hk)⟩

theorem hat_has {p : Hand} {s : Z3Solver} (h : HAt p s) (n : Str) : s.has n = true ↔ p.has n := by
  rw [has_iff, h.options, List.map_map, Hand.has]
  exact List.mem_map

/-- A call that only asserts. -/
theorem hat_assert {p : Hand} {s : Z3Solver} (h : HAt p s) {ts : List ZTerm} {P : Assign → Prop} (hts : ∀ a, Sat a ts ↔ P a) :
    HAt { p with holds := fun a => p.holds a ∧ P a } { s with asserted := s.asserted ++ ts } := by
  obtain ⟨ho, hnd, ps, hg, hpre, hcur, hsat⟩ := h
  refine ⟨ho, hnd, ps, hg, hpre, hcur, fun b => ?_⟩
  rw [show Sat b (s.asserted ++ ts) ↔ Sat b s.asserted ∧ Sat b ts from sat_append .., hsat, hts]
  constructor
  · rintro ⟨⟨h1, h2⟩, h3⟩; exact ⟨⟨h1, h3⟩, h2⟩
  · rintro ⟨⟨h1, h3⟩, h2⟩; exact ⟨⟨h1, h2⟩, h3⟩

/-- A call that adds an option and asserts. -/
theorem hat_option {p : Hand} {s : Z3Solver} (h : HAt p s) {e : Str × ZSort} (hn : ¬ p.has e.1) {ts : List ZTerm} {P : Assign → Prop}
    (hts : ∀ a, Sat a ts ↔ P a) :
    HAt { p with opts := p.opts ++ [e], holds := fun a => p.holds a ∧ P a }
      { s with options := s.options ++ [optOf e], asserted := s.asserted ++ ts } := by
  obtain ⟨ho, hnd, ps, hg, hpre, hcur, hsat⟩ := hat_assert h hts
  refine ⟨?_, ?_, ps, hg, ?_, hcur, hsat⟩
  · show s.options ++ [optOf e] = (p.opts ++ [e]).map optOf
    rw [h.options]; simp
  · show ((p.opts ++ [e]).map Prod.fst).Nodup
    rw [List.map_append, List.nodup_append]
    refine ⟨hnd, by simp, ?_⟩
    intro x hx y hy hxy
    obtain ⟨e', he', rfl⟩ := List.mem_map.1 hx
    simp only [List.map_cons, List.map_nil, List.mem_singleton] at hy
    exact hn ⟨e', he', hxy.trans hy⟩
  · intro x hx
    obtain ⟨r, hr⟩ := hpre x hx
    exact ⟨r ++ [e], by show p.opts ++ [e] = _; rw [show p.opts = x.1 ++ r from hr, List.append_assoc]⟩

theorem lookup_optOf {opts : List (Str × ZSort)} (hnd : (opts.map Prod.fst).Nodup) {e : Str × ZSort} (he : e ∈ opts) :
    (opts.map optOf).lookup e.1 = some (optOf e).2 := by
  obtain ⟨v, hv⟩ := lookup_some_of_mem (k := e.1) (v := (optOf e).2) (List.mem_map.2 ⟨e, he, rfl⟩ : _ ∈ opts.map optOf)
  obtain ⟨e', he', h⟩ := List.mem_map.1 (lookup_mem' hv)
  have h1 : (optOf e').1 = e.1 := congrArg Prod.fst h
  have := mem_of_name hnd he' he h1
  subst this
  rw [hv, show v = (optOf e').2 from (congrArg Prod.snd h).symm]

/-- Adding a feature of the model. -/
theorem hat_feature {F : IntFloats} {m : FModel} (w : WF m) (L : Clear F m) {fuel : Nat} {p : Hand} {s : Z3Solver} (h : HAt p s)
    {i : Id} (hi : Known m i) (hfuel : FuelOk F m fuel i) (inGroup : Bool) :
    (∃ r q s', (addFeature F fuel m s i inGroup).reply = some (r, s') ∧ HStep F m p (.feature i inGroup) r q ∧ HAt q s') ∨
    ((addFeature F fuel m s i inGroup).reply = none ∧ Misfit m p i) := by
  obtain ⟨f, hf⟩ := w.known_data hi
  obtain ⟨po, hpo, hpoi⟩ := parentFeature_spec w (.inl hi)
  have hnul := L.names _ _ (w.entry_mem hi hf)
  by_cases hpar : ParentsIn m p i
  · have hparent : ∃ pn : Option Str, s.parentPresent m po = some (pn, true) ∧
        (∀ q g, FParent m i q → data m q = some (.feat g) → pn = some g.attr.name) := by
      cases po with
      | none => exact ⟨none, rfl, fun p g h => by simp [← hpoi p] at h⟩
      | some q =>
        have hq := (hpoi q).1 rfl
        obtain ⟨g, hg⟩ := w.known_data (fparent_fst w (.inl hi) hq)
        refine ⟨some g.attr.name, ?_, ?_⟩
        · simp only [parentPresent, nameOf_of_data hg, Option.map_some, Option.some.injEq, Prod.mk.injEq, true_and]
          exact (hat_has h _).2 (hpar q g hq hg)
        · intro q' g' hq' hg'
          cases (hpoi q').2 hq'
          rw [hg] at hg'; cases hg'; rfl
    obtain ⟨pn, hpn, hpn1⟩ := hparent
    by_cases hhas : p.has f.attr.name
    · left
      refine ⟨.error .alreadyPresent, p, s, ?_, .featureAgain hf hpar hhas, h⟩
      unfold addFeature
      simp only [feat?_of_data hf, hpo]
      rw [hpn]
      simp only [(hat_has h _).2 hhas, if_true, SRes.reply]
    · have hname : s.has f.attr.name = false := by
        rw [Bool.eq_false_iff]
        exact fun h' => hhas ((hat_has h _).1 h')
      have hlook : ∀ t, (s.options ++ [(f.attr.name, t)]).lookup f.attr.name = some t := by
        intro t
        have : s.options.lookup f.attr.name = none := by
          unfold Z3Solver.has at hname
          simpa using hname
        rw [List.lookup_append, this]
        simp
      have hstep : HStep F m p (.feature i inGroup) .done
        { p with opts := p.opts ++ [(f.attr.name, optSort f)], holds := fun a => p.holds a ∧ FeatOk F m a i inGroup } :=
        .feature hf hpar hhas
      have fin : ∀ {ts : List ZTerm} {σ : ZSort}, optSort f = σ → (∀ a, Sat a ts ↔ FeatOk F m a i inGroup) →
          HAt { p with opts := p.opts ++ [(f.attr.name, optSort f)], holds := fun a => p.holds a ∧ FeatOk F m a i inGroup }
            { s with options := s.options ++ [optOf (f.attr.name, σ)], asserted := s.asserted ++ ts } := by
        rintro ts _ rfl hts
        exact hat_option h (e := (f.attr.name, optSort f)) hhas hts
      unfold addFeature
      simp only [feat?_of_data hf, hpo]
      rw [hpn]
      simp only [hname, Bool.false_eq_true, if_false]
      cases hkind : f.attr.kind with
      | unknown => exact absurd hkind (L.known i f hi hf)
      | root =>
        left
        simp only [addBool, hname, Bool.false_eq_true, if_false, cstr_id hnul, hlook]
        refine ⟨.done, _, _, by simp only [Z3Solver.assert, ZTerm.sort, if_true, SRes.reply]; rfl, hstep,
          fin (σ := .bool) (by simp [optSort, hkind]) fun a => ?_⟩
        constructor
        · intro h f' hf'
          rw [hf] at hf'; cases hf'
          refine ⟨fun _ => ?_, fun h => ?_, fun _ _ h => ?_⟩
          · have := h _ (List.mem_singleton.2 rfl)
            simpa [ZTerm.eval] using this
          · rw [hkind] at h; cases h
          · rw [hkind] at h; cases h
        · intro h t ht
          rw [List.mem_singleton.1 ht]
          simp [ZTerm.eval, (h f hf).1 hkind]
      | numeric vs st =>
        left
        have fin' : ∀ us : List Int, (∀ v, v ∈ us ↔ Allowed F vs st v) → ∃ r q s', (s.addInt f.attr.name us).reply = some (r, s') ∧
            HStep F m p (.feature i inGroup) r q ∧ HAt q s' := by
          intro us hus
          refine ⟨.done, _, _, by simp only [addInt, hname, Bool.false_eq_true, if_false, cstr_id hnul, SRes.reply]; rfl, hstep,
            fin (σ := .int) (by simp [optSort, hkind]) fun a => ?_⟩
          have hev := oneOf_eval (.intConst f.attr.name) a (a.int f.attr.name) rfl us
          constructor
          · intro h f' hf'
            rw [hf] at hf'; cases hf'
            refine ⟨fun h => ?_, fun h => ?_, fun vs' st' h' => ?_⟩
            · rw [hkind] at h; cases h
            · rw [hkind] at h; cases h
            · rw [hkind] at h'; cases h'
              have := h _ (List.mem_singleton.2 rfl)
              rw [hev] at this
              exact (hus _).1 (by simpa using this)
          · intro h t ht
            rw [List.mem_singleton.1 ht, hev]
            simpa using (hus _).2 ((h f hf).2.2 _ _ hkind)
        cases vs with
        | list vs => exact fin' vs (fun v => Iff.rfl)
        | range lo hi =>
          obtain ⟨us, h1, h2⟩ := hfuel f lo hi st hf hkind
          simp only [h2]
          exact fin' us h1
      | binary =>
        have hnr : m.root ≠ some i := by
          intro hr
          obtain ⟨r, g, h1, h2, h3, h4, _⟩ := w.root_ok
          rw [hr] at h1; cases h1
          rw [hf] at h3; cases h3
          rw [hkind] at h4; cases h4
        obtain ⟨q, hfp, hkp⟩ := w.has_fparent (.inl hi) hnr
        obtain ⟨g, hg⟩ := w.known_data hkp
        have hpe := hpn1 q g hfp hg
        subst hpe
        obtain ⟨e, he, hen⟩ := hpar q g hfp hg
        have hle : s.options.lookup g.attr.name = some (optOf e).2 := by
          rw [h.options, ← hen]; exact lookup_optOf h.names he
        have hlp : (s.options ++ [(f.attr.name, ZTerm.boolConst f.attr.name)]).lookup g.attr.name = some (optOf e).2 := by
          rw [List.lookup_append, hle]; rfl
        simp only [addBool, hname, Bool.false_eq_true, if_false, cstr_id hnul]
        obtain ⟨n, σ⟩ := e
        cases hen
        cases σ with
        | int =>
          right
          refine ⟨?_, f, q, g, hf, hkind, hfp, hg, he, hhas⟩
          simp only [linkParent, hlook, hlp, optOf]
          rfl
        | bool =>
          left
          obtain ⟨ts, h1, h2⟩ := linkParent_ok (s := { s with options := s.options ++ [(f.attr.name, ZTerm.boolConst f.attr.name)] })
            (n := f.attr.name) (pn := g.attr.name) (mandatory := !inGroup && !f.attr.opt) (hlook _) hlp
          refine ⟨.done, _, _, by rw [h1]; rfl, hstep, fin (σ := .bool) (by simp [optSort, hkind]) fun a => ?_⟩
          rw [h2]
          have hfu : ∀ p', FParent m i p' → p' = q := by
            intro p' hp'
            have e1 := (hpoi p').2 hp'
            have e2 := (hpoi q).2 hfp
            rw [e1] at e2; exact Option.some.inj e2
          constructor
          · rintro ⟨e1, e2⟩ f' hf'
            rw [hf] at hf'; cases hf'
            refine ⟨fun h => ?_, fun _ => ?_, fun _ _ h => ?_⟩
            · rw [hkind] at h; cases h
            · intro p' g' hp' hg'
              cases hfu p' hp'
              rw [hg] at hg'; cases hg'
              exact ⟨e1, fun a1 a2 => e2 (by simp [a1, a2])⟩
            · rw [hkind] at h; cases h
          · intro h
            obtain ⟨e1, e2⟩ := (h f hf).2.1 hkind q g hfp hg
            exact ⟨e1, fun hh => by
              simp only [Bool.and_eq_true, Bool.not_eq_true'] at hh
              exact e2 hh.1 hh.2⟩
  · left
    refine ⟨.error .parentNotPresent, p, s, ?_, .noParent hpar, h⟩
    obtain ⟨q, g, hq, hg, hno⟩ : ∃ q g, FParent m i q ∧ data m q = some (.feat g) ∧ ¬ p.has g.attr.name := by
      refine Classical.byContradiction fun hx => hpar fun q g hq hg => Classical.byContradiction fun hn => hx ⟨q, g, hq, hg, hn⟩
    have hpq := (hpoi q).2 hq
    subst hpq
    have : s.has g.attr.name = false := by
      rw [Bool.eq_false_iff]
      exact fun h' => hno ((hat_has h _).1 h')
    unfold addFeature
    simp only [feat?_of_data hf, hpo, parentPresent, nameOf_of_data hg, Option.map_some, this, SRes.reply]

theorem hat_steps {F : IntFloats} {m : FModel} (w : WF m) (L : Clear F m) {O : Oracle} (hO : ∀ k ts, O.check k ts ≠ .unknown)
    {fuel : Nat} (hfuel : ∀ i, Known m i → FuelOk F m fuel i) (qs : List Tell) (hq : ∀ q ∈ qs, TellOk m q) {p : Hand} {s : Z3Solver}
    (h : HAt p s) : HSteps F m p qs ((s.tells F fuel m O qs).map (·.1)) := by
  induction qs generalizing p s with
  | nil => exact .nil
  | cons a qs ih =>
    have go : ∀ {r s' q}, s.tell F fuel m O a = some (r, s') → HStep F m p a r q → HAt q s' →
        HSteps F m p (a :: qs) ((s.tells F fuel m O (a :: qs)).map (·.1)) := by
      intro r s' q e hs ha
      have := HSteps.cons hs (ih (fun q hq' => hq q (List.mem_cons_of_mem _ hq')) ha)
      simp only [Z3Solver.tells, e]
      rw [show (Option.map (fun x => x.fst) (Option.map (fun x => (r :: x.fst, x.snd)) (s'.tells F fuel m O qs))) =
        ((s'.tells F fuel m O qs).map (·.1)).map (r :: ·) by simp [Option.map_map, Function.comp_def]]
      exact this
    have hok := hq a (List.mem_cons_self ..)
    cases a with
    | bool n =>
      by_cases hn : p.has n
      · exact go (s' := s) (by simp only [tell, addBool, (hat_has h n).2 hn, if_true, SRes.reply]) (.boolAgain hn) h
      · have hf : s.has n = false := by rw [Bool.eq_false_iff]; exact fun h' => hn ((hat_has h _).1 h')
        refine go (s' := { s with options := s.options ++ [optOf (n, .bool)] }) ?_ (.bool hn) ?_
        · simp only [tell, addBool, hf, Bool.false_eq_true, if_false, cstr_id hok, SRes.reply]; rfl
        · have := hat_option h (e := (n, .bool)) hn (ts := []) (P := fun _ => True) (by simp [Sat])
          simpa using this
    | int n vs =>
      by_cases hn : p.has n
      · exact go (s' := s) (by simp only [tell, addInt, (hat_has h n).2 hn, if_true, SRes.reply]) (.intAgain hn) h
      · have hf : s.has n = false := by rw [Bool.eq_false_iff]; exact fun h' => hn ((hat_has h _).1 h')
        refine go (s' := { s with options := s.options ++ [optOf (n, .int)], asserted := s.asserted ++ [oneOf (.intConst n) vs] }) ?_ (.int hn) ?_
        · simp only [tell, addInt, hf, Bool.false_eq_true, if_false, cstr_id hok, SRes.reply]; rfl
        · refine hat_option h (e := (n, .int)) hn fun a => ?_
          have hev := oneOf_eval (.intConst n) a (a.int n) rfl vs
          simp only [Sat, List.mem_singleton, forall_eq, hev, ZVal.bool.injEq, decide_eq_true_eq]
    | feature i g =>
      rcases hat_feature w L h hok (hfuel i hok) g with ⟨r, q, s', e, hs, ha⟩ | ⟨e, hm⟩
      · exact go e hs ha
      · simp only [Z3Solver.tells, tell, e, Option.map_none]
        exact .misfit hm
    | group r =>
      obtain ⟨ts, e, hts⟩ := addRelationship_ok w L hok s
      exact go (by simp only [tell, e, SRes.reply]) .group (hat_assert h hts)
    | constraint c =>
      obtain ⟨ts, e, hts⟩ := addConstraint_coded w hok.sort hok.leaves hok.binds s
      exact go (by simp only [tell, e, SRes.reply]) .constraint (hat_assert h hts)
    | mixed c =>
      obtain ⟨h1, h2, h3, h4⟩ := hok
      obtain ⟨ts, e, hts⟩ := addMixed_coded w h1 h2 h3 h4 s
      exact go (by simp only [tell, e, SRes.reply]) .mixed (hat_assert h fun a => (hts a).trans mixedCoded_iff.symm)
    | remove i => exact go rfl .remove h
    | next =>
      rcases hat_next hO h with ⟨c, s', e, hn, ha⟩ | ⟨s', e, hn, ha⟩
      · exact go (by simp only [tell, ask, e]; rfl) (.next hn) ha
      · exact go (by simp only [tell, ask, e]; rfl) (.next hn) ha
    | current =>
      obtain ⟨r, q, s', e, hc, ha⟩ := hat_current hO h
      exact go e (.current hc) ha
    | valid =>
      obtain ⟨r, s', e, hs, ha⟩ := hat_valid hO h
      exact go e hs ha

end Verif

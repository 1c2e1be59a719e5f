import Verif.Solver.Hand
import Verif.Props.Lazy
/-!
# C94: a solver filled by hand
-/

namespace Verif.Props
open Verif Verif.Spec Verif.FModel Verif.Z3Solver

/-- Nothing added, nothing given. -/
def handStart : Hand := ⟨[], fun _ => True, []⟩

theorem hat_start : HAt handStart {} := by
  refine ⟨rfl, .nil, [], rfl, by simp, rfl, fun b => ?_⟩
  simp [Sat, handStart]

theorem hand_fuel {F : IntFloats} {m : FModel} (L : Clear F m) : ∃ k, ∀ fuel, k ≤ fuel → ∀ i, Known m i → FuelOk F m fuel i := by
  obtain ⟨k, h⟩ := exists_fuel (P := fun fuel i => FuelOk F m fuel i) (l := m.features.map Prod.snd) fun i hi => fuel_ok L hi
  exact ⟨k, fun fuel hf i hi => h fuel hf i hi⟩

/-- Whatever calls a solver gets, in whatever order, with features, groups and constraints of a model
    (exclusive or read as "not both"): it answers as the machine `HStep` says. -/
theorem C94_calls {F : IntFloats} {m : FModel} (w : WF m) (L : Clear F m) (O : Oracle) (hO : ∀ k ts, O.check k ts ≠ .unknown) :
    ∃ k, ∀ fuel, k ≤ fuel → ∀ qs, (∀ q ∈ qs, TellOk m q) →
      HSteps F m handStart qs ((Z3Solver.tells F fuel m O {} qs).map (·.1)) := by
  obtain ⟨k, h⟩ := hand_fuel L
  exact ⟨k, fun fuel hf qs hq => hat_steps w L hO (h fuel hf) qs hq hat_start⟩

/-! ## Without the machine -/

/-- A call that adds. -/
def Adding : Tell → Prop
  | .next | .current | .valid => False
  | _ => True

/-- What the call demands of a configuration. -/
def Demands (F : IntFloats) (m : FModel) (a : Assign) : Tell → Prop
  | .int n vs => a.int n ∈ vs
  | .feature i g => FeatOk F m a i g
  | .group r => RelOk m a r
  | .constraint c => meaning (value m a) a.div0 (notBoth c.tree) = some (.bool true)
  | .mixed c => MixedHolds m a { c with tree := notBoth c.tree }
  | _ => True

/-- The option the call adds. -/
def addedOpt (m : FModel) : Tell → List (Str × ZSort)
  | .bool n => [(n, .bool)]
  | .int n _ => [(n, .int)]
  | .feature i _ => match data m i with | some (.feat f) => [(f.attr.name, optSort f)] | _ => []
  | _ => []

theorem hstep_done {F : IntFloats} {m : FModel} {p q : Hand} {t : Tell} (h : HStep F m p t .done q) (ht : Adding t) :
    q.given = p.given ∧ q.opts = p.opts ++ addedOpt m t ∧ ∀ a, q.holds a ↔ p.holds a ∧ Demands F m a t := by
  cases h with
  | bool _ => exact ⟨rfl, rfl, fun a => by simp [Demands]⟩
  | int _ => exact ⟨rfl, rfl, fun a => Iff.rfl⟩
  | feature hf _ _ => exact ⟨rfl, by simp only [addedOpt, hf], fun a => Iff.rfl⟩
  | group => exact ⟨rfl, by simp [addedOpt], fun a => Iff.rfl⟩
  | constraint => exact ⟨rfl, by simp [addedOpt], fun a => Iff.rfl⟩
  | mixed => exact ⟨rfl, by simp [addedOpt], fun a => Iff.rfl⟩
  | next _ => exact ht.elim
  | current _ => exact ht.elim

theorem hsteps_cons {F : IntFloats} {m : FModel} {p : Hand} {t : Tell} {ts : List Tell} {r : Reply} {rs : List Reply}
    (h : HSteps F m p (t :: ts) (some (r :: rs))) : ∃ q, HStep F m p t r q ∧ HSteps F m q ts (some rs) := by
  generalize hx : some (r :: rs) = x at h
  cases h with
  | misfit _ => cases hx
  | cons h1 h2 =>
    obtain ⟨rs', rfl, he⟩ := Option.map_eq_some_iff.1 hx.symm
    cases he
    exact ⟨_, h1, h2⟩

theorem hsteps_adds {F : IntFloats} {m : FModel} {ts ts' : List Tell} (hts : ∀ t ∈ ts, Adding t) {p : Hand} {rs : List Reply}
    (h : HSteps F m p (ts ++ ts') (some (List.replicate ts.length .done ++ rs))) :
    ∃ q, HSteps F m q ts' (some rs) ∧ q.given = p.given ∧ q.opts = p.opts ++ ts.flatMap (addedOpt m) ∧
      ∀ a, q.holds a ↔ p.holds a ∧ ∀ t ∈ ts, Demands F m a t := by
  induction ts generalizing p with
  | nil => exact ⟨p, h, rfl, by simp, fun a => by simp⟩
  | cons t ts ih =>
    simp only [List.cons_append, List.length_cons, List.replicate_succ] at h
    obtain ⟨q, h1, h2⟩ := hsteps_cons h
    obtain ⟨e1, e2, e3⟩ := hstep_done h1 (hts t (List.mem_cons_self ..))
    obtain ⟨q', g1, g2, g3, g4⟩ := ih (fun t ht => hts t (List.mem_cons_of_mem _ ht)) h2
    refine ⟨q', g1, g2.trans e1, by rw [g3, e2]; simp, fun a => ?_⟩
    rw [g4, e3, and_assoc]
    simp

/-- After any calls that add, none of them refused: `hasValidConfigurations` says whether what they
    demand can be met.  So the order of the calls is of no importance. -/
theorem C94_valid {F : IntFloats} {m : FModel} (w : WF m) (L : Clear F m) (O : Oracle) (hO : ∀ k ts, O.check k ts ≠ .unknown) :
    ∃ k, ∀ fuel, k ≤ fuel → ∀ qs, (∀ q ∈ qs, TellOk m q ∧ Adding q) → ∀ s r,
      Z3Solver.tells F fuel m O {} (qs ++ [.valid]) = some (List.replicate qs.length .done ++ [r], s) →
      ∃ b, r = .bool b ∧ (b = true ↔ ∃ a, ∀ q ∈ qs, Demands F m a q) := by
  obtain ⟨k, h⟩ := C94_calls w L O hO
  refine ⟨k, fun fuel hf qs hq s r e => ?_⟩
  have hs := h fuel hf (qs ++ [.valid]) (by
    intro q hq'
    rcases List.mem_append.1 hq' with h' | h'
    · exact (hq q h').1
    · rw [List.mem_singleton.1 h']; trivial)
  rw [e] at hs
  obtain ⟨q, h1, h2, _, h4⟩ := hsteps_adds (fun t ht => (hq t ht).2) hs
  obtain ⟨q', h5, _⟩ := hsteps_cons h1
  cases h5 with
  | late hg => exact absurd h2 hg
  | valid _ hb => exact ⟨_, rfl, hb.trans (by simp only [h4, handStart, true_and])⟩

/-- What repeated requests for the next configuration give. -/
theorem hsteps_nexts {F : IntFloats} {m : FModel} {n : Nat} {p : Hand} {rs : List Reply} (h : HSteps F m p (List.replicate n .next) (some rs)) :
    ∃ new : List Config, rs = new.map .config ++ List.replicate (n - new.length) (.error .unsat) ∧ new.length ≤ n ∧
      (∀ c ∈ new, ∃ a, p.holds a ∧ ShowsOpts p.opts a c ∧ ∀ d ∈ p.given, ¬ Agrees p.opts a d) ∧
      new.Pairwise (fun d c => ∃ a, ShowsOpts p.opts a c ∧ ¬ Agrees p.opts a d) ∧
      (new.length < n → ∀ a, p.holds a → ∃ d ∈ p.given ++ new, Agrees p.opts a d) := by
  induction n generalizing p rs with
  | zero =>
    rw [List.replicate_zero] at h
    cases h
    exact ⟨[], by simp, by simp, by simp, .nil, by simp⟩
  | succ n ih =>
    rw [List.replicate_succ] at h
    cases rs with
    | nil =>
      generalize hx : (some ([] : List Reply)) = x at h
      cases h with
      | cons h1 h2 =>
        obtain ⟨rs', _, he⟩ := Option.map_eq_some_iff.1 hx.symm
        cases he
    | cons r rs =>
    obtain ⟨q, h1, h2⟩ := hsteps_cons h
    cases h1 with
    | next h1 =>
    cases h1 with
    | none hn =>
      obtain ⟨new, g1, g2, g3, g4, g5⟩ := ih h2
      have hnew : new = [] := by
        cases new with
        | nil => rfl
        | cons c new =>
          obtain ⟨a, h1, _, h3⟩ := g3 c (List.mem_cons_self ..)
          obtain ⟨d, hd, hd'⟩ := hn a h1
          exact absurd hd' (h3 d hd)
      subst hnew
      refine ⟨[], ?_, by simp, by simp, .nil, ?_⟩
      · rw [g1]
        simp [List.replicate_succ]
      · intro _ a ha
        simpa using hn a ha
    | @another a c hh hs hd =>
      obtain ⟨new, g1, g2, g3, g4, g5⟩ := ih h2
      refine ⟨c :: new, ?_, ?_, ?_, ?_, ?_⟩
      · rw [g1]
        simp
      · simpa using g2
      · intro c hc
        rcases List.mem_cons.1 hc with rfl | hc
        · exact ⟨_, hh, hs, hd⟩
        · obtain ⟨a, h1, h2, h3⟩ := g3 c hc
          exact ⟨a, h1, h2, fun d hd => h3 d (List.mem_append_left _ hd)⟩
      · refine List.pairwise_cons.2 ⟨fun d hd => ?_, g4⟩
        obtain ⟨a, _, h2, h3⟩ := g3 d hd
        exact ⟨a, h2, h3 _ (by simp)⟩
      · intro hu a ha
        obtain ⟨d, hd1, hd2⟩ := g5 (by simpa using hu) a ha
        exact ⟨d, by simpa using hd1, hd2⟩

/-- After any calls that add, none of them refused, `n` requests for the next configuration give
    configurations of the options added that meet what is demanded, all of them different; and if fewer
    than `n` come, `UNSAT` is said from then on and there is no other. -/
theorem C94_enumerates {F : IntFloats} {m : FModel} (w : WF m) (L : Clear F m) (O : Oracle) (hO : ∀ k ts, O.check k ts ≠ .unknown) :
    ∃ k, ∀ fuel, k ≤ fuel → ∀ qs, (∀ q ∈ qs, TellOk m q ∧ Adding q) → ∀ n s rs,
      Z3Solver.tells F fuel m O {} (qs ++ List.replicate n .next) = some (List.replicate qs.length .done ++ rs, s) →
      ∃ cs : List Config, rs = cs.map .config ++ List.replicate (n - cs.length) (.error .unsat) ∧ cs.length ≤ n ∧ cs.Pairwise Differ ∧
        (∀ c ∈ cs, ∃ a, (∀ q ∈ qs, Demands F m a q) ∧ ShowsOpts (qs.flatMap (addedOpt m)) a c) ∧
        (cs.length < n → ∀ a, (∀ q ∈ qs, Demands F m a q) → ∃ c ∈ cs, ShowsOpts (qs.flatMap (addedOpt m)) a c) := by
  obtain ⟨k, h⟩ := C94_calls w L O hO
  refine ⟨k, fun fuel hf qs hq n s rs e => ?_⟩
  have hs := h fuel hf (qs ++ List.replicate n .next) (by
    intro q hq'
    rcases List.mem_append.1 hq' with h' | h'
    · exact (hq q h').1
    · rw [(List.mem_replicate.1 h').2]; trivial)
  rw [e] at hs
  obtain ⟨q, h1, h2, h3, h4⟩ := hsteps_adds (fun t ht => (hq t ht).2) hs
  obtain ⟨new, g1, g2, g3, g4, g5⟩ := hsteps_nexts h1
  simp only [h4, handStart, true_and, List.nil_append] at g3 g5 h3
  have hgiven : q.given = [] := h2
  rw [h3] at g3 g4 g5
  rw [hgiven] at g5
  refine ⟨new, g1, g2, g4.imp ?_, fun c hc => ?_, fun hlt a ha => ?_⟩
  · rintro d c ⟨a, hs, hn⟩
    refine Classical.byContradiction fun hx => hn fun e he t ht => ?_
    have he' := hs.has e he
    have : d.value e.1 = c.value e.1 := Classical.byContradiction fun hne => hx ⟨_, hne⟩
    rw [← this, ht] at he'
    exact Option.some.inj he'
  · obtain ⟨a, h1, h2, _⟩ := g3 c hc
    exact ⟨a, h1, h2⟩
  · obtain ⟨d, hd, hag⟩ := g5 hlt a ha
    rw [List.nil_append] at hd
    obtain ⟨a', _, hs, _⟩ := g3 d hd
    refine ⟨d, hd, fun e he => ?_, hs.only⟩
    rw [hs.has e he, ← hag e he _ (hs.has e he)]

/-- The hypotheses are met: some features of the shop, by name and by object, in an odd order, with a
    constraint and a group. -/
example : (∀ q ∈ [Tell.bool c!"root", .int c!"X" [1, 2], .feature 3 true, .constraint notO, .group 1, .feature 2 true],
      TellOk shop q ∧ Adding q) ∧
    ∀ O, ∃ s, Z3Solver.tells exactFloats 9 shop O {}
      [.bool c!"root", .int c!"X" [1, 2], .feature 3 true, .constraint notO, .group 1, .feature 2 true] =
        some (List.replicate 6 .done, s) := by
  refine ⟨?_, fun O => ⟨_, rfl⟩⟩
  intro q hq
  simp only [List.mem_cons, List.not_mem_nil, or_false] at hq
  rcases hq with rfl | rfl | rfl | rfl | rfl | rfl
  · exact ⟨show Char.ofNat 0 ∉ c!"root" by decide, trivial⟩
  · exact ⟨show Char.ofNat 0 ∉ c!"X" by decide, trivial⟩
  · exact ⟨show 3 ∈ [0, 2, 3, 4, 5] by decide, trivial⟩
  · exact ⟨oneOfAO_tellable.2, trivial⟩
  · exact ⟨show 1 ∈ [1] by decide, trivial⟩
  · exact ⟨show 2 ∈ [0, 2, 3, 4, 5] by decide, trivial⟩

/-! ## What is promised but not done -/

/-- A constraint about features that have not been added is to be an error (Solver.h:85-91); it never is,
    nor is a group of such features. -/
theorem C94_unknown_features_accepted {F : IntFloats} {m : FModel} (w : WF m) (L : Clear F m) (O : Oracle) (fuel : Nat) :
    (∀ c, Tellable m c → ∃ s, Z3Solver.tells F fuel m O {} [.constraint c] = some ([.done], s)) ∧
    (∀ r ∈ m.rels, ∃ s, Z3Solver.tells F fuel m O {} [.group r] = some ([.done], s)) := by
  constructor
  · intro c hc
    obtain ⟨ts, e, _⟩ := addConstraint_coded w hc.sort hc.leaves hc.binds {}
    exact ⟨_, by simp only [Z3Solver.tells, tell, e, SRes.reply, Option.map_some]; rfl⟩
  · intro r hr
    obtain ⟨ts, e, _⟩ := addRelationship_ok w L hr {}
    exact ⟨_, by simp only [Z3Solver.tells, tell, e, SRes.reply, Option.map_some]; rfl⟩

/-- Such constraints and groups. -/
example : (Tellable shop oneOfAO ∧ oneOfAO.tree.features ≠ []) ∧ 1 ∈ shop.rels ∧ edg shop 1 ≠ [] :=
  ⟨⟨oneOfAO_tellable.1, by decide⟩, by decide, by decide⟩

/-- An oracle that answers with everything unselected and zero whenever it can. -/
noncomputable def lazyOracle : Oracle where
  check k ts := open Classical in if Sat ⟨fun _ => false, fun _ => 0, fun _ => 0⟩ ts then .sat ⟨fun _ => false, fun _ => 0, fun _ => 0⟩
    else idealOracle.check k ts
  sound k ts a h := by
    by_cases hs : Sat ⟨fun _ => false, fun _ => 0, fun _ => 0⟩ ts
    · rw [if_pos hs] at h
      cases h
      exact hs
    · rw [if_neg hs] at h
      exact idealOracle.sound k ts a h
  complete k ts h := by
    by_cases hs : Sat ⟨fun _ => false, fun _ => 0, fun _ => 0⟩ ts
    · rw [if_pos hs] at h
      cases h
    · rw [if_neg hs] at h
      exact idealOracle.complete k ts h

theorem lazyOracle_answers (k : Nat) (ts : List ZTerm) : lazyOracle.check k ts ≠ .unknown := by
  simp only [lazyOracle]
  split
  · simp
  · exact idealOracle_answers k ts

/-- The current configuration may show a value that a number added since cannot have. -/
theorem C94_current_shows_forbidden_value (F : IntFloats) (fuel : Nat) (m : FModel) : ∃ O : Oracle, (∀ k ts, O.check k ts ≠ .unknown) ∧
    ∃ c d s, Z3Solver.tells F fuel m O {} [.bool c!"A", .next, .int c!"N" [5, 6], .current] =
      some ([.done, .config c, .done, .config d], s) ∧ d.value c!"N" = some c!"0" := by
  refine ⟨lazyOracle, lazyOracle_answers, ?_⟩
  have h : lazyOracle.check 0 [] = .sat ⟨fun _ => false, fun _ => 0, fun _ => 0⟩ := by
    simp only [lazyOracle]
    rw [if_pos]
    intro t ht
    cases ht
  have e : ∃ s, Z3Solver.tells F fuel m lazyOracle {} [.bool c!"A", .next, .int c!"N" [5, 6], .current] =
      some ([.done, .config (configOf [optOf (c!"A", .bool)] ⟨fun _ => false, fun _ => 0, fun _ => 0⟩), .done,
        .config (configOf ([(c!"A", .bool), (c!"N", .int)].map optOf) ⟨fun _ => false, fun _ => 0, fun _ => 0⟩)], s) := by
    simp only [Z3Solver.tells, tell, ask, addBool, Z3Solver.has, List.lookup, Option.isSome_none, Bool.false_eq_true, if_false, SRes.reply,
      getNext, h, CRes.reply]
    exact ⟨_, rfl⟩
  obtain ⟨s, e⟩ := e
  refine ⟨_, _, s, e, ?_⟩
  rw [(configOf_showsOpts (by decide) _).has (c!"N", .int) (by simp)]
  simp [valueAs, written, natText]
  decide

/-- An option added after configurations have been given does not make them new: when all values of the
    options before have been given there is nothing more. -/
theorem C94_late_option_unsat {F : IntFloats} {m : FModel} (w : WF m) (L : Clear F m) (O : Oracle) (hO : ∀ k ts, O.check k ts ≠ .unknown) :
    ∃ k, ∀ fuel, k ≤ fuel → ∃ c d s, Z3Solver.tells F fuel m O {} [.bool c!"A", .next, .next, .bool c!"B", .next] =
      some ([.done, .config c, .config d, .done, .error .unsat], s) := by
  obtain ⟨k, h⟩ := C94_calls w L O hO
  refine ⟨k, fun fuel hf => ?_⟩
  have hs := h fuel hf [.bool c!"A", .next, .next, .bool c!"B", .next] (by
    intro q hq
    simp only [List.mem_cons, List.not_mem_nil, or_false] at hq
    rcases hq with rfl | rfl | rfl | rfl | rfl
    · exact show Char.ofNat 0 ∉ c!"A" by decide
    · trivial
    · trivial
    · exact show Char.ofNat 0 ∉ c!"B" by decide
    · trivial)
  generalize hx : (Z3Solver.tells F fuel m O {} [.bool c!"A", .next, .next, .bool c!"B", .next]).map (·.1) = x at hs
  have key : ∃ c d, x = some [.done, .config c, .config d, .done, .error .unsat] := by
    cases hs with
    | cons h1 hs =>
    cases h1 with
    | boolAgain h => obtain ⟨_, h, _⟩ := h; cases h
    | bool _ =>
    cases hs with
    | cons h2 hs =>
    cases h2 with
    | next h2 =>
    cases h2 with
    | none hn =>
      obtain ⟨_, h, _⟩ := hn ⟨fun _ => false, fun _ => 0, fun _ => 0⟩ trivial
      cases h
    | @another a1 c _ hs1 _ =>
    cases hs with
    | cons h3 hs =>
    cases h3 with
    | next h3 =>
    have hval : c.value c!"A" = some (written (.bool (a1.bool c!"A"))) := hs1.has (c!"A", .bool) (by simp [handStart])
    cases h3 with
    | none hn =>
      obtain ⟨d, hd, hag⟩ := hn ⟨fun _ => !a1.bool c!"A", fun _ => 0, fun _ => 0⟩ trivial
      simp only [handStart, List.nil_append, List.mem_singleton] at hd
      subst hd
      have := hag (c!"A", .bool) (by simp [handStart]) _ hval
      have := written_inj (v := .bool (a1.bool c!"A")) (w := .bool (!a1.bool c!"A")) rfl this
      simp at this
    | @another a2 d _ hs2 hno =>
    have hval2 : d.value c!"A" = some (written (.bool (a2.bool c!"A"))) := hs2.has (c!"A", .bool) (by simp [handStart])
    have hne : a1.bool c!"A" ≠ a2.bool c!"A" := by
      intro e
      refine hno c (by simp [handStart]) ?_
      intro x hx t ht
      simp only [handStart, List.nil_append, List.mem_singleton] at hx
      subst hx
      rw [hval] at ht
      rw [← Option.some.inj ht, e]
      rfl
    cases hs with
    | cons h4 hs =>
    cases h4 with
    | boolAgain h =>
      obtain ⟨x, hx, he⟩ := h
      simp only [handStart, List.nil_append, List.mem_singleton] at hx
      subst hx
      exact absurd he (by decide)
    | bool _ =>
    cases hs with
    | cons h5 hs =>
    cases hs
    cases h5 with
    | next h5 =>
    cases h5 with
    | none _ => exact ⟨c, d, rfl⟩
    | @another a3 e _ hs3 hno3 =>
      exfalso
      have only : ∀ {x : Config} {a : Assign}, ShowsOpts (handStart.opts ++ [(c!"A", .bool)]) a x → a3.bool c!"A" = a.bool c!"A" →
          Agrees (handStart.opts ++ [(c!"A", .bool)] ++ [(c!"B", .bool)]) a3 x := by
        intro x a hx he y hy t ht
        simp only [handStart, List.nil_append, List.cons_append, List.mem_cons, List.not_mem_nil, or_false] at hy
        rcases hy with rfl | rfl
        · have := hx.has (c!"A", .bool) (by simp [handStart])
          rw [ht] at this
          rw [Option.some.inj this]
          simp [valueAs, he]
        · obtain ⟨z, hz, hz'⟩ := hx.only c!"B" (by rw [show x.value c!"B" = some t from ht]; simp)
          simp only [handStart, List.nil_append, List.mem_singleton] at hz
          subst hz
          exact absurd hz' (by decide)
      have h1 : a3.bool c!"A" ≠ a1.bool c!"A" := fun e => hno3 c (by simp [handStart]) (only hs1 e)
      have h2 : a3.bool c!"A" ≠ a2.bool c!"A" := fun e => hno3 d (by simp [handStart]) (only hs2 e)
      revert hne h1 h2
      cases a1.bool c!"A" <;> cases a2.bool c!"A" <;> cases a3.bool c!"A" <;> simp
  obtain ⟨c, d, rfl⟩ := key
  obtain ⟨⟨rs, s⟩, e, h⟩ := Option.map_eq_some_iff.1 hx
  cases h
  exact ⟨c, d, s, e⟩

/-- Below a parent that has been added as a number a Boolean feature cannot be added. -/
theorem C94_parent_as_number (O : Oracle) : Z3Solver.tells exactFloats 9 shop O {} [.int c!"root" [1], .feature 2 true] = none := rfl

end Verif.Props

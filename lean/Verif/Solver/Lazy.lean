import Verif.Solver.Enumerate
import Verif.Solver.Apply
/-!
# Using a solver call by call, and the lazy iterator
-/

namespace Verif
open Verif.Spec Verif.FModel Verif.Z3Solver

/-! ## The code -/

/-- Calls of a solver that holds a model (Solver.h:90-131). -/
inductive Ask
  | next | current | valid
  | constrain (c : Stored)

/-- What a call answers. -/
inductive Reply
  | config (c : Config)
  | error (e : SolverErr)
  | bool (b : Bool)
  | done

/-- A request for a configuration as a call. -/
def Z3Solver.CRes.reply : CRes → Option (Reply × Z3Solver)
  | .ok c s => some (.config c, s)
  | .err e s => some (.error e, s)
  | .crash => none

/-- One call (Z3Solver.cpp:146-154, 171-192, 233-248); `none`: it does not return.  Asking whether there
    are valid configurations is a call of Z3 as well. -/
def Z3Solver.ask (m : FModel) (O : Oracle) (s : Z3Solver) : Ask → Option (Reply × Z3Solver)
  | .next => (s.getNext O).reply
  | .current => (s.getCurrent O).reply
  | .valid =>
    match s.hasValid O with
    | .error e => some (.error e, s)
    | .ok b => some (.bool b, { s with checks := s.checks + 1 })
  | .constrain c =>
    match s.addConstraint m c with
    | .ok s => some (.done, s)
    | .err e s => some (.error e, s)
    | _ => none

/-- A sequence of calls. -/
def Z3Solver.asks (m : FModel) (O : Oracle) (s : Z3Solver) : List Ask → Option (List Reply × Z3Solver)
  | [] => some ([], s)
  | q :: qs =>
    match s.ask m O q with
    | none => none
    | some (r, s) => (s.asks m O qs).map fun (rs, s) => (r :: rs, s)

/-- A `ConfigurationIterable`: its solver, and for every iterator made so far whether it still points to
    the solver (ConfigurationFactory.h:16-63). -/
structure Iterable where
  solver : Z3Solver
  its : List Bool := []

/-- Calls of an iterable and of its iterators, these by number. -/
inductive ItCall
  | begin
  | copy (i : Nat)
  | deref (i : Nat)
  | inc (i : Nat)
  /-- `It == Iterable.end()` -/
  | atEnd (i : Nat)

/-- One call (ConfigurationFactory.h:26-47, 55-57); `none`: undefined behaviour, such as a call through the
    null pointer of an iterator at the end. -/
def Iterable.call (O : Oracle) (x : Iterable) : ItCall → Option (Reply × Iterable)
  | .begin => some (.done, { x with its := x.its ++ [true] })
  | .copy i => x.its[i]?.map fun b => (.done, { x with its := x.its ++ [b] })
  | .deref i =>
    if x.its[i]? = some true then (x.solver.getCurrent O).reply.map fun (r, s) => (r, { x with solver := s })
    else none
  | .inc i =>
    if x.its[i]? = some true then
      match x.solver.getNext O with
      | .ok _ s => some (.done, { x with solver := s })
      | .err _ s => some (.done, { solver := s, its := x.its.set i false })
      | .crash => none
    else none
  | .atEnd i => x.its[i]?.map fun b => (.bool !b, x)

/-- A sequence of calls. -/
def Iterable.calls (O : Oracle) (x : Iterable) : List ItCall → Option (List Reply × Iterable)
  | [] => some ([], x)
  | q :: qs =>
    match x.call O q with
    | none => none
    | some (r, x) => (x.calls O qs).map fun (rs, x) => (r :: rs, x)

/-- `for (auto C : It) V.push_back(C)` over an iterable (ConfigurationFactory.h:26-47); `none`: it crashes
    or takes more than `fuel` rounds. -/
def Iterable.pass (O : Oracle) : Nat → Z3Solver → List Reply → Option (List Reply × Z3Solver)
  | 0, _, _ => none
  | fuel + 1, s, acc =>
    match (s.getCurrent O).reply with
    | none => none
    | some (r, s) =>
      match s.getNext O with
      | .crash => none
      | .err _ s => some (acc ++ [r], s)
      | .ok _ s => pass O fuel s (acc ++ [r])

/-- `std::distance(It.begin(), It.end())`. -/
def Iterable.distance (O : Oracle) : Nat → Z3Solver → Nat → Option Nat
  | 0, _, _ => none
  | fuel + 1, s, n =>
    match s.getNext O with
    | .crash => none
    | .err _ _ => some (n + 1)
    | .ok _ s => distance O fuel s (n + 1)

/-! ## What is expected -/

namespace Spec

/-- The constraints added since the model was loaded, and the configurations given. -/
structure Point where
  extra : List Stored
  given : List Config

/-- A valid assignment that satisfies the added constraints as well. -/
def Suits (F : IntFloats) (m : FModel) (extra : List Stored) (a : Assign) : Prop :=
  Valid F m a ∧ ∀ c ∈ extra, meaning (value m a) a.div0 c.tree = some (.bool true)

/-- The next configuration: valid, and none of those given; or there is no other. -/
inductive Next (F : IntFloats) (m : FModel) (p : Point) : Reply → Point → Prop
  | another {a c} : Suits F m p.extra a → Shows m a c → (∀ d ∈ p.given, Differ d c) →
      Next F m p (.config c) { p with given := p.given ++ [c] }
  | none : (∀ a, Suits F m p.extra a → ∃ c ∈ p.given, Shows m a c) → Next F m p (.error .unsat) p

/-- The current configuration: the one given last; the first if none has been given. -/
inductive Current (F : IntFloats) (m : FModel) (p : Point) : Reply → Point → Prop
  | last {c} : p.given.getLast? = some c → Current F m p (.config c) p
  | first {r q} : p.given = [] → Next F m p r q → Current F m p r q

inductive Step (F : IntFloats) (m : FModel) (p : Point) : Ask → Reply → Point → Prop
  | next {r q} : Next F m p r q → Step F m p .next r q
  | current {r q} : Current F m p r q → Step F m p .current r q
  | valid {b} : p.given = [] → (b = true ↔ ∃ a, Suits F m p.extra a) → Step F m p .valid (.bool b) p
  | late : p.given ≠ [] → Step F m p .valid (.error .illegalState) p
  | constrain {c} : Step F m p (.constrain c) .done { p with extra := p.extra ++ [c] }

inductive Steps (F : IntFloats) (m : FModel) : Point → List Ask → List Reply → Point → Prop
  | nil {p} : Steps F m p [] [] p
  | cons {p q r a x as xs} : Step F m p a x q → Steps F m q as xs r → Steps F m p (a :: as) (x :: xs) r

/-- Calls of iterators; `live` says which have not reached the end. -/
inductive ItStep (F : IntFloats) (m : FModel) : Point × List Bool → ItCall → Reply → Point × List Bool → Prop
  | begin {p live} : ItStep F m (p, live) .begin .done (p, live ++ [true])
  | copy {p live i b} : live[i]? = some b → ItStep F m (p, live) (.copy i) .done (p, live ++ [b])
  | deref {p live i r q} : live[i]? = some true → Current F m p r q → ItStep F m (p, live) (.deref i) r (q, live)
  | forward {p live i c q} : live[i]? = some true → Next F m p (.config c) q → ItStep F m (p, live) (.inc i) .done (q, live)
  | finish {p live i} : live[i]? = some true → Next F m p (.error .unsat) p →
      ItStep F m (p, live) (.inc i) .done (p, live.set i false)
  | atEnd {p live i b} : live[i]? = some b → ItStep F m (p, live) (.atEnd i) (.bool !b) (p, live)

/-- A sequence of calls; `none`: it uses an iterator that does not exist or has reached the end. -/
inductive ItSteps (F : IntFloats) (m : FModel) : Point × List Bool → List ItCall → Option (List Reply) → Prop
  | nil {x} : ItSteps F m x [] (some [])
  | cons {x y a r as rs} : ItStep F m x a r y → ItSteps F m y as rs → ItSteps F m x (a :: as) (rs.map (r :: ·))
  | misuse {x i as} : x.2[i]? ≠ some true → ItSteps F m x (.deref i :: as) none
  | misuseInc {x i as} : x.2[i]? ≠ some true → ItSteps F m x (.inc i :: as) none
  | missing {x i as} : x.2[i]? = none → ItSteps F m x (.copy i :: as) none
  | missingEnd {x i as} : x.2[i]? = none → ItSteps F m x (.atEnd i :: as) none

end Spec

/-! ## Proofs -/

/-- The solver after `p`. -/
structure At (F : IntFloats) (m : FModel) (l : List Id) (p : Point) (s : Z3Solver) : Prop where
  options : s.options = l.map (optEntry m)
  given : ∃ as : List Assign, p.given = as.map (configOf s.options) ∧ s.current = as.getLast? ∧
    (as.map (proj s.options)).Nodup ∧ ∀ b, Sat b s.asserted ↔ Suits F m p.extra b ∧ ∀ a ∈ as, proj s.options b ≠ proj s.options a

theorem at_next {F : IntFloats} {m : FModel} (w : WF m) {l : List Id} (hnd : l.Nodup) (hl : ∀ i, i ∈ l ↔ Known m i)
    {O : Oracle} (hO : ∀ k ts, O.check k ts ≠ .unknown) {p : Point} {s : Z3Solver} (h : At F m l p s) :
    (∃ c s', s.getNext O = .ok c s' ∧ Next F m p (.config c) { p with given := p.given ++ [c] } ∧
      At F m l { p with given := p.given ++ [c] } s') ∨
    (∃ s', s.getNext O = .err .unsat s' ∧ Next F m p (.error .unsat) p ∧ At F m l p s') := by
  obtain ⟨ho, as, hg, hcur, hnodup, hsat⟩ := h
  have hc : ConstOptions s.options := ho ▸ constOptions_loaded w (fun i hi => (hl i).1 hi)
  unfold getNext
  cases hk : O.check s.checks s.asserted with
  | unknown => exact absurd hk (hO _ _)
  | unsat =>
    refine .inr ⟨_, rfl, .none fun a ha => ?_, ho, as, hg, hcur, hnodup, hsat⟩
    have hn := O.complete _ _ hk a
    rw [hsat] at hn
    have : ∃ b ∈ as, proj s.options a = proj s.options b := Classical.byContradiction fun hx =>
      hn ⟨ha, fun b hb e => hx ⟨b, hb, e⟩⟩
    obtain ⟨b, hb, e⟩ := this
    rw [ho] at e
    exact ⟨configOf s.options b, hg ▸ List.mem_map_of_mem hb,
      ho ▸ shows_congr (configOf_shows w hnd hl b) ((proj_eq_iff w hl b a).1 e.symm)⟩
  | sat a =>
    have hs := (hsat a).1 (O.sound _ _ _ hk)
    refine .inl ⟨_, _, rfl, .another hs.1 (ho ▸ configOf_shows w hnd hl a) ?_, ho, as ++ [a], by simp [hg], by simp, ?_, ?_⟩
    · intro d hd
      rw [hg] at hd
      obtain ⟨b, hb, rfl⟩ := List.mem_map.1 hd
      refine Classical.byContradiction fun hx => hs.2 b hb ?_
      have hx : ∀ n, (configOf s.options a).value n = (configOf s.options b).value n := fun n =>
        Classical.byContradiction fun e => hx ⟨n, fun e' => e e'.symm⟩
      rw [ho] at hx ⊢
      exact (proj_eq_iff w hl a b).2 (shows_unique (configOf_shows w hnd hl a) (configOf_shows w hnd hl b) hx)
    · show ((as ++ [a]).map (proj s.options)).Nodup
      rw [List.map_append, List.nodup_append]
      refine ⟨hnodup, by simp, ?_⟩
      intro x hx y hy e
      obtain ⟨b, hb, rfl⟩ := List.mem_map.1 hx
      simp only [List.map_cons, List.map_nil, List.mem_singleton] at hy
      exact hs.2 b hb (hy ▸ e).symm
    · intro b
      rw [sat_excluding hc, hsat, and_assoc]
      refine and_congr_right fun _ => ?_
      simp [List.mem_append, or_imp, forall_and]

theorem at_current {F : IntFloats} {m : FModel} (w : WF m) {l : List Id} (hnd : l.Nodup) (hl : ∀ i, i ∈ l ↔ Known m i)
    {O : Oracle} (hO : ∀ k ts, O.check k ts ≠ .unknown) {p : Point} {s : Z3Solver} (h : At F m l p s) :
    ∃ r q s', (s.getCurrent O).reply = some (r, s') ∧ Current F m p r q ∧ At F m l q s' := by
  obtain ⟨as, hg, hcur, _⟩ := h.given
  cases hs : s.current with
  | none =>
    have has : as = [] := by rw [hs] at hcur; exact List.getLast?_eq_none_iff.1 hcur.symm
    have hp : p.given = [] := by rw [hg, has]; rfl
    simp only [getCurrent, hs]
    rcases at_next w hnd hl hO h with ⟨c, s', e, hn, ha⟩ | ⟨s', e, hn, ha⟩
    · exact ⟨_, _, _, by rw [e]; rfl, .first hp hn, ha⟩
    · exact ⟨_, _, _, by rw [e]; rfl, .first hp hn, ha⟩
  | some a =>
    simp only [getCurrent, hs]
    refine ⟨_, p, s, rfl, .last ?_, h⟩
    rw [hg, List.getLast?_map, ← hcur, hs]
    rfl

theorem at_valid {F : IntFloats} {m : FModel} {l : List Id}
    {O : Oracle} (hO : ∀ k ts, O.check k ts ≠ .unknown) {p : Point} {s : Z3Solver} (h : At F m l p s) :
    ∃ r s', s.ask m O .valid = some (r, s') ∧ Step F m p .valid r p ∧ At F m l p s' := by
  obtain ⟨ho, as, hg, hcur, hnodup, hsat⟩ := h
  cases hs : s.current with
  | some a =>
    refine ⟨_, s, by simp only [ask, hasValid, hs, Option.isSome_some, if_true], .late ?_, ho, as, hg, hcur, hnodup, hsat⟩
    intro e
    rw [hg, List.map_eq_nil_iff] at e
    rw [e, hs] at hcur
    cases hcur
  | none =>
    have has : as = [] := by rw [hs] at hcur; exact List.getLast?_eq_none_iff.1 hcur.symm
    subst has
    have hsat' : ∀ b, Sat b s.asserted ↔ Suits F m p.extra b := by simpa using hsat
    cases hk : O.check s.checks s.asserted with
    | unknown => exact absurd hk (hO _ _)
    | unsat =>
      refine ⟨.bool false, { s with checks := s.checks + 1 }, by simp only [ask, hasValid, hs, hk, Option.isSome_none, Bool.false_eq_true, if_false], .valid hg ?_, ho, [], hg, hcur, hnodup, hsat⟩
      simp only [Bool.false_eq_true, false_iff]
      rintro ⟨a, ha⟩
      exact O.complete _ _ hk a ((hsat' a).2 ha)
    | sat a =>
      refine ⟨.bool true, { s with checks := s.checks + 1 }, by simp only [ask, hasValid, hs, hk, Option.isSome_none, Bool.false_eq_true, if_false], .valid hg ?_, ho, [], hg, hcur, hnodup, hsat⟩
      simp only [true_iff]
      exact ⟨a, (hsat' a).1 (O.sound _ _ _ hk)⟩

/-- A constraint the solver can be given: of truth values, about proper names, its features those of the
    model. -/
structure Spec.Tellable (m : FModel) (c : Stored) : Prop where
  sort : sortOf (sortIn m) c.tree = some .bool
  leaves : ∀ n ∈ c.tree.features, Char.ofNat 0 ∉ n
  binds : BindsOk m c.tree.features c.binds

/-- The same without exclusive or. -/
structure Spec.Askable (m : FModel) (c : Stored) : Prop extends Tellable m c where
  noXor : NoXor c.tree

/-- The call with "not both" for every exclusive or. -/
def Spec.notBothAsk : Ask → Ask
  | .constrain c => .constrain { c with tree := notBoth c.tree }
  | q => q

theorem notBothAsk_id {m : FModel} {qs : List Ask} (h : ∀ c, Ask.constrain c ∈ qs → Askable m c) : qs.map notBothAsk = qs := by
  induction qs with
  | nil => rfl
  | cons q qs ih =>
    rw [List.map_cons, ih fun c hc => h c (List.mem_cons_of_mem _ hc)]
    congr 1
    cases q with
    | constrain c => simp only [notBothAsk, notBoth_id (h c (List.mem_cons_self ..)).noXor]
    | _ => rfl

theorem at_constrain {F : IntFloats} {m : FModel} (w : WF m) {l : List Id} {O : Oracle} {p : Point} {s : Z3Solver}
    (h : At F (notBothIn m) l p s) {c : Stored} (hc : Tellable m c) :
    ∃ s', s.ask m O (.constrain c) = some (.done, s') ∧
      At F (notBothIn m) l { p with extra := p.extra ++ [{ c with tree := notBoth c.tree }] } s' := by
  obtain ⟨ho, as, hg, hcur, hnodup, hsat⟩ := h
  obtain ⟨ts, e, hts⟩ := addConstraint_coded w hc.sort hc.leaves hc.binds s
  refine ⟨{ s with asserted := s.asserted ++ ts }, by simp only [ask, e], ho, as, hg, hcur, hnodup, fun b => ?_⟩
  rw [show Sat b (s.asserted ++ ts) ↔ Sat b s.asserted ∧ Sat b ts from sat_append .., hsat, hts]
  simp only [Suits, List.mem_append, List.mem_singleton, or_imp, forall_and, forall_eq]
  constructor
  · rintro ⟨⟨⟨h1, h2⟩, h3⟩, h4⟩; exact ⟨⟨h1, h2, h4⟩, h3⟩
  · rintro ⟨⟨h1, h2, h4⟩, h3⟩; exact ⟨⟨⟨h1, h2⟩, h3⟩, h4⟩

theorem at_steps {F : IntFloats} {m : FModel} (w : WF m) {l : List Id} (hnd : l.Nodup) (hl : ∀ i, i ∈ l ↔ Known (notBothIn m) i)
    {O : Oracle} (hO : ∀ k ts, O.check k ts ≠ .unknown) (qs : List Ask) (hq : ∀ c, Ask.constrain c ∈ qs → Tellable m c)
    {p : Point} {s : Z3Solver} (h : At F (notBothIn m) l p s) :
    ∃ rs q s', s.asks m O qs = some (rs, s') ∧ Steps F (notBothIn m) p (qs.map notBothAsk) rs q ∧ At F (notBothIn m) l q s' := by
  induction qs generalizing p s with
  | nil => exact ⟨[], p, s, rfl, .nil, h⟩
  | cons a qs ih =>
    have step : ∃ r q s', s.ask m O a = some (r, s') ∧ Step F (notBothIn m) p (notBothAsk a) r q ∧ At F (notBothIn m) l q s' := by
      cases a with
      | next =>
        rcases at_next (wf_notBoth w) hnd hl hO h with ⟨c, s', e, hn, ha⟩ | ⟨s', e, hn, ha⟩
        · exact ⟨_, _, _, by simp only [ask, e]; rfl, .next hn, ha⟩
        · exact ⟨_, _, _, by simp only [ask, e]; rfl, .next hn, ha⟩
      | current =>
        obtain ⟨r, q, s', e, hc, ha⟩ := at_current (wf_notBoth w) hnd hl hO h
        exact ⟨r, q, s', e, .current hc, ha⟩
      | valid =>
        obtain ⟨r, s', e, hs, ha⟩ := at_valid hO h
        exact ⟨r, p, s', e, hs, ha⟩
      | constrain c =>
        obtain ⟨s', e, ha⟩ := at_constrain w (O := O) h (hq c (List.mem_cons_self ..))
        exact ⟨_, _, s', e, .constrain, ha⟩
    obtain ⟨r, q, s', e, hs, ha⟩ := step
    obtain ⟨rs, q', s'', e', hs', ha'⟩ := ih (fun c hc => hq c (List.mem_cons_of_mem _ hc)) ha
    exact ⟨r :: rs, q', s'', by simp [asks, e, e'], .cons hs hs', ha'⟩

theorem at_calls {F : IntFloats} {m : FModel} (w : WF m) {l : List Id} (hnd : l.Nodup) (hl : ∀ i, i ∈ l ↔ Known m i)
    {O : Oracle} (hO : ∀ k ts, O.check k ts ≠ .unknown) (qs : List ItCall) {p : Point} {x : Iterable} (h : At F m l p x.solver) :
    ItSteps F m (p, x.its) qs ((x.calls O qs).map (·.1)) := by
  induction qs generalizing p x with
  | nil => exact .nil
  | cons a qs ih =>
    have go : ∀ {r y q}, x.call O a = some (r, y) → ItStep F m (p, x.its) a r (q, y.its) → At F m l q y.solver →
        ItSteps F m (p, x.its) (a :: qs) ((x.calls O (a :: qs)).map (·.1)) := by
      intro r y q e hs ha
      have := ItSteps.cons hs (ih ha)
      simp only [Iterable.calls, e]
      rw [show (Option.map (fun x => x.fst) (Option.map (fun x => (r :: x.fst, x.snd)) (y.calls O qs))) =
        ((y.calls O qs).map (·.1)).map (r :: ·) by simp [Option.map_map, Function.comp_def]]
      exact this
    have stop : x.call O a = none → (x.calls O (a :: qs)).map (·.1) = none := by
      intro e
      simp [Iterable.calls, e]
    cases a with
    | begin => exact go rfl .begin h
    | copy i =>
      cases hi : x.its[i]? with
      | none => rw [stop (by simp [Iterable.call, hi])]; exact .missing hi
      | some b => exact go (y := { x with its := x.its ++ [b] }) (by simp only [Iterable.call, hi]; rfl) (.copy hi) h
    | atEnd i =>
      cases hi : x.its[i]? with
      | none => rw [stop (by simp [Iterable.call, hi])]; exact .missingEnd hi
      | some b => exact go (y := x) (by simp only [Iterable.call, hi]; rfl) (.atEnd hi) h
    | deref i =>
      by_cases hi : x.its[i]? = some true
      · obtain ⟨r, q, s', e, hc, ha⟩ := at_current w hnd hl hO h
        exact go (y := { x with solver := s' }) (by simp [Iterable.call, hi, e]) (.deref hi hc) ha
      · rw [stop (by simp [Iterable.call, hi])]; exact .misuse hi
    | inc i =>
      by_cases hi : x.its[i]? = some true
      · rcases at_next w hnd hl hO h with ⟨c, s', e, hn, ha⟩ | ⟨s', e, hn, ha⟩
        · exact go (y := { x with solver := s' }) (by simp [Iterable.call, hi, e]) (.forward hi hn) ha
        · exact go (y := { solver := s', its := x.its.set i false }) (by simp [Iterable.call, hi, e]) (.finish hi hn) ha
      · rw [stop (by simp [Iterable.call, hi])]; exact .misuseInc hi

/-- Given are valid configurations, all different. -/
theorem steps_given {F : IntFloats} {m : FModel} {p q : Point} {qs : List Ask} {rs : List Reply} (h : Steps F m p qs rs q)
    (hd : p.given.Pairwise Differ) (hv : ∀ c ∈ p.given, ValidConfig F m c) :
    q.given.Pairwise Differ ∧ ∀ c ∈ q.given, ValidConfig F m c := by
  have hn : ∀ {p q : Point} {r : Reply}, Next F m p r q → p.given.Pairwise Differ → (∀ c ∈ p.given, ValidConfig F m c) →
      q.given.Pairwise Differ ∧ ∀ c ∈ q.given, ValidConfig F m c := by
    intro p q r h hd hv
    cases h with
    | none _ => exact ⟨hd, hv⟩
    | another hf hs hdc =>
      constructor
      · show (p.given ++ [_]).Pairwise Differ
        rw [List.pairwise_append]
        exact ⟨hd, List.pairwise_singleton .., fun x hx y hy => by rw [List.mem_singleton.1 hy]; exact hdc x hx⟩
      · intro c hc
        rcases List.mem_append.1 hc with hc | hc
        · exact hv c hc
        · rw [List.mem_singleton.1 hc]; exact ⟨_, hf.1, hs⟩
  induction h with
  | nil => exact ⟨hd, hv⟩
  | cons hs _ ih =>
    have : ∀ {p q : Point} {a r}, Step F m p a r q → p.given.Pairwise Differ → (∀ c ∈ p.given, ValidConfig F m c) →
        q.given.Pairwise Differ ∧ ∀ c ∈ q.given, ValidConfig F m c := by
      intro p q a r h hd hv
      cases h with
      | next h => exact hn h hd hv
      | current h =>
        cases h with
        | last _ => exact ⟨hd, hv⟩
        | first _ h => exact hn h hd hv
      | valid _ _ => exact ⟨hd, hv⟩
      | late _ => exact ⟨hd, hv⟩
      | constrain => exact ⟨hd, hv⟩
    obtain ⟨h1, h2⟩ := this hs hd hv
    exact ih h1 h2

end Verif

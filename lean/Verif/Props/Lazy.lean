import Verif.Solver.Lazy
import Verif.Props.Enumeration
/-!
# C88: configurations one at a time
-/

namespace Verif.Props
open Verif Verif.Spec Verif.FModel Verif.Z3Solver

/-- A solver that has just been given a model. -/
theorem at_start {F : IntFloats} {m : FModel} (w : WF m) (L : Clear F m) (E : Env) :
    ∃ k, ∃ l : List Id, l.Nodup ∧ (∀ x, x ∈ l ↔ Known (notBothIn m) x) ∧ ∀ fuel, k ≤ fuel →
      ∃ s, initSolver E F fuel m = .ok s ∧ At F (notBothIn m) l ⟨[], []⟩ s := by
  obtain ⟨k, l, hnd, hl, _, h⟩ := solver_ready w L E
  refine ⟨k, l, hnd, hl, fun fuel hf => ?_⟩
  obtain ⟨_, ts, e, hs, _⟩ := h fuel hf
  refine ⟨_, e, rfl, [], rfl, rfl, .nil, fun b => ?_⟩
  simp only [hs, Suits, List.not_mem_nil, false_implies, implies_true, and_true]

/-- Whatever is asked of a solver that holds a model, in whatever order, read with "not both" for every
    exclusive or of the model and of the constraints added: it answers, the next configuration is valid,
    satisfies the constraints added meanwhile and differs from all given before, `UNSAT` is said exactly if
    there is none, the current configuration is the one given last, and whether there are valid
    configurations is told as long as none has been given. -/
theorem C88_calls_as_coded {F : IntFloats} {m : FModel} (w : WF m) (L : Clear F m) (E : Env) (O : Oracle)
    (hO : ∀ k ts, O.check k ts ≠ .unknown) (qs : List Ask) (hq : ∀ c, Ask.constrain c ∈ qs → Tellable m c) :
    ∃ k, ∀ fuel, k ≤ fuel → ∃ s, initSolver E F fuel m = .ok s ∧ ∃ rs q s', s.asks m O qs = some (rs, s') ∧
      Steps F (notBothIn m) ⟨[], []⟩ (qs.map notBothAsk) rs q ∧ q.given.Pairwise Differ ∧
      ∀ c ∈ q.given, ValidConfig F (notBothIn m) c := by
  obtain ⟨k, l, hnd, hl, h⟩ := at_start w L E
  refine ⟨k, fun fuel hf => ?_⟩
  obtain ⟨s, e, ha⟩ := h fuel hf
  obtain ⟨rs, q, s', e', hs, _⟩ := at_steps w hnd hl hO qs hq ha
  obtain ⟨h1, h2⟩ := steps_given hs .nil (by simp)
  exact ⟨s, e, rs, q, s', e', hs, h1, h2⟩

/-- Whatever is asked of a solver that holds a model without exclusive or. -/
theorem C88_calls {F : IntFloats} {m : FModel} (w : WF m) (L : Loadable F m) (E : Env) (O : Oracle)
    (hO : ∀ k ts, O.check k ts ≠ .unknown) (qs : List Ask) (hq : ∀ c, Ask.constrain c ∈ qs → Askable m c) :
    ∃ k, ∀ fuel, k ≤ fuel → ∃ s, initSolver E F fuel m = .ok s ∧ ∃ rs q s', s.asks m O qs = some (rs, s') ∧
      Steps F m ⟨[], []⟩ qs rs q ∧ q.given.Pairwise Differ ∧ ∀ c ∈ q.given, ValidConfig F m c := by
  have h := C88_calls_as_coded w L.toClear E O hO qs fun c hc => (hq c hc).toTellable
  rwa [notBothIn_id L.noXor, notBothAsk_id hq] at h

/-- The same for the lazy iterators of an iterable, any number of them and of copies: all of them look at
    the one position of the solver. -/
theorem C88_iterators_as_coded {F : IntFloats} {m : FModel} (w : WF m) (L : Clear F m) (E : Env) (O : Oracle)
    (hO : ∀ k ts, O.check k ts ≠ .unknown) (qs : List ItCall) :
    ∃ k, ∀ fuel, k ≤ fuel → ∃ s, initSolver E F fuel m = .ok s ∧
      ItSteps F (notBothIn m) (⟨[], []⟩, []) qs ((Iterable.calls O { solver := s } qs).map (·.1)) := by
  obtain ⟨k, l, hnd, hl, h⟩ := at_start w L E
  refine ⟨k, fun fuel hf => ?_⟩
  obtain ⟨s, e, ha⟩ := h fuel hf
  exact ⟨s, e, at_calls (wf_notBoth w) hnd hl hO qs (x := { solver := s }) ha⟩

theorem C88_iterators {F : IntFloats} {m : FModel} (w : WF m) (L : Loadable F m) (E : Env) (O : Oracle)
    (hO : ∀ k ts, O.check k ts ≠ .unknown) (qs : List ItCall) :
    ∃ k, ∀ fuel, k ≤ fuel → ∃ s, initSolver E F fuel m = .ok s ∧
      ItSteps F m (⟨[], []⟩, []) qs ((Iterable.calls O { solver := s } qs).map (·.1)) := by
  have h := C88_iterators_as_coded w L.toClear E O hO qs
  rwa [notBothIn_id L.noXor] at h

/-! ## Whole loops -/

theorem shows_same {m : FModel} {a : Assign} {c d : Config} (hc : Shows m a c) (hd : Shows m a d) : ¬ Differ d c := by
  rintro ⟨n, hn⟩
  have key : ∀ {c d : Config}, Shows m a c → Shows m a d → c.value n ≠ none → d.value n = c.value n := by
    intro c d hc hd h
    obtain ⟨i, f, hi, hf, rfl⟩ := hc.only n h
    rw [hc.has i f hi hf, hd.has i f hi hf]
  by_cases h : c.value n = none
  · by_cases h' : d.value n = none
    · exact hn (h'.trans h.symm)
    · exact hn (key hd hc h').symm
  · exact hn (key hc hd h)

/-- What has been given when there is nothing left. -/
def Given (F : IntFloats) (m : FModel) (cs : List Config) : Prop := cs.Pairwise Differ ∧ ∀ c ∈ cs, ValidConfig F m c

theorem given_next {F : IntFloats} {m : FModel} {cs : List Config} {c : Config} (h : Given F m cs)
    (hn : Next F m ⟨[], cs⟩ (.config c) ⟨[], cs ++ [c]⟩) : Given F m (cs ++ [c]) := by
  cases hn with
  | another hf hs hd =>
    refine ⟨List.pairwise_append.2 ⟨h.1, List.pairwise_singleton .., fun x hx y hy => by rw [List.mem_singleton.1 hy]; exact hd x hx⟩, ?_⟩
    intro d hd'
    rcases List.mem_append.1 hd' with hd' | hd'
    · exact h.2 d hd'
    · rw [List.mem_singleton.1 hd']; exact ⟨_, hf.1, hs⟩

theorem given_none {F : IntFloats} {m : FModel} {cs : List Config} (h : Given F m cs)
    (hn : Next F m ⟨[], cs⟩ (.error .unsat) ⟨[], cs⟩) : Enumerates F m cs := by
  cases hn with
  | none hn => exact ⟨h.2, h.1, fun a ha => hn a ⟨ha, by simp⟩⟩

theorem given_full {F : IntFloats} {m : FModel} {cs : List Config} (h : Enumerates F m cs) {c : Config} {q : Point} :
    ¬ Next F m ⟨[], cs⟩ (.config c) q := by
  intro hn
  cases hn with
  | another hf hs hd =>
    obtain ⟨d, hd1, hd2⟩ := h.all _ hf.1
    exact shows_same hs hd2 (hd d hd1)

theorem pass_spec {F : IntFloats} {m : FModel} (w : WF m) {l : List Id} (hnd : l.Nodup) (hl : ∀ i, i ∈ l ↔ Known m i)
    {O : Oracle} (hO : ∀ k ts, O.check k ts ≠ .unknown) {all : List Config} (he : Enumerates F m all) (fuel : Nat)
    {cs : List Config} {c : Config} {s : Z3Solver} (h : At F m l ⟨[], cs ++ [c]⟩ s) (hg : Given F m (cs ++ [c]))
    (hf : all.length - cs.length < fuel + 1) (acc : List Reply) :
    ∃ new s', Iterable.pass O fuel s acc = some (acc ++ (c :: new).map .config, s') ∧ At F m l ⟨[], cs ++ c :: new⟩ s' ∧
      Enumerates F m (cs ++ c :: new) := by
  induction fuel generalizing cs c s acc with
  | zero =>
    have := count_le w hg.2 hg.1 he
    simp at this
    omega
  | succ fuel ih =>
    have hcur : (s.getCurrent O).reply = some (.config c, s) := by
      obtain ⟨as, hg', hcur, _⟩ := h.given
      have : as ≠ [] := by
        intro e
        rw [e] at hg'
        simp at hg'
      cases hs : s.current with
      | none => rw [hs] at hcur; exact absurd (List.getLast?_eq_none_iff.1 hcur.symm) this
      | some a =>
        simp only [getCurrent, hs, CRes.reply]
        have h2 : (cs ++ [c]).getLast? = (as.map (configOf s.options)).getLast? := congrArg List.getLast? hg'
        rw [List.getLast?_map, ← hcur, hs, List.getLast?_concat] at h2
        rw [Option.some.inj h2]
    unfold Iterable.pass
    simp only [hcur]
    rcases at_next w hnd hl hO h with ⟨d, s', e, hn, ha⟩ | ⟨s', e, hn, ha⟩
    · have hg' := given_next hg hn
      simp only [e]
      have hle := count_le w hg'.2 hg'.1 he
      simp only [List.length_append, List.length_cons, List.length_nil] at hle
      obtain ⟨new, s'', e', ha', hen⟩ := ih (cs := cs ++ [c]) (c := d) ha hg'
        (by simp only [List.length_append, List.length_cons, List.length_nil]; omega) (acc ++ [.config c])
      refine ⟨d :: new, s'', ?_, by simpa using ha', by simpa using hen⟩
      rw [e']
      simp
    · simp only [e]
      exact ⟨[], s', by simp, ha, given_none hg hn⟩

/-- One loop over an iterable sees every valid configuration once; if there is none it sees the error.
    A second loop over the same iterable does not start again: it sees the last configuration only. -/
theorem C88_second_loop_as_coded {F : IntFloats} {m : FModel} (w : WF m) (L : Clear F m) (E : Env) (O : Oracle)
    (hO : ∀ k ts, O.check k ts ≠ .unknown) :
    ∃ k, ∀ fuel, k ≤ fuel → ∃ s, initSolver E F fuel m = .ok s ∧
      ((∃ cs c s', Enumerates F (notBothIn m) (cs ++ [c]) ∧ Iterable.pass O fuel s [] = some ((cs ++ [c]).map .config, s') ∧
          ∃ s'', Iterable.pass O fuel s' [] = some ([.config c], s'')) ∨
       ((¬ ∃ a, Valid F (notBothIn m) a) ∧ ∃ s', Iterable.pass O fuel s [] = some ([.error .unsat], s'))) := by
  obtain ⟨k0, h0⟩ := C40_as_coded w L E O hO
  obtain ⟨k, l, hnd, hl, h⟩ := at_start w L E
  have w := wf_notBoth w
  have hfin : ∃ n, ∀ all, Enumerates F (notBothIn m) all → all.length ≤ n := by
    rcases h0 k0 (Nat.le_refl _) with ⟨hv, _⟩ | ⟨_, cs, _, hcs⟩
    · refine ⟨0, fun all ha => ?_⟩
      cases all with
      | nil => exact Nat.le_refl _
      | cons c cs =>
        obtain ⟨a, ha, _⟩ := ha.valid c (List.mem_cons_self ..)
        exact absurd ⟨a, ha⟩ hv
    · exact ⟨cs.length, fun all ha => count_le w ha.valid ha.differ hcs⟩
  obtain ⟨n, hn⟩ := hfin
  refine ⟨k + k0 + n + 2, fun fuel hf => ?_⟩
  obtain ⟨s, e, ha⟩ := h fuel (by omega)
  refine ⟨s, e, ?_⟩
  have hcurrent : s.current = none := by
    obtain ⟨as, hg, hc, _⟩ := ha.given
    have : as = [] := List.map_eq_nil_iff.1 hg.symm
    rw [hc, this]; rfl
  obtain ⟨fuel, rfl⟩ : ∃ f, fuel = f + 1 := ⟨fuel - 1, by omega⟩
  have hgiven : Given F (notBothIn m) [] := ⟨.nil, by simp⟩
  rcases at_next w hnd hl hO ha with ⟨c, s1, e1, hn1, ha1⟩ | ⟨s1, e1, hn1, ha1⟩
  · left
    have hg1 := given_next hgiven hn1
    rcases h0 (fuel + 1) (by omega) with ⟨hv, _⟩ | ⟨_, all, _, hall⟩
    · cases hn1 with
      | another hf _ _ => exact absurd ⟨_, hf.1⟩ hv
    · have hle := hn all hall
      have hfresh : Iterable.pass O (fuel + 1) s [] = Iterable.pass O (fuel + 1) s1 [] := by
        have hc1 : s1.current ≠ none := by
          obtain ⟨as, hg', hcur, _⟩ := ha1.given
          intro e
          rw [e] at hcur
          rw [List.getLast?_eq_none_iff.1 hcur.symm] at hg'
          simp at hg'
        have hs : (s.getCurrent O).reply = some (.config c, s1) := by simp only [getCurrent, hcurrent, e1, CRes.reply]
        have hs1 : (s1.getCurrent O).reply = some (.config c, s1) := by
          unfold getNext at e1
          cases hk : O.check s.checks s.asserted with
          | unknown => exact absurd hk (hO _ _)
          | unsat => rw [hk] at e1; cases e1
          | sat a =>
            rw [hk] at e1
            cases e1
            rfl
        simp only [Iterable.pass, hs, hs1]
      obtain ⟨new, s', e', ha', hen⟩ := pass_spec w hnd hl hO hall (fuel + 1) (cs := []) (c := c) ha1 hg1
        (by simp only [List.length_nil]; omega) []
      obtain ⟨cs, d, hcd⟩ : ∃ cs d, c :: new = cs ++ [d] :=
        ⟨(c :: new).dropLast, (c :: new).getLast (by simp), (List.dropLast_concat_getLast (by simp)).symm⟩
      simp only [List.nil_append] at ha' hen e'
      rw [hcd] at ha' hen e'
      refine ⟨cs, d, s', hen, by rw [hfresh, e'], ?_⟩
      obtain ⟨new', s'', e'', _, hen'⟩ := pass_spec w hnd hl hO hall (fuel + 1) ha' ⟨hen.differ, hen.valid⟩ (by omega) []
      have : new' = [] := by
        have h1 := count_le w hen'.valid hen'.differ hen
        simp only [List.length_append, List.length_cons, List.length_nil] at h1
        exact List.length_eq_zero_iff.1 (by omega)
      subst this
      exact ⟨s'', e''⟩
  · right
    refine ⟨?_, ?_⟩
    · rintro ⟨a, hv⟩
      cases hn1 with
      | none hn1 =>
        obtain ⟨_, hc, _⟩ := hn1 a ⟨hv, by simp⟩
        cases hc
    · have hs : (s.getCurrent O).reply = some (.error .unsat, s1) := by simp only [getCurrent, hcurrent, e1, CRes.reply]
      unfold Iterable.pass
      simp only [hs]
      rcases at_next w hnd hl hO ha1 with ⟨c, s2, e2, hn2, _⟩ | ⟨s2, e2, _, _⟩
      · exact absurd hn2 (given_full (given_none hgiven hn1))
      · rw [e2]
        exact ⟨s2, rfl⟩

theorem C88_second_loop {F : IntFloats} {m : FModel} (w : WF m) (L : Loadable F m) (E : Env) (O : Oracle)
    (hO : ∀ k ts, O.check k ts ≠ .unknown) :
    ∃ k, ∀ fuel, k ≤ fuel → ∃ s, initSolver E F fuel m = .ok s ∧
      ((∃ cs c s', Enumerates F m (cs ++ [c]) ∧ Iterable.pass O fuel s [] = some ((cs ++ [c]).map .config, s') ∧
          ∃ s'', Iterable.pass O fuel s' [] = some ([.config c], s'')) ∨
       ((¬ ∃ a, Valid F m a) ∧ ∃ s', Iterable.pass O fuel s [] = some ([.error .unsat], s'))) := by
  have h := C88_second_loop_as_coded w L.toClear E O hO
  rwa [notBothIn_id L.noXor] at h

/-- Counting the steps from `begin()` to `end()` gives one more than there are configurations: the first
    step does not skip the first configuration, it finds it. -/
theorem C88_distance_as_coded {F : IntFloats} {m : FModel} (w : WF m) (L : Clear F m) (E : Env) (O : Oracle)
    (hO : ∀ k ts, O.check k ts ≠ .unknown) {all : List Config} (hall : Enumerates F (notBothIn m) all) :
    ∃ k, ∀ fuel, k ≤ fuel → ∃ s, initSolver E F fuel m = .ok s ∧ Iterable.distance O fuel s 0 = some (all.length + 1) := by
  obtain ⟨k, l, hnd, hl, h⟩ := at_start w L E
  have w := wf_notBoth w
  refine ⟨k + all.length + 1, fun fuel hf => ?_⟩
  obtain ⟨s, e, ha⟩ := h fuel (by omega)
  refine ⟨s, e, ?_⟩
  have key : ∀ fuel {cs : List Config} {s : Z3Solver}, At F (notBothIn m) l ⟨[], cs⟩ s → Given F (notBothIn m) cs → all.length - cs.length < fuel →
      ∀ n, Iterable.distance O fuel s n = some (n + (all.length - cs.length) + 1) := by
    intro fuel
    induction fuel with
    | zero => intro cs s _ _ h; omega
    | succ fuel ih =>
      intro cs s ha hg hf n
      unfold Iterable.distance
      rcases at_next w hnd hl hO ha with ⟨d, s', e, hn, ha'⟩ | ⟨s', e, hn, _⟩
      · have hg' := given_next hg hn
        have hle := count_le w hg'.2 hg'.1 hall
        simp only [List.length_append, List.length_cons, List.length_nil] at hle
        simp only [e]
        rw [ih ha' hg' (by simp only [List.length_append, List.length_cons, List.length_nil]; omega)]
        simp only [List.length_append, List.length_cons, List.length_nil]
        congr 1
        omega
      · have hen := given_none hg hn
        have h1 := count_le w hall.valid hall.differ hen
        simp only [e]
        congr 1
        omega
  have := key fuel ha ⟨.nil, by simp⟩ (by simp only [List.length_nil]; omega) 0
  simpa using this

theorem C88_distance_is_one_more {F : IntFloats} {m : FModel} (w : WF m) (L : Loadable F m) (E : Env) (O : Oracle)
    (hO : ∀ k ts, O.check k ts ≠ .unknown) {all : List Config} (hall : Enumerates F m all) :
    ∃ k, ∀ fuel, k ≤ fuel → ∃ s, initSolver E F fuel m = .ok s ∧ Iterable.distance O fuel s 0 = some (all.length + 1) :=
  C88_distance_as_coded w L.toClear E O hO (by rwa [notBothIn_id L.noXor])

/-- The hypotheses are met. -/
example : ∃ all, Enumerates exactFloats shop all ∧ 1 ≤ all.length ∧
    ∃ k, ∀ fuel, k ≤ fuel → ∃ s, initSolver (stdEnv true) exactFloats fuel shop = .ok s ∧
      Iterable.distance idealOracle fuel s 0 = some (all.length + 1) := by
  obtain ⟨k, h⟩ := C40_every_valid_once_partial shop_wf shop_loadable (stdEnv true) idealOracle idealOracle_answers
  rcases h k (Nat.le_refl _) with ⟨h, _⟩ | ⟨_, cs, _, h⟩
  · exact absurd ⟨_, shopChoice_valid⟩ h
  · refine ⟨cs, h, ?_, C88_distance_is_one_more shop_wf shop_loadable _ _ idealOracle_answers h⟩
    obtain ⟨c, hc, _⟩ := h.all _ shopChoice_valid
    cases cs with
    | nil => cases hc
    | cons _ _ => simp

/-- A configuration that has been given stays the current one when a constraint is added that it violates. -/
theorem C88_current_is_stale {F : IntFloats} {m : FModel} (w : WF m) (L : Loadable F m) (E : Env) (O : Oracle)
    (hO : ∀ k ts, O.check k ts ≠ .unknown) (hv : ∃ a, Valid F m a) {c : Stored} (hc : Askable m c)
    (hno : ∀ a, Valid F m a → meaning (value m a) a.div0 c.tree ≠ some (.bool true)) :
    ∃ k, ∀ fuel, k ≤ fuel → ∃ s, initSolver E F fuel m = .ok s ∧ ∃ d s', ValidConfig F m d ∧
      s.asks m O [.next, .constrain c, .current, .next] = some ([.config d, .done, .config d, .error .unsat], s') := by
  obtain ⟨k, h⟩ := C88_calls w L E O hO [.next, .constrain c, .current, .next] (by
    intro c' h
    simp only [List.mem_cons, reduceCtorEq, Ask.constrain.injEq, List.not_mem_nil, or_false, false_or] at h
    exact h ▸ hc)
  refine ⟨k, fun fuel hf => ?_⟩
  obtain ⟨s, e, rs, q, s', e', hs, _, _⟩ := h fuel hf
  refine ⟨s, e, ?_⟩
  cases hs with
  | cons h1 hs =>
  cases h1 with
  | next h1 =>
  cases h1 with
  | none hn =>
    obtain ⟨a, ha⟩ := hv
    obtain ⟨_, hc, _⟩ := hn a ⟨ha, by simp⟩
    cases hc
  | another hf1 hs1 _ =>
  cases hs with
  | cons h2 hs =>
  cases h2 with
  | constrain =>
  cases hs with
  | cons h3 hs =>
  cases h3 with
  | current h3 =>
  cases h3 with
  | first hg _ => simp at hg
  | last hg =>
  simp only [List.nil_append, List.getLast?_singleton, Option.some.injEq] at hg
  subst hg
  cases hs with
  | cons h4 hs =>
  cases hs
  cases h4 with
  | next h4 =>
  cases h4 with
  | another hf4 _ _ => exact absurd (hf4.2 c (by simp)) (hno _ hf4.1)
  | none _ => exact ⟨_, s', ⟨_, hf1.1, hs1⟩, e'⟩

/-- Such a constraint: the root must not be selected. -/
def notRoot : Stored := ⟨.un .not (.feature c!"root"), [some 0], none⟩

theorem notRoot_askable : Askable shop notRoot where
  sort := by rw [sortIn_eq]; decide
  leaves := by decide
  binds := bindsB_iff (by decide)
  noXor := noXorB_iff.1 (by decide)

theorem notRoot_false (a : Assign) (v : Valid exactFloats shop a) : meaning (value shop a) a.div0 notRoot.tree ≠ some (.bool true) := by
  intro h1
  obtain ⟨f, hf, hs⟩ := v.root 0 rfl
  cases hf
  have hn : ¬ IsNum shop c!"root" := fun h => absurd (isNumB_iff.2 h) (by decide)
  simp only [notRoot, meaning, value, if_neg hn, Option.some.injEq, ZVal.bool.injEq] at h1
  rw [show a.bool c!"root" = true from hs] at h1
  cases h1

/-- The hypotheses are met. -/
example : ∃ k, ∀ fuel, k ≤ fuel → ∃ s, initSolver (stdEnv true) exactFloats fuel shop = .ok s ∧ ∃ d s', ValidConfig exactFloats shop d ∧
    s.asks shop idealOracle [.next, .constrain notRoot, .current, .next] = some ([.config d, .done, .config d, .error .unsat], s') :=
  C88_current_is_stale shop_wf shop_loadable _ _ idealOracle_answers ⟨_, shopChoice_valid⟩ notRoot_askable notRoot_false

/-! ## Exclusive or -/

/-- Constraints to be added to the shop: one of `A` and `O`, and not `O`.  Together they require `A`, which
    requires `O`. -/
def oneOfAO : Stored := ⟨.bin .xor (.feature c!"A") (.feature c!"O"), [some 2, some 4], none⟩
def notO : Stored := ⟨.un .not (.feature c!"O"), [some 4], none⟩

theorem oneOfAO_tellable : Tellable shop oneOfAO ∧ Tellable shop notO :=
  ⟨⟨by rw [sortIn_eq]; decide, by decide, bindsB_iff (by decide)⟩, ⟨by rw [sortIn_eq]; decide, by decide, bindsB_iff (by decide)⟩⟩

theorem shopChoiceB_valid : Valid exactFloats shop (shopChoice false true false 3) := by
  obtain ⟨n1, n2, n3⟩ := shop_num
  refine ⟨?_, ?_, ?_, ?_, ?_, ?_, ?_, ?_⟩
  · intro r hr; cases hr; exact shopChoice_selected.2 (.inl rfl)
  · intro i f p hi hd hk hp hs
    rw [shop_fparent hi hp]; exact shopChoice_selected.2 (.inl rfl)
  · intro i f p hi hd hk ho hp hpf hs
    rcases shop_known hi with rfl | rfl | rfl | rfl | rfl <;> cases hd
    · cases hp
    · cases hp; obtain ⟨g, hg⟩ := hpf; cases hg
    · exact shopChoice_selected.2 (by simp)
    · cases ho
    · cases hk
  · intro r p hr hd hp hs
    cases shop_rels hr
    refine ⟨3, by decide, shopChoice_selected.2 (by simp), ?_⟩
    intro c hc hs
    have : c ∈ [2, 3] := hc
    simp only [List.mem_cons, List.not_mem_nil, or_false] at this
    rcases this with rfl | rfl
    · simp [shopChoice_selected] at hs
    · rfl
  · intro r p hr hd
    cases shop_rels hr
    cases hd
  · intro i f vs st hi hd hk
    rcases shop_known hi with rfl | rfl | rfl | rfl | rfl <;> cases hd <;> cases hk
    exact .step (.start (by decide)) (plusTwo_step 1) (by decide)
  · intro c hc
    have hc : c ∈ [_] := hc
    cases List.mem_singleton.1 hc
    simp only [meaning, value, if_neg n2, if_neg n3]
    rfl
  · intro c hc i hi hall
    have hc : c ∈ [_] := hc
    cases List.mem_singleton.1 hc
    cases hi
    simp only [meaning, value01, if_pos n1, if_neg n2]
    rfl

/-- With an exclusive or among the constraints added, the solver says there are valid configurations, and
    gives one, where there is none. -/
theorem C88_xor_answers_wrong (E : Env) (O : Oracle) (hO : ∀ k ts, O.check k ts ≠ .unknown) :
    (¬ ∃ a, Suits exactFloats shop [oneOfAO, notO] a) ∧
    ∃ k, ∀ fuel, k ≤ fuel → ∃ s, initSolver E exactFloats fuel shop = .ok s ∧ ∃ d s',
      s.asks shop O [.constrain oneOfAO, .constrain notO, .valid, .next] = some ([.done, .done, .bool true, .config d], s') := by
  obtain ⟨_, n2, n3⟩ := shop_num
  constructor
  · rintro ⟨a, v, h⟩
    have h1 := h oneOfAO (by simp)
    have h2 := h notO (by simp)
    have h3 := v.boolean ⟨.bin .implies (.feature c!"A") (.feature c!"O"), [some 2, some 4], none⟩ (by
      show _ ∈ [_]
      exact List.mem_singleton.2 rfl)
    simp only [oneOfAO, notO, meaning, value, if_neg n2, if_neg n3] at h1 h2 h3
    cases hA : a.bool c!"A" <;> cases hB : a.bool c!"O" <;> simp_all [opMeaning]
  obtain ⟨k, h⟩ := C88_calls_as_coded shop_wf shop_loadable.toClear E O hO [.constrain oneOfAO, .constrain notO, .valid, .next] (by
    intro c' h
    simp only [List.mem_cons, reduceCtorEq, Ask.constrain.injEq, List.not_mem_nil, or_false] at h
    rcases h with rfl | rfl
    · exact oneOfAO_tellable.1
    · exact oneOfAO_tellable.2)
  rw [notBothIn_id shop_loadable.noXor] at h
  have hsome : Suits exactFloats shop [{ oneOfAO with tree := notBoth oneOfAO.tree }, { notO with tree := notBoth notO.tree }]
      (shopChoice false true false 3) := by
    refine ⟨shopChoiceB_valid, fun c hc => ?_⟩
    simp only [List.mem_cons, List.not_mem_nil, or_false] at hc
    rcases hc with rfl | rfl
    · simp only [oneOfAO, notBoth, notBothOp, meaning, value, if_neg n2, if_neg n3]; rfl
    · simp only [notO, notBoth, meaning, value, if_neg n2]; rfl
  refine ⟨k, fun fuel hf => ?_⟩
  obtain ⟨s, e, rs, q, s', e', hs, _, _⟩ := h fuel hf
  refine ⟨s, e, ?_⟩
  simp only [List.map_cons, List.map_nil, notBothAsk] at hs
  cases hs with
  | cons h1 hs =>
  cases h1
  cases hs with
  | cons h2 hs =>
  cases h2
  cases hs with
  | cons h3 hs =>
  cases hs with
  | cons h4 hs =>
  cases hs
  cases h3 with
  | late h => exact absurd rfl h
  | valid _ hb =>
  cases h4 with
  | next h4 =>
  rw [hb.2 ⟨_, hsome⟩] at e'
  cases h4 with
  | another _ _ _ => exact ⟨_, s', e'⟩
  | none hn =>
    obtain ⟨_, hc, _⟩ := hn _ hsome
    cases hc

end Verif.Props

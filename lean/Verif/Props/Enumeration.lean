import Verif.Props.Solver
/-!
# C40, C41, C42, C53, C54: asking for configurations
-/

namespace Verif.Props
open Verif Verif.Spec Verif.FModel Verif.Z3Solver

/-- What is common to all requests. -/
theorem solver_ready {F : IntFloats} {m : FModel} (w : WF m) (L : Clear F m) (E : Env) :
    ∃ k, ∃ l : List Id, l.Nodup ∧ (∀ x, x ∈ l ↔ Known (notBothIn m) x) ∧ ∃ rest : List (List ZVal), ∀ fuel, k ≤ fuel → rest.length + 1 < fuel ∧ ∃ ts,
      initSolver E F fuel m = .ok { options := l.map (optEntry (notBothIn m)), asserted := ts, current := none, checks := 0 } ∧
      (∀ a, Sat a ts ↔ Valid F (notBothIn m) a) ∧ ∀ a, Sat a ts → proj (l.map (optEntry (notBothIn m))) a ∈ rest := by
  obtain ⟨k, l, _, hnd, hmem, h⟩ := initSolver_coded w L E
  obtain ⟨rest, hr⟩ := valid_finite (wf_notBoth w) (clear_notBoth L).toClear (l := l) hmem
  refine ⟨max k (rest.length + 2), l, hnd, hmem, rest, fun fuel hf => ⟨by omega, ?_⟩⟩
  obtain ⟨ts, e, hs⟩ := h fuel (by omega)
  exact ⟨ts, e, hs, fun a ha => hr a ((hs a).1 ha)⟩

/-! ## C40 -/

/-- For a model that is clear and a solver that never gives up, `getAllConfigs` ends with a list of all
    configurations that are valid with "not both" for exclusive or, without repetition, or with `UNSAT`
    exactly if there are none. -/
theorem C40_as_coded {F : IntFloats} {m : FModel} (w : WF m) (L : Clear F m) (E : Env) (O : Oracle)
    (hO : ∀ k ts, O.check k ts ≠ .unknown) :
    ∃ k, ∀ fuel, k ≤ fuel →
      ((¬ ∃ a, Valid F (notBothIn m) a) ∧ getAllConfigs E F O fuel m = .err .unsat) ∨
      ((∃ a, Valid F (notBothIn m) a) ∧ ∃ cs, getAllConfigs E F O fuel m = .ok cs ∧ Enumerates F (notBothIn m) cs) := by
  obtain ⟨k, l, hnd, hmem, rest, h⟩ := solver_ready w L E
  refine ⟨k, fun fuel hf => ?_⟩
  obtain ⟨hfu, ts, e, hs, hr⟩ := h fuel hf
  have w := wf_notBoth w
  have hc := constOptions_loaded w (fun i hi => (hmem i).1 hi)
  unfold getAllConfigs
  simp only [e]
  rcases allLoop_fresh hO fuel (s := { options := l.map (optEntry (notBothIn m)), asserted := ts, current := none, checks := 0 }) hc rfl hr hfu with
    ⟨h1, h2⟩ | ⟨new, h0, h1, h2, h3⟩
  · left
    exact ⟨fun ⟨a, ha⟩ => h2 a ((hs a).2 ha), h1⟩
  · right
    obtain ⟨v, d⟩ := enumerates_of_found w hnd hmem hs h2
    refine ⟨?_, _, h1, v, d, all_of_found w hnd hmem hs h3⟩
    cases new with
    | nil => exact absurd rfl h0
    | cons a _ => exact ⟨a, (hs a).1 (h2.sat a (List.mem_cons_self ..))⟩

/-- For a loadable model these are all valid configurations. -/
theorem C40_every_valid_once_partial {F : IntFloats} {m : FModel} (w : WF m) (L : Loadable F m) (E : Env) (O : Oracle)
    (hO : ∀ k ts, O.check k ts ≠ .unknown) :
    ∃ k, ∀ fuel, k ≤ fuel →
      ((¬ ∃ a, Valid F m a) ∧ getAllConfigs E F O fuel m = .err .unsat) ∨
      ((∃ a, Valid F m a) ∧ ∃ cs, getAllConfigs E F O fuel m = .ok cs ∧ Enumerates F m cs) := by
  have h := C40_as_coded w L.toClear E O hO
  rwa [notBothIn_id L.noXor] at h

/-- The hypotheses are met, with valid configurations … -/
example : WF shop ∧ Loadable exactFloats shop ∧ (∃ a, Valid exactFloats shop a) ∧
    ∀ k ts, idealOracle.check k ts ≠ .unknown :=
  ⟨shop_wf, shop_loadable, ⟨_, shopChoice_valid⟩, idealOracle_answers⟩

/-- … and without. -/
def voidModel : FModel :=
  ofNodes [featNode "root" none [] .root] (some 0) [(c!"root", 0)] [] [⟨.un .not (.feature c!"root"), [some 0], none⟩]

theorem voidModel_wf : WF voidModel := wf_of_check (fun i => i) (ofNodes_fresh _ _ _ _ _) (by decide)

theorem voidModel_loadable : Loadable exactFloats voidModel := by
  refine loadable_of_check voidModel_wf ?_ (by decide)
  intro i f lo hi st hk hd hkind
  have : i ∈ [0] := hk
  cases List.mem_singleton.1 this
  cases hd
  cases hkind

theorem voidModel_void : ¬ ∃ a, Valid exactFloats voidModel a := by
  rintro ⟨a, v⟩
  have h1 := v.boolean _ (List.mem_append_left _ (List.mem_singleton.2 rfl))
  obtain ⟨f, hf, hs⟩ := v.root 0 rfl
  cases hf
  have hn : ¬ IsNum voidModel c!"root" := fun h => absurd (isNumB_iff.2 h) (by decide)
  simp only [meaning, value, if_neg hn, Option.some.injEq, ZVal.bool.injEq] at h1
  rw [show a.bool c!"root" = true from hs] at h1
  cases h1

/-- The iteration itself: asking a solver in any state for the next configuration gives one that is valid
    for what is asserted and has not been given since, or `UNSAT` if there is none. -/
theorem C40_next_is_new {O : Oracle} (hO : ∀ k ts, O.check k ts ≠ .unknown) {s : Z3Solver} (hc : ConstOptions s.options) :
    (∃ a s', s.getNext O = .ok (configOf s.options a) s' ∧ Sat a s.asserted ∧ s'.options = s.options ∧ s'.current = some a ∧
      ∀ b, Sat b s'.asserted ↔ Sat b s.asserted ∧ proj s.options b ≠ proj s.options a) ∨
    (∃ s', s.getNext O = .err .unsat s' ∧ (∀ b, ¬ Sat b s.asserted) ∧ s'.asserted = s.asserted ∧ s'.current = s.current) := by
  unfold getNext
  cases hk : O.check s.checks s.asserted with
  | unknown => exact absurd hk (hO _ _)
  | unsat => exact .inr ⟨_, rfl, O.complete _ _ hk, rfl, rfl⟩
  | sat a => exact .inl ⟨a, _, rfl, O.sound _ _ _ hk, rfl, rfl, fun b => sat_excluding hc _ a b⟩

example : ConstOptions [(c!"A", .boolConst c!"A"), (c!"N", .intConst c!"N")] := by
  intro e he
  simp only [List.mem_cons, List.not_mem_nil, or_false] at he
  rcases he with rfl | rfl
  · exact ⟨_, .inl rfl⟩
  · exact ⟨_, .inr rfl⟩

/-! ## C41 -/

/-- `getNConfigs(N)` gives as many different valid configurations as there are, but no more than `N`:
    compared with any list of all of them; "not both" is meant by exclusive or. -/
theorem C41_as_coded {F : IntFloats} {m : FModel} (w : WF m) (L : Clear F m) (E : Env) (O : Oracle)
    (hO : ∀ k ts, O.check k ts ≠ .unknown) (n : Nat) :
    ∃ k, ∀ fuel, k ≤ fuel → ∃ cs, getNConfigs E F O fuel m n = .ok cs ∧ (∀ c ∈ cs, ValidConfig F (notBothIn m) c) ∧ cs.Pairwise Differ ∧
      ∀ all, Enumerates F (notBothIn m) all → cs.length = min n all.length := by
  by_cases hn : n = 0
  · subst hn
    exact ⟨0, fun fuel _ => ⟨[], by simp [getNConfigs], by simp, .nil, fun all _ => by simp⟩⟩
  obtain ⟨k, l, hnd, hmem, rest, h⟩ := solver_ready w L E
  refine ⟨k, fun fuel hf => ?_⟩
  obtain ⟨hfu, ts, e, hs, hr⟩ := h fuel hf
  have w := wf_notBoth w
  have hc := constOptions_loaded w (fun i hi => (hmem i).1 hi)
  unfold getNConfigs
  rw [if_neg hn]
  simp only [e]
  obtain ⟨new, h1, h2, h3, h4⟩ := someLoop_fresh hO (n := n) (by omega) fuel
    (s := { options := l.map (optEntry (notBothIn m)), asserted := ts, current := none, checks := 0 }) hc rfl hr hfu
  obtain ⟨v, d⟩ := enumerates_of_found w hnd hmem hs h2
  have hsym : ∀ {c c' : Config}, Differ c c' → Differ c' c := fun ⟨n, h⟩ => ⟨n, fun e => h e.symm⟩
  refine ⟨_, h1, fun c hc => v c (List.mem_reverse.1 hc), List.pairwise_reverse.2 (d.imp hsym), fun all ha => ?_⟩
  rw [List.length_reverse]
  have hle := count_le w v d ha
  rw [List.length_map] at hle ⊢
  rcases h4 with h4 | h4
  · omega
  · have hen : Enumerates F (notBothIn m) (new.map (configOf (l.map (optEntry (notBothIn m))))) := ⟨v, d, all_of_found w hnd hmem hs h4⟩
    have hge := count_le w ha.valid ha.differ hen
    rw [List.length_map] at hge
    omega

theorem C41_min_of_n_and_all_partial {F : IntFloats} {m : FModel} (w : WF m) (L : Loadable F m) (E : Env) (O : Oracle)
    (hO : ∀ k ts, O.check k ts ≠ .unknown) (n : Nat) :
    ∃ k, ∀ fuel, k ≤ fuel → ∃ cs, getNConfigs E F O fuel m n = .ok cs ∧ (∀ c ∈ cs, ValidConfig F m c) ∧ cs.Pairwise Differ ∧
      ∀ all, Enumerates F m all → cs.length = min n all.length := by
  have h := C41_as_coded w L.toClear E O hO n
  rwa [notBothIn_id L.noXor] at h

/-- A list of all configurations exists for the example and is not empty. -/
example : ∃ all, Enumerates exactFloats shop all ∧ 1 ≤ all.length := by
  obtain ⟨k, h⟩ := C40_every_valid_once_partial shop_wf shop_loadable (stdEnv true) idealOracle idealOracle_answers
  rcases h k (Nat.le_refl _) with ⟨h, _⟩ | ⟨_, cs, _, h⟩
  · exact absurd ⟨_, shopChoice_valid⟩ h
  · obtain ⟨c, hc, _⟩ := h.all _ shopChoice_valid
    exact ⟨cs, h, List.length_pos_of_mem hc⟩

/-! ## C42 -/

/-- `isValid` never says `false`: the result of the solver is only tested for being an error. -/
theorem C42_never_false (E : Env) (F : IntFloats) (O : Oracle) (fuel : Nat) (m : FModel) : isValid E F O fuel m ≠ some false := by
  have hcur : ∀ {α} (f : Z3Solver → α → SRes), (∀ s x s', (f s x = .ok s' ∨ ∃ e, f s x = .err e s') → s'.current = s.current) →
      ∀ (l : List α) s s', (forEach f s l = .ok s' ∨ ∃ e, forEach f s l = .err e s') → s'.current = s.current := by
    intro α f hf l
    induction l with
    | nil =>
      rintro s s' (h | ⟨e, h⟩) <;> cases h
      rfl
    | cons x xs ih =>
      intro s s' h
      simp only [forEach] at h
      cases hr : f s x with
      | ok s1 =>
        rw [hr] at h
        rw [ih s1 s' h, hf s x s1 (.inl hr)]
      | err e s1 =>
        rw [hr] at h
        rw [ih s1 s' h, hf s x s1 (.inr ⟨e, hr⟩)]
      | crash => rw [hr] at h; rcases h with h | ⟨_, h⟩ <;> cases h
      | endless => rw [hr] at h; rcases h with h | ⟨_, h⟩ <;> cases h
  have hassert : ∀ (s0 s1 : Z3Solver) t, s0.assert t = some s1 → s1.current = s0.current := by
    intro s0 s1 t h
    unfold Z3Solver.assert at h
    split at h
    · cases h; rfl
    · cases h
  have hvis : ∀ (s : Z3Solver) b1 b2 b3 c s', (s.addVisited m b1 b2 b3 c = .ok s' ∨ ∃ e, s.addVisited m b1 b2 b3 c = .err e s') → s'.current = s.current := by
    intro s b1 b2 b3 c s' h
    unfold addVisited at h
    split at h
    · rcases h with h | ⟨_, h⟩ <;> cases h
    · split at h
      · rcases h with h | ⟨_, h⟩ <;> cases h
      · split at h
        · rcases h with h | ⟨_, h⟩ <;> cases h
        · split at h
          · rcases h with h | ⟨_, h⟩ <;> cases h
          · rename_i s2 h2
            rcases h with h | ⟨_, h⟩ <;> cases h
            exact hassert _ _ _ h2
  have hmix : ∀ (s : Z3Solver) c s', (addMixed m s c = .ok s' ∨ ∃ e, addMixed m s c = .err e s') → s'.current = s.current := by
    intro s c s' h
    unfold addMixed at h
    split at h
    · exact hvis _ _ _ _ _ _ h
    · rcases h with h | ⟨_, h⟩ <;> cases h
  have hrel : ∀ (s : Z3Solver) r s', (addRelationship m s r = .ok s' ∨ ∃ e, addRelationship m s r = .err e s') → s'.current = s.current := by
    intro s r s' h
    unfold addRelationship at h
    split at h
    · split at h
      · simp only at h
        split at h
        · split at h
          · rcases h with h | ⟨_, h⟩ <;> cases h
          · rcases h with h | ⟨_, h⟩ <;> cases h
            rfl
        · rcases h with h | ⟨_, h⟩ <;> cases h
          rfl
      · rcases h with h | ⟨_, h⟩ <;> cases h
    · rcases h with h | ⟨_, h⟩ <;> cases h
  have haddB : ∀ (s : Z3Solver) n s', s.addBool n = .ok s' → s'.current = s.current := by
    intro s n s' h
    unfold addBool at h
    split at h <;> cases h
    rfl
  have haddI : ∀ (s : Z3Solver) n vs s', s.addInt n vs = .ok s' → s'.current = s.current := by
    intro s n vs s' h
    unfold addInt at h
    split at h <;> cases h
    rfl
  have hlink : ∀ (s0 : Z3Solver) n pn b s1, s0.linkParent n pn b = .ok s1 → s1.current = s0.current := by
    intro s0 n pn b s1 h
    unfold linkParent at h
    split at h
    · split at h
      · cases h
      · split at h
        · cases h
        · rename_i s2 h2
          have e2 := hassert _ _ _ h2
          split at h
          · split at h
            · cases h
            · split at h
              · cases h
              · rename_i s3 h3
                cases h
                rw [hassert _ _ _ h3, e2]
          · cases h; exact e2
    · cases h
  have hfeat : ∀ (g : Id → Bool) (s : Z3Solver) i s', (addFeature F fuel m s i (g i) = .ok s' ∨ ∃ e, addFeature F fuel m s i (g i) = .err e s') →
      s'.current = s.current := by
    intro g s i s' h
    rcases h with h | ⟨e, h⟩
    · unfold addFeature at h
      split at h
      · split at h
        · cases h
        · cases h
        · split at h
          · cases h
          · split at h
            · exact haddI _ _ _ _ h
            · split at h
              · exact haddI _ _ _ _ h
              · cases h
              · cases h
            · split at h
              · rename_i s2 h2
                split at h
                · cases h
                · rw [hlink _ _ _ _ _ h]; exact haddB _ _ _ h2
              · rename_i hne
                exact absurd h (hne _)
            · split at h
              · rename_i s2 h2
                split at h
                · cases h
                · split at h
                  · cases h
                  · rename_i s3 h3
                    cases h
                    rw [hassert _ _ _ h3]; exact haddB _ _ _ h2
              · rename_i hne
                exact absurd h (hne _)
            · cases h
      · cases h
    · rw [C45_error_changes_nothing h]
  have hthen : ∀ (r : SRes) (f : Z3Solver → SRes) (c : Option Assign), (∀ s, (r = .ok s ∨ ∃ e, r = .err e s) → s.current = c) →
      (∀ s, s.current = c → ∀ s', (f s = .ok s' ∨ ∃ e, f s = .err e s') → s'.current = c) →
      ∀ s', (SRes.andThen r f = .ok s' ∨ ∃ e, SRes.andThen r f = .err e s') → s'.current = c := by
    intro r f c h1 h2 s' h
    cases r with
    | ok s => exact h2 s (h1 s (.inl rfl)) s' h
    | err e s =>
      rcases h with h | ⟨_, h⟩ <;> cases h
      exact h1 _ (.inr ⟨_, rfl⟩)
    | crash => rcases h with h | ⟨_, h⟩ <;> cases h
    | endless => rcases h with h | ⟨_, h⟩ <;> cases h
  have hinit : ∀ s, (initSolver E F fuel m = .ok s ∨ ∃ e, initSolver E F fuel m = .err e s) → s.current = none := by
    unfold initSolver applyModel
    split
    · rename_i V fs _ _
      have step : ∀ {α} (f : Z3Solver → α → SRes), (∀ s x s', (f s x = .ok s' ∨ ∃ e, f s x = .err e s') → s'.current = s.current) →
          ∀ (l : List α) s, s.current = none → ∀ s', (forEach f s l = .ok s' ∨ ∃ e, forEach f s l = .err e s') → s'.current = none :=
        fun f hf l s hs s' h => by rw [hcur f hf l s s' h, hs]
      refine hthen _ _ _ (step _ (hfeat (inNames m V)) fs {} rfl) (fun s hs => ?_)
      refine hthen _ _ _ (step _ (fun s c s' h => hvis _ _ _ _ _ _ h) _ s hs) (fun s hs => ?_)
      refine hthen _ _ _ (step _ (fun s c s' h => hvis _ _ _ _ _ _ h) _ s hs) (fun s hs => ?_)
      refine hthen _ _ _ (step _ hmix _ s hs) (fun s hs => ?_)
      exact step _ hrel _ s hs
    · rintro s (h | ⟨_, h⟩) <;> cases h
  unfold isValid
  cases hi : initSolver E F fuel m with
  | ok s =>
    have := hinit s (.inl hi)
    simp only [hasValid, this, Option.isSome_none]
    intro h
    simp only [Option.some.injEq] at h
    cases hk : O.check s.checks s.asserted <;> simp [hk, okBit] at h
  | err e s =>
    have := hinit s (.inr ⟨e, hi⟩)
    simp only [hasValid, this, Option.isSome_none]
    intro h
    simp only [Option.some.injEq] at h
    cases hk : O.check s.checks s.asserted <;> simp [hk, okBit] at h
  | crash => simp
  | endless => simp

/-- So the claim is false: a model without valid configurations is called valid. -/
theorem C42_void_model_is_valid : WF voidModel ∧ (¬ ∃ a, Valid exactFloats voidModel a) ∧
    ∀ O, isValid (stdEnv true) exactFloats O 1 voidModel = some true := by
  refine ⟨voidModel_wf, voidModel_void, fun O => ?_⟩
  have h : SRes.holds (initSolver (stdEnv true) exactFloats 1 voidModel) (fun s => s.current.isNone) = true := by decide
  obtain ⟨s, e, hs⟩ := SRes.of_holds h
  unfold isValid
  simp only [e, hasValid]
  rw [if_neg (by cases hc : s.current <;> simp_all)]
  cases O.check s.checks s.asserted <;> rfl

/-- The call beneath it does tell: `hasValidConfigurations` on a fresh solver is true exactly if there is a
    valid configuration ("not both" being meant by exclusive or); and `isValid` is true if there is one. -/
theorem C42_hasValid_as_coded {F : IntFloats} {m : FModel} (w : WF m) (L : Clear F m) (E : Env) (O : Oracle)
    (hO : ∀ k ts, O.check k ts ≠ .unknown) :
    ∃ k, ∀ fuel, k ≤ fuel → isValid E F O fuel m = some true ∧ ∃ s b, initSolver E F fuel m = .ok s ∧ s.hasValid O = .ok b ∧
      (b = true ↔ ∃ a, Valid F (notBothIn m) a) := by
  obtain ⟨k, l, _, _, _, h⟩ := initSolver_coded w L E
  refine ⟨k, fun fuel hf => ?_⟩
  obtain ⟨ts, e, hs⟩ := h fuel hf
  have hb : ∃ b, Z3Solver.hasValid O { options := l.map (optEntry m), asserted := ts, current := none, checks := 0 } = .ok b ∧
      (b = true ↔ ∃ a, Valid F (notBothIn m) a) := by
    simp only [hasValid, Option.isSome_none]
    rw [if_neg (by simp)]
    cases hk : O.check 0 ts with
    | unknown => exact absurd hk (hO _ _)
    | unsat =>
      refine ⟨false, rfl, by simp, ?_⟩
      rintro ⟨a, ha⟩
      exact absurd ((hs a).2 ha) (O.complete _ _ hk a)
    | sat a => exact ⟨true, rfl, fun _ => ⟨a, (hs a).1 (O.sound _ _ _ hk)⟩, fun _ => rfl⟩
  obtain ⟨b, h1, h2⟩ := hb
  refine ⟨?_, _, b, e, h1, h2⟩
  unfold isValid
  simp only [e, h1, okBit]

theorem C42_hasValid_partial {F : IntFloats} {m : FModel} (w : WF m) (L : Loadable F m) (E : Env) (O : Oracle)
    (hO : ∀ k ts, O.check k ts ≠ .unknown) :
    ∃ k, ∀ fuel, k ≤ fuel → isValid E F O fuel m = some true ∧ ∃ s b, initSolver E F fuel m = .ok s ∧ s.hasValid O = .ok b ∧
      (b = true ↔ ∃ a, Valid F m a) := by
  have h := C42_hasValid_as_coded w L.toClear E O hO
  rwa [notBothIn_id L.noXor] at h

/-! ## C53 -/

/-- In the configurations from `getAllConfigs` Boolean features have Boolean values, and numeric features
    their number if it is not negative and fits into 64 bits; negative numbers have become texts. -/
theorem C53_values_readable_partial {F : IntFloats} {m : FModel} (w : WF m) (L : Clear F m) (E : Env) (O : Oracle)
    (hO : ∀ k ts, O.check k ts ≠ .unknown) :
    ∃ k, ∀ fuel, k ≤ fuel → ∀ cs, getAllConfigs E F O fuel m = .ok cs → ∀ c ∈ cs, ∃ a, Valid F (notBothIn m) a ∧
      ∀ i f, Known m i → data m i = some (.feat f) →
        match f.attr.kind with
        | .numeric _ _ =>
          (0 ≤ a.int f.attr.name → a.int f.attr.name ≤ int64Max →
            (mapFind f.attr.name c).map (·.value) = some (.int (a.int f.attr.name))) ∧
          (a.int f.attr.name < 0 → ∃ t, (mapFind f.attr.name c).map (·.value) = some (.str t))
        | _ => (mapFind f.attr.name c).map (·.value) = some (.bool (a.bool f.attr.name)) := by
  obtain ⟨k, l, hnd, hmem, rest, h⟩ := solver_ready w L E
  refine ⟨k, fun fuel hf cs hcs c hc => ?_⟩
  obtain ⟨hfu, ts, e, hs, hr⟩ := h fuel hf
  have w := wf_notBoth w
  have hco := constOptions_loaded w (fun i hi => (hmem i).1 hi)
  unfold getAllConfigs at hcs
  simp only [e] at hcs
  rcases allLoop_fresh hO fuel (s := { options := l.map (optEntry (notBothIn m)), asserted := ts, current := none, checks := 0 }) hco rfl hr hfu with
    ⟨h1, h2⟩ | ⟨new, h0, h1, h2, h3⟩
  · rw [h1] at hcs; cases hcs
  · rw [h1] at hcs; cases hcs
    obtain ⟨a, ha, rfl⟩ := List.mem_map.1 hc
    refine ⟨a, (hs a).1 (h2.sat a ha), fun i f hi hf => ?_⟩
    have hv := configOf_values w hnd hmem a hi hf
    have hbool : valueOf f a = .bool (a.bool f.attr.name) →
        (mapFind f.attr.name (configOf (l.map (optEntry (notBothIn m))) a)).map (·.value) = some (.bool (a.bool f.attr.name)) := by
      intro h
      rw [hv, h]
      cases a.bool f.attr.name <;> decide
    cases hk : f.attr.kind with
    | numeric vs st =>
      simp only
      have hval : valueOf f a = .int (a.int f.attr.name) := by simp [valueOf, hk]
      rw [hv, hval]
      constructor
      · intro hge hle
        have : written (.int (a.int f.attr.name)) = (OptVal.int (a.int f.attr.name)).asString := by
          cases hx : a.int f.attr.name with
          | ofNat n => rfl
          | negSucc n => rw [hx] at hge; exact absurd hge (by have := Int.negSucc_lt_zero n; omega)
        rw [this, C11_int_roundtrip ⟨Int.le_trans (by decide) hge, hle⟩]
      · intro hlt
        cases hx : a.int f.attr.name with
        | ofNat n =>
          rw [hx] at hlt
          have := Int.natCast_nonneg n
          exact absurd hlt (Int.not_lt.2 this)
        | negSucc n => exact ⟨_, by rw [convert_negative]⟩
    | binary => exact hbool (by simp [valueOf, hk])
    | root => exact hbool (by simp [valueOf, hk])
    | unknown => exact hbool (by simp [valueOf, hk])

/-- root with a numeric feature whose only value is -5. -/
def minusFive : FModel :=
  ofNodes [featNode "root" none [1] .root, featNode "N" (some 0) [] (.numeric (.list [-5]) none)]
    (some 0) [(c!"root", 0), (c!"N", 1)] []

theorem minusFive_wf : WF minusFive := wf_of_check (fun i => i) (ofNodes_fresh _ _ _ _ _) (by decide)

theorem minusFive_loadable : Loadable exactFloats minusFive := by
  refine loadable_of_check minusFive_wf ?_ (by decide)
  intro i f lo hi st hk hd hkind
  have : i ∈ [0, 1] := hk
  simp only [List.mem_cons, List.not_mem_nil, or_false] at this
  rcases this with rfl | rfl <;> cases hd <;> cases hkind

/-- The claim is false for negative numbers: every configuration of this model has a text instead of the
    number -5. -/
theorem C53_negative_is_text {O : Oracle} (hO : ∀ k ts, O.check k ts ≠ .unknown) :
    ∃ k, ∀ fuel, k ≤ fuel → ∃ cs, getAllConfigs (stdEnv true) exactFloats O fuel minusFive = .ok cs ∧ cs ≠ [] ∧
      ∀ c ∈ cs, ∃ t, (mapFind c!"N" c).map (·.value) = some (.str t) := by
  obtain ⟨k, h⟩ := C53_values_readable_partial minusFive_wf minusFive_loadable.toClear (stdEnv true) O hO
  obtain ⟨k', h'⟩ := C40_every_valid_once_partial minusFive_wf minusFive_loadable (stdEnv true) O hO
  have hval : Valid exactFloats minusFive ⟨fun _ => true, fun _ => -5, fun _ => 0⟩ := by
    have hkn : ∀ {i}, Known minusFive i → i = 0 ∨ i = 1 := by
      intro i h
      have : i ∈ [0, 1] := h
      simpa using this
    refine ⟨?_, ?_, ?_, ?_, ?_, ?_, ?_, ?_⟩
    · intro r hr; cases hr; exact ⟨_, rfl, rfl⟩
    · intro i f p hi hd hk hp hs
      rcases hkn hi with rfl | rfl <;> cases hd <;> cases hk
    · intro i f p hi hd hk hp hs
      rcases hkn hi with rfl | rfl <;> cases hd <;> cases hk
    · intro r p hr; cases hr
    · intro r p hr; cases hr
    · intro i f vs st hi hd hk
      rcases hkn hi with rfl | rfl <;> cases hd <;> cases hk
      exact List.mem_singleton.2 rfl
    · intro c hc; cases hc
    · intro c hc; cases hc
  refine ⟨max k k', fun fuel hf => ?_⟩
  rcases h' fuel (by omega) with ⟨hn, _⟩ | ⟨_, cs, e, he⟩
  · exact absurd ⟨_, hval⟩ hn
  · refine ⟨cs, e, ?_, fun c hc => ?_⟩
    · obtain ⟨c, hc, _⟩ := he.all _ hval
      intro e0; rw [e0] at hc; cases hc
    · obtain ⟨a, ha, hv⟩ := h fuel (by omega) cs e c hc
      have h1 := hv 1 _ (by decide) rfl
      have h2 := ha.numeric 1 _ (.list [-5]) none (by decide) rfl rfl
      have h3 : a.int c!"N" = -5 := by simpa [Allowed] using h2
      exact h1.2 (show a.int c!"N" < 0 by rw [h3]; decide)

/-! ## C54 -/

/-- `getNumConfigs` is the number of valid configurations ("not both" being meant by exclusive or) if there
    is one and an error if there is none. -/
theorem C54_as_coded {F : IntFloats} {m : FModel} (w : WF m) (L : Clear F m) (E : Env) (O : Oracle)
    (hO : ∀ k ts, O.check k ts ≠ .unknown) :
    ∃ k, ∀ fuel, k ≤ fuel →
      ((¬ ∃ a, Valid F (notBothIn m) a) ∧ getNumConfigs E F O fuel m = some (.error .unsat)) ∨
      ((∃ a, Valid F (notBothIn m) a) ∧ ∃ n, getNumConfigs E F O fuel m = some (.ok n) ∧
        ∀ all, Enumerates F (notBothIn m) all → n = all.length) := by
  obtain ⟨k, h⟩ := C40_as_coded w L E O hO
  refine ⟨k, fun fuel hf => ?_⟩
  rcases h fuel hf with ⟨hn, e⟩ | ⟨hv, cs, e, he⟩
  · exact .inl ⟨hn, by simp [getNumConfigs, e]⟩
  · refine .inr ⟨hv, cs.length, by simp [getNumConfigs, e], fun all ha => ?_⟩
    have h1 := count_le (wf_notBoth w) he.valid he.differ ha
    have h2 := count_le (wf_notBoth w) ha.valid ha.differ he
    omega

/-- For a loadable model it is the number of valid configurations if there is one … -/
theorem C54_number_partial {F : IntFloats} {m : FModel} (w : WF m) (L : Loadable F m) (E : Env) (O : Oracle)
    (hO : ∀ k ts, O.check k ts ≠ .unknown) (hv : ∃ a, Valid F m a) :
    ∃ k, ∀ fuel, k ≤ fuel → ∃ n, getNumConfigs E F O fuel m = some (.ok n) ∧ ∀ all, Enumerates F m all → n = all.length := by
  obtain ⟨k, h⟩ := C54_as_coded w L.toClear E O hO
  rw [notBothIn_id L.noXor] at h
  exact ⟨k, fun fuel hf => (h fuel hf).elim (fun h => absurd hv h.1) (fun h => h.2)⟩

/-- … and an error instead of 0 whenever there is none. -/
theorem C54_void_is_error {F : IntFloats} {m : FModel} (w : WF m) (L : Loadable F m) (E : Env) (O : Oracle)
    (hO : ∀ k ts, O.check k ts ≠ .unknown) (hv : ¬ ∃ a, Valid F m a) :
    Enumerates F m [] ∧ ∃ k, ∀ fuel, k ≤ fuel → getNumConfigs E F O fuel m = some (.error .unsat) := by
  refine ⟨⟨by simp, .nil, fun a ha => absurd ⟨a, ha⟩ hv⟩, ?_⟩
  obtain ⟨k, h⟩ := C54_as_coded w L.toClear E O hO
  rw [notBothIn_id L.noXor] at h
  exact ⟨k, fun fuel hf => (h fuel hf).elim (fun h => h.2) (fun h => absurd h.1 hv)⟩

example : WF voidModel ∧ Loadable exactFloats voidModel ∧ ¬ ∃ a, Valid exactFloats voidModel a :=
  ⟨voidModel_wf, voidModel_loadable, voidModel_void⟩

end Verif.Props

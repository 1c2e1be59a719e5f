import Verif.Utils.Print
import Verif.Sampling.Lemmas
/-!
# Property C107: the printed text of a result tells its outcome
-/

namespace Verif.Props
open Verif.Utils

/-- No two errors of a modification print the same. -/
theorem C107_modification_errors {e e' : FTErr} (h : ftText e = ftText e') : e = e' := by
  revert h
  cases e <;> cases e' <;> decide

/-- No two errors of a solver print the same. -/
theorem C107_solver_errors {e e' : SolverCode} (h : solverText e = solverText e') : e = e' := by
  revert h
  cases e <;> cases e' <;> decide

/-- A text no error has: `OK` and every number. -/
def NoError (s : Str) : Prop := (∀ e, s ≠ ftText e) ∧ ∀ e, s ≠ solverText e

theorem noError_ok : NoError c!"OK" := ⟨by intro e; cases e <;> decide, by intro e; cases e <;> decide⟩

theorem noError_number (n : Nat) : NoError (natText n) := by
  have nd : ∀ s : Str, ('e' ∈ s ∨ 'E' ∈ s) → natText n ≠ s := by
    intro s hs h
    rw [← h] at hs
    rcases hs with hs | hs
    · exact absurd (natText_digits n _ hs) (by decide)
    · exact absurd (natText_digits n _ hs) (by decide)
  exact ⟨fun e => nd _ (by cases e <;> decide), fun e => nd _ (by cases e <;> decide)⟩

/-- Results print differently unless they are the same, whatever the value and the error are, provided that values and
    errors do. -/
theorem C107_printed {V E : Ty} {sv : V.Val → Str} {se : E.Val → Str} (hv : ∀ a b, sv a = sv b → a = b)
    (he : ∀ a b, se a = se b → a = b) (hn : ∀ v e, sv v ≠ se e) {r r' : Res V E} {s : Str}
    (h : r.print sv se = some s) (h' : r'.print sv se = some s) : r = r' := by
  cases r with
  | ok v =>
    cases r' with
    | ok v' =>
      simp only [Res.print, okFrom] at h h'
      split at h
      · split at h
        · rw [if_pos (by assumption), if_pos (by assumption)] at h'
          simp only [Option.map_some, Option.some.injEq] at h h'
          rw [hv v v' (h.trans h'.symm)]
        · cases h
      · cases h
    | err e' =>
      simp only [Res.print, okFrom, errFrom] at h h'
      split at h
      · rename_i hc
        rw [if_pos hc] at h'
        rw [Bool.and_eq_true] at hc
        rw [if_pos hc.1] at h
        rw [if_pos hc.2] at h'
        simp only [Option.map_some, Option.some.injEq] at h h'
        exact absurd (h.trans h'.symm) (hn v e')
      · cases h
  | err e =>
    cases r' with
    | ok v' =>
      simp only [Res.print, okFrom, errFrom] at h h'
      split at h
      · rename_i hc
        rw [if_pos hc] at h'
        rw [Bool.and_eq_true] at hc
        rw [if_pos hc.2] at h
        rw [if_pos hc.1] at h'
        simp only [Option.map_some, Option.some.injEq] at h h'
        exact absurd (h'.trans h.symm) (hn v' e)
      · cases h
    | err e' =>
      simp only [Res.print, errFrom] at h h'
      split at h
      · split at h
        · rw [if_pos (by assumption), if_pos (by assumption)] at h'
          simp only [Option.map_some, Option.some.injEq] at h h'
          rw [he e e' (h.trans h'.symm)]
        · cases h
      · cases h

/-- The results of modifications can be printed, and the text determines the result. -/
theorem C107_modifications (r : Res voidTy (codeTy FTErr)) :
    ∃ s, r.print voidText ftText = some s ∧ (s = c!"OK" ↔ r.isOk = true) ∧
      (∀ e, s = ftText e ↔ r.error = some e) ∧ ∀ r' : Res voidTy (codeTy FTErr), r'.print voidText ftText = some s → r' = r := by
  have inj : ∀ {r r' : Res voidTy (codeTy FTErr)} {s}, r.print voidText ftText = some s → r'.print voidText ftText = some s → r = r' :=
    fun h h' => C107_printed (fun _ _ _ => rfl) (fun _ _ => C107_modification_errors) (fun _ e => noError_ok.1 e) h h'
  cases r with
  | ok v =>
    refine ⟨c!"OK", rfl, by simp [Res.isOk], ?_, fun r' h => inj h rfl⟩
    intro e
    simp only [Res.error, reduceCtorEq, iff_false]
    exact noError_ok.1 e
  | err e =>
    refine ⟨ftText e, rfl, ?_, ?_, fun r' h => inj h rfl⟩
    · simp only [Res.isOk, Bool.false_eq_true, iff_false]
      exact fun h => noError_ok.1 e h.symm
    · intro e'
      exact ⟨fun h => congrArg some (C107_modification_errors h), fun h => congrArg ftText (Option.some.inj h)⟩

/-- So can the answers of a solver: nothing, yes or no, a number. -/
theorem C107_answers :
    (∀ r r' : Res voidTy (codeTy SolverCode), r.print voidText solverText = r'.print voidText solverText → r = r') ∧
    (∀ r r' : Res boolTy (codeTy SolverCode), r.print boolText solverText = r'.print boolText solverText → r = r') ∧
    ∀ r r' : Res countTy (codeTy SolverCode), r.print countText solverText = r'.print countText solverText → r = r' := by
  refine ⟨fun r r' h => ?_, fun r r' h => ?_, fun r r' h => ?_⟩
  · obtain ⟨s, hs⟩ : ∃ s, r.print voidText solverText = some s := by cases r <;> exact ⟨_, rfl⟩
    exact C107_printed (fun _ _ _ => rfl) (fun _ _ => C107_solver_errors) (fun _ e => noError_ok.2 e) hs (h ▸ hs)
  · obtain ⟨s, hs⟩ : ∃ s, r.print boolText solverText = some s := by cases r <;> exact ⟨_, rfl⟩
    refine C107_printed ?_ (fun _ _ => C107_solver_errors) (fun v e => (noError_number _).2 e) hs (h ▸ hs)
    intro a b hab
    have := Sampling.natText_inj hab
    cases a <;> cases b <;> first | rfl | cases this
  · obtain ⟨s, hs⟩ : ∃ s, r.print countText solverText = some s := by cases r <;> exact ⟨_, rfl⟩
    exact C107_printed (fun _ _ => Sampling.natText_inj) (fun _ _ => C107_solver_errors) (fun v e => (noError_number _).2 e) hs (h ▸ hs)

/-- A result that owns its value, as that of `commit` and of a solver asked for a configuration, cannot be printed. -/
theorem C107_owned {ε α : Type} (sv : (uniqueTy α).Val → Str) (se : ε → Str) (r : Res (uniqueTy α) (codeTy ε)) :
    r.print sv se = none := by cases r <;> rfl

/-- The text of a count that failed and of one that did not. -/
example : Res.print (V := countTy) (E := codeTy SolverCode) countText solverText (.ok (42 : Nat)) = some c!"42" ∧
    Res.print (V := countTy) (E := codeTy SolverCode) countText solverText (.err .unsat) = some c!"The current model is unsatisfiable." := by
  exact ⟨by decide +kernel, rfl⟩

end Verif.Props

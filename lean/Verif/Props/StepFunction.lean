import Verif.Step.Parse
/-!
# Property C10: step-function texts
-/

namespace Verif.Props
open Spec

/-- The parser returns a step function exactly for texts `operand operator operand` with one
    identifier and one number, and it is the one written. -/
theorem C10_accepts (s : Str) (f : StepFn) : parseStepText s = .ok f ↔ StepDenotes s f := by
  constructor
  · intro h
    by_cases hs : s = []
    · subst hs; cases h
    obtain ⟨ts, e, hr⟩ := stepTokenize_spec hs
    simp only [parseStepText, e] at h
    split at h
    · cases h
    · rename_i f' e'
      cases h
      exact parse_sound hr e'
  · exact parse_complete

example : StepDenotes c!" 2.5 *x_1\t" ⟨.num (some ⟨25, 1⟩), .multiplication, .var c!"x_1"⟩ :=
  (C10_accepts _ _).1 (by decide)
example : StepDenotes c!"x ^ 3" ⟨.var c!"x", .exponentiation, .num (some ⟨3, 0⟩)⟩ :=
  (C10_accepts _ _).1 (by decide)

/-- On every other nonempty text the result is null: no undefined behaviour, no divergence. -/
theorem C10_total_partial (s : Str) (hs : s ≠ []) :
    parseStepText s = .null ∨ ∃ f, parseStepText s = .ok f := by
  obtain ⟨ts, e, _⟩ := stepTokenize_spec hs
  simp only [parseStepText, e]
  split
  · exact .inl rfl
  · exact .inr ⟨_, rfl⟩

/-- The empty text is undefined behaviour. -/
theorem C10_empty_is_undefined : parseStepText [] = .ub := rfl

/-- The parsed function applies the written operator to the operands in the written order, provided
    the number text is a decimal number. -/
theorem C10_next_right (F : Floats) {s a b : Str} {op : StepOp} {d : Decimal} (h : StepText s a op b)
    (ha : StepIdent a) (hb : DecimalText b d) :
    ∃ f, parseStepText s = .ok f ∧ ∀ x, f.next F x = some (stepWritten F x op (F.round d)) := by
  have hn : Numeric b := by
    cases hb with
    | int h1 h2 => exact ⟨h1, fun x hx => .inl (h2 x hx)⟩
    | point h1 h2 h3 =>
      refine ⟨by simp, fun x hx => ?_⟩
      simp at hx
      rcases hx with hx | rfl | hx
      · exact .inl (h2 x hx)
      · exact .inr rfl
      · exact .inl (h3 x hx)
  exact ⟨_, (C10_accepts _ _).2 (.varNum h ha hn (d := some d) hb), fun x => by cases op <;> rfl⟩

theorem C10_next_left (F : Floats) {s a b : Str} {op : StepOp} {d : Decimal} (h : StepText s a op b)
    (ha : DecimalText a d) (hb : StepIdent b) :
    ∃ f, parseStepText s = .ok f ∧ ∀ x, f.next F x = some (stepWritten F (F.round d) op x) := by
  have hn : Numeric a := by
    cases ha with
    | int h1 h2 => exact ⟨h1, fun x hx => .inl (h2 x hx)⟩
    | point h1 h2 h3 =>
      refine ⟨by simp, fun x hx => ?_⟩
      simp at hx
      rcases hx with hx | rfl | hx
      · exact .inl (h2 x hx)
      · exact .inr rfl
      · exact .inl (h3 x hx)
  exact ⟨_, (C10_accepts _ _).2 (.numVar h hn hb (d := some d) ha), fun x => by cases op <;> rfl⟩

/-- `StepText`'s hypotheses are met by a real text. -/
example : StepText c!"x + .5" c!"x" .addition c!".5" ∧ StepIdent c!"x" ∧ DecimalText c!".5" ⟨5, 1⟩ := by
  refine ⟨⟨[], [' '], [' '], [], '+', [], by decide, by simp [Blank], by simp [Blank], by simp [Blank],
    by simp [Blank], .add, .inl rfl⟩, ⟨'x', [], rfl, by decide, by simp⟩, ?_⟩
  exact .point (is := []) (fs := ['5']) (by simp) (by simp) (by simp; decide)

/-- The claim that no accepted text leaves the constant undefined is false: the number reader's
    failure is ignored. -/
theorem C10_accepts_undefined_constant :
    parseStepText c!"x + 1.2.3" = .ok ⟨.var ['x'], .addition, .num none⟩ ∧
    ∀ F x, StepFn.next F ⟨.var ['x'], .addition, .num none⟩ x = none :=
  ⟨by decide, fun _ _ => rfl⟩

/-- Exactly the number texts that are no decimal number do so. -/
theorem C10_constant_defined_iff {s : Str} {f : StepFn} (h : parseStepText s = .ok f) (F : Floats) (x : F.D) :
    (f.next F x).isSome ↔ ∃ a b op, StepText s a op b ∧
      ((StepIdent a ∧ ∃ d, DecimalText b d) ∨ (StepIdent b ∧ ∃ d, DecimalText a d)) := by
  constructor
  · intro hx
    cases (C10_accepts _ _).1 h with
    | @varNum a b op d ht ha hb hc =>
      cases d with
      | none => simp [StepFn.next] at hx
      | some d => exact ⟨a, b, op, ht, .inl ⟨ha, d, hc⟩⟩
    | @numVar a b op d ht ha hb hc =>
      cases d with
      | none => simp [StepFn.next] at hx
      | some d => exact ⟨a, b, op, ht, .inr ⟨hb, d, hc⟩⟩
  · rintro ⟨a, b, op, ht, ⟨ha, d, hb⟩ | ⟨ha, d, hb⟩⟩
    · obtain ⟨f', e, hn⟩ := C10_next_right F ht ha hb
      rw [h] at e
      cases e
      simp [hn]
    · obtain ⟨f', e, hn⟩ := C10_next_left F ht hb ha
      rw [h] at e
      cases e
      simp [hn]

end Verif.Props

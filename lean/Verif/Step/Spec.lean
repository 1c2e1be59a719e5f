import Verif.Step.Model
/-! # Specification: step-function texts -/

namespace Verif.Spec

/-- Whitespace, possibly empty. -/
def Blank (s : Str) : Prop := ∀ c ∈ s, c = ' ' ∨ c = '\t' ∨ c = '\r' ∨ c = '\n'

/-- Identifiers: a letter, then letters, digits and underscores. -/
def StepIdent (s : Str) : Prop :=
  ∃ c cs, s = c :: cs ∧ isAlpha c = true ∧ ∀ x ∈ cs, isAlnum x = true ∨ x = '_'

/-- Number-like texts: a nonempty text of digits and dots. -/
def Numeric (s : Str) : Prop := s ≠ [] ∧ ∀ x ∈ s, isDigit x = true ∨ x = '.'

/-- Decimal numbers `int`, `int.frac`, `.frac` and `int.` and their values. -/
inductive DecimalText : Str → Decimal → Prop
  | int {ds} : ds ≠ [] → (∀ x ∈ ds, isDigit x = true) →
      DecimalText ds ⟨ds.foldl (fun a c => a * 10 + digitVal c) 0, 0⟩
  | point {is fs} : is ++ fs ≠ [] → (∀ x ∈ is, isDigit x = true) → (∀ x ∈ fs, isDigit x = true) →
      DecimalText (is ++ '.' :: fs) ⟨(is ++ fs).foldl (fun a c => a * 10 + digitVal c) 0, fs.length⟩

/-- The three operators. -/
inductive OpChar : Char → StepOp → Prop
  | add : OpChar '+' .addition
  | mul : OpChar '*' .multiplication
  | pow : OpChar '^' .exponentiation

/-- The ignored rest of a text: nothing, or an end-of-text byte followed by anything. -/
def Ignored (s : Str) : Prop := s = [] ∨ ∃ c cs, s = c :: cs ∧ (c = Char.ofNat 0 ∨ c = Char.ofNat 255)

/-- A text of the form `operand operator operand`, blanks anywhere between. -/
structure StepText (text a : Str) (op : StepOp) (b : Str) : Prop where
  form : ∃ w0 w1 w2 w3 c rest, text = w0 ++ a ++ w1 ++ [c] ++ w2 ++ b ++ w3 ++ rest ∧
    Blank w0 ∧ Blank w1 ∧ Blank w2 ∧ Blank w3 ∧ OpChar c op ∧ Ignored rest

/-- The constant of a number text; `none` if the text is no decimal number. -/
def Constant (s : Str) (d : Option Decimal) : Prop :=
  match d with
  | some d => DecimalText s d
  | none => ∀ d, ¬ DecimalText s d

/-- What the operators stand for. -/
def stepWritten (F : Floats) (x : F.D) (op : StepOp) (y : F.D) : F.D :=
  match op with
  | .addition => F.add x y
  | .multiplication => F.mul x y
  | .exponentiation => F.pow x y

/-- The step functions a text denotes: one side an identifier, the other a number. -/
inductive StepDenotes : Str → StepFn → Prop
  | varNum {text a b op d} : StepText text a op b → StepIdent a → Numeric b → Constant b d →
      StepDenotes text ⟨.var a, op, .num d⟩
  | numVar {text a b op d} : StepText text a op b → Numeric a → StepIdent b → Constant a d →
      StepDenotes text ⟨.num d, op, .var b⟩

end Verif.Spec

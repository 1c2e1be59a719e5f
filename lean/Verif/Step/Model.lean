import Verif.Base.Str
/-!
# Step functions

Models `StepFunction` (`/repo/include/vara/Feature/StepFunction.h`) and the step-function lexer and
parser (`/repo/include/vara/Feature/StepFunctionParser.h`).
-/

namespace Verif

/-- `StepFunctionToken` (StepFunctionParser.h:17-44). -/
inductive STok
  | ident (s : Str)
  | number (s : Str)
  | ws
  | plus
  | star
  | caret
  | eof
  | error (s : Str)
  deriving DecidableEq, Repr

/-- `END_OF_FILE` or `ERROR` (StepFunctionParser.h:62-66). -/
def STok.isEnd : STok → Bool
  | .eof => true
  | .error _ => true
  | _ => false

/-- The character tests of `munchNumber` and `munchIdentifier`
    (StepFunctionParser.h:124, 132). -/
def isStepNumChar (c : Char) : Bool := isDigit c || c == '.'
def isStepIdChar (c : Char) : Bool := isAlnum c || c == '_'

/-- `munch` and its helpers (StepFunctionParser.h:84-136) on a text with first character `c`.
    `EOF` is the byte `0xFF` for a signed `char`. -/
def stepMunch (c : Char) (s : Str) : STok × Nat :=
  if isAlpha c then (.ident (s.takeWhile isStepIdChar), (s.takeWhile isStepIdChar).length)
  else if isStepNumChar c then
    (.number (lower (s.takeWhile isStepNumChar)), (s.takeWhile isStepNumChar).length)
  else if c == Char.ofNat 255 || c == Char.ofNat 0 then (.eof, 1)
  else if isWs c then (.ws, (s.takeWhile isWs).length)
  else if c == '+' then (.plus, 1)
  else if c == '*' then (.star, 1)
  else if c == '^' then (.caret, 1)
  else (.error (s.take 1), 1)

/-- The loop of `tokenize` (StepFunctionParser.h:59-68); `none`: more rounds than `fuel`. -/
def stepLexLoop : Nat → Str → Option (List STok)
  | _, [] => some []
  | 0, _ :: _ => none
  | fuel + 1, c :: cs =>
    let r := stepMunch c (c :: cs)
    if r.1.isEnd then some [r.1]
    else (stepLexLoop fuel ((c :: cs).drop r.2)).map (r.1 :: ·)

inductive StepLexResult
  | diverges
  | ub
  | ok (ts : List STok)
  deriving DecidableEq, Repr

/-- `tokenize` (StepFunctionParser.h:56-79); `back()` of an empty deque is undefined behaviour. -/
def stepTokenize (s : Str) : StepLexResult :=
  match stepLexLoop s.length s with
  | none => .diverges
  | some ts =>
    match ts.getLast? with
    | none => .ub
    | some t => if t.isEnd then .ok ts else .ok (ts ++ [.eof])

/-- `StepOperation` (StepFunction.h:19). -/
inductive StepOp
  | addition | multiplication | exponentiation
  deriving DecidableEq, Repr

/-- A decimal number `mantissa · 10^(-scale)`, before it is rounded to a `double`. -/
structure Decimal where
  mantissa : Nat
  scale : Nat
  deriving DecidableEq, Repr

/-- `StringRef::getAsDouble` on a text of digits and dots: it needs a digit and at most one dot.
    `none`: failure, the out parameter is not assigned. -/
def readDecimal (s : Str) : Option Decimal :=
  if s.any isDigit && decide ((s.filter (· == '.')).length ≤ 1) then
    some ⟨(s.filter isDigit).foldl (fun a c => a * 10 + digitVal c) 0,
      (s.dropWhile (· != '.')).tail.length⟩
  else none

/-- `OperandVariantType` (StepFunction.h:21).  A `num none` holds an indeterminate `double`. -/
inductive Operand
  | var (s : Str)
  | num (d : Option Decimal)
  deriving DecidableEq, Repr

/-- `StepFunction` (StepFunction.h:89-91). -/
structure StepFn where
  lhs : Operand
  op : StepOp
  rhs : Operand
  deriving DecidableEq, Repr

/-- `parseOperand` (StepFunctionParser.h:174-208): `none` = `nullopt`; with the remaining tokens.
    The result of `getAsDouble` is ignored (line 203). -/
def stepOperand : List STok → Option (Operand × List STok)
  | [] => none
  | .ws :: ts => stepOperand ts
  | .ident s :: ts => some (.var s, ts)
  | .number s :: ts => some (.num (readDecimal s), ts)
  | _ :: _ => none

/-- `parseOperator` (StepFunctionParser.h:210-246). -/
def stepOperator : List STok → Option (StepOp × List STok)
  | [] => none
  | .ws :: ts => stepOperator ts
  | .plus :: ts => some (.addition, ts)
  | .star :: ts => some (.multiplication, ts)
  | .caret :: ts => some (.exponentiation, ts)
  | _ :: _ => none

/-- `parseEOF` (StepFunctionParser.h:248-283). -/
def stepEof : List STok → Bool
  | .ws :: ts => stepEof ts
  | .eof :: _ => true
  | _ => false

/-- `parseStepFunction` (StepFunctionParser.h:285-314); `none` = `nullptr`. -/
def stepParse (ts : List STok) : Option StepFn :=
  match stepOperand ts with
  | none => none
  | some (lhs, ts1) =>
    match stepOperator ts1 with
    | none => none
    | some (op, ts2) =>
      match stepOperand ts2 with
      | none => none
      | some (rhs, ts3) =>
        if stepEof ts3 then
          match lhs, rhs with
          | .var _, .var _ => none
          | .num _, .num _ => none
          | _, _ => some ⟨lhs, op, rhs⟩
        else none

inductive StepResult
  | diverges
  | ub
  | null
  | ok (f : StepFn)
  deriving DecidableEq, Repr

/-- `StepFunctionParser(Text).buildStepFunction()` (StepFunctionParser.h:147-153). -/
def parseStepText (s : Str) : StepResult :=
  match stepTokenize s with
  | .diverges => .diverges
  | .ub => .ub
  | .ok ts => match stepParse ts with
    | none => .null
    | some f => .ok f

/-- Floating-point numbers: not modelled, any type with rounding and the three operations. -/
structure Floats where
  D : Type
  round : Decimal → D
  add : D → D → D
  mul : D → D → D
  pow : D → D → D

/-- The `switch` of `next` (StepFunction.h:33-40). -/
def Floats.apply (F : Floats) : StepOp → F.D → F.D → F.D
  | .addition => F.add
  | .multiplication => F.mul
  | .exponentiation => F.pow

/-- `StepFunction::next` for doubles (StepFunction.h:29-55).  `none`: an indeterminate constant is
    used, or the assertion on the other operand fails. -/
def StepFn.next (F : Floats) (f : StepFn) (x : F.D) : Option F.D :=
  match f.rhs with
  | .num (some d) => match f.lhs with
    | .var _ => some (F.apply f.op x (F.round d))
    | .num _ => none
  | .num none => none
  | .var _ => match f.lhs with
    | .num (some d) => some (F.apply f.op (F.round d) x)
    | .num none => none
    | .var _ => none

end Verif

import Verif.Constraint.Lexer
/-!
# Constraint parser

Models `parseInteger` and `ConstraintParser`,
`/repo/include/vara/Feature/ConstraintParser.h:277-546`.
-/

namespace Verif

/-- `parseInteger` on a text without `e`/`E` (ConstraintParser.h:285-301): LLVM decimal reading,
    on failure the extreme value selected by a leading `-`. -/
def parsePlainInteger (s : Str) : Int :=
  match getAsInt64 10 s with
  | some v => v
  | none => if s.head? = some '-' then int64Min else int64Max

/-- `parseInteger` (ConstraintParser.h:278-301).  `sci` stands for
    `getAsDouble` followed by `formatv("{0:0}", …)`: `none` if the text is no floating-point number,
    otherwise the decimal text of the value (which contains no `e`, so the recursive call takes the
    plain branch).  Floating-point arithmetic itself is not modelled. -/
def parseInteger (sci : Str → Option Str) (s : Str) : Int :=
  if s.any (fun c => c == 'e' || c == 'E') then
    match sci s with
    | some d => parsePlainInteger d
    | none => if s.head? = some '-' then int64Min else int64Max
  else parsePlainInteger s

/-- `ConstraintToken::calcPrecedence` (ConstraintParser.h:72-100) on operator tokens. -/
def BinTok.prec : BinTok → Nat
  | .star => 1
  | .plus => 2
  | .minus => 2
  | .greater => 3
  | .greaterEqual => 3
  | .less => 3
  | .lessEqual => 3
  | .equal => 4
  | .notEqual => 4
  | .and => 5
  | .or => 6
  | .implies => 7
  | .equivalent => 8

/-- `MinPrecedence` and `MaxPrecedence` (ConstraintParser.h:33-34). -/
def minPrecedence : Nat := 0
def maxPrecedence : Nat := 9

/-- The constraint class that `parseBinaryConstraint` creates for an operator token
    (ConstraintParser.h:419-469). -/
def BinTok.op : BinTok → BinOp
  | .and => .and
  | .equal => .equal
  | .equivalent => .equivalence
  | .greater => .greater
  | .greaterEqual => .greaterEqual
  | .implies => .implies
  | .less => .less
  | .lessEqual => .lessEqual
  | .minus => .sub
  | .notEqual => .notEqual
  | .or => .or
  | .plus => .add
  | .star => .mul

/-- Outcome of a parser function: undefined behaviour (`front()` of an empty deque), fuel exhausted,
    `nullptr`, or a constraint; the last two with the remaining token list. -/
inductive PRes
  | ub
  | fuel
  | null (rest : List Tok)
  | tree (c : Constraint) (rest : List Tok)
  deriving DecidableEq, Repr

section
variable (sci : Str → Option Str)

mutual

/-- `parseConstraint` (ConstraintParser.h:330-384); the loop is `parseLoop`. -/
def parseConstraint : Nat → Nat → Nat → List Tok → PRes
  | 0, _, _, _ => .fuel
  | fuel + 1, nesting, prec, ts =>
    match parseUnary fuel nesting ts with
    | .tree lhs rest => parseLoop fuel nesting prec lhs rest
    | r => r
termination_by structural fuel => fuel

/-- The `while (LHS)` loop of `parseConstraint` (ConstraintParser.h:335-382). -/
def parseLoop : Nat → Nat → Nat → Constraint → List Tok → PRes
  | 0, _, _, _, _ => .fuel
  | fuel + 1, nesting, prec, lhs, ts =>
    match ts with
    | [] => .ub
    | .error _ :: _ => .null ts
    | .ws :: rest => parseLoop fuel nesting prec lhs rest
    | .rpar :: _ => if nesting ≠ 0 then .tree lhs ts else .null ts
    | .eof :: _ => .tree lhs ts
    | .bin b :: _ =>
      if b.prec ≥ prec then .tree lhs ts
      else
        match parseBinary fuel nesting lhs b.prec ts with
        | .tree lhs' rest => parseLoop fuel nesting prec lhs' rest
        | r => r
    | .ident _ :: _ => .null ts
    | .lpar :: _ => .null ts
    | .neg :: _ => .null ts
    | .not :: _ => .null ts
    | .number _ :: _ => .null ts
termination_by structural fuel => fuel

/-- `parseBinaryConstraint` (ConstraintParser.h:402-481), with `createConstraint`
    (ConstraintParser.h:386-393) inlined: the right operand is parsed two nesting levels deeper. -/
def parseBinary : Nat → Nat → Constraint → Nat → List Tok → PRes
  | 0, _, _, _, _ => .fuel
  | fuel + 1, nesting, lhs, prec, ts =>
    match ts with
    | [] => .ub
    | .error _ :: _ => .null ts
    | .eof :: _ => .null ts
    | .ws :: rest => parseBinary fuel nesting lhs prec rest
    | .bin b :: rest =>
      match parseConstraint fuel (nesting + 2) prec rest with
      | .tree rhs rest' => .tree (.bin b.op lhs rhs) rest'
      | r => r
    | .ident _ :: _ => .null ts
    | .lpar :: _ => .null ts
    | .neg :: _ => .null ts
    | .not :: _ => .null ts
    | .number _ :: _ => .null ts
    | .rpar :: _ => .null ts
termination_by structural fuel => fuel

/-- `parseUnaryConstraint` (ConstraintParser.h:483-543), with the unary `createConstraint`
    (ConstraintParser.h:395-400) inlined. -/
def parseUnary : Nat → Nat → List Tok → PRes
  | 0, _, _ => .fuel
  | fuel + 1, nesting, ts =>
    match ts with
    | [] => .ub
    | .error _ :: _ => .null ts
    | .eof :: _ => .null ts
    | .ws :: rest => parseUnary fuel nesting rest
    | .bin _ :: _ => .null ts
    | .rpar :: _ => .null ts
    | .ident s :: rest => .tree (.feature s) rest
    | .number s :: rest => .tree (.int (parseInteger sci s)) rest
    | .not :: rest =>
      match parseConstraint fuel (nesting + 2) minPrecedence rest with
      | .tree c rest' => .tree (.un .not c) rest'
      | r => r
    | .neg :: rest =>
      match parseConstraint fuel (nesting + 2) minPrecedence rest with
      | .tree c rest' => .tree (.un .neg c) rest'
      | r => r
    | .lpar :: rest =>
      match parseConstraint fuel (nesting + 1) maxPrecedence rest with
      | .tree c rest' =>
        match rest' with
        | [] => .ub
        | .rpar :: rest'' => .tree c rest''
        | _ => .null rest'
      | .null rest' =>
        match rest' with
        | [] => .ub
        | .rpar :: rest'' => .null rest''
        | _ => .null rest'
      | r => r
termination_by structural fuel => fuel

end

/-- Enough fuel for a token list (see `parse_total`). -/
def parseFuel (ts : List Tok) : Nat := 3 * ts.length + 3

/-- Outcome of `ConstraintParser(Text).buildConstraint()`. -/
inductive ParseResult
  | ub
  | diverges
  | null
  | ok (c : Constraint)
  deriving DecidableEq, Repr

/-- `buildConstraint` on a token list (ConstraintParser.h:309 with the default arguments of
    `parseConstraint`). -/
def parseTokens (ts : List Tok) : ParseResult :=
  match parseConstraint sci (parseFuel ts) 0 maxPrecedence ts with
  | .ub => .ub
  | .fuel => .diverges
  | .null _ => .null
  | .tree c _ => .ok c

/-- `ConstraintParser(Text).buildConstraint()` (ConstraintParser.h:305-309). -/
def parseText (s : Str) : ParseResult :=
  match tokenize s with
  | .diverges => .diverges
  | .ub => .ub
  | .ok ts => parseTokens sci ts

end

end Verif

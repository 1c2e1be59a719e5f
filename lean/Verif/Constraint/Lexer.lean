import Verif.Constraint.Syntax
/-!
# Constraint lexer

Models `ConstraintToken` and `ConstraintLexer`,
`/repo/include/vara/Feature/ConstraintParser.h:30-272`.
-/

namespace Verif

/-- The thirteen token kinds that the parser's `switch` statements treat as binary operators
    (ConstraintParser.h:353-365). -/
inductive BinTok
  | and | equal | equivalent | greater | greaterEqual | implies | less | lessEqual
  | minus | notEqual | or | plus | star
  deriving DecidableEq, Repr

/-- `ConstraintToken` (ConstraintParser.h:30-104): kind and, for identifiers, numbers and errors,
    its value.  The binary-operator kinds are grouped under `bin`. -/
inductive Tok
  | bin (b : BinTok)
  | eof
  | error (s : Str)
  | ident (s : Str)
  | lpar
  | rpar
  | neg
  | not
  | number (s : Str)
  | ws
  deriving DecidableEq, Repr

/-- `END_OF_FILE` or `ERROR`: the kinds that stop the lexer (ConstraintParser.h:123-127). -/
def Tok.isEnd : Tok → Bool
  | .eof => true
  | .error _ => true
  | _ => false

/-- `munchWhitespace` (ConstraintParser.h:192-197). -/
def munchWhitespace (s : Str) : Tok × Nat := (.ws, (s.takeWhile isWs).length)

/-- `munchOperator` (ConstraintParser.h:199-244). -/
def munchOperator (s : Str) : Tok × Nat :=
  match s with
  | '-' :: '>' :: _ => (.bin .implies, 2)
  | '-' :: _ => (.bin .minus, 1)
  | '!' :: '=' :: _ => (.bin .notEqual, 2)
  | '!' :: _ => (.not, 1)
  | '=' :: '>' :: _ => (.bin .implies, 2)
  | '=' :: _ => (.bin .equal, 1)
  | '>' :: '=' :: _ => (.bin .greaterEqual, 2)
  | '>' :: _ => (.bin .greater, 1)
  | '<' :: '-' :: '>' :: _ => (.bin .equivalent, 3)
  | '<' :: '=' :: '>' :: _ => (.bin .equivalent, 3)
  | '<' :: '=' :: _ => (.bin .lessEqual, 2)
  | '<' :: _ => (.bin .less, 1)
  | s => (.error (s.take 1), 1)

/-- The character test of `munchNumber` (ConstraintParser.h:247-249). -/
def isNumChar (c : Char) : Bool := isDigit c || c == 'e' || c == 'E' || c == '+' || c == '-'

/-- `munchNumber` (ConstraintParser.h:246-254). -/
def munchNumber (s : Str) : Tok × Nat :=
  (.number (lower (s.takeWhile isNumChar)), (s.takeWhile isNumChar).length)

/-- The character test of `munchIdentifier` (ConstraintParser.h:257-258). -/
def isIdChar (c : Char) : Bool := isAlnum c || c == '_'

/-- `munchIdentifier` (ConstraintParser.h:256-269). -/
def munchIdentifier (s : Str) : Tok × Nat :=
  if s.takeWhile isIdChar = ['o', 'r'] then (.bin .or, 2)
  else (.ident (s.takeWhile isIdChar), (s.takeWhile isIdChar).length)

/-- `munch` (ConstraintParser.h:145-190) on a text with first character `c`.
    `EOF` is `-1`, i.e. the byte `0xFF` for the signed `char` of x86. -/
def munch (c : Char) (s : Str) : Tok × Nat :=
  if isAlpha c then munchIdentifier s
  else if isDigit c then munchNumber s
  else if c == Char.ofNat 255 || c == Char.ofNat 0 then (.eof, 1)
  else if isWs c then munchWhitespace s
  else if c == '(' then (.lpar, 1)
  else if c == ')' then (.rpar, 1)
  else if c == '+' then (.bin .plus, 1)
  else if c == '~' then (.neg, 1)
  else if c == '*' then (.bin .star, 1)
  else if c == '&' then (.bin .and, 1)
  else if c == '|' then (.bin .or, 1)
  else if c == '-' || c == '!' || c == '=' || c == '>' || c == '<' then munchOperator s
  else (.error (s.take 1), 1)

/-- The loop of `tokenize` (ConstraintParser.h:120-129): one `munch` per round; stops at the end of
    the text or after an end token.  `fuel` bounds the number of rounds; `none` means the bound was
    hit (`lexLoop_total` shows that the length of the text is always enough). -/
def lexLoop : Nat → Str → Option (List Tok)
  | _, [] => some []
  | 0, _ :: _ => none
  | fuel + 1, c :: cs =>
    let r := munch c (c :: cs)
    if r.1.isEnd then some [r.1]
    else (lexLoop fuel ((c :: cs).drop r.2)).map (r.1 :: ·)

/-- Outcome of `ConstraintLexer::tokenize`: undefined behaviour (`TokenList.back()` on an empty
    deque) or a token list. -/
inductive LexResult
  | diverges
  | ub
  | ok (ts : List Tok)
  deriving DecidableEq, Repr

/-- `ConstraintLexer::tokenize` (ConstraintParser.h:117-140). -/
def tokenize (s : Str) : LexResult :=
  match lexLoop s.length s with
  | none => .diverges
  | some ts =>
    match ts.getLast? with
    | none => .ub
    | some t => if t.isEnd then .ok ts else .ok (ts ++ [.eof])

end Verif

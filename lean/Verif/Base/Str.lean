/-!
# Byte strings and integer text

C++ strings are byte sequences.  The model uses `List Char`, one `Char` per byte; the code only
ever inspects ASCII characters and the byte `0xFF`, and every theorem quantifies over all lists.
-/

namespace Verif

abbrev Str := List Char

/-- `c!"abc"` is notation for `['a', 'b', 'c']`. -/
macro:max "c!" s:str : term => do
  let cs := (s.getString.toList.map (Lean.Syntax.mkCharLit ·)).toArray
  `([$cs,*])

/-- `llvm::isDigit`. -/
def isDigit (c : Char) : Bool := decide ('0' ≤ c) && decide (c ≤ '9')

/-- The `'a' <= c && c <= 'z'` test of the lexers. -/
def isLowerAlpha (c : Char) : Bool := decide ('a' ≤ c) && decide (c ≤ 'z')

/-- The `'A' <= c && c <= 'Z'` test of the lexers. -/
def isUpperAlpha (c : Char) : Bool := decide ('A' ≤ c) && decide (c ≤ 'Z')

def isAlpha (c : Char) : Bool := isLowerAlpha c || isUpperAlpha c

/-- `llvm::isAlnum`. -/
def isAlnum (c : Char) : Bool := isAlpha c || isDigit c

/-- `llvm::toLower` on one character. -/
def lowerChar (c : Char) : Char :=
  if isUpperAlpha c then Char.ofNat (c.toNat + 32) else c

/-- `StringRef::lower`. -/
def lower (s : Str) : Str := s.map lowerChar

/-- The whitespace characters of the lexers. -/
def isWs (c : Char) : Bool := c == ' ' || c == '\t' || c == '\r' || c == '\n'

/-- The decimal digit `d` (for `d < 10`). -/
def digitChar (d : Nat) : Char := Char.ofNat (48 + d)

/-- Value of a decimal digit character. -/
def digitVal (c : Char) : Nat := c.toNat - 48

/-- Decimal text of a natural number, as printed by `formatv("{0}", …)` and `std::to_string`. -/
def natText (n : Nat) : Str :=
  if n < 10 then [digitChar n] else natText (n / 10) ++ [digitChar (n % 10)]
termination_by n

/-- Decimal text of an integer, as printed by `formatv("{0}", …)` and `std::to_string`. -/
def intText : Int → Str
  | .ofNat n => natText n
  | .negSucc n => '-' :: natText (n + 1)

def int64Min : Int := -9223372036854775808
def int64Max : Int := 9223372036854775807

/-- Membership in the range of `int64_t`. -/
def IsInt64 (z : Int) : Prop := int64Min ≤ z ∧ z ≤ int64Max

instance (z : Int) : Decidable (IsInt64 z) := by unfold IsInt64; infer_instance

/-- Value of a digit character in the LLVM number reader (any radix up to 36). -/
def radixDigit (c : Char) : Option Nat :=
  if isDigit c then some (c.toNat - 48)
  else if isLowerAlpha c then some (c.toNat - 97 + 10)
  else if isUpperAlpha c then some (c.toNat - 65 + 10)
  else none

/-- The digit loop of `llvm::consumeUnsignedInteger`: reads digits below `radix` from the front,
    `none` on 64-bit overflow; returns the value and the unread rest. -/
def readDigits (radix : Nat) : Nat → Str → Option (Nat × Str)
  | acc, [] => some (acc, [])
  | acc, c :: cs =>
    match radixDigit c with
    | none => some (acc, c :: cs)
    | some d =>
      if d < radix then
        if acc * radix + d < 18446744073709551616 then readDigits radix (acc * radix + d) cs
        else none
      else some (acc, c :: cs)

/-- `llvm::getAutoSenseRadix`: radix and remaining text. -/
def autoRadix : Str → Nat × Str
  | '0' :: 'x' :: cs => (16, cs)
  | '0' :: 'X' :: cs => (16, cs)
  | '0' :: 'b' :: cs => (2, cs)
  | '0' :: 'B' :: cs => (2, cs)
  | '0' :: 'o' :: cs => (8, cs)
  | '0' :: c :: cs => if isDigit c then (8, c :: cs) else (10, '0' :: c :: cs)
  | cs => (10, cs)

/-- `llvm::consumeUnsignedInteger`; `radix = 0` senses the radix. `none` = failure. -/
def consumeUnsigned (radix : Nat) (s : Str) : Option (Nat × Str) :=
  let rs := if radix = 0 then autoRadix s else (radix, s)
  if rs.2 = [] then none
  else
    match readDigits rs.1 0 rs.2 with
    | none => none
    | some (v, rest) => if rest.length = rs.2.length then none else some (v, rest)

/-- `StringRef::getAsInteger(radix, int64_t &)` (via `getAsSignedInteger`): `none` = failure. -/
def getAsInt64 (radix : Nat) (s : Str) : Option Int :=
  match s with
  | '-' :: cs =>
    match consumeUnsigned radix cs with
    | some (v, []) => if v ≤ 9223372036854775808 then some (-(v : Int)) else none
    | _ => none
  | cs =>
    match consumeUnsigned radix cs with
    | some (v, []) => if v ≤ 9223372036854775807 then some (v : Int) else none
    | _ => none

end Verif

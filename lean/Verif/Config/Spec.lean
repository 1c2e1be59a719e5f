import Verif.Config.Model
/-! # Specification: option texts and configurations as maps -/

namespace Verif.Spec

/-- All characters are digits of the radix. -/
def AllDigits (r : Nat) (s : Str) : Prop := ∀ c ∈ s, ∃ d, radixDigit c = some d ∧ d < r

/-- Positional value. -/
def radixValue (r : Nat) (s : Str) : Nat := s.foldl (fun a c => a * r + (radixDigit c).getD 0) 0

/-- Unsigned integer texts with C-style prefixes. -/
inductive UnsignedText : Str → Nat → Prop
  | dec {ds} : ds ≠ [] → AllDigits 10 ds → (∀ c cs, ds ≠ '0' :: c :: cs) → UnsignedText ds (radixValue 10 ds)
  | hex {x ds} : x = 'x' ∨ x = 'X' → ds ≠ [] → AllDigits 16 ds →
      UnsignedText ('0' :: x :: ds) (radixValue 16 ds)
  | bin {x ds} : x = 'b' ∨ x = 'B' → ds ≠ [] → AllDigits 2 ds →
      UnsignedText ('0' :: x :: ds) (radixValue 2 ds)
  | oct {ds} : ds ≠ [] → AllDigits 8 ds → UnsignedText ('0' :: 'o' :: ds) (radixValue 8 ds)
  | octZero {ds} : ds ≠ [] → AllDigits 8 ds → UnsignedText ('0' :: ds) (radixValue 8 ds)

/-- Integer texts: an unsigned text, possibly behind a minus sign. -/
inductive IntegerText : Str → Int → Prop
  | pos {s n} : UnsignedText s n → IntegerText s n
  | neg {s n} : UnsignedText s n → IntegerText ('-' :: s) (-(n : Int))

/-- Texts that spell a boolean, ignoring case. -/
def SpellsBool (s : Str) (b : Bool) : Prop := lower s = if b then c!"true" else c!"false"

/-- The option operations of a configuration. -/
inductive ConfigOp
  | set (name value : Str)
  | add (o : Option')

/-- The configuration after a history of operations. -/
def configAfter (ops : List ConfigOp) : Config :=
  ops.foldl (fun c op => match op with
    | .set n v => c.set n v
    | .add o => c.add o) []

/-- What the history says about a name: the last value given to it. -/
def lastValue (n : Str) (ops : List ConfigOp) : Option OptVal :=
  (ops.filterMap fun op => match op with
    | .set m v => if m = n then some (convert v) else none
    | .add o => if o.name = n then some o.value else none).getLast?

end Verif.Spec

import Verif.Constraint.Syntax
/-!
# Specification: which constraints can be printed and read back

Conditions on constraint trees, without reference to the lexer or parser.
-/

namespace Verif.Spec

/-- Names that the lexer reads back as one identifier token. -/
def IsIdent : Str → Prop
  | [] => False
  | c :: cs => isAlpha c = true ∧ (∀ x ∈ cs, isAlnum x = true ∨ x = '_') ∧ c :: cs ≠ ['o', 'r']

/-- All feature names in the constraint are identifiers. -/
def IdentNames : Constraint → Prop
  | .bin _ l r => IdentNames l ∧ IdentNames r
  | .un _ c => IdentNames c
  | .int _ => True
  | .feature n => IsIdent n

/-- Uses only operators the parser has a token for, and no negative literals. -/
def Readable : Constraint → Prop
  | .bin op l r => op ≠ .xor ∧ op ≠ .div ∧ Readable l ∧ Readable r
  | .un _ c => Readable c
  | .int v => 0 ≤ v
  | .feature _ => True

/-- Integer literals fit `int64_t`, as they do in the C++ object. -/
def FitsInt64 : Constraint → Prop
  | .bin _ l r => FitsInt64 l ∧ FitsInt64 r
  | .un _ c => FitsInt64 c
  | .int v => IsInt64 v
  | .feature _ => True

/-- What is read back: `excludes` comes back as `implies` of a negation, everything else as is. -/
def readBack : Constraint → Constraint
  | .bin .excludes l r => .bin .implies (readBack l) (.un .not (readBack r))
  | .bin op l r => .bin op (readBack l) (readBack r)
  | .un op c => .un op (readBack c)
  | .int v => .int v
  | .feature n => .feature n

end Verif.Spec

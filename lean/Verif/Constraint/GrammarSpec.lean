import Verif.Constraint.Lexer
/-!
# Specification: the infix grammar of constraint texts

Independent of the parser: a declarative grammar, one rule per production.  Level 0 is the
tightest; level `p` contains the expressions whose top operator binds at most as loosely as `p`.
-/

namespace Verif.Spec

/-- The operator table: binding level, token, meaning. Lower levels bind tighter. -/
inductive Infix : Nat → BinTok → BinOp → Prop
  | star : Infix 1 .star .mul
  | plus : Infix 2 .plus .add
  | minus : Infix 2 .minus .sub
  | less : Infix 3 .less .less
  | lessEqual : Infix 3 .lessEqual .lessEqual
  | greater : Infix 3 .greater .greater
  | greaterEqual : Infix 3 .greaterEqual .greaterEqual
  | equal : Infix 4 .equal .equal
  | notEqual : Infix 4 .notEqual .notEqual
  | and : Infix 5 .and .and
  | or : Infix 6 .or .or
  | implies : Infix 7 .implies .implies
  | equivalent : Infix 8 .equivalent .equivalence

/-- The loosest binding level. -/
def top : Nat := 8

/-- `Derives val p ts c`: the token sequence `ts` is an expression of level `p` denoting the tree
    `c`; `val` is the value of number tokens. -/
inductive Derives (val : Str → Int) : Nat → List Tok → Constraint → Prop
  | ident (s : Str) : Derives val 0 [.ident s] (.feature s)
  | number (s : Str) : Derives val 0 [.number s] (.int (val s))
  | not {ts c} : Derives val 0 ts c → Derives val 0 (.not :: ts) (.un .not c)
  | neg {ts c} : Derives val 0 ts c → Derives val 0 (.neg :: ts) (.un .neg c)
  | paren {ts c} : Derives val top ts c → Derives val 0 (.lpar :: ts ++ [.rpar]) c
  | looser {p ts c} : Derives val p ts c → Derives val (p + 1) ts c
  /-- Left associativity: the left operand may use the same level, the right one must be tighter. -/
  | infix {p b op l r a c} : Infix (p + 1) b op → Derives val (p + 1) l a → Derives val p r c →
      Derives val (p + 1) (l ++ .bin b :: r) (.bin op a c)

/-- Sentences: expressions of the loosest level. -/
def Sentence (val : Str → Int) (ts : List Tok) (c : Constraint) : Prop := Derives val top ts c

end Verif.Spec

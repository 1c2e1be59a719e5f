import Verif.Constraint.Builder
/-!
# Specification: what a sequence of builder calls denotes

A declarative expression grammar over calls, and a two-counter description of legal call sequences.
-/

namespace Verif.Spec

/-- Binding levels of the operators, tightest first. -/
def level : BinOp → Nat
  | .mul => 1 | .div => 1
  | .add => 2 | .sub => 2
  | .less => 3 | .lessEqual => 3 | .greater => 3 | .greaterEqual => 3
  | .equal => 4 | .notEqual => 4
  | .and => 5
  | .or => 6 | .xor => 6
  | .implies => 7 | .excludes => 7
  | .equivalence => 8

/-- Expression symbols. -/
inductive Sym
  | operand (c : Constraint)
  | un (op : UnOp)
  | bin (op : BinOp)
  | lpar
  | rpar
  deriving DecidableEq

/-- Expressions of a level: prefix operators bind tightest, infix operators associate to the left. -/
inductive Expr : Nat → List Sym → Constraint → Prop
  | operand (c : Constraint) : Expr 0 [.operand c] c
  | un {ts c} (op : UnOp) : Expr 0 ts c → Expr 0 (.un op :: ts) (.un op c)
  | paren {ts c} : Expr 8 ts c → Expr 0 (.lpar :: ts ++ [.rpar]) c
  | looser {p ts c} : Expr p ts c → Expr (p + 1) ts c
  | infix {p op l r a c} : level op = p + 1 → Expr (p + 1) l a → Expr p r c →
      Expr (p + 1) (l ++ .bin op :: r) (.bin op a c)

/-- The symbol of a call other than `operator()()`. -/
def symbol : Call → Option Sym
  | .constant v => some (.operand (.int v))
  | .feature n => some (.operand (.feature n))
  | .un op => some (.un op)
  | .bin op => some (.bin op)
  | .openPar => some .lpar
  | .closePar => some .rpar
  | .parens => none

/-- The symbols of calls without `operator()()`. -/
def symbols : List Call → Option (List Sym)
  | [] => some []
  | c :: cs => match symbol c, symbols cs with
    | some s, some ss => some (s :: ss)
    | _, _ => none

/-- What a call sequence denotes.  `operator()()` turns everything so far, which must be a complete
    expression, into one operand. -/
inductive Builds : List Call → Constraint → Prop
  | plain {w ss c} : symbols w = some ss → Expr 8 ss c → Builds w c
  | parens {w0 c0 w ss c} : Builds w0 c0 → symbols w = some ss →
      Expr 8 (.operand c0 :: ss) c → Builds (w0 ++ .parens :: w) c

/-- Legality of a call sequence, seen from its beginning: whether an operand just ended, and how many
    parentheses are open.  `none`: some call was made where it is not allowed. -/
def track : Bool × Nat → List Call → Option (Bool × Nat)
  | st, [] => some st
  | (false, d), .constant _ :: cs => track (true, d) cs
  | (false, d), .feature _ :: cs => track (true, d) cs
  | (false, d), .un _ :: cs => track (false, d) cs
  | (false, d), .openPar :: cs => track (false, d + 1) cs
  | (true, d), .bin _ :: cs => track (false, d) cs
  | (true, d + 1), .closePar :: cs => track (true, d) cs
  | (true, 0), .parens :: cs => track (true, 0) cs
  | _, _ => none

/-- The feature names a constraint mentions, left to right. -/
def _root_.Verif.Constraint.features : Constraint → List Str
  | .feature n => [n]
  | .int _ => []
  | .un _ c => c.features
  | .bin _ l r => l.features ++ r.features

end Verif.Spec

import Verif.Base.Str
/-!
# Constraint trees and their text

Models `/repo/include/vara/Feature/Constraint.h` and `/repo/lib/Feature/Constraint.cpp`.
The object identity and parent pointers of constraint nodes are modelled separately
(`Verif.Constraint.HeapModel`); here a constraint is its tree.
-/

namespace Verif

/-- The binary constraint kinds, Constraint.h:24-48 and the classes at 117-511. -/
inductive BinOp
  | or | xor | and | equal | notEqual | implies | excludes | equivalence
  | add | sub | mul | div | less | greater | lessEqual | greaterEqual
  deriving DecidableEq, Repr

/-- The unary constraint kinds: `NotConstraint`, `NegConstraint` (Constraint.h:528-562). -/
inductive UnOp
  | not | neg
  deriving DecidableEq, Repr

/-- A constraint tree.  `feature` is a `PrimaryFeatureConstraint` together with the name of the
    feature it refers to, `int` a `PrimaryIntegerConstraint` (Constraint.h:566-625). -/
inductive Constraint
  | bin (op : BinOp) (l r : Constraint)
  | un (op : UnOp) (c : Constraint)
  | int (v : Int)
  | feature (name : Str)
  deriving DecidableEq, Repr

/-- The text between the operands in the `formatv` patterns of the `toString` overrides
    (Constraint.h:130, 152, 174, 201, 223, 245, 272, 300, 327, 350, 373, 395, 417, 444, 471, 499). -/
def BinOp.text : BinOp → Str
  | .or => ['|'] | .xor => ['^'] | .and => ['&'] | .equal => ['='] | .notEqual => ['!', '=']
  | .implies => ['=', '>'] | .excludes => ['=', '>'] | .equivalence => ['<', '=', '>']
  | .add => ['+'] | .sub => ['-'] | .mul => ['*'] | .div => ['/']
  | .less => ['<'] | .greater => ['>'] | .lessEqual => ['<', '='] | .greaterEqual => ['>', '=']

/-- What the pattern has directly before the right operand: `!` in `"({0} => !{1})"`
    (`ExcludesConstraint::toString`, Constraint.h:271-274), nothing otherwise. -/
def BinOp.rightPrefix : BinOp → Str
  | .excludes => ['!']
  | _ => []

/-- `"!{0}"` and `"~{0}"` (Constraint.h:538, 556). -/
def UnOp.text : UnOp → Str
  | .not => ['!'] | .neg => ['~']

/-- `Constraint::toString`: the overrides listed above, `"({0} op {1})"` for binary constraints,
    prefix for unary ones, `formatv("{0}", Value)` for integers (Constraint.h:583) and the feature
    name for features (Constraint.cpp:29-31). -/
def Constraint.toStr : Constraint → Str
  | .bin op l r =>
    ['('] ++ l.toStr ++ [' '] ++ op.text ++ [' '] ++ op.rightPrefix ++ r.toStr ++ [')']
  | .un op c => op.text ++ c.toStr
  | .int v => intText v
  | .feature n => n

end Verif

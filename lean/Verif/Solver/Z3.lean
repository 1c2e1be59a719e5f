import Verif.Base.Str
/-!
# The part of Z3 that the solver uses

Z3 is outside the repository.  Modelled: the terms the code builds, their sorts, what they mean, and
what a check may answer.  Constants of different sorts are different even if they have the same name.
-/

namespace Verif

/-- The two sorts used. -/
inductive ZSort
  | bool | int
  deriving DecidableEq, Repr

/-- The binary operations used. -/
inductive ZOp
  | add | sub | mul | div | and | or | implies | eq | distinct | lt | le | gt | ge
  deriving DecidableEq, Repr

/-- Terms.  `atMost` and `orOf` take vectors of Boolean constants, given by name. -/
inductive ZTerm
  | boolConst (n : Str)
  | intConst (n : Str)
  | boolVal (b : Bool)
  | intVal (v : Int)
  | bin (op : ZOp) (l r : ZTerm)
  | not (t : ZTerm)
  | neg (t : ZTerm)
  | ite (c t e : ZTerm)
  | atMost (vs : List Str) (k : Nat)
  | orOf (vs : List Str)
  deriving DecidableEq, Repr

/-- The sort of the result. -/
def ZOp.result : ZOp → ZSort
  | .add | .sub | .mul | .div => .int
  | _ => .bool

/-- The sorts of the operands.  Versions of Z3 that coerce truth values in `=` and `distinct` accept
    more; no theorem rests on the rejection. -/
def ZOp.accepts : ZOp → ZSort → ZSort → Bool
  | .add, .int, .int | .sub, .int, .int | .mul, .int, .int | .div, .int, .int => true
  | .lt, .int, .int | .le, .int, .int | .gt, .int, .int | .ge, .int, .int => true
  | .and, .bool, .bool | .or, .bool, .bool | .implies, .bool, .bool => true
  | .eq, a, b | .distinct, a, b => decide (a = b)
  | _, _, _ => false

def ZTerm.sort : ZTerm → ZSort
  | .boolConst _ | .boolVal _ | .not _ | .atMost .. | .orOf _ => .bool
  | .intConst _ | .intVal _ | .neg _ => .int
  | .bin op _ _ => op.result
  | .ite _ t _ => t.sort

/-- The overloaded operators of `z3++.h` on two terms; `none`: a sort error, which is an exception or
    a failed assertion there. -/
def ZTerm.mk (op : ZOp) (l r : ZTerm) : Option ZTerm :=
  if op.accepts l.sort r.sort then some (.bin op l r) else none

/-- `!T`. -/
def ZTerm.mkNot (t : ZTerm) : Option ZTerm := if t.sort = .bool then some (.not t) else none

/-- `-T`. -/
def ZTerm.mkNeg (t : ZTerm) : Option ZTerm := if t.sort = .int then some (.neg t) else none

/-- Values. -/
inductive ZVal
  | bool (b : Bool)
  | int (v : Int)
  deriving DecidableEq, Repr

/-- An interpretation of the constants, and of the quotients by zero, which Z3 leaves open. -/
structure Assign where
  bool : Str → Bool
  int : Str → Int
  div0 : Int → Int

/-- The operations on values; integer division rounds so that the remainder is not negative.  The last
    line is for terms that are not well-sorted. -/
def ZOp.apply (a : Assign) : ZOp → ZVal → ZVal → ZVal
  | .add, .int x, .int y => .int (x + y)
  | .sub, .int x, .int y => .int (x - y)
  | .mul, .int x, .int y => .int (x * y)
  | .div, .int x, .int y => .int (if y = 0 then a.div0 x else x / y)
  | .and, .bool x, .bool y => .bool (x && y)
  | .or, .bool x, .bool y => .bool (x || y)
  | .implies, .bool x, .bool y => .bool (!x || y)
  | .eq, x, y => .bool (decide (x = y))
  | .distinct, x, y => .bool (decide (x ≠ y))
  | .lt, .int x, .int y => .bool (decide (x < y))
  | .le, .int x, .int y => .bool (decide (x ≤ y))
  | .gt, .int x, .int y => .bool (decide (y < x))
  | .ge, .int x, .int y => .bool (decide (y ≤ x))
  | _, _, _ => .bool false

/-- The value of a term. -/
def ZTerm.eval (a : Assign) : ZTerm → ZVal
  | .boolConst n => .bool (a.bool n)
  | .intConst n => .int (a.int n)
  | .boolVal b => .bool b
  | .intVal v => .int v
  | .bin op l r => op.apply a (l.eval a) (r.eval a)
  | .not t => match t.eval a with | .bool b => .bool (!b) | .int _ => .bool false
  | .neg t => match t.eval a with | .int v => .int (-v) | .bool _ => .int 0
  | .ite c t e => if c.eval a = .bool true then t.eval a else e.eval a
  | .atMost vs k => .bool (decide ((vs.filter a.bool).length ≤ k))
  | .orOf vs => .bool (vs.any a.bool)

/-- The interpretation makes all terms true. -/
def Sat (a : Assign) (ts : List ZTerm) : Prop := ∀ t ∈ ts, t.eval a = .bool true

/-- What a check answers. -/
inductive Answer
  | sat (a : Assign)
  | unsat
  | unknown

/-- Z3 as an oracle that may answer differently each time (the number of the call is an argument), but
    never wrongly. -/
structure Oracle where
  check : Nat → List ZTerm → Answer
  sound : ∀ k ts a, check k ts = .sat a → Sat a ts
  complete : ∀ k ts, check k ts = .unsat → ∀ a, ¬ Sat a ts

/-- `expr::to_string` of a value. -/
def ZVal.text : ZVal → Str
  | .bool b => if b then c!"true" else c!"false"
  | .int v => if v < 0 then c!"(- " ++ intText (-v) ++ c!")" else intText v

end Verif

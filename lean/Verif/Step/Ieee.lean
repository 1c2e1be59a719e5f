import Verif.Constraint.Double
import Verif.Solver.Model
/-!
# Steps computed with doubles

`StepFunction::next<int64_t>` (`/repo/include/vara/Feature/StepFunction.h:29-55`) as
`/repo/lib/Solver/Z3Solver.cpp:47-50` uses it: the value is converted to a `double`, the operation is done
in IEEE 754 binary64 with rounding to nearest, and the result is truncated to an `int64_t`.  The sign of
zero is left out: no operand is a negative zero, and the truncation of one is 0.  `std::pow` is not
specified by IEEE 754 and remains a parameter.
-/

namespace Verif

/-- A `double`: a multiple of `2 ^ -1074`, an infinity or not a number. -/
inductive Dbl
  | fin (u : Int)
  | inf (neg : Bool)
  | nan
  deriving DecidableEq

namespace Dbl

/-- `n / d` with a sign, rounded to a `double`. -/
@[irreducible] def rounded (neg : Bool) (n d : Nat) : Dbl :=
  if 2 ^ 1024 * onesUnits ≤ nearestDouble n d then .inf neg
  else .fin (if neg then -(nearestDouble n d : Int) else (nearestDouble n d : Int))

/-- Conversion of an `int64_t`. -/
def ofInt (x : Int) : Dbl := rounded (decide (x < 0)) x.natAbs 1

/-- Conversion to `int64_t`: truncation; undefined if the result does not fit ([conv.fpint]). -/
def toInt : Dbl → Option Int
  | .fin u =>
    if int64Min ≤ u.tdiv onesUnits ∧ u.tdiv onesUnits ≤ int64Max then some (u.tdiv onesUnits) else none
  | _ => none

/-- The constant of a step function (StepFunctionParser.h:202-203). -/
def ofDecimal (d : Decimal) : Dbl := rounded false d.mantissa (10 ^ d.scale)

/-- Addition. -/
def add : Dbl → Dbl → Dbl
  | .fin a, .fin b => rounded (decide (a + b < 0)) (a + b).natAbs onesUnits
  | .nan, _ => .nan
  | _, .nan => .nan
  | .inf s, .inf t => if s = t then .inf s else .nan
  | .inf s, .fin _ => .inf s
  | .fin _, .inf t => .inf t

/-- Multiplication. -/
def mul : Dbl → Dbl → Dbl
  | .fin a, .fin b => rounded (decide (a * b < 0)) (a * b).natAbs (onesUnits * onesUnits)
  | .nan, _ => .nan
  | _, .nan => .nan
  | .inf s, .inf t => .inf (s != t)
  | .inf s, .fin b => if b = 0 then .nan else .inf (s != decide (b < 0))
  | .fin a, .inf t => if a = 0 then .nan else .inf (decide (a < 0) != t)

end Dbl

/-- The arithmetic of step functions. -/
def ieee (pow : Dbl → Dbl → Dbl) : IntFloats where
  D := Dbl
  round := Dbl.ofDecimal
  add := Dbl.add
  mul := Dbl.mul
  pow := pow
  ofInt := Dbl.ofInt
  toInt := Dbl.toInt

end Verif

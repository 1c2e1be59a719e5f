/-!
# Results

Models `Ok`, `Error` and `Result` of `/repo/include/vara/Utils/Result.h`, with the specializations of
`Error` in `/repo/include/vara/Solver/Error.h` and `/repo/include/vara/Feature/Error.h`.  What a constructor
call means is decided by C++ overload resolution; the definitions below are the outcome of it for the cases
that occur when objects are handed on: an object of the same class as argument, as an lvalue, as a constant
lvalue or as an rvalue.  All three classes convert to `bool` implicitly, which makes them arguments of every
constructor that takes a `bool` or an integer.
-/

namespace Verif.Utils

/-- A type of values. `ofBool` is the direct initialization from an object that converts to `bool`, if there
    is one (`std::is_constructible_v<ValueTy, X &>`). -/
structure Ty where
  Val : Type
  ofBool : Option (Bool → Val)
  /-- it has a copy constructor -/
  copies : Bool
  /-- the class `Ok` or `Error` is specialized for it and has no forwarding constructor -/
  special : Bool

/-- How an object is given to a constructor. -/
inductive Cat
  | lvalue | constLvalue | rvalue
  deriving DecidableEq

/-- The content of a `Result` (Result.h:148). -/
inductive Res (V E : Ty)
  | ok (v : V.Val)
  | err (e : E.Val)

/-- `Result::operator bool` (Result.h:112-115). -/
def Res.isOk {V E : Ty} : Res V E → Bool
  | .ok _ => true
  | .err _ => false

/-- `Result::operator*` and `extractValue` (Result.h:117-127); `none`: the assertion fails or `std::get` throws. -/
def Res.value {V E : Ty} : Res V E → Option V.Val
  | .ok v => some v
  | .err _ => none

/-- `Result::getError` and `extractError` (Result.h:129-139). -/
def Res.error {V E : Ty} : Res V E → Option E.Val
  | .ok _ => none
  | .err e => some e

/-- An `Ok` made from an `Ok` (Result.h:19-43); `none`: ill-formed.  For an lvalue the forwarding constructor
    (line 24) is the better match than the copy constructor, and it initializes the value with the object, that is
    with `true`. -/
def okFrom (V : Ty) : Cat → V.Val → Option V.Val
  | .lvalue, v => if V.special then (if V.copies then some v else none) else V.ofBool.map (· true)
  | .constLvalue, v => if V.copies then some v else none
  | .rvalue, v => some v

/-- An `Error` made from an `Error` (Result.h:61-85, Error.h); the object converts to `false`. -/
def errFrom (E : Ty) : Cat → E.Val → Option E.Val
  | .lvalue, e => if E.special then (if E.copies then some e else none) else E.ofBool.map (· false)
  | .constLvalue, e => if E.copies then some e else none
  | .rvalue, e => some e

/-- A `Result` made from an `Ok` (Result.h:94); the forwarding constructor (line 101) is not better, and a function is
    preferred to a template. -/
def resFromOk (V E : Ty) (c : Cat) (v : V.Val) : Option (Res V E) := (okFrom V c v).map .ok

/-- A `Result` made from an `Error` (Result.h:96). -/
def resFromErr (V E : Ty) (c : Cat) (e : E.Val) : Option (Res V E) := (errFrom E c e).map .err

/-- A `Result` made from a `Result`.  For an lvalue the forwarding constructors (Result.h:98-110) are better matches
    than the copy constructor if they are enabled; if both are, the call is ambiguous. -/
def resFrom (V E : Ty) : Cat → Res V E → Option (Res V E)
  | .lvalue, r =>
    match V.ofBool, E.ofBool with
    | some _, some _ => none
    | some f, none => some (.ok (f r.isOk))
    | none, some g => some (.err (g r.isOk))
    | none, none => if V.copies && E.copies then some r else none
  | .constLvalue, r => if V.copies && E.copies then some r else none
  | .rvalue, r => some r

/-- The types of results the library returns: nothing, `bool`, `uint64_t`, a pointer, a `std::unique_ptr`, a
    `std::vector` of those; a vector is made from a number of elements. -/
def voidTy : Ty := ⟨Unit, none, true, true⟩
def boolTy : Ty := ⟨Bool, some id, true, false⟩
def countTy : Ty := ⟨Nat, some Bool.toNat, true, false⟩
def pointerTy (α : Type) : Ty := ⟨Option α, none, true, false⟩
def uniqueTy (α : Type) : Ty := ⟨Option α, none, false, false⟩
def vectorTy (α : Type) : Ty := ⟨List (Option α), some (fun b => if b then [none] else []), false, false⟩

/-- An enumeration of error codes: no enumeration is made from a `bool`, and `Error` is specialized for it. -/
def codeTy (ε : Type) : Ty := ⟨ε, none, true, true⟩

end Verif.Utils

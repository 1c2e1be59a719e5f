import Verif.Constraint.Syntax
import Verif.FM.Heap
/-!
# Constraint objects

Models the objects of `/repo/include/vara/Feature/Constraint.h` with their identities and parent pointers:
the constructors, `clone`, `toString`, `getRoot` and `setFeature`.

Objects are never freed: an operation never destroys a constraint that it uses afterwards.
-/

namespace Verif

/-- `std::variant<Feature *, std::unique_ptr<Feature>>` (Constraint.h:597-621): a pointer, or an own feature with
    the given name. -/
inductive FRef
  | ptr (i : Option Nat)
  | own (name : Str)
  deriving DecidableEq

/-- `getFeature()->getName()` (Constraint.cpp:17-22); `nm` gives the names of the living features. -/
def FRef.name (nm : Nat → Option Str) : FRef → Option Str
  | .ptr none => none
  | .ptr (some i) => nm i
  | .own n => some n

/-- The members of the subclasses (Constraint.h:112-114, 524-525, 590, 621). -/
inductive CData
  | bin (op : BinOp) (l r : Nat)
  | un (op : UnOp) (c : Nat)
  | int (v : Int)
  | feature (f : FRef)
  deriving DecidableEq

/-- A constraint object (Constraint.h:88-89). -/
structure CObj where
  data : CData
  parent : Option Nat := none
  deriving DecidableEq

/-- The constraint objects that exist; `next` is an address that was never used. -/
structure CState where
  objs : Nat → Option CObj
  next : Nat

namespace CState

/-- `std::make_unique` of a constraint; `Parent` is null (Constraint.h:89). -/
def alloc (s : CState) (d : CData) : CState × Nat := (⟨upd s.objs s.next (some { data := d }), s.next + 1⟩, s.next)

/-- `setParent` (Constraint.h:60); `none` = undefined. -/
def setParent (s : CState) (i p : Nat) : Option CState :=
  match s.objs i with
  | none => none
  | some o => some { s with objs := upd s.objs i (some { o with parent := some p }) }

/-- The constructors of binary constraints (Constraint.h:96-102). -/
def newBin (s : CState) (op : BinOp) (l r : Nat) : Option (CState × Nat) :=
  let (s1, i) := s.alloc (.bin op l r)
  match s1.setParent l i with
  | none => none
  | some s2 => (s2.setParent r i).map fun s3 => (s3, i)

/-- The constructors of unary constraints (Constraint.h:515-518). -/
def newUn (s : CState) (op : UnOp) (c : Nat) : Option (CState × Nat) :=
  let (s1, i) := s.alloc (.un op c)
  (s1.setParent c i).map fun s2 => (s2, i)

/-- `clone` (Constraint.h:124-127 and the other overrides, Constraint.cpp:24-27).  `fuel` bounds the recursion
    depth.  C++ does not say which of the two operands is cloned first; `lf` decides it for each object. -/
def clone (nm : Nat → Option Str) (lf : Nat → Bool) : Nat → CState → Nat → Option (CState × Nat)
  | 0, _, _ => none
  | fuel + 1, s, i =>
    match s.objs i with
    | none => none
    | some o =>
      match o.data with
      | .bin op l r =>
        if lf i then
          match clone nm lf fuel s l with
          | none => none
          | some (s1, l') =>
            match clone nm lf fuel s1 r with
            | none => none
            | some (s2, r') => s2.newBin op l' r'
        else
          match clone nm lf fuel s r with
          | none => none
          | some (s1, r') =>
            match clone nm lf fuel s1 l with
            | none => none
            | some (s2, l') => s2.newBin op l' r'
      | .un op c =>
        match clone nm lf fuel s c with
        | none => none
        | some (s1, c') => s1.newUn op c'
      | .int v => some (s.alloc (.int v))
      | .feature f =>
        match f.name nm with
        | none => none
        | some n => some (s.alloc (.feature (.own n)))

/-- `toString` (see `Constraint.toStr` for the lines). -/
def text (nm : Nat → Option Str) : Nat → CState → Nat → Option Str
  | 0, _, _ => none
  | fuel + 1, s, i =>
    match s.objs i with
    | none => none
    | some o =>
      match o.data with
      | .bin op l r =>
        match text nm fuel s l, text nm fuel s r with
        | some a, some b => some (['('] ++ a ++ [' '] ++ op.text ++ [' '] ++ op.rightPrefix ++ b ++ [')'])
        | _, _ => none
      | .un op c => (text nm fuel s c).map fun a => op.text ++ a
      | .int v => some (intText v)
      | .feature f => f.name nm

/-- `getRoot` (Constraint.h:64-70); `fuel` bounds the number of steps. -/
def getRoot : Nat → CState → Nat → Option Nat
  | 0, _, _ => none
  | fuel + 1, s, i =>
    match s.objs i with
    | none => none
    | some o =>
      match o.parent with
      | none => some i
      | some p => getRoot fuel s p

/-- `PrimaryFeatureConstraint::setFeature` (Constraint.h:623). -/
def setFeature (s : CState) (i : Nat) (f : Nat) : Option CState :=
  match s.objs i with
  | some o =>
    match o.data with
    | .feature _ => some { s with objs := upd s.objs i (some { o with data := .feature (.ptr (some f)) }) }
    | _ => none
  | none => none

end CState
end Verif

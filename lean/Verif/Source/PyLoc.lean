import Verif.Source.PyOffset
/-!
# `Location` and `LineColumnOffset` objects made by a Python program

Models `/repo/bindings/python/vara-feature/pybind_FeatureSourceRange.cpp:27-112` over
`/repo/include/vara/Feature/FeatureSourceRange.h:52-90, 173-262`.  The constructors copy the offsets they get
(`convertOptional`, 19-25); `start` and `end` are bound to functions that return a pointer into the location, with
the policy `reference_internal` of `def_property_readonly` (trusted: pybind11 then keeps the location alive and hands
out an object that refers to the optional's value).  Neither class is bound with `is_operator`, so comparing with an
object of another class is a `TypeError`; `None` is admitted.  Location objects that came from a feature are
`Source/Held.lean`.
-/

namespace Verif.PyLoc
open Verif

/-- What a variable of the program refers to. -/
inductive Handle
  | none
  /-- an offset object of its own -/
  | off (i : Nat)
  | loc (i : Nat)
  /-- the start within a location -/
  | start (i : Nat)
  | stop (i : Nat)
  deriving DecidableEq

/-- The objects made so far and the variables, all by number. -/
structure State where
  offs : List Loc := []
  locs : List Range := []
  vars : List Handle := []

/-- Exceptions of Python. -/
inductive Exc
  | type | attribute | name
  deriving DecidableEq

/-- Reading an offset through a variable; the outer `none`: undefined (the pointer refers to no value). -/
def State.offset (s : State) : Handle → Option (Except Exc Loc)
  | .off i => (s.offs[i]?).map .ok
  | .start i => (s.locs[i]?).bind fun r => r.start.map .ok
  | .stop i => (s.locs[i]?).bind fun r => r.stop.map .ok
  | .none | .loc _ => some (.error .attribute)

/-- Writing an offset back. -/
def State.putOffset (s : State) (l : Loc) : Handle → State
  | .off i => { s with offs := s.offs.set i l }
  | .start i =>
    match s.locs[i]? with
    | some r => { s with locs := s.locs.set i { r with start := some l } }
    | none => s
  | .stop i =>
    match s.locs[i]? with
    | some r => { s with locs := s.locs.set i { r with stop := some l } }
    | none => s
  | .none | .loc _ => s

/-- Statements of the program; variables by number. -/
inductive Stmt
  /-- `x = LineColumnOffset(line, column)` (91-93) -/
  | newOffset (line column : Int)
  /-- `x = Location(path)`, `Location(path, start)`, `Location(path, start, end)` or
      `Location(path, start, end, category)` (29-60); an offset not given is `None` -/
  | newLocation (path : List Str) (start stop : Option Nat) (category : Option Category)
  /-- `x = l.start`, `x = l.end` (66-71) -/
  | start (v : Nat)
  | stop (v : Nat)
  /-- `o.line_number = n`, `o.column_offset = n` (94-101) -/
  | setLine (v : Nat) (n : Int)
  | setColumn (v : Nat) (n : Int)
  /-- `l.path = p`, `l.category = c` (61-65, 72-74) -/
  | setPath (v : Nat) (p : List Str)
  | setCategory (v : Nat) (c : Category)
  /-- `v == w` (76-84, 103-111) -/
  | equal (v w : Nat)
  /-- `str(v)` (75, 102) -/
  | text (v : Nat)

/-- What a statement answers. -/
inductive Reply
  | done
  | bool (b : Bool)
  | text (s : Str)
  | raised (e : Exc)
  deriving DecidableEq

/-- An argument of type `std::optional<FeatureSourceLocation>`; copied. -/
def State.argument (s : State) : Option Nat → Option (Except Exc (Option Loc))
  | none => some (.ok none)
  | some v =>
    match s.vars[v]? with
    | none => some (.error .name)
    | some .none => some (.ok none)
    | some (.loc _) => some (.error .type)
    | some h => (s.offset h).map fun r => r.map some

/-- A location through a variable. -/
def State.location (s : State) (v : Nat) : Option (Except Exc (Nat × Range)) :=
  match s.vars[v]? with
  | none => some (.error .name)
  | some (.loc i) => (s.locs[i]?).map fun r => .ok (i, r)
  | some _ => some (.error .attribute)

/-- An object as the comparison sees it. -/
inductive Seen
  | none | offset (l : Loc) | location (r : Range)

def State.see (s : State) (v : Nat) : Option (Except Exc Seen) :=
  match s.vars[v]? with
  | none => some (.error .name)
  | some .none => some (.ok .none)
  | some (.loc i) => (s.locs[i]?).map fun r => .ok (.location r)
  | some h => (s.offset h).map fun r => r.map .offset

/-- `==` (76-84, 103-111); `None == x` asks `x`. -/
def Seen.equal : Seen → Seen → Reply
  | .none, .none => .bool true
  | .location a, .location b => .bool (a.eq b)
  | .offset a, .offset b => .bool (a.eq b)
  | .none, _ | _, .none => .bool false
  | _, _ => .raised .type

def assign (s : State) (v : Nat) (f : Loc → Option Loc) : Option (Reply × State) :=
  match s.vars[v]? with
  | none => some (.raised .name, s)
  | some h =>
    (s.offset h).map fun
      | .error e => (.raised e, s)
      | .ok l =>
        match f l with
        | none => (.raised .type, s)
        | some l => (.done, s.putOffset l h)

/-- One statement; `none`: undefined behaviour. -/
def step (s : State) : Stmt → Option (Reply × State)
  | .newOffset l c =>
    match pyOffset l c with
    | none => some (.raised .type, s)
    | some o => some (.done, { s with offs := s.offs ++ [o], vars := s.vars ++ [.off s.offs.length] })
  | .newLocation p a b c =>
    match s.argument a, s.argument b with
    | none, _ | _, none => none
    | some (.error e), _ => some (.raised e, s)
    | _, some (.error e) => some (.raised e, s)
    | some (.ok a), some (.ok b) =>
      some (.done, { s with
        locs := s.locs ++ [⟨p, a, b, c.getD .necessary, none, none⟩], vars := s.vars ++ [.loc s.locs.length] })
  | .start v =>
    (s.location v).map fun
      | .error e => (.raised e, s)
      | .ok (i, r) => (.done, { s with vars := s.vars ++ [if r.start.isSome then .start i else .none] })
  | .stop v =>
    (s.location v).map fun
      | .error e => (.raised e, s)
      | .ok (i, r) => (.done, { s with vars := s.vars ++ [if r.stop.isSome then .stop i else .none] })
  | .setLine v n => assign s v (pySetLine · n)
  | .setColumn v n => assign s v (pySetColumn · n)
  | .setPath v p =>
    (s.location v).map fun
      | .error e => (.raised e, s)
      | .ok (i, r) => (.done, { s with locs := s.locs.set i { r with path := p } })
  | .setCategory v c =>
    (s.location v).map fun
      | .error e => (.raised e, s)
      | .ok (i, r) => (.done, { s with locs := s.locs.set i { r with category := c } })
  | .equal v w =>
    match s.see v, s.see w with
    | none, _ | _, none => none
    | some (.error e), _ => some (.raised e, s)
    | _, some (.error e) => some (.raised e, s)
    | some (.ok a), some (.ok b) => some (a.equal b, s)
  | .text v =>
    (s.see v).map fun
      | .error e => (.raised e, s)
      | .ok .none => (.text c!"None", s)
      | .ok (.offset l) => (.text l.toStr, s)
      | .ok (.location r) => (.text r.toStr, s)

/-- A program. An exception ends its statement only (the program may catch it). -/
def run : State → List Stmt → Option (List Reply × State)
  | s, [] => some ([], s)
  | s, q :: qs => (step s q).bind fun r => (run r.2 qs).map fun t => (r.1 :: t.1, t.2)

end Verif.PyLoc

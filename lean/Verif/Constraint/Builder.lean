import Verif.Constraint.Syntax
/-!
# Constraint builder

Models `ConstraintBuilder`, `/repo/include/vara/Feature/ConstraintBuilder.h:13-360`.

A `std::unique_ptr<ConstraintBuilderImpl>` slot is addressed by its path in the tree of builder
nodes; the pointers `Head` and those in `Frames` are such paths.  Moving a node into a new parent
(`binary`) changes the path of every slot inside it, so the model renames the stored paths.
-/

namespace Verif

/-- Builder nodes, `ConstraintBuilderImpl` and subclasses (ConstraintBuilder.h:30-86).  `hole` is a
    null `unique_ptr`.  A feature primary is `none` once `build()` has moved its feature out. -/
inductive BTree
  | hole
  | int (v : Int)
  | feature (n : Option Str)
  | un (op : UnOp) (t : BTree)
  | bin (op : BinOp) (l r : BTree)
  deriving DecidableEq, Repr

/-- The slots of a node: `LeftOperand`, `RightOperand`, `Operand`. -/
inductive Dir
  | left | right | operand
  deriving DecidableEq, Repr

abbrev Path := List Dir

/-- The node in a slot; `none` if there is no such slot. -/
def BTree.get? : BTree → Path → Option BTree
  | t, [] => some t
  | .un _ t, .operand :: p => t.get? p
  | .bin _ l _, .left :: p => l.get? p
  | .bin _ _ r, .right :: p => r.get? p
  | _, _ => none

/-- Assigns to a slot. -/
def BTree.set : BTree → Path → BTree → BTree
  | _, [], x => x
  | .un op t, .operand :: p, x => .un op (t.set p x)
  | .bin op l r, .left :: p, x => .bin op (l.set p x) r
  | .bin op l r, .right :: p, x => .bin op l (r.set p x)
  | t, _, _ => t

/-- The data members (ConstraintBuilder.h:356-359). -/
structure BState where
  root : BTree
  head : Option Path
  frames : List (Nat × Path)
  deriving DecidableEq, Repr

/-- The constructor (ConstraintBuilder.h:15). -/
def BState.init : BState := ⟨.hole, some [], []⟩

/-- The calls of the interface (ConstraintBuilder.h:144-354), `parens` being `operator()()`. -/
inductive Call
  | constant (v : Int)
  | feature (n : Str)
  | un (op : UnOp)
  | bin (op : BinOp)
  | openPar
  | closePar
  | parens
  deriving DecidableEq, Repr

/-- The precedences passed to `binary` (ConstraintBuilder.h:250-354). -/
def BinOp.buildPrec : BinOp → Nat
  | .mul => 1 | .div => 1
  | .add => 2 | .sub => 2
  | .less => 3 | .greater => 3 | .lessEqual => 3 | .greaterEqual => 3
  | .equal => 4 | .notEqual => 4
  | .and => 5
  | .or => 6 | .xor => 6
  | .implies => 7 | .excludes => 7
  | .equivalence => 8

/-- `MaxPrecedence`, `MinPrecedence` (ConstraintBuilder.h:24-25). -/
def builderMax : Nat := 9
def builderMin : Nat := 0

/-- The popping loop of `binary` (ConstraintBuilder.h:110-114). -/
def popTo (p : Nat) : Path → List (Nat × Path) → Path × List (Nat × Path)
  | head, [] => (head, [])
  | head, (q, slot) :: fs => if q ≤ p then popTo p slot fs else (head, (q, slot) :: fs)

/-- The popping loop of `build`, `operator()()` and `closePar`
    (ConstraintBuilder.h:127-130, 145-148, 183-186). -/
def popBelowMax : List (Nat × Path) → List (Nat × Path)
  | [] => []
  | (q, slot) :: fs => if q < builderMax then popBelowMax fs else (q, slot) :: fs

/-- New path of a slot after the node in slot `p` became the left operand of a new node in `p`. -/
def renamePath (p q : Path) : Path :=
  if p.isPrefixOf q && decide (q.length ≠ p.length) then p ++ .left :: q.drop p.length else q

/-- One call.  `none` is undefined behaviour: a dangling pointer or a failed assertion. -/
def BState.step (s : BState) (c : Call) : Option BState :=
  match s.head with
  | none =>
    -- every call reports an error and leaves `Head` null; `operator()()` and `closePar` pop frames
    match c with
    | .closePar => some { s with frames := popBelowMax s.frames }
    | .parens => some { s with frames := popBelowMax s.frames }
    | _ => some s
  | some h =>
    match s.root.get? h with
    | none => none
    | some cur =>
      match c with
      | .constant v =>
        if cur ≠ .hole then some { s with head := none }
        else some { s with root := s.root.set h (.int v), frames := (builderMin, h) :: s.frames }
      | .feature n =>
        if cur ≠ .hole then some { s with head := none }
        else some { s with root := s.root.set h (.feature (some n))
                           frames := (builderMin, h) :: s.frames }
      | .un op =>
        if cur ≠ .hole then some { s with head := none }
        else some { root := s.root.set h (.un op .hole), head := some (h ++ [.operand])
                    frames := (builderMin, h) :: s.frames }
      | .bin op =>
        if cur = .hole then some { s with head := none }
        else
          let r := popTo op.buildPrec h s.frames
          match s.root.get? r.1 with
          | none => none
          | some .hole => none
          | some t =>
            some { root := s.root.set r.1 (.bin op t .hole)
                   head := some (r.1 ++ [.right])
                   frames := (op.buildPrec, r.1) ::
                     r.2.map fun f => (f.1, renamePath r.1 f.2) }
      | .openPar =>
        if cur ≠ .hole then some { s with head := none }
        else some { s with frames := (builderMax, h) :: s.frames }
      | .closePar =>
        match popBelowMax s.frames with
        | [] => some { s with head := none, frames := [] }
        | f :: fs =>
          if cur = .hole then some { s with head := none, frames := f :: fs }
          else
            match s.root.get? f.2 with
            | none => none
            | some .hole => none
            | some _ => some { s with head := some f.2, frames := fs }
      | .parens =>
        if cur = .hole then some { s with head := none, frames := popBelowMax s.frames }
        else if popBelowMax s.frames ≠ [] then
          some { s with head := none, frames := popBelowMax s.frames }
        else if s.root = .hole then none
        else some { s with head := some [], frames := [] }

/-- A sequence of calls. -/
def BState.run : BState → List Call → Option BState
  | s, [] => some s
  | s, c :: cs => (s.step c).bind fun s' => s'.run cs

/-- `ConstraintBuilderImpl::build` (ConstraintBuilder.h:45-47, 61-63, 78-81).
    Outer `none`: null dereference. Inner `none`: a feature primary without feature. -/
def BTree.build : BTree → Option (Option Constraint)
  | .hole => none
  | .int v => some (some (.int v))
  | .feature none => some none
  | .feature (some n) => some (some (.feature n))
  | .un op t =>
    match t.build with
    | none => none
    | some c => some (c.map (.un op))
  | .bin op l r =>
    match l.build, r.build with
    | some a, some b => some (a.bind fun a => b.map fun b => .bin op a b)
    | _, _ => none

/-- What `ConstraintBuilderImpl::build` leaves behind: the features are moved out. -/
def BTree.moved : BTree → BTree
  | .feature _ => .feature none
  | .un op t => .un op t.moved
  | .bin op l r => .bin op l.moved r.moved
  | t => t

/-- Result of `ConstraintBuilder::build`. -/
inductive BuildResult
  | ub
  | null
  /-- A constraint with a `PrimaryFeatureConstraint` that holds no feature. -/
  | nullFeature
  | ok (c : Constraint)
  deriving DecidableEq, Repr

/-- `ConstraintBuilder::build` (ConstraintBuilder.h:126-136): result and state afterwards. -/
def BState.build (s : BState) : BuildResult × BState :=
  let s' := { s with frames := popBelowMax s.frames }
  match s.head with
  | none => (.null, s')
  | some h =>
    match s.root.get? h with
    | none => (.ub, s')
    | some .hole => (.null, s')
    | some _ =>
      if s.root = .hole then (.null, s')
      else if popBelowMax s.frames ≠ [] then (.null, s')
      else
        match s.root.build with
        | none => (.ub, s')
        | some none => (.nullFeature, { s' with root := s.root.moved })
        | some (some c) => (.ok c, { s' with root := s.root.moved })

/-- `ConstraintBuilder().….build()` for a sequence of calls. -/
def buildCalls (cs : List Call) : BuildResult :=
  match BState.init.run cs with
  | none => .ub
  | some s => s.build.1

end Verif

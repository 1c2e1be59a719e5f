import Verif.Solver.Z3
import Verif.FM.Iterate
import Verif.Config.Model
/-!
# The solver

Models `/repo/lib/Solver/{Z3Solver,SolverFactory}.cpp` and
`/repo/include/vara/Solver/ConfigurationFactory.h`.  `push()` without `pop()` (Z3Solver.cpp:83) has no
effect on what is asserted and is left out.  The option map is kept in insertion order; what is made
from it, a disjunction and a map, does not depend on the order.
-/

namespace Verif

/-- `SolverErrorCode` (Error.h:10-18), as far as used. -/
inductive SolverErr
  | notSupported | unsat | alreadyPresent | parentNotPresent | illegalState
  deriving DecidableEq, Repr

/-- `Name.c_str()` as a C string. -/
def cstr (s : Str) : Str := s.takeWhile (fun c => c != Char.ofNat 0)

/-- `Z3Solver` (Z3Solver.h:80-95); `checks` counts the calls of Z3. -/
structure Z3Solver where
  options : List (Str × ZTerm) := []
  asserted : List ZTerm := []
  current : Option Assign := none
  checks : Nat := 0

/-- How a call ends.  `crash`: undefined behaviour, a failed assertion or an exception of Z3. -/
inductive SRes
  | ok (s : Z3Solver)
  | err (e : SolverErr) (s : Z3Solver)
  | crash
  | endless

/-- Conversions between `int64_t` and `double`; the conversion back is undefined (`none`) outside of the
    range. -/
structure IntFloats extends Floats where
  ofInt : Int → D
  toInt : D → Option Int

/-- `StepFunction::next<int64_t>` (StepFunction.h:30-54). -/
def StepFn.nextInt (F : IntFloats) (f : StepFn) (x : Int) : Option Int :=
  (f.next F.toFloats (F.ofInt x)).bind F.toInt

/-- How the loop over a range ends. -/
inductive RangeRes
  | values (vs : List Int)
  | crash
  | endless
  deriving DecidableEq

/-- The loop over a range (Z3Solver.cpp:47-50); `fuel` bounds the rounds. -/
def rangeLoop (F : IntFloats) (step : Option StepFn) (hi : Int) : Nat → Int → List Int → RangeRes
  | 0, _, _ => .endless
  | fuel + 1, x, vals =>
    if x ≤ hi then
      match step with
      | none => .crash
      | some f =>
        match f.nextInt F x with
        | none => .crash
        | some y => rangeLoop F step hi fuel y (x :: vals)
    else .values vals

namespace Z3Solver

/-- `OptionToVariableMapping.find(Name) != end()`. -/
def has (s : Z3Solver) (n : Str) : Bool := (s.options.lookup n).isSome

/-- `Solver->add(T)`. -/
def assert (s : Z3Solver) (t : ZTerm) : Option Z3Solver :=
  if t.sort = .bool then some { s with asserted := s.asserted ++ [t] } else none

/-- `addFeature(Name)` (Z3Solver.cpp:87-96). -/
def addBool (s : Z3Solver) (n : Str) : SRes :=
  if s.has n then .err .alreadyPresent s
  else .ok { s with options := s.options ++ [(n, .boolConst (cstr n))] }

/-- The disjunction over the values (Z3Solver.cpp:110-114). -/
def oneOf (x : ZTerm) (vs : List Int) : ZTerm :=
  vs.foldl (fun t v => .bin .or t (.bin .eq x (.intVal v))) (.boolVal false)

/-- `addFeature(Name, Values)` (Z3Solver.cpp:98-118). -/
def addInt (s : Z3Solver) (n : Str) (vs : List Int) : SRes :=
  if s.has n then .err .alreadyPresent s
  else
    .ok { s with
      options := s.options ++ [(n, .intConst (cstr n))]
      asserted := s.asserted ++ [oneOf (.intConst (cstr n)) vs] }

/-- `setBinaryFeatureConstraints` (Z3Solver.cpp:194-209) for the names of a feature and its parent. -/
def linkParent (s : Z3Solver) (n pn : Str) (mandatory : Bool) : SRes :=
  match s.options.lookup n, s.options.lookup pn with
  | some x, some p =>
    match ZTerm.mk .implies x p with
    | none => .crash
    | some t =>
      match s.assert t with
      | none => .crash
      | some s =>
        if mandatory then
          match ZTerm.mk .implies p x with
          | none => .crash
          | some t =>
            match s.assert t with
            | none => .crash
            | some s => .ok s
        else .ok s
  | _, _ => .crash

/-- The name of the parent feature and whether it is an option; no parent counts as present
    (Z3Solver.cpp:13-17). -/
def parentPresent (m : FModel) (s : Z3Solver) (p : Option Id) : Option (Option Str × Bool) :=
  match p with
  | none => some (none, true)
  | some p => (m.nameOf p).map (fun pn => (some pn, s.has pn))

/-- `addFeature(Feature, IsInAlternativeGroup)` (Z3Solver.cpp:9-85). -/
def addFeature (F : IntFloats) (fuel : Nat) (m : FModel) (s : Z3Solver) (i : Id) (inGroup : Bool) : SRes :=
  match m.feat? i, m.parentFeature i with
  | some f, some p =>
    match s.parentPresent m p with
    | none => .crash
    | some (_, false) => .err .parentNotPresent s
    | some (pn, true) =>
      if s.has f.attr.name then .err .alreadyPresent s
      else
        match f.attr.kind with
        | .numeric (.list vs) _ => s.addInt f.attr.name vs
        | .numeric (.range lo hi) step =>
          match rangeLoop F step hi fuel lo [] with
          | .values vs => s.addInt f.attr.name vs
          | .crash => .crash
          | .endless => .endless
        | .binary =>
          match s.addBool f.attr.name with
          | .ok s =>
            match pn with
            | none => .crash
            | some pn => s.linkParent f.attr.name pn (!inGroup && !f.attr.opt)
          | r => r
        | .root =>
          match s.addBool f.attr.name with
          | .ok s =>
            match s.options.lookup f.attr.name with
            | none => .crash
            | some x =>
              match s.assert x with
              | none => .crash
              | some s => .ok s
          | r => r
        | .unknown => .err .notSupported s
  | _, _ => .crash

/-- `addRelationship` (Z3Solver.cpp:124-144).  Nodes that are no features are undefined behaviour
    through `reinterpret_cast`; `z3::atmost` reads the first element of the vector. -/
def addRelationship (m : FModel) (s : Z3Solver) (r : Id) : SRes :=
  match m.heap r with
  | some ⟨.rel k, some p, es⟩ =>
    match m.nameOf p, es.mapM m.nameOf with
    | some pn, some ns =>
      let vs := ns.map cstr
      match k with
      | .alternative =>
        if vs = [] then .crash
        else
          .ok { s with asserted := s.asserted ++
            [.bin .implies (.boolConst (cstr pn)) (.bin .and (.atMost vs 1) (.orOf vs))] }
      | .or => .ok { s with asserted := s.asserted ++ [.bin .implies (.boolConst (cstr pn)) (.orOf vs)] }
    | _, _ => .crash
  | _ => .crash

/-! ## Constraints -/

/-- `visit(PrimaryFeatureConstraint)` (Z3Solver.cpp:353-370): the term and the new
    `VariableConstraint`.  An unbound leaf has a feature of unknown kind of its own. -/
def visitFeature (m : FModel) (mixed : Bool) (n : Str) (b : Option Id) (vars : ZTerm) : Option (ZTerm × ZTerm) :=
  let boolean (n : Str) : Option (ZTerm × ZTerm) :=
    let x := ZTerm.boolConst (cstr n)
    if mixed then
      match ZTerm.mkNot x with
      | none => none
      | some y => (ZTerm.mk .or vars y).map (fun v => (.ite x (.intVal 1) (.intVal 0), v))
    else some (x, vars)
  match b with
  | none => boolean n
  | some i =>
    match m.feat? i with
    | none => none
    | some f =>
      match f.attr.kind with
      | .numeric _ _ => some (.intConst (cstr f.attr.name), vars)
      | _ => boolean f.attr.name

/-- The term of a binary constraint (Z3Solver.cpp:276-331). -/
def visitBin (op : BinOp) (l r : ZTerm) : Option ZTerm :=
  match op with
  | .add => ZTerm.mk .add l r
  | .and => ZTerm.mk .and l r
  | .div => ZTerm.mk .div l r
  | .equal => ZTerm.mk .eq l r
  | .equivalence =>
    (ZTerm.mk .implies l r).bind fun a => (ZTerm.mk .implies r l).bind fun b => ZTerm.mk .and a b
  | .excludes => (ZTerm.mkNot r).bind fun nr => ZTerm.mk .implies l nr
  | .greater => ZTerm.mk .gt l r
  | .greaterEqual => ZTerm.mk .ge l r
  | .implies => ZTerm.mk .implies l r
  | .less => ZTerm.mk .lt l r
  | .lessEqual => ZTerm.mk .le l r
  | .mul => ZTerm.mk .mul l r
  | .notEqual => ZTerm.mk .distinct l r
  | .or => ZTerm.mk .or l r
  | .sub => ZTerm.mk .sub l r
  | .xor =>
    (ZTerm.mkNot r).bind fun nr => (ZTerm.mk .implies l nr).bind fun a =>
      (ZTerm.mkNot l).bind fun nl => (ZTerm.mk .implies r nl).bind fun b => ZTerm.mk .and a b

/-- The visitor (Z3Solver.cpp:268-376): from a tree, the feature pointers of its leaves from left to
    right and `VariableConstraint` to the term, the pointers left and the new `VariableConstraint`. -/
def visit (m : FModel) (mixed : Bool) : Constraint → List (Option Id) → ZTerm → Option (ZTerm × List (Option Id) × ZTerm)
  | .bin op l r, bs, vars =>
    match visit m mixed l bs vars with
    | none => none
    | some (tl, bs, vars) =>
      match visit m mixed r bs vars with
      | none => none
      | some (tr, bs, vars) => (visitBin op tl tr).map fun t => (t, bs, vars)
  | .un op c, bs, vars =>
    match visit m mixed c bs vars with
    | none => none
    | some (t, bs, vars) =>
      (match op with | .neg => t.mkNeg | .not => t.mkNot).map fun t => (t, bs, vars)
  | .int v, bs, vars => some (.intVal v, bs, vars)
  | .feature _, [], _ => none
  | .feature n, b :: bs, vars => (visitFeature m mixed n b vars).map fun (t, vars) => (t, bs, vars)

/-- `Z3SolverConstraintVisitor::addConstraint` (Z3Solver.cpp:251-266); visiting never fails. -/
def addVisited (m : FModel) (s : Z3Solver) (mixed negate requireAll : Bool) (c : Stored) : SRes :=
  match visit m mixed c.tree c.binds (.boolVal false) with
  | none => .crash
  | some (t, _, vars) =>
    match (if negate = true then t.mkNot else some t) with
    | none => .crash
    | some t =>
      match (if (mixed && requireAll) = true then ZTerm.mk .or vars t else some t) with
      | none => .crash
      | some t =>
        match s.assert t with
        | none => .crash
        | some s => .ok s

/-- `addConstraint` (Z3Solver.cpp:146-154). -/
def addConstraint (m : FModel) (s : Z3Solver) (c : Stored) : SRes := s.addVisited m false false true c

/-- `addMixedConstraint` (Z3Solver.cpp:156-169). -/
def addMixedConstraint (m : FModel) (s : Z3Solver) (c : Stored) (i : MixedInfo) : SRes :=
  s.addVisited m true (!i.positive) i.reqAll c

/-! ## Loading a model -/

/-- A loop that ignores error codes, as those in `applyModelOnSolver`. -/
def forEach {α} (f : Z3Solver → α → SRes) : Z3Solver → List α → SRes
  | s, [] => .ok s
  | s, x :: xs =>
    match f s x with
    | .ok s => forEach f s xs
    | .err _ s => forEach f s xs
    | .crash => .crash
    | .endless => .endless

/-- What follows on a loop. -/
def SRes.andThen (r : SRes) (f : Z3Solver → SRes) : SRes :=
  match r with
  | .ok s => f s
  | r => r

/-- The names of the children of a relationship (SolverFactory.cpp:17-20). -/
def memberNames (m : FModel) (r : Id) : Option (List Str) :=
  match m.heap r with
  | none => none
  | some n => n.edges.mapM m.nameOf

/-- The names of all children of relationships (SolverFactory.cpp:15-21). -/
def groupNames (m : FModel) : Option (List Str) :=
  (m.rels.mapM (memberNames m)).map (fun (l : List (List Str)) => l.flatten.reverse)

/-- Whether the name of a feature is among these (SolverFactory.cpp:24-27). -/
def inNames (m : FModel) (V : List Str) (i : Id) : Bool :=
  match m.nameOf i with
  | some n => decide (n ∈ V)
  | none => false

/-- Adding a mixed constraint with what it stores (SolverFactory.cpp:36-38). -/
def addMixed (m : FModel) (s : Z3Solver) (c : Stored) : SRes :=
  match c.info with
  | some i => addMixedConstraint m s c i
  | none => .crash

/-- `applyModelOnSolver` (SolverFactory.cpp:11-45). -/
def applyModel (E : Env) (F : IntFloats) (fuel : Nat) (m : FModel) (s : Z3Solver) : SRes :=
  match groupNames m, m.iterate E with
  | some V, some fs =>
    SRes.andThen (forEach (fun s i => addFeature F fuel m s i (inNames m V i)) s fs) fun s =>
    SRes.andThen (forEach (addConstraint m) s m.booleans) fun s =>
    SRes.andThen (forEach (addConstraint m) s m.nonBooleans) fun s =>
    SRes.andThen (forEach (addMixed m) s m.mixeds) fun s =>
    forEach (addRelationship m) s m.rels
  | _, _ => .crash

/-- `initializeSolver` (SolverFactory.h:26-34, Z3Solver.h:28-34). -/
def initSolver (E : Env) (F : IntFloats) (fuel : Nat) (m : FModel) : SRes := applyModel E F fuel m {}

/-! ## Configurations -/

/-- How a request for a configuration ends. -/
inductive CRes
  | ok (c : Config) (s : Z3Solver)
  | err (e : SolverErr) (s : Z3Solver)
  | crash

/-- The term saying that an option has another value (Z3Solver.cpp:218-227). -/
def otherValue (a : Assign) (x : ZTerm) : ZTerm :=
  match x.eval a with
  | .bool true => .not x
  | .bool false => x
  | .int v => .bin .distinct x (.intVal v)

/-- `excludeCurrentConfiguration` (Z3Solver.cpp:211-231). -/
def excluding (options : List (Str × ZTerm)) (a : Assign) : ZTerm :=
  options.foldl (fun t e => .bin .or t (otherValue a e.2)) (.boolVal false)

/-- The configuration of a Z3 model (Z3Solver.cpp:239-246). -/
def configOf (options : List (Str × ZTerm)) (a : Assign) : Config :=
  options.foldl (fun c e => c.set e.1 (e.2.eval a).text) []

/-- `getNextConfiguration` (Z3Solver.cpp:184-192).  There is no model after `unknown`. -/
def getNext (O : Oracle) (s : Z3Solver) : CRes :=
  match O.check s.checks s.asserted with
  | .unsat => .err .unsat { s with checks := s.checks + 1 }
  | .unknown => .crash
  | .sat a =>
    .ok (configOf s.options a)
      { s with current := some a
               asserted := s.asserted ++ [excluding s.options a]
               checks := s.checks + 1 }

/-- `getCurrentConfiguration` (Z3Solver.cpp:233-248). -/
def getCurrent (O : Oracle) (s : Z3Solver) : CRes :=
  match s.current with
  | none => s.getNext O
  | some a => .ok (configOf s.options a) s

/-- `hasValidConfigurations` (Z3Solver.cpp:171-182): an error code or a truth value. -/
def hasValid (O : Oracle) (s : Z3Solver) : Except SolverErr Bool :=
  if s.current.isSome then .error .illegalState
  else
    match O.check s.checks s.asserted with
    | .sat _ => .ok true
    | _ => .ok false

/-! ## The factory -/

/-- How a request for a list of configurations ends. -/
inductive LRes
  | ok (cs : List Config)
  | err (e : SolverErr)
  | crash
  | endless

/-- The loop of `getAllConfigs` (ConfigurationFactory.h:93-99) with the iterator (18-48). -/
def allLoop (O : Oracle) : Nat → Z3Solver → List Config → LRes
  | 0, _, _ => .endless
  | fuel + 1, s, acc =>
    match s.getCurrent O with
    | .crash => .crash
    | .err e _ => .err e
    | .ok c s =>
      match s.getNext O with
      | .crash => .crash
      | .err _ _ => .ok (acc ++ [c])
      | .ok _ s => allLoop O fuel s (acc ++ [c])

/-- The loop of `getNConfigs` (ConfigurationFactory.h:141-150). -/
def someLoop (O : Oracle) (n : Nat) : Nat → Z3Solver → List Config → LRes
  | 0, _, _ => .endless
  | fuel + 1, s, acc =>
    match s.getCurrent O with
    | .crash => .crash
    | .err _ s =>
      if acc.length = n then .ok acc
      else
        match s.getNext O with
        | .crash => .crash
        | .err _ _ => .ok acc
        | .ok _ s => someLoop O n fuel s acc
    | .ok c s =>
      if (c :: acc).length = n then .ok (c :: acc)
      else
        match s.getNext O with
        | .crash => .crash
        | .err _ _ => .ok (c :: acc)
        | .ok _ s => someLoop O n fuel s (c :: acc)

/-- `getAllConfigs` (ConfigurationFactory.h:89-101). -/
def getAllConfigs (E : Env) (F : IntFloats) (O : Oracle) (fuel : Nat) (m : FModel) : LRes :=
  match initSolver E F fuel m with
  | .ok s => allLoop O fuel s []
  | .err _ s => allLoop O fuel s []
  | .crash => .crash
  | .endless => .endless

/-- `getNumConfigs` (ConfigurationFactory.h:113-121). -/
def getNumConfigs (E : Env) (F : IntFloats) (O : Oracle) (fuel : Nat) (m : FModel) : Option (Except SolverErr Nat) :=
  match getAllConfigs E F O fuel m with
  | .ok cs => some (.ok cs.length)
  | .err e => some (.error e)
  | _ => none

/-- `getNConfigs` (ConfigurationFactory.h:133-152). -/
def getNConfigs (E : Env) (F : IntFloats) (O : Oracle) (fuel : Nat) (m : FModel) (n : Nat) : LRes :=
  if n = 0 then .ok []
  else
    match initSolver E F fuel m with
    | .ok s => someLoop O n fuel s []
    | .err _ s => someLoop O n fuel s []
    | .crash => .crash
    | .endless => .endless

/-- `Result::operator bool` (Result.h:108-110): whether there is no error. -/
def okBit {ε α} : Except ε α → Bool
  | .ok _ => true
  | .error _ => false

/-- `isValid` (ConfigurationFactory.h:160-164): the `Result` is converted to `bool`; `none` if the
    solver cannot be set up. -/
def isValid (E : Env) (F : IntFloats) (O : Oracle) (fuel : Nat) (m : FModel) : Option Bool :=
  match initSolver E F fuel m with
  | .ok s => some (okBit (s.hasValid O))
  | .err _ s => some (okBit (s.hasValid O))
  | .crash => none
  | .endless => none

end Z3Solver
end Verif

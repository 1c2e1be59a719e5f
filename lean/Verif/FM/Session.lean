import Verif.FM.Consistent
import Verif.FM.Add
/-!
# Editing a model with the one-call helpers, as Python programs do
-/

namespace Verif
namespace FModel

/-- The helpers `addFeature`, `removeFeature`, `addRelationship`, `removeRelationship` and `setCommit`
    (FeatureModelTransaction.cpp:17-22, 34-40, 141-159): a transaction with one modification; the result of the
    commit is dropped.  `none` is undefined or, for the assertion in `openTransaction`, a failed assertion. -/
def oneCall (E : Env) (m : FModel) (o : Op) : Option FModel :=
  if E.asserts && !(m.consistent E == some true) then none
  else
    match m.commitOps E [o] with
    | .ok m => some m
    | .err _ m => some m
    | .ub => none

end FModel

/-- A statement of a Python program that edits a model.  Features are looked up by `get_feature` when they are
    needed (pybind_FeatureModel.cpp:73-78), as in `fm.remove_feature(fm.get_feature("A"))`. -/
inductive PyEdit
  /-- `add_binary_feature` (pybind_FeatureModel.cpp:79-99) -/
  | addBinary (parent name : Str) (opt : Bool) (locs : List Range)
  /-- `add_numeric_feature` (pybind_FeatureModel.cpp:100-121) -/
  | addNumeric (parent name : Str) (values : Values) (opt : Bool) (locs : List Range)
  /-- `remove_feature` (pybind_FeatureModel.cpp:122-128) -/
  | remove (name : Str) (recursive : Bool)
  /-- assignment to `commit` (pybind_FeatureModel.cpp:63-69) -/
  | setCommit (commit : Str)
  deriving Repr

/-- How a statement ends. -/
inductive PyEnd
  | returns (m : FModel)
  | raises (m : FModel)
  | ub

def PyEnd.ofOption : Option FModel → PyEnd
  | some m => .returns m
  | none => .ub

/-- The feature a statement looks up (pybind_FeatureModel.cpp:73-78). -/
def PyEdit.looksUp : PyEdit → Option Str
  | .addBinary p _ _ _ => some p
  | .addNumeric p _ _ _ _ => some p
  | .remove n _ => some n
  | .setCommit _ => none

/-- Running a statement.  `get_feature` returns `None` for a missing feature, and `None` is no argument for a
    parameter of type `Feature &`, so that pybind11 raises a `TypeError` and the function is not called. -/
def PyEdit.run (E : Env) (m : FModel) : PyEdit → PyEnd
  | .addBinary p n o l =>
    match m.getFeature p with
    | none => .raises m
    | some i => .ofOption (m.oneCall E (.addFeature { name := n, kind := .binary, opt := o, locs := l } (some i)))
  | .addNumeric p n vs o l =>
    match m.getFeature p with
    | none => .raises m
    | some i => .ofOption (m.oneCall E (.addFeature { name := n, kind := .numeric vs none, opt := o, locs := l } (some i)))
  | .remove n r =>
    match m.getFeature n with
    | none => .raises m
    | some i => .ofOption (m.oneCall E (.removeFeature (.ptr (some i)) r))
  | .setCommit c => .ofOption (m.oneCall E (.setCommit c))

/-- A program that catches what is raised and goes on. -/
def pyRun (E : Env) : FModel → List PyEdit → Option FModel
  | m, [] => some m
  | m, e :: es =>
    match e.run E m with
    | .returns m => pyRun E m es
    | .raises m => pyRun E m es
    | .ub => none

namespace Spec

/-! ## What a program says, on a list of names -/

/-- What is written down about a feature: the name of its parent feature, and its properties. -/
structure Row where
  parent : Option Str
  attr : Attr

/-- What is written down about a model. -/
structure Sheet where
  row : Str → Option Row
  commit : Str

/-- The sheet describes the model: exactly the model's features are on it, each with its properties and the
    feature it is below (groups are passed over). -/
structure SheetOf (m : FModel) (S : Sheet) : Prop where
  row : ∀ n e, S.row n = some e ↔ ∃ i f, (n, i) ∈ m.features ∧ data m i = some (.feat f) ∧ f.attr = e.attr ∧
    ((e.parent = none ∧ ∀ q, ¬ FParent m i q) ∨ ∃ q y, FParent m i q ∧ (y, q) ∈ m.features ∧ e.parent = some y)
  commit : m.commit = S.commit

/-- `x` is `n` or below it. -/
inductive Sheet.Under (S : Sheet) (n : Str) : Str → Prop
  | refl : S.Under n n
  | step {x y e} : S.row x = some e → e.parent = some y → S.Under n y → S.Under n x

/-- A new row, if the name is new and the parent is there. -/
def Sheet.add (S : Sheet) (p : Str) (a : Attr) : Sheet :=
  if S.row p = none ∨ S.row a.name ≠ none then S
  else { S with row := fun x => if x = a.name then some ⟨some p, a⟩ else S.row x }

open Classical in
/-- What a statement says.  What cannot be done changes nothing. -/
noncomputable def Sheet.after (S : Sheet) : PyEdit → Sheet
  | .addBinary p n o l => S.add p { name := n, kind := .binary, opt := o, locs := l }
  | .addNumeric p n vs o l => S.add p { name := n, kind := .numeric vs none, opt := o, locs := l }
  | .remove n true => { S with row := fun x => if S.Under n x then none else S.row x }
  | .remove n false =>
    if ∃ x e, S.row x = some e ∧ e.parent = some n then S
    else { S with row := fun x => if x = n then none else S.row x }
  | .setCommit c => { S with commit := c }

/-- The statement does not remove the feature. -/
def Spares (n : Str) : PyEdit → Prop
  | .remove x _ => x ≠ n
  | _ => True

/-- Groups contain features only, and a feature has at most one group. -/
structure TidyGroups (m : FModel) : Prop where
  flat : ∀ r ∈ m.rels, ∀ c ∈ edg m r, IsFeat m c
  one : ∀ i, Known m i → ∀ r s, r ∈ edg m i → s ∈ edg m i → IsRel m r → IsRel m s → r = s

/-- What the statements have nothing to do with. -/
structure SameRest (m m' : FModel) : Prop where
  root : m'.root = m.root
  root_name : ∀ e ∈ m.features, m.root = some e.2 → e ∈ m'.features
  name : m'.name = m.name
  path : m'.path = m.path
  booleans : m'.booleans = m.booleans
  nonBooleans : m'.nonBooleans = m.nonBooleans
  mixeds : m'.mixeds = m.mixeds

end Spec
end Verif

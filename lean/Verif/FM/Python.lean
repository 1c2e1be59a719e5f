import Verif.FM.Buildable
/-!
# The builder as seen from Python
-/

namespace Verif

/-- A call of a Python program on a `FeatureModelBuilder` (pybind_FeatureModelBuilder.cpp:17-89). -/
inductive PyCall
  | makeBinaryFeature (name : Str) (opt : Bool)
  | addAnEdge (parent child : Str)
  | emplaceRelationship (parent relation : Str)
  | addBooleanConstraint (c : Constraint)
  | addNonBooleanConstraint (c : Constraint)
  | setVmName (n : Str)
  | setPath (n : Str)
  | setCommit (n : Str)
  | makeRoot (n : Str)
  deriving DecidableEq, Repr

/-- The function bound to the call (pybind_FeatureModelBuilder.cpp:19-84); `none` is a failed assertion. -/
def PyCall.bound (asserts : Bool) : PyCall → Option BCall
  | .makeBinaryFeature n _ => some (.makeFeature { name := n, kind := .binary })
  | .addAnEdge p c => some (.addEdge p c)
  | .emplaceRelationship p r =>
    if r = c!"OR" then some (.emplaceRelationship .or p)
    else if asserts && !(r = c!"XOR") then none
    else some (.emplaceRelationship .alternative p)
  | .addBooleanConstraint c => some (.addConstraint .boolean c)
  | .addNonBooleanConstraint c => some (.addConstraint .nonBoolean c)
  | .setVmName n => some (.setVmName n)
  | .setPath n => some (.setPath n)
  | .setCommit n => some (.setCommit n)
  | .makeRoot n => some (.makeRoot n)

/-- The calls of a program and `build_feature_model` (pybind_FeatureModelBuilder.cpp:85-88). -/
def pyBuild (E : Env) (world : FModel) (calls : List PyCall) : BuildRes :=
  match calls.mapM (PyCall.bound E.asserts) with
  | none => .ub
  | some bs => world.build E (builderOf bs)

namespace Spec

/-- What a call says according to its documentation, nothing if the relation has no meaning. -/
def PyCall.says : PyCall → Option BCall
  | .makeBinaryFeature n o => some (.makeFeature { name := n, kind := .binary, opt := o })
  | .addAnEdge p c => some (.addEdge p c)
  | .emplaceRelationship p r =>
    if r = c!"OR" then some (.emplaceRelationship .or p)
    else if r = c!"XOR" then some (.emplaceRelationship .alternative p) else none
  | .addBooleanConstraint c => some (.addConstraint .boolean c)
  | .addNonBooleanConstraint c => some (.addConstraint .nonBoolean c)
  | .setVmName n => some (.setVmName n)
  | .setPath n => some (.setPath n)
  | .setCommit n => some (.setCommit n)
  | .makeRoot n => some (.makeRoot n)

/-- The program asks for what `d` describes. -/
def PyDescribes (calls : List PyCall) (d : Desc) : Prop :=
  ∃ bs, calls.mapM PyCall.says = some bs ∧ Buildable bs d

/-- The description with all features mandatory. -/
def Desc.mandatory (d : Desc) : Desc := { d with attrs := d.attrs.map fun a => { a with opt := false } }

end Spec
end Verif

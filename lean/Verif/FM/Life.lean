import Verif.FM.Build
/-!
# The life of a builder

A `FeatureModelBuilder` is an object that can be used after it has built its model, too.
-/

namespace Verif

/-- The members of a builder (FeatureModelBuilder.h:104-112): the model and whether `FM` still holds it,
    `Parents` (the latest entry of a name first), and the three transactions. -/
structure Life where
  m : FModel
  holds : Bool
  parents : List (Str × Str)
  feats : Tx
  model : Tx
  rels : Tx

/-- The constructor (FeatureModelBuilder.h:18-22). -/
def Life.start (world : FModel) : Life := ⟨world.fresh, true, [], ⟨true, []⟩, ⟨true, []⟩, ⟨true, []⟩⟩

/-- A use of a builder. -/
inductive LCall
  | call (c : BCall)
  | getParentName (n : Str)
  | build
  deriving DecidableEq, Repr

/-- What a use returns. -/
inductive LRes
  | self
  | parentName (n : Option Str)
  | built (m : FModel)
  | null

namespace Life

/-- Queueing of a modification by the function that asserts that the model is there, if `check`
    (FeatureModelTransaction.h:1011-1093). -/
def queue (E : Env) (check : Bool) (t : Tx) (o : Op) : Option Tx :=
  if E.asserts && check && !t.opened then none else some { t with ops := t.ops ++ [o] }

/-- The functions of the builder (FeatureModelBuilder.h:42-97); `none` is a failed assertion. -/
def call (E : Env) (l : Life) : BCall → Option Life
  | .makeFeature a => (queue E true l.feats (.addFeature a none)).map fun t => { l with feats := t }
  | .makeRoot n => (queue E true l.feats (.setRoot n)).map fun t => { l with feats := t }
  | .addEdge p c =>
    (queue E true l.model (.addChild (.name p) (.name c))).map fun t => { l with model := t, parents := (c, p) :: l.parents }
  | .emplaceRelationship k p => (queue E false l.rels (.addRelationship k (.name p))).map fun t => { l with rels := t }
  | .addConstraint k c => (queue E false l.rels (.addConstraint k c)).map fun t => { l with rels := t }
  | .setVmName n => (queue E true l.model (.setName n)).map fun t => { l with model := t }
  | .setPath n => (queue E true l.model (.setPath n)).map fun t => { l with model := t }
  | .setCommit n => (queue E true l.model (.setCommit n)).map fun t => { l with model := t }

/-- `buildFeatureModel` (FeatureModelBuilder.cpp:9-32); `none` is undefined.  The assertion dereferences
    `FM`. -/
def build (E : Env) (l : Life) : Option (Life × LRes) :=
  if E.asserts && !(l.holds && l.m.root.isSome) then none
  else
    match FModel.txCommit E l.m l.feats with
    | none => none
    | some (m, t1, .err _) =>
      some ({ l with m := m, feats := t1, model := { l.model with opened := false }, rels := { l.rels with opened := false } }, .null)
    | some (m, t1, _) =>
      match FModel.txCommit E m l.model with
      | none => none
      | some (m, t2, .err _) => some ({ l with m := m, feats := t1, model := t2, rels := { l.rels with opened := false } }, .null)
      | some (m, t2, _) =>
        match FModel.txCommit E m l.rels with
        | none => none
        | some (m, t3, .err _) => some ({ l with m := m, feats := t1, model := t2, rels := t3 }, .null)
        | some (m, t3, _) =>
          some ({ l with m := m, holds := false, feats := t1, model := t2, rels := t3 }, if l.holds then .built m else .null)

/-- One use. -/
def step (E : Env) (l : Life) : LCall → Option (Life × LRes)
  | .call c => (l.call E c).map fun l => (l, .self)
  | .getParentName n => some (l, .parentName (l.parents.lookup n))
  | .build => l.build E

/-- A whole life: the builder afterwards and what the uses returned. -/
def run (E : Env) : Life → List LCall → Option (Life × List LRes)
  | l, [] => some (l, [])
  | l, c :: cs =>
    match l.step E c with
    | none => none
    | some (l, r) => (run E l cs).map fun x => (x.1, r :: x.2)

end Life
end Verif

import Verif.FM.Model
import Verif.Constraint.BuilderSpec
/-!
# Transactions

Models `/repo/include/vara/Feature/FeatureModelTransaction.h` (modifications, modify and copy
transactions) and `/repo/include/vara/Feature/FeatureModelBuilder.h`,
`/repo/lib/Feature/FeatureModelBuilder.cpp`, `/repo/lib/Feature/FeatureModel.cpp:44-113` (`clone`).
-/

namespace Verif

/-- `FeatureVariantTy`, `FeatureTreeNodeVariantTy` (FeatureModelTransaction.h:30-31). -/
inductive Ref
  | name (n : Str)
  | ptr (i : Option Id)
  deriving DecidableEq, Repr

/-- Which kind of constraint is added (FeatureModel.h:258, 276, 294). -/
inductive CKind
  | boolean
  | nonBoolean
  | mixed (info : MixedInfo)
  deriving DecidableEq, Repr

/-- The modifications (FeatureModelTransaction.h:292-804).  A root handed to `SetRoot` is newly
    constructed and has no children: edges can only be added by modifications. -/
inductive Op
  | addFeature (a : Attr) (parent : Option Id)
  | removeFeature (f : Ref) (recursive : Bool)
  | addRelationship (k : RKind) (parent : Ref)
  | removeRelationship (parent : Ref)
  | addLocation (f : Ref) (r : Range)
  | removeLocation (f : Ref) (r : Range)
  | addConstraint (k : CKind) (c : Constraint)
  | setName (n : Str)
  | setCommit (n : Str)
  | setPath (n : Str)
  | setRoot (n : Str)
  | addChild (parent child : Ref)
  deriving DecidableEq, Repr

namespace FModel

/-- `std::visit` on the variant: the name is looked up, a pointer taken as it is. -/
def resolve (m : FModel) : Ref → Option Id
  | .name n => m.getFeature n
  | .ptr i => i

/-- `ok` unless the computation was undefined. -/
def outOf : Option FModel → Out
  | none => .ub
  | some m => .ok m

/-- `setParent(C, P); addEdge(P, C)`. -/
def link (m : FModel) (p c : Id) : Option FModel :=
  match m.setParent c (some p) with
  | none => none
  | some m => m.addEdge p c

/-- `AddFeatureToModel::operator()` (FeatureModelTransaction.h:307-320). -/
def execAddFeature (m : FModel) (a : Attr) (parent : Option Id) : Out :=
  match m.insertFeature a with
  | none => .err .alreadyPresent m
  | some (m, i) =>
    match parent with
    | some p => outOf (m.link p i)
    | none =>
      match m.root with
      | some r => outOf (m.link r i)
      | none => .ok m

/-- The last two statements of `RemoveFeatureFromModel::operator()` (FeatureModelTransaction.h:376-377). -/
def removeFinish (m : FModel) (i : Id) : Out :=
  match m.heap i with
  | none => .ub
  | some n =>
    match n.parent with
    | none => .ub
    | some p =>
      match m.removeEdge p i with
      | none => .ub
      | some m => outOf (m.eraseFeature i)

/-- Run a modification on each element, stopping at the first that is not `ok`. -/
def outFold {α} (f : FModel → α → Out) : FModel → List α → Out
  | m, [] => .ok m
  | m, x :: xs =>
    match f m x with
    | .ok m => outFold f m xs
    | o => o

/-- `removeEdge(*F, *R); removeRelationship(FM, R)` (FeatureModelTransaction.h:364-365). -/
def dropRelOf (m : FModel) (i r : Id) : Option FModel :=
  match m.removeEdge i r with
  | none => none
  | some m => m.dropRel r

/-- `RemoveFeatureFromModel::operator()` (FeatureModelTransaction.h:346-379) on an existing
    feature; `fuel` bounds the recursion depth. -/
def removeRec (E : Env) : Nat → Bool → FModel → Id → Out
  | 0, _, _, _ => .ub
  | fuel + 1, recursive, m, i =>
    if recursive then
      match m.children E Node.isFeat i with
      | none => .ub
      | some cs =>
        match outFold (fun m c => removeRec E fuel recursive m c) m cs with
        | .ok m =>
          match m.children E Node.isRel i with
          | none => .ub
          | some rs =>
            match outFold (fun m r => outOf (m.dropRelOf i r)) m rs with
            | .ok m => m.removeFinish i
            | o => o
        | o => o
    else
      match m.children E Node.isFeat i with
      | none => .ub
      | some (_ :: _) => .err .nonLeafNode m
      | some [] =>
        match m.children E Node.isRel i with
        | none => .ub
        | some [] => m.removeFinish i
        | some (r :: _) =>
          match m.dropRel r with
          | none => .ub
          | some m => m.removeFinish i

/-- `RemoveFeatureFromModel` (FeatureModelTransaction.h:335-387). -/
def execRemoveFeature (E : Env) (m : FModel) (f : Ref) (recursive : Bool) : Out :=
  match m.resolve f with
  | none => .err .missingFeature m
  | some i => removeRec E (m.next + 1) recursive m i

/-- One round of the loop in `AddRelationshipToModel` (FeatureModelTransaction.h:421-426). -/
def regroup (E : Env) (p r : Id) (m : FModel) (c : Id) : Option FModel :=
  match m.heap p, m.heap c with
  | some pn, some cn =>
    if E.asserts && !(decide (c ∈ pn.edges) && decide (cn.parent = some p)) then none
    else
      match m.removeEdge p c with
      | none => none
      | some m =>
        match m.addEdge r c with
        | none => none
        | some m => m.setParent c (some r)
  | _, _ => none

/-- `AddRelationshipToModel::operator()` (FeatureModelTransaction.h:404-429); a missing parent is
    dereferenced. -/
def execAddRelationship (E : Env) (m : FModel) (k : RKind) (parent : Ref) : Out :=
  let r := m.next
  let m := { m.put r { data := .rel k } with next := r + 1, rels := m.rels ++ [r] }
  match m.resolve parent with
  | none => .ub
  | some p =>
    match m.link p r with
    | none => .ub
    | some m =>
      match m.children E Node.isFeat p with
      | none => .ub
      | some cs => outFold (fun m c => outOf (regroup E p r m c)) m cs

/-- `RemoveRelationshipFromModel::operator()` (FeatureModelTransaction.h:455-479); the first
    element of an empty set is undefined. -/
def execRemoveRelationship (E : Env) (m : FModel) (parent : Ref) : Out :=
  match m.resolve parent with
  | none => .err .missingParent m
  | some p =>
    match m.children E Node.isRel p with
    | none => .ub
    | some [] => .ub
    | some (r :: _) =>
      match m.removeEdge p r with
      | none => .ub
      | some m =>
        match m.children E Node.isFeat r with
        | none => .ub
        | some cs =>
          match outFold (fun m c => outOf (regroup E r p m c)) m cs with
          | .ok m => outOf (m.dropRel r)
          | o => o

/-- Update the feature behind a pointer. -/
def updFeat (m : FModel) (i : Id) (g : Feat → Feat) : Option FModel :=
  match m.heap i with
  | some n =>
    match n.data with
    | .feat f => some (m.put i { n with data := .feat (g f) })
    | .rel _ => none
  | none => none

/-- `AddLocationToFeature::operator()` (FeatureModelTransaction.h:503-513). -/
def execAddLocation (m : FModel) (f : Ref) (r : Range) : Out :=
  match m.resolve f with
  | none => .ub
  | some i => outOf (m.updFeat i fun f => { f with attr := { f.attr with locs := f.attr.locs ++ [r] } })

/-- `std::find` and `erase` of the first equal location (Feature.h:97-100); `none` when there is
    no equal location: erasing the end iterator is undefined. -/
def eraseLoc (r : Range) : List Range → Option (List Range)
  | [] => none
  | x :: xs => if x.eq r then some xs else (eraseLoc r xs).map (x :: ·)

/-- `RemoveLocationFromFeature::operator()` (FeatureModelTransaction.h:538-548). -/
def execRemoveLocation (m : FModel) (f : Ref) (r : Range) : Out :=
  match m.resolve f with
  | none => .ub
  | some i =>
    match m.feat? i with
    | none => .ub
    | some ft =>
      match eraseLoc r ft.attr.locs with
      | none => .ub
      | some ls => outOf (m.updFeat i fun f => { f with attr := { f.attr with locs := ls } })

/-- The container of a constraint class. -/
def store (m : FModel) : CClass → List Stored
  | .boolean => m.booleans
  | .nonBoolean => m.nonBooleans
  | .mixed => m.mixeds

/-- Replace the container of a constraint class. -/
def setStore (m : FModel) : CClass → List Stored → FModel
  | .boolean, l => { m with booleans := l }
  | .nonBoolean, l => { m with nonBooleans := l }
  | .mixed, l => { m with mixeds := l }

end FModel

/-- The container a constraint kind goes to (FeatureModel.h:396-431). -/
def CKind.cls : CKind → CClass
  | .boolean => .boolean | .nonBoolean => .nonBoolean | .mixed _ => .mixed

/-- The extra members of a mixed constraint. -/
def CKind.info : CKind → Option MixedInfo
  | .mixed i => some i
  | _ => none

/-- `Feature::addConstraint` (Feature.h:194-202) for leaf `l` of a constraint with the given tree. -/
def Feat.register (tree : Constraint) (l : CLeaf) (f : Feat) : Feat :=
  let f := { f with constraints := f.constraints ++ [l] }
  match tree with
  | .bin .implies _ _ => { f with implications := f.implications ++ [l.root] }
  | .bin .excludes _ _ => { f with excludes := f.excludes ++ [l.root] }
  | _ => f

namespace FModel

/-- Set the feature pointer of one leaf (`setFeature`, Constraint.h:629). -/
def bindLeaf (m : FModel) (l : CLeaf) (i : Id) : FModel :=
  m.setStore l.root.cls ((m.store l.root.cls).modify l.root.idx fun s =>
    { s with binds := s.binds.set l.leaf (some i) })

/-- `AddConstraintToModelVisitor` (FeatureModelTransaction.h:587-605, with the default visits of
    Constraint.h:636-648): the feature leaves are visited left to right, all of them; the result is
    whether all names were found.  `none` = undefined. -/
def bindLeaves (tree : Constraint) (root : CRoot) : FModel → Nat → List Str → Option (FModel × Bool)
  | m, _, [] => some (m, true)
  | m, k, n :: ns =>
    match m.getFeature n with
    | none => (bindLeaves tree root m (k + 1) ns).map fun r => (r.1, false)
    | some i =>
      match (m.bindLeaf ⟨root, k⟩ i).updFeat i (Feat.register tree ⟨root, k⟩) with
      | none => none
      | some m => bindLeaves tree root m (k + 1) ns

/-- `AddConstraintToModel::operator()` (FeatureModelTransaction.h:574-584). -/
def execAddConstraint (m : FModel) (k : CKind) (c : Constraint) : Out :=
  let l := m.store k.cls
  let m := m.setStore k.cls (l ++ [⟨c, c.features.map fun _ => none, k.info⟩])
  match bindLeaves c ⟨k.cls, l.length⟩ m 0 c.features with
  | none => .ub
  | some (m, true) => .ok m
  | some (m, false) => .err .missingFeature m

/-- `SetRoot::operator()` (FeatureModelTransaction.h:706-738); see `Op` for the new root having no
    children.  The second loop leaves the old root without the edges it handed over. -/
def execSetRoot (m : FModel) (n : Str) : Out :=
  let insert (m : FModel) : Out :=
    match m.insertFeature { name := n, kind := .root } with
    | none => .err .alreadyPresent m
    | some (m, i) =>
      match m.root with
      | none => .ok { m with root := some i }
      | some r =>
        match m.heap r with
        | none => .ub
        | some rn =>
          match outFold (fun m c => outOf (m.link i c)) m rn.edges with
          | .ok m =>
            match outFold (fun m c => outOf (m.removeEdge r c)) m rn.edges with
            | .ok m =>
              match m.eraseFeature r with
              | none => .ub
              | some m => .ok { m with root := some i }
            | o => o
          | o => o
  match m.root with
  | none => insert m
  | some r =>
    match m.nameOf r with
    | none => .ub
    | some rn => if rn = n then .ok m else insert m

/-- `AddChild::operator()` (FeatureModelTransaction.h:761-796). -/
def execAddChild (m : FModel) (parent child : Ref) : Out :=
  match m.resolve child with
  | none => .err .missingChild m
  | some c =>
    match m.resolve parent with
    | none => .err .missingParent m
    | some p =>
      if c = p then .err .recursiveEdge m
      else
        match m.heap c with
        | none => .ub
        | some cn =>
          match (match cn.parent with | some q => m.removeEdge q c | none => some m) with
          | none => .ub
          | some m =>
            match m.addEdge p c with
            | none => .ub
            | some m => outOf (m.setParent c (some p))

/-- `exec` of a modification. -/
def exec (E : Env) (m : FModel) : Op → Out
  | .addFeature a p => m.execAddFeature a p
  | .removeFeature f r => m.execRemoveFeature E f r
  | .addRelationship k p => m.execAddRelationship E k p
  | .removeRelationship p => m.execRemoveRelationship E p
  | .addLocation f r => m.execAddLocation f r
  | .removeLocation f r => m.execRemoveLocation f r
  | .addConstraint k c => m.execAddConstraint k c
  | .setName n => .ok { m with name := n }
  | .setCommit n => .ok { m with commit := n }
  | .setPath n => .ok { m with path := n }
  | .setRoot n => m.execSetRoot n
  | .addChild p c => m.execAddChild p c

/-! ## Modify transactions -/

/-- The body of `commitImpl` of an open modify transaction (FeatureModelTransaction.h:978-993). -/
def commitOps (E : Env) (m : FModel) (ops : List Op) : Out :=
  match outFold (exec E) m ops with
  | .ok m =>
    match m.consistent E with
    | none => .ub
    | some true => .ok m
    | some false => .err .inconsistent m
  | o => o

end FModel

/-- What a user does with a modify transaction; its end of life is `destroy`. -/
inductive TxCall
  | op (o : Op)
  | commit
  | abort
  | destroy
  deriving DecidableEq, Repr

/-- A modify transaction: the queued modifications and whether it still holds its model
    (`Continue && FM`, FeatureModelTransaction.h:1004-1006, 1094-1098). -/
structure Tx where
  opened : Bool
  ops : List Op
  deriving DecidableEq, Repr

/-- What a call returned. -/
inductive TxRes
  | none
  | ok
  | err (e : FTErr)
  deriving DecidableEq, Repr

namespace FModel

/-- `commitImpl` (FeatureModelTransaction.h:978-997). `none` = undefined. -/
def txCommit (E : Env) (m : FModel) (t : Tx) : Option (FModel × Tx × TxRes) :=
  if t.opened then
    match m.commitOps E t.ops with
    | .ok m => some (m, { t with opened := false }, .ok)
    | .err e m => some (m, { t with opened := false }, .err e)
    | .ub => Option.none
  else some (m, t, .err .aborted)

/-- One call on a modify transaction.  Queueing after the end asserts for most modifications
    (FeatureModelTransaction.h:1012, 1054, 1062, 1070, 1078, 1087); without assertions it only
    grows the queue.  The destructor commits (FeatureModelTransaction.h:63-76). -/
def txStep (E : Env) (m : FModel) (t : Tx) : TxCall → Option (FModel × Tx × TxRes)
  | .op o => some (m, { t with ops := t.ops ++ [o] }, .none)
  | .commit => txCommit E m t
  | .abort => some (m, { t with opened := false }, .none)
  | .destroy =>
    if t.opened then (txCommit E m t).map fun r => (r.1, r.2.1, .none) else some (m, t, .none)

/-- A whole life of a modify transaction: the model afterwards and the results of the calls. -/
def txRun (E : Env) : FModel → Tx → List TxCall → Option (FModel × List TxRes)
  | m, _, [] => some (m, [])
  | m, t, c :: cs =>
    match txStep E m t c with
    | Option.none => Option.none
    | some (m, t, r) => (txRun E m t cs).map fun x => (x.1, r :: x.2)

/-! ## Builder and clone -/

/-- A new model `FeatureModel()` on the same heap (FeatureModel.h:40-47). -/
def fresh (m : FModel) : FModel :=
  { heap := fun j => if j = m.next then some { data := .feat { attr := { name := c!"root", kind := .root } } }
                     else m.heap j
    next := m.next + 1
    name := c!"FeatureModel"
    root := some m.next
    path := []
    commit := []
    features := [(c!"root", m.next)]
    booleans := []
    nonBooleans := []
    mixeds := []
    rels := [] }

end FModel

/-- The queues of `FeatureModelBuilder` (FeatureModelBuilder.h:105-112). -/
structure ModelBuilder where
  feats : List Op := []
  model : List Op := []
  rels : List Op := []
  deriving DecidableEq, Repr

namespace ModelBuilder

/-- `makeFeature` (FeatureModelBuilder.h:42-50). -/
def makeFeature (b : ModelBuilder) (a : Attr) : ModelBuilder :=
  { b with feats := b.feats ++ [.addFeature a none] }

/-- `makeRoot` (FeatureModelBuilder.h:94-97). -/
def makeRoot (b : ModelBuilder) (n : Str) : ModelBuilder := { b with feats := b.feats ++ [.setRoot n] }

/-- `addEdge` (FeatureModelBuilder.h:52-57). -/
def addEdge (b : ModelBuilder) (parent child : Str) : ModelBuilder :=
  { b with model := b.model ++ [.addChild (.name parent) (.name child)] }

/-- `emplaceRelationship` (FeatureModelBuilder.h:67-71). -/
def emplaceRelationship (b : ModelBuilder) (k : RKind) (parent : Str) : ModelBuilder :=
  { b with rels := b.rels ++ [.addRelationship k (.name parent)] }

/-- `addConstraint` (FeatureModelBuilder.h:73-77). -/
def addConstraint (b : ModelBuilder) (k : CKind) (c : Constraint) : ModelBuilder :=
  { b with rels := b.rels ++ [.addConstraint k c] }

/-- `setVmName`, `setPath`, `setCommit` (FeatureModelBuilder.h:79-92). -/
def setVmName (b : ModelBuilder) (n : Str) : ModelBuilder := { b with model := b.model ++ [.setName n] }
def setPath (b : ModelBuilder) (n : Str) : ModelBuilder := { b with model := b.model ++ [.setPath n] }
def setCommit (b : ModelBuilder) (n : Str) : ModelBuilder := { b with model := b.model ++ [.setCommit n] }

end ModelBuilder

/-- Result of `buildFeatureModel` and `clone`: a model, null (with what is left on the heap), or
    undefined. -/
inductive BuildRes
  | built (m : FModel)
  | null
  | ub

namespace FModel

/-- `buildFeatureModel` (FeatureModelBuilder.cpp:9-32) on the model made by the constructor. -/
def build (E : Env) (world : FModel) (b : ModelBuilder) : BuildRes :=
  match world.fresh.commitOps E b.feats with
  | .ub => .ub
  | .err _ _ => .null
  | .ok m =>
    match m.commitOps E b.model with
    | .ub => .ub
    | .err _ _ => .null
    | .ok m =>
      match m.commitOps E b.rels with
      | .ub => .ub
      | .err _ _ => .null
      | .ok m => .built m

/-- One round of the first loop of `clone` (FeatureModel.cpp:50-81). -/
def cloneFeature (m : FModel) (b : ModelBuilder) (i : Id) : Option ModelBuilder :=
  match m.feat? i with
  | none => none
  | some f =>
    let a := f.attr
    let b := match a.kind with
      | .unknown => b.makeFeature { name := a.name, kind := .unknown }
      | .root => b.makeRoot a.name
      | .binary => b.makeFeature { name := a.name, kind := .binary, opt := a.opt, locs := a.locs }
      | .numeric v _ => b.makeFeature { name := a.name, kind := .numeric v none, opt := a.opt, locs := a.locs }
    match m.parentFeature i with
    | none => none
    | some none => some b
    | some (some p) =>
      match m.nameOf p with
      | none => none
      | some pn => some (b.addEdge pn a.name)

/-- One round of the second loop of `clone` (FeatureModel.cpp:83-87). -/
def cloneRel (m : FModel) (b : ModelBuilder) (r : Id) : Option ModelBuilder :=
  match m.heap r with
  | none => none
  | some n =>
    match n.data, n.parent with
    | .rel _, none => some b
    | .rel k, some p =>
      match m.heap p with
      | none => none
      | some pn =>
        match pn.data with
        | .feat f => some (b.emplaceRelationship k f.attr.name)
        | .rel _ => some b
    | .feat _, _ => none

/-- `Constraint::clone` on a stored constraint: leaves read the name of the feature they point to
    (Constraint.cpp:24-27); a stale pointer is undefined.  The names are those the leaves were made
    with, because a leaf is bound to the feature of its own name and names do not change. -/
def cloneStored (m : FModel) (s : Stored) : Option Constraint :=
  if s.binds.all fun b => match b with | none => true | some i => (m.feat? i).isSome then some s.tree
  else none

/-- The remaining loops of `clone` (FeatureModel.cpp:93-106). -/
def cloneConstraints (m : FModel) (kind : Stored → CKind) (b : ModelBuilder) (l : List Stored) :
    Option ModelBuilder :=
  l.foldlM (fun b s => (m.cloneStored s).map fun c => b.addConstraint (kind s) c) b

/-- The builder calls made by `clone` (FeatureModel.cpp:44-106). -/
def cloneCalls (E : Env) (m : FModel) : Option ModelBuilder :=
  let b : ModelBuilder := (((({} : ModelBuilder).setVmName m.name).setCommit m.commit).setPath m.path)
  do
    let b ← (E.mapOrder m.features).foldlM (fun b e => m.cloneFeature b e.2) b
    let b ← m.rels.foldlM (fun b r => m.cloneRel b r) b
    let b ← m.cloneConstraints (fun _ => .boolean) b m.booleans
    let b ← m.cloneConstraints (fun _ => .nonBoolean) b m.nonBooleans
    m.cloneConstraints (fun s => match s.info with | some i => .mixed i | none => .boolean) b m.mixeds

/-- `FeatureModel::clone` (FeatureModel.cpp:44-113); the assertion turns null into an abort. -/
def clone (E : Env) (m : FModel) : BuildRes :=
  match m.cloneCalls E with
  | none => .ub
  | some b =>
    match m.build E b with
    | .null => if E.asserts then .ub else .null
    | r => r

/-! ## Copy transactions -/

/-- `translateFeature(*F)` (FeatureModelTransaction.h:967-969) on an optional pointer: the feature
    of the same name in the copy; dereferencing null or a stale pointer is undefined. -/
def translate (m : FModel) : Option Id → Option (Option Id)
  | none => none
  | some i => (m.nameOf i).map m.getFeature

/-- One call on an open copy transaction (FeatureModelTransaction.h:831-963): modifications run at
    once on the copy; `addChild` is constructed but not run. -/
def copyExec (E : Env) (m : FModel) : Op → Out
  | .addFeature a none => m.execAddFeature a none
  | .addFeature a (some p) =>
    match m.translate (some p) with
    | none => .ub
    | some p => m.execAddFeature a p
  | .removeFeature f r =>
    match m.translate (m.resolve f) with
    | none => .ub
    | some i => m.execRemoveFeature E (.ptr i) r
  | .addRelationship k f =>
    match m.translate (m.resolve f) with
    | none => .ub
    | some i => m.execAddRelationship E k (.ptr i)
  | .removeRelationship f =>
    match m.translate (m.resolve f) with
    | none => .ub
    | some i => m.execRemoveRelationship E (.ptr i)
  | .addLocation f r =>
    match m.translate (m.resolve f) with
    | none => .ub
    | some i => m.execAddLocation (.ptr i) r
  | .removeLocation f r =>
    match m.translate (m.resolve f) with
    | none => .ub
    | some i => m.execRemoveLocation (.ptr i) r
  | .addChild _ _ => .ok m
  | o => m.exec E o

/-- A sequence of calls on an open copy transaction: an error is returned to the caller, the
    transaction goes on. -/
def copyRun (E : Env) : FModel → List Op → Option FModel
  | m, [] => some m
  | m, o :: os =>
    match m.copyExec E o with
    | .ok m => copyRun E m os
    | .err _ m => copyRun E m os
    | .ub => none

/-- `openTransaction`, calls, `commit` of a copy transaction (FeatureModelTransaction.h:808-817):
    `none` = undefined, otherwise the committed copy or `ABORTED`. -/
def copyTransaction (E : Env) (m : FModel) (ops : List Op) : Option (Option FModel) :=
  match m.clone E with
  | .ub => none
  | .null => none
  | .built c =>
    match copyRun E c ops with
    | none => none
    | some c =>
      match c.consistent E with
      | none => none
      | some true => some (some c)
      | some false => some none

end FModel
end Verif

import Verif.Constraint.Syntax
import Verif.Step.Model
import Verif.Source.Model
/-!
# Feature models as object graphs

Models the data structure of `/repo/include/vara/Feature/{FeatureTreeNode,Feature,Relationship,
FeatureModel}.h`, `/repo/lib/Feature/{Feature,FeatureModel}.cpp`: objects live on a heap and refer
to each other by address.  Addresses are natural numbers that are never reused; a freed object has
no heap entry, and following a null or stale pointer is undefined behaviour (`none` / `Out.ub`),
as is recursion or looping without end.
-/

namespace Verif

/-- Addresses of tree nodes (`FeatureTreeNode *`). -/
abbrev Id := Nat

/-- `NumericFeature::ValuesVariantType` (Feature.h:237-240). -/
inductive Values
  | range (lo hi : Int)
  | list (vs : List Int)
  deriving DecidableEq, Repr

/-- `Feature::FeatureKind` (Feature.h:38) with the extra members of `NumericFeature`
    (Feature.h:266-267). -/
inductive FKind
  | binary
  | numeric (values : Values) (step : Option StepFn)
  | root
  | unknown
  deriving DecidableEq, Repr

/-- `Relationship::RelationshipKind` (Relationship.h:25). -/
inductive RKind
  | alternative | or
  deriving DecidableEq, Repr

/-- The three constraint containers of a model (FeatureModel.h:468-470). -/
inductive CClass
  | boolean | nonBoolean | mixed
  deriving DecidableEq, Repr

/-- Address of the root of a stored constraint: container and position.  Constraints are never
    removed from a model, so positions are stable. -/
structure CRoot where
  cls : CClass
  idx : Nat
  deriving DecidableEq, Repr

/-- Address of a `PrimaryFeatureConstraint` inside a stored constraint: its number among the
    feature leaves, left to right. -/
structure CLeaf where
  root : CRoot
  leaf : Nat
  deriving DecidableEq, Repr

/-- The members a caller gives to a feature constructor (Feature.h:40-42, 182-188, 225-231,
    242-251, 275-276). -/
structure Attr where
  name : Str
  kind : FKind
  opt : Bool := false
  locs : List Range := []
  output : Str := []
  deriving DecidableEq, Repr

/-- A feature object without its tree links (Feature.h:215-223). -/
structure Feat where
  attr : Attr
  constraints : List CLeaf := []
  excludes : List CRoot := []
  implications : List CRoot := []
  deriving DecidableEq, Repr

/-- What a tree node is (`NodeKind`, FeatureTreeNode.h:36). -/
inductive NodeData
  | feat (f : Feat)
  | rel (k : RKind)
  deriving DecidableEq, Repr

/-- A tree node (FeatureTreeNode.h:30-141); `edges` is LLVM's insertion-ordered `SetVector`. -/
structure Node where
  data : NodeData
  parent : Option Id := none
  edges : List Id := []
  deriving DecidableEq, Repr

/-- `llvm::isa<Feature>` (Feature.h:176-178). -/
def Node.isFeat (n : Node) : Bool := match n.data with | .feat _ => true | .rel _ => false

/-- `llvm::isa<Relationship>` (Relationship.h:32-34). -/
def Node.isRel (n : Node) : Bool := match n.data with | .feat _ => false | .rel _ => true

/-- `llvm::isa<RootFeature>` (Feature.h:278-280). -/
def Node.isRoot (n : Node) : Bool :=
  match n.data with | .feat f => decide (f.attr.kind = .root) | .rel _ => false

/-- `MixedConstraint::Req` and `ExprKind` (FeatureModel.h:298, 302). -/
structure MixedInfo where
  reqAll : Bool
  positive : Bool
  deriving DecidableEq, Repr

/-- A stored constraint (FeatureModel.h:238-314): the tree with the names its leaves were made
    with, and for each feature leaf the feature pointer set by `setFeature` (Constraint.h:629),
    `none` while the leaf still owns a shallow feature. -/
structure Stored where
  tree : Constraint
  binds : List (Option Id)
  info : Option MixedInfo := none
  deriving DecidableEq, Repr

/-- A feature model (FeatureModel.h:463-471) and the heap its objects live on. -/
structure FModel where
  heap : Id → Option Node
  next : Nat
  name : Str
  root : Option Id
  path : Str
  commit : Str
  features : List (Str × Id)
  booleans : List Stored
  nonBooleans : List Stored
  mixeds : List Stored
  rels : List Id

/-- What the language or the library leaves open: the iteration order of pointer sets (`SmallSet`)
    and of hash maps (`StringMap`), any permutation of the contents; and whether assertions are
    compiled in. -/
structure Env where
  setOrder : List Id → List Id
  setOrder_perm : ∀ l, (setOrder l).Perm l
  mapOrder : List (Str × Id) → List (Str × Id)
  mapOrder_perm : ∀ l, (mapOrder l).Perm l
  asserts : Bool

/-- `FTErrorCode` (Error.h:17-28). -/
inductive FTErr
  | aborted | alreadyPresent | error | inconsistent | missingFeature | missingModel
  | missingParent | missingChild | nonLeafNode | recursiveEdge
  deriving DecidableEq, Repr

/-- Result of a modification: success or error code, each with the state the model is left in, or
    undefined behaviour (a failed assertion is included here when assertions are on). -/
inductive Out
  | ok (m : FModel)
  | err (e : FTErr) (m : FModel)
  | ub

/-! ## Strings -/

/-- `operator<` on `std::string`. -/
def strLt : Str → Str → Bool
  | _, [] => false
  | [], _ :: _ => true
  | a :: as, b :: bs => if a = b then strLt as bs else decide (a.toNat < b.toNat)

/-! ## Node access -/

namespace FModel

/-- Store a node. -/
def put (m : FModel) (i : Id) (n : Node) : FModel :=
  { m with heap := fun j => if j = i then some n else m.heap j }

/-- Free a node. -/
def free (m : FModel) (i : Id) : FModel :=
  { m with heap := fun j => if j = i then none else m.heap j }

/-- The feature object behind a pointer. -/
def feat? (m : FModel) (i : Id) : Option Feat :=
  match m.heap i with
  | some ⟨.feat f, _, _⟩ => some f
  | _ => none

/-- `getName` through a pointer. -/
def nameOf (m : FModel) (i : Id) : Option Str := (m.feat? i).map (·.attr.name)

/-- `FM.getFeature(Name)` (FeatureModel.h:62-68). -/
def getFeature (m : FModel) (n : Str) : Option Id := m.features.lookup n

/-- `setParent` (FeatureTreeNode.h:113; FeatureModelTransaction.h:197-202). -/
def setParent (m : FModel) (i : Id) (p : Option Id) : Option FModel :=
  (m.heap i).map fun n => m.put i { n with parent := p }

/-- Insertion into an insertion-ordered set. -/
def insertSet (l : List Id) (x : Id) : List Id := if x ∈ l then l else l ++ [x]

/-- `addEdge` (FeatureTreeNode.h:115; `DGNode::addEdge` inserts into the `SetVector`). -/
def addEdge (m : FModel) (p c : Id) : Option FModel :=
  (m.heap p).map fun n => m.put p { n with edges := insertSet n.edges c }

/-- `removeEdge` (FeatureTreeNode.h:117-119; `SetVector::remove`). -/
def removeEdge (m : FModel) (p c : Id) : Option FModel :=
  (m.heap p).map fun n => m.put p { n with edges := n.edges.erase c }

/-- `getChildrenImpl` (FeatureTreeNode.h:121-134).  `fuel` bounds the recursion depth. -/
def childrenImpl (m : FModel) (isT : Node → Bool) : Nat → Int → Id → List Id → Option (List Id)
  | 0, _, _, _ => none
  | fuel + 1, depth, i, fs =>
    if depth = 0 then some fs
    else
      match m.heap i with
      | none => none
      | some n =>
        n.edges.foldlM (fun fs c =>
          match m.heap c with
          | none => none
          | some cn => if isT cn then some (insertSet fs c) else childrenImpl m isT fuel (depth - 1) c fs) fs

/-- `getChildren<T>(Depth)` (FeatureTreeNode.h:88-93).  More than `next` nested calls mean a cycle,
    that is, recursion without end. -/
def children (m : FModel) (E : Env) (isT : Node → Bool) (i : Id) (depth : Int := -1) :
    Option (List Id) :=
  (m.childrenImpl isT (m.next + 1) depth i []).map E.setOrder

/-- The loop of `getParentFeature` (Feature.h:62-70); `fuel` bounds the rounds. -/
def parentFeatureFuel (m : FModel) : Nat → Id → Option (Option Id)
  | 0, _ => none
  | fuel + 1, i =>
    match m.heap i with
    | none => none
    | some n =>
      match n.parent with
      | none => some none
      | some p =>
        match m.heap p with
        | none => none
        | some pn => if pn.isFeat then some (some p) else parentFeatureFuel m fuel p

/-- `getParentFeature()`. -/
def parentFeature (m : FModel) (i : Id) : Option (Option Id) := m.parentFeatureFuel (m.next + 1) i

/-! ## The private operations of `FeatureModel` -/

/-- `FeatureModel::addFeature` (FeatureModel.cpp:24-31) on a newly made feature: `none` if the name
    is taken, otherwise the model and the address. -/
def insertFeature (m : FModel) (a : Attr) : Option (FModel × Id) :=
  match m.getFeature a.name with
  | some _ => none
  | none =>
    some ({ m.put m.next { data := .feat { attr := a } } with
              next := m.next + 1
              features := m.features ++ [(a.name, m.next)] }, m.next)

/-- `FeatureModel::removeFeature` (FeatureModel.cpp:33-38): drops the map entry of that name and
    frees the object it owns. -/
def eraseFeature (m : FModel) (i : Id) : Option FModel :=
  match m.nameOf i with
  | none => none
  | some n =>
    let m := if m.root = some i then { m with root := none } else m
    match m.getFeature n with
    | none => some m
    | some j => some { m.free j with features := m.features.filter fun e => e.1 ≠ n }

/-- `FeatureModel::removeRelationship` (FeatureModel.h:449-455): erasing an element that is not in
    the vector is undefined. -/
def dropRel (m : FModel) (r : Id) : Option FModel :=
  if r ∈ m.rels then some { m.free r with rels := m.rels.erase r } else none

/-! ## Consistency check (FeatureModel.h:656-712) -/

/-- `std::all_of` with a predicate that may be undefined. -/
def allM {α} (p : α → Option Bool) : List α → Option Bool
  | [] => some true
  | x :: xs =>
    match p x with
    | none => none
    | some false => some false
    | some true => allM p xs

/-- `ExactlyOneRootNode::check` (FeatureModel.h:699-712).  The dynamic type test on `getRoot()` is
    true for every non-null pointer of static type `RootFeature *`. -/
def exactlyOneRoot (E : Env) (m : FModel) : Bool :=
  m.root.isSome &&
    decide ((E.mapOrder m.features).countP (fun e =>
      match m.heap e.2 with | some n => n.isRoot | none => false) = 1)

/-- `EveryFeatureRequiresParent::check` (FeatureModel.h:667-678). -/
def everyFeatureHasParent (E : Env) (m : FModel) : Option Bool :=
  allM (fun e =>
    match m.heap e.2 with
    | none => none
    | some n => if n.isRoot then some true else (m.parentFeature e.2).map (·.isSome))
    (E.mapOrder m.features)

/-- `CheckFeatureParentChildRelationShip::check` (FeatureModel.h:680-697). -/
def parentsKnowChildren (E : Env) (m : FModel) : Option Bool :=
  allM (fun e =>
    match m.heap e.2 with
    | none => none
    | some n =>
      if n.isRoot then some true
      else
        match n.parent with
        | none => none
        | some p => (m.heap p).map fun pn => decide (e.2 ∈ pn.edges))
    (E.mapOrder m.features)

/-- `FeatureModelConsistencyChecker::isFeatureModelValid` with the rules in the order of
    FeatureModelTransaction.h:25-28, evaluated left to right with short cut. -/
def consistent (E : Env) (m : FModel) : Option Bool :=
  if exactlyOneRoot E m then
    match everyFeatureHasParent E m with
    | none => none
    | some false => some false
    | some true => parentsKnowChildren E m
  else some false

end FModel
end Verif

import Verif.Solver.Model
import Verif.FM.Spec
/-!
# What a valid configuration is

Independent of the terms the solver builds.
-/

namespace Verif.Spec
open Verif

/-! ## Meaning of constraints -/

/-- The meaning of a binary constraint; `none` if the operands do not fit.  `q x` is the value of `x / 0`. -/
def opMeaning (q : Int → Int) : BinOp → ZVal → ZVal → Option ZVal
  | .or, .bool x, .bool y => some (.bool (x || y))
  | .xor, .bool x, .bool y => some (.bool (x != y))
  | .and, .bool x, .bool y => some (.bool (x && y))
  | .implies, .bool x, .bool y => some (.bool (!x || y))
  | .excludes, .bool x, .bool y => some (.bool (!(x && y)))
  | .equivalence, .bool x, .bool y => some (.bool (x == y))
  | .equal, .bool x, .bool y => some (.bool (x == y))
  | .equal, .int x, .int y => some (.bool (decide (x = y)))
  | .notEqual, .bool x, .bool y => some (.bool (x != y))
  | .notEqual, .int x, .int y => some (.bool (decide (x ≠ y)))
  | .add, .int x, .int y => some (.int (x + y))
  | .sub, .int x, .int y => some (.int (x - y))
  | .mul, .int x, .int y => some (.int (x * y))
  | .div, .int x, .int y => some (.int (if y = 0 then q x else x / y))
  | .less, .int x, .int y => some (.bool (decide (x < y)))
  | .greater, .int x, .int y => some (.bool (decide (x > y)))
  | .lessEqual, .int x, .int y => some (.bool (decide (x ≤ y)))
  | .greaterEqual, .int x, .int y => some (.bool (decide (x ≥ y)))
  | _, _, _ => none

/-- The meaning of a constraint when its features have the given values. -/
def meaning (ρ : Str → ZVal) (q : Int → Int) : Constraint → Option ZVal
  | .int v => some (.int v)
  | .feature n => some (ρ n)
  | .un .not c => match meaning ρ q c with | some (.bool b) => some (.bool (!b)) | _ => none
  | .un .neg c => match meaning ρ q c with | some (.int v) => some (.int (-v)) | _ => none
  | .bin op l r =>
    match meaning ρ q l, meaning ρ q r with
    | some x, some y => opMeaning q op x y
    | _, _ => none

/-- The sort of a binary constraint over operands of given sorts. -/
def opSort : BinOp → ZSort → ZSort → Option ZSort
  | .or, .bool, .bool | .xor, .bool, .bool | .and, .bool, .bool | .implies, .bool, .bool
  | .excludes, .bool, .bool | .equivalence, .bool, .bool => some .bool
  | .equal, .bool, .bool | .equal, .int, .int | .notEqual, .bool, .bool | .notEqual, .int, .int => some .bool
  | .add, .int, .int | .sub, .int, .int | .mul, .int, .int | .div, .int, .int => some .int
  | .less, .int, .int | .greater, .int, .int | .lessEqual, .int, .int | .greaterEqual, .int, .int => some .bool
  | _, _, _ => none

/-- The sort of a constraint, from those of its features; `none` if it makes no sense. -/
def sortOf (κ : Str → ZSort) : Constraint → Option ZSort
  | .int _ => some .int
  | .feature n => some (κ n)
  | .un .not c => if sortOf κ c = some .bool then some .bool else none
  | .un .neg c => if sortOf κ c = some .int then some .int else none
  | .bin op l r =>
    match sortOf κ l, sortOf κ r with
    | some x, some y => opSort op x y
    | _, _ => none

/-- No exclusive or anywhere. -/
def NoXor : Constraint → Prop
  | .bin op l r => op ≠ .xor ∧ NoXor l ∧ NoXor r
  | .un _ c => NoXor c
  | _ => True

/-- The constraint with every exclusive or replaced by "not both". -/
def notBothOp : BinOp → BinOp
  | .xor => .excludes
  | op => op

def notBoth : Constraint → Constraint
  | .bin op l r => .bin (notBothOp op) (notBoth l) (notBoth r)
  | .un op c => .un op (notBoth c)
  | .int v => .int v
  | .feature n => .feature n

/-- The model with every exclusive or in a constraint replaced by "not both". -/
def notBothIn (m : FModel) : FModel :=
  { m with
    booleans := m.booleans.map fun c => { c with tree := notBoth c.tree }
    nonBooleans := m.nonBooleans.map fun c => { c with tree := notBoth c.tree }
    mixeds := m.mixeds.map fun c => { c with tree := notBoth c.tree } }

/-- Exclusive or only where it is to hold itself: at the top, or below conjunctions and disjunctions only. -/
inductive XorOnTop : Constraint → Prop
  | none {c} : NoXor c → XorOnTop c
  | xor {l r} : NoXor l → NoXor r → XorOnTop (.bin .xor l r)
  | and {l r} : XorOnTop l → XorOnTop r → XorOnTop (.bin .and l r)
  | or {l r} : XorOnTop l → XorOnTop r → XorOnTop (.bin .or l r)

/-! ## Features and their values -/

/-- The name belongs to a numeric feature of the model. -/
def IsNum (m : FModel) (n : Str) : Prop :=
  ∃ i f vs st, (n, i) ∈ m.features ∧ data m i = some (.feat f) ∧ f.attr.kind = .numeric vs st

/-- Reached from `x` by a step function without leaving the range. -/
inductive Orbit (g : Int → Option Int) (lo hi : Int) : Int → Prop
  | start : lo ≤ hi → Orbit g lo hi lo
  | step {x y} : Orbit g lo hi x → g x = some y → y ≤ hi → Orbit g lo hi y

/-- Stepping on from `x` leads beyond the range. -/
inductive Ends (g : Int → Option Int) (hi : Int) : Int → Prop
  | out {x} : hi < x → Ends g hi x
  | step {x y} : x ≤ hi → g x = some y → Ends g hi y → Ends g hi x

/-- The function a numeric feature steps with. -/
def stepOf (F : IntFloats) (st : Option StepFn) (x : Int) : Option Int := st.bind (fun f => f.nextInt F x)

/-- The values a numeric feature can have. -/
def Allowed (F : IntFloats) : Values → Option StepFn → Int → Prop
  | .list vs, _, v => v ∈ vs
  | .range lo hi, st, v => Orbit (stepOf F st) lo hi v

/-- The value of a name in a constraint without and with 0/1 for Boolean features. -/
noncomputable def value (m : FModel) (a : Assign) (n : Str) : ZVal :=
  open Classical in if IsNum m n then .int (a.int n) else .bool (a.bool n)

noncomputable def value01 (m : FModel) (a : Assign) (n : Str) : ZVal :=
  open Classical in if IsNum m n then .int (a.int n) else .int (if a.bool n then 1 else 0)

/-- A mixed constraint holds. -/
def MixedHolds (m : FModel) (a : Assign) (c : Stored) : Prop :=
  ∀ i, c.info = some i → (i.reqAll = true → ∀ n ∈ c.tree.features, ¬ IsNum m n → a.bool n = true) →
    meaning (value01 m a) a.div0 c.tree = some (.bool i.positive)

/-- The feature at an address is selected. -/
def Selected (m : FModel) (a : Assign) (i : Id) : Prop := ∃ f, data m i = some (.feat f) ∧ a.bool f.attr.name = true

/-- A valid configuration of a model: `a.bool` says which features are selected, `a.int` gives the values
    of the numeric ones (`a.div0` those of quotients by zero). -/
structure Valid (F : IntFloats) (m : FModel) (a : Assign) : Prop where
  root : ∀ r, m.root = some r → Selected m a r
  /-- a selected feature's parent is selected -/
  parent : ∀ i f p, Known m i → data m i = some (.feat f) → f.attr.kind = .binary → FParent m i p →
    Selected m a i → Selected m a p
  /-- mandatory children of a selected feature are selected; members of groups are not mandatory -/
  mandatory : ∀ i f p, Known m i → data m i = some (.feat f) → f.attr.kind = .binary → f.attr.opt = false →
    par m i = some p → IsFeat m p → Selected m a p → Selected m a i
  /-- exactly one member of an alternative group of a selected feature -/
  alternative : ∀ r p, r ∈ m.rels → data m r = some (.rel .alternative) → par m r = some p → Selected m a p →
    ∃ c, c ∈ edg m r ∧ Selected m a c ∧ ∀ c', c' ∈ edg m r → Selected m a c' → c' = c
  /-- at least one member of an or group of a selected feature -/
  or : ∀ r p, r ∈ m.rels → data m r = some (.rel .or) → par m r = some p → Selected m a p →
    ∃ c, c ∈ edg m r ∧ Selected m a c
  numeric : ∀ i f vs st, Known m i → data m i = some (.feat f) → f.attr.kind = .numeric vs st →
    Allowed F vs st (a.int f.attr.name)
  boolean : ∀ c, c ∈ m.booleans ++ m.nonBooleans → meaning (value m a) a.div0 c.tree = some (.bool true)
  mixed : ∀ c, c ∈ m.mixeds → MixedHolds m a c

/-- The pointers of the feature leaves: to the feature of that name, or unbound and no numeric feature
    has that name. -/
def BindsOk (m : FModel) : List Str → List (Option Id) → Prop
  | [], [] => True
  | n :: ns, b :: bs =>
    (match b with | some i => (n, i) ∈ m.features | none => ¬ IsNum m n) ∧ BindsOk m ns bs
  | _, _ => False

/-- The sort of a name in a constraint. -/
noncomputable def sortIn (m : FModel) (n : Str) : ZSort := open Classical in if IsNum m n then .int else .bool

/-- What is assumed of a model beyond being well-formed: what it means would not be clear otherwise. -/
structure Clear (F : IntFloats) (m : FModel) : Prop where
  /-- names are proper texts -/
  names : ∀ n i, (n, i) ∈ m.features → Char.ofNat 0 ∉ n
  leaves : ∀ c ∈ allStored m, ∀ n ∈ c.tree.features, Char.ofNat 0 ∉ n
  known : ∀ i f, Known m i → data m i = some (.feat f) → f.attr.kind ≠ .unknown
  /-- stepping through a range comes to an end -/
  ranges : ∀ i f lo hi st, Known m i → data m i = some (.feat f) → f.attr.kind = .numeric (.range lo hi) st →
    Ends (stepOf F st) hi lo
  /-- numeric features have no Boolean children -/
  parents : ∀ i f p g vs st, Known m i → data m i = some (.feat f) → f.attr.kind = .binary → FParent m i p →
    data m p = some (.feat g) → g.attr.kind ≠ .numeric vs st
  /-- groups belong to Boolean features and have Boolean features as members -/
  owner : ∀ r p, r ∈ m.rels → par m r = some p → ∃ g, data m p = some (.feat g) ∧ ∀ vs st, g.attr.kind ≠ .numeric vs st
  members : ∀ r c, r ∈ m.rels → c ∈ edg m r → ∃ g, data m c = some (.feat g) ∧ g.attr.kind = .binary
  nonempty : ∀ r, r ∈ m.rels → data m r = some (.rel .alternative) → edg m r ≠ []
  /-- constraints -/
  binds : ∀ c ∈ allStored m, BindsOk m c.tree.features c.binds
  sorts : ∀ c ∈ m.booleans ++ m.nonBooleans, sortOf (sortIn m) c.tree = some .bool
  mixedSorts : ∀ c ∈ m.mixeds, sortOf (fun _ => .int) c.tree = some .bool
  infos : ∀ c ∈ m.mixeds, c.info ≠ none

/-- Such a model without exclusive or in its constraints. -/
structure Loadable (F : IntFloats) (m : FModel) : Prop extends Clear F m where
  noXor : ∀ c ∈ allStored m, NoXor c.tree

/-! ## Configurations of a model -/

/-- The value an assignment gives to a feature. -/
def valueOf (f : Feat) (a : Assign) : ZVal :=
  match f.attr.kind with
  | .numeric _ _ => .int (a.int f.attr.name)
  | _ => .bool (a.bool f.attr.name)

/-- How a configuration made by the solver writes a value; negative numbers as in SMT-LIB. -/
def written : ZVal → Str
  | .bool true => c!"true"
  | .bool false => c!"false"
  | .int (.ofNat n) => natText n
  | .int (.negSucc n) => c!"(- " ++ natText (n + 1) ++ c!")"

/-- The configuration has exactly the features of the model as options, with the values the assignment
    gives them. -/
structure Shows (m : FModel) (a : Assign) (c : Config) : Prop where
  has : ∀ i f, Known m i → data m i = some (.feat f) → c.value f.attr.name = some (written (valueOf f a))
  only : ∀ n, c.value n ≠ none → ∃ i f, Known m i ∧ data m i = some (.feat f) ∧ f.attr.name = n

/-- Configurations that differ in the value of some option. -/
def Differ (c c' : Config) : Prop := ∃ n, c.value n ≠ c'.value n

/-- The configuration of some valid assignment. -/
def ValidConfig (F : IntFloats) (m : FModel) (c : Config) : Prop := ∃ a, Valid F m a ∧ Shows m a c

/-- A list of all valid configurations, without repetition. -/
structure Enumerates (F : IntFloats) (m : FModel) (cs : List Config) : Prop where
  valid : ∀ c ∈ cs, ValidConfig F m c
  differ : cs.Pairwise Differ
  all : ∀ a, Valid F m a → ∃ c ∈ cs, Shows m a c

end Verif.Spec

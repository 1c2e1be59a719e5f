import Verif.Solver.Spec
import Verif.Xml.Alternatives
/-!
# Valid configurations of a description

The same notion as `Valid`, but for a description of a model by names, so without any reference to the
nodes of the tree.
-/

namespace Verif.Spec
open Verif

/-- The name belongs to a numeric feature. -/
def DNum (d : Desc) (n : Str) : Prop := ∃ x ∈ d.attrs, x.name = n ∧ ∃ vs st, x.kind = .numeric vs st

/-- The value of a name in a constraint, without and with 0/1 for Boolean features. -/
noncomputable def dvalue (d : Desc) (a : Assign) (n : Str) : ZVal :=
  open Classical in if DNum d n then .int (a.int n) else .bool (a.bool n)

noncomputable def dvalue01 (d : Desc) (a : Assign) (n : Str) : ZVal :=
  open Classical in if DNum d n then .int (a.int n) else .int (if a.bool n then 1 else 0)

/-- The sort of a name in a constraint. -/
noncomputable def dsort (d : Desc) (n : Str) : ZSort := open Classical in if DNum d n then .int else .bool

/-- A constraint holds; a mixed one may ask for all its Boolean features, and may be meant negatively. -/
def DHolds (d : Desc) (a : Assign) : CKind × Constraint → Prop
  | (.mixed i, c) => (i.reqAll = true → ∀ n ∈ c.features, ¬ DNum d n → a.bool n = true) →
      meaning (dvalue01 d a) a.div0 c = some (.bool i.positive)
  | (_, c) => meaning (dvalue d a) a.div0 c = some (.bool true)

/-- A valid configuration of a described model. -/
structure DescValid (F : IntFloats) (d : Desc) (a : Assign) : Prop where
  root : a.bool d.root = true
  parent : ∀ x ∈ d.attrs, x.kind = .binary → a.bool x.name = true → a.bool (d.parent x.name) = true
  /-- mandatory features outside of groups -/
  mandatory : ∀ x ∈ d.attrs, x.kind = .binary → x.opt = false → (∀ k, (d.parent x.name, k) ∉ d.groups) →
    a.bool (d.parent x.name) = true → a.bool x.name = true
  alternative : ∀ n, (n, .alternative) ∈ d.groups → a.bool n = true →
    ∃ x ∈ d.kids n, a.bool x.name = true ∧ ∀ y ∈ d.kids n, a.bool y.name = true → y.name = x.name
  or : ∀ n, (n, .or) ∈ d.groups → a.bool n = true → ∃ x ∈ d.kids n, a.bool x.name = true
  numeric : ∀ x ∈ d.attrs, ∀ vs st, x.kind = .numeric vs st → Allowed F vs st (a.int x.name)
  constraints : ∀ x ∈ d.constraints, DHolds d a x

/-- The description with "not both" in place of every exclusive or. -/
def notBothDesc (d : Desc) : Desc := { d with constraints := d.constraints.map fun x => (x.1, notBoth x.2) }

/-- What is assumed of a description beyond being one of a tree. -/
structure DescClear (F : IntFloats) (d : Desc) : Prop where
  root : Char.ofNat 0 ∉ d.root
  names : ∀ x ∈ d.attrs, Char.ofNat 0 ∉ x.name
  leaves : ∀ x ∈ d.constraints, ∀ n ∈ x.2.features, Char.ofNat 0 ∉ n
  kinds : ∀ x ∈ d.attrs, x.kind ≠ .unknown
  /-- stepping through a range comes to an end -/
  ranges : ∀ x ∈ d.attrs, ∀ lo hi st, x.kind = .numeric (.range lo hi) st → Ends (stepOf F st) hi lo
  /-- numeric features have no Boolean children and no groups; the members of groups are Boolean -/
  parents : ∀ x ∈ d.attrs, x.kind = .binary → ¬ DNum d (d.parent x.name)
  owners : ∀ g ∈ d.groups, ¬ DNum d g.1
  members : ∀ g ∈ d.groups, ∀ x ∈ d.kids g.1, x.kind = .binary
  nonempty : ∀ g ∈ d.groups, g.2 = .alternative → d.kids g.1 ≠ []
  /-- constraints make sense -/
  sorts : ∀ x ∈ d.constraints, match x.1 with
    | .mixed _ => sortOf (fun _ => .int) x.2 = some .bool
    | _ => sortOf (dsort d) x.2 = some .bool

/-- What a configuration gives for a feature: its value. -/
def attrValue (x : Attr) (a : Assign) : ZVal :=
  match x.kind with
  | .numeric _ _ => .int (a.int x.name)
  | _ => .bool (a.bool x.name)

/-- The configuration has exactly the features of the description as options, with the values the
    assignment gives them. -/
structure DescShows (d : Desc) (a : Assign) (c : Config) : Prop where
  root : c.value d.root = some (written (.bool (a.bool d.root)))
  has : ∀ x ∈ d.attrs, c.value x.name = some (written (attrValue x a))
  only : ∀ n, c.value n ≠ none → n = d.root ∨ n ∈ d.attrs.map Attr.name

/-- A list of all valid configurations of a description, without repetition. -/
structure DescEnumerates (F : IntFloats) (d : Desc) (cs : List Config) : Prop where
  valid : ∀ c ∈ cs, ∃ a, DescValid F d a ∧ DescShows d a c
  differ : cs.Pairwise Differ
  all : ∀ a, DescValid F d a → ∃ c ∈ cs, DescShows d a c

end Verif.Spec

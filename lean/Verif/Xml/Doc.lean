import Verif.Xml.Alternatives
/-!
# XML documents and the models they describe

A document in terms of its contents: options with their parts, constraints as text.  `Doc.toXml` is the
document as elements; `DocDescribes` says which feature model it stands for, without reference to the
parser.
-/

namespace Verif.Spec
open Verif Verif.Xml Verif.Sxfm

/-- Not empty, no blank at either end. -/
structure Solid (s : Str) : Prop where
  nonempty : s ≠ []
  head : ∀ c, s.head? = some c → isSpaceC c = false
  last : ∀ c, s.getLast? = some c → isSpaceC c = false

/-- Empty, or no blank at either end. -/
def Trimmed (s : Str) : Prop := s = [] ∨ Solid s

/-- A `sourceRange` element. -/
structure DocRange where
  revision : Option (Str × Option Str) := none
  path : Str
  start : Loc
  stop : Loc
  category : Option Category := none
  member : Option Str := none

/-- A `configurationOption` element; an empty list stands for a missing element. -/
structure DocOption where
  name : Str
  output : Option Str := none
  parent : Option Str := none
  children : List Str := []
  implied : List Str := []
  excluded : List Str := []
  optional : Option Bool := none
  values : Option Values := none
  /-- text of the step function and what it stands for -/
  step : Option (Str × StepFn) := none
  locs : List DocRange := []

/-- A `constraint` element: its text and what it stands for. -/
structure DocConstraint where
  text : Str
  tree : Constraint
  kind : CKind

structure Doc where
  name : Str
  path : Option Str := none
  commit : Option Str := none
  binary : List DocOption
  numeric : Option (List DocOption) := none
  constraints : CClass → Option (List DocConstraint) := fun _ => none

/-! ## As elements -/

def pointXml (n : Str) (l : Loc) : Xml := group n [leaf c!"line" (natText l.line), leaf c!"column" (natText l.column)]

def optLeaf (n : Str) : Option Str → List Xml
  | none => []
  | some t => [leaf n t]

def categoryText : Category → Str
  | .necessary => c!"necessary"
  | .inessential => c!"inessential"

def revisionXml : Option (Str × Option Str) → List Xml
  | none => []
  | some (i, r) => [group c!"revisionRange" (leaf c!"introduced" i :: optLeaf c!"removed" r)]

def categoryAtts : Option Category → List (Str × Str)
  | none => []
  | some c => [(c!"category", categoryText c)]

def DocRange.toXml (r : DocRange) : Xml :=
  .node c!"sourceRange" (categoryAtts r.category) []
    (revisionXml r.revision ++ leaf c!"path" r.path :: pointXml c!"start" r.start :: pointXml c!"end" r.stop ::
      optLeaf c!"memberOffset" r.member)

/-- The values of a list, separated by semicolons. -/
def listText : List Int → Str
  | [] => []
  | [v] => intText v
  | v :: vs => intText v ++ ';' :: listText vs

def valuesXml : Option Values → List Xml
  | none => []
  | some (.range lo hi) => [leaf c!"minValue" (intText lo), leaf c!"maxValue" (intText hi)]
  | some (.list vs) => [leaf c!"values" (listText vs)]

def namesXml (n : Str) (l : List Str) : List Xml := if l = [] then [] else [group n (l.map (leaf c!"options"))]

def DocOption.toXml (o : DocOption) : Xml :=
  group c!"configurationOption"
    (leaf c!"name" o.name :: (optLeaf c!"outputString" o.output ++ optLeaf c!"parent" o.parent ++
      namesXml c!"children" o.children ++ namesXml c!"impliedOptions" o.implied ++ namesXml c!"excludedOptions" o.excluded ++
      optLeaf c!"optional" (o.optional.map fun b => if b then c!"True" else c!"False") ++ valuesXml o.values ++
      optLeaf c!"stepFunction" (o.step.map Prod.fst) ++
      (if o.locs = [] then [] else [group c!"locations" (o.locs.map DocRange.toXml)])))

def DocConstraint.toXml (c : DocConstraint) : Xml :=
  match c.kind with
  | .mixed i => .node c!"constraint"
      [(c!"req", if i.reqAll then c!"all" else c!"none"), (c!"exprKind", if i.positive then c!"pos" else c!"neg")] c.text []
  | _ => leaf c!"constraint" c.text

def groupXml {α} (n : Str) (f : α → Xml) : Option (List α) → List Xml
  | none => []
  | some l => [group n (l.map f)]

def optAtt (n : Str) : Option Str → List (Str × Str)
  | none => []
  | some t => [(n, t)]

def Doc.toXml (x : Doc) : Xml :=
  .node c!"vm" ((c!"name", x.name) :: (optAtt c!"root" x.path ++ optAtt c!"commit" x.commit)) []
    (group c!"binaryOptions" (x.binary.map DocOption.toXml) :: (groupXml c!"numericOptions" DocOption.toXml x.numeric ++
      groupXml c!"booleanConstraints" DocConstraint.toXml (x.constraints .boolean) ++
      groupXml c!"nonBooleanConstraints" DocConstraint.toXml (x.constraints .nonBoolean) ++
      groupXml c!"mixedConstraints" DocConstraint.toXml (x.constraints .mixed)))

/-! ## What may stand in them -/

/-- Lines and columns fit `int`. -/
def FitsInt (l : Loc) : Prop := l.line ≤ 2147483647 ∧ l.column ≤ 2147483647

structure DocRange.Ok (r : DocRange) : Prop where
  revision : ∀ i o, r.revision = some (i, o) → Trimmed i ∧ ∀ t, o = some t → Solid t
  path : Trimmed r.path
  start : FitsInt r.start
  stop : FitsInt r.stop
  member : ∀ t, r.member = some t → Trimmed t

def Int64 (v : Int) : Prop := int64Min ≤ v ∧ v ≤ int64Max

def ValuesOk : Values → Prop
  | .range lo hi => Int64 lo ∧ Int64 hi
  | .list vs => vs ≠ [] ∧ ∀ v ∈ vs, Int64 v

structure DocOption.Ok (o : DocOption) : Prop where
  name : Solid o.name
  /-- blanks at the end are kept -/
  output : ∀ t, o.output = some t → t ≠ [] ∧ ∀ c, t.head? = some c → isSpaceC c = false
  parent : ∀ t, o.parent = some t → Solid t
  children : ∀ t ∈ o.children, Solid t
  implied : ∀ t ∈ o.implied, Solid t
  excluded : ∀ t ∈ o.excluded, Solid t
  values : ∀ v, o.values = some v → ValuesOk v
  step : ∀ t f, o.step = some (t, f) → Solid t ∧ parseStepText t = .ok f
  locs : ∀ r ∈ o.locs, r.Ok

structure DocConstraint.Ok (sci : Str → Option Str) (cl : CClass) (c : DocConstraint) : Prop where
  text : parseText sci c.text = .ok c.tree
  kind : c.kind.cls = cl

structure Doc.Ok (sci : Str → Option Str) (x : Doc) : Prop where
  name : Trimmed x.name
  path : ∀ t, x.path = some t → Trimmed t
  commit : ∀ t, x.commit = some t → Trimmed t
  binary : ∀ o ∈ x.binary, o.Ok
  numeric : ∀ l, x.numeric = some l → ∀ o ∈ l, o.Ok
  constraints : ∀ cl l, x.constraints cl = some l → ∀ c ∈ l, c.Ok sci cl

/-! ## What they stand for -/

def DocRange.read (r : DocRange) : Range where
  path := pathElems r.path
  start := some r.start
  stop := some r.stop
  category := r.category.getD .necessary
  member := r.member.bind createMemberOffset
  revision := r.revision.map fun x => ⟨x.1, x.2⟩

/-- The feature an option stands for; without values the range is from 0 to 0. -/
def DocOption.attr (num : Bool) (o : DocOption) : Attr where
  name := o.name
  kind := if num then .numeric (o.values.getD (.range 0 0)) (o.step.map Prod.snd) else .binary
  opt := o.optional.getD false
  locs := o.locs.map DocRange.read
  output := o.output.getD []

/-- These two names stand for the root. -/
def isRootName (n : Str) : Bool := decide (n = c!"root") || decide (n = c!"base")

/-- All options, and whether each is numeric. -/
def Doc.options (x : Doc) : List (Bool × DocOption) := x.binary.map (Prod.mk false) ++ (x.numeric.getD []).map (Prod.mk true)

def Doc.roots (x : Doc) : List Str := (x.options.map fun o => o.2.name).filter isRootName

def Doc.attrs (x : Doc) : List Attr := (x.options.filter fun o => !isRootName o.2.name).map fun o => o.2.attr o.1

def implies (a b : Str) : CKind × Constraint := (.boolean, .bin .implies (.feature a) (.feature b))
def excludes (a b : Str) : CKind × Constraint := (.boolean, .bin .excludes (.feature a) (.feature b))

/-- The constraints an option stands for. -/
def DocOption.constraints (o : DocOption) : List (CKind × Constraint) :=
  o.implied.map (implies o.name) ++ o.excluded.map (excludes o.name)

def Doc.ofClass (x : Doc) (cl : CClass) : List (CKind × Constraint) :=
  ((x.constraints cl).getD []).map fun c => (c.kind, c.tree)

/-- The document describes a tree: `d` is it.  `cwd` is the current directory. -/
structure DocDescribes (cwd : Str) (x : Doc) (d : Desc) : Prop where
  name : d.name = x.name
  path : d.path = x.path.getD cwd
  commit : d.commit = x.commit.getD []
  /-- at most one root; without one there is a root of that name -/
  root : (x.roots = [] ∧ d.root = c!"root") ∨ x.roots = [d.root]
  attrs : d.attrs = x.attrs
  distinct : (x.attrs.map Attr.name).Nodup
  /-- the parent is named by the option, or the child by the parent's option, or it is the root -/
  parent : ∀ o ∈ x.options, ∀ p, o.2.parent = some p → o.2.name ∈ x.attrs.map Attr.name ∧
    (p = d.root ∨ p ∈ x.attrs.map Attr.name) ∧ d.parent o.2.name = p
  children : ∀ o ∈ x.options, ∀ c ∈ o.2.children, c ∈ x.attrs.map Attr.name ∧ d.parent c = o.2.name
  no_parent : ∀ o ∈ x.options, o.2.name ∈ x.attrs.map Attr.name → o.2.parent = none →
    (∀ o' ∈ x.options, o.2.name ∉ o'.2.children) → d.parent o.2.name = d.root
  acyclic : ∃ rk : Str → Nat, ∀ a ∈ x.attrs, rk (d.parent a.name) < rk a.name
  groups : d.groups = []
  constraints : d.constraints = x.options.flatMap (fun o => o.2.constraints) ++ x.ofClass .boolean ++ x.ofClass .nonBoolean ++
    x.ofClass .mixed

end Verif.Spec

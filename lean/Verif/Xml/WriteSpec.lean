import Verif.Xml.Doc
import Verif.Constraint.PrintSpec
/-!
# What a document keeps of a model

Which models can be written so that they can be read again, and what is left of them.
-/

namespace Verif.Spec
open Verif Verif.Xml Verif.Sxfm

/-- A path as list of its elements, without empty ones. -/
def CleanPath : List Str → Prop
  | [] => True
  | p :: ps => (p = ['/'] ∨ (p ≠ [] ∧ '/' ∉ p)) ∧ ∀ q ∈ ps, q ≠ [] ∧ '/' ∉ q

/-- A location with start and end whose path can stand in a document. -/
structure RangeWritable (r : Range) : Prop where
  start : ∃ l, r.start = some l ∧ FitsInt l
  stop : ∃ l, r.stop = some l ∧ FitsInt l
  path : CleanPath r.path
  first : ∀ c, r.path.head?.bind List.head? = some c → isSpaceC c = false
  last : ∀ c, r.path.getLast?.bind List.getLast? = some c → isSpaceC c = false

/-- Binary, or numeric with values of type `int64_t`. -/
def KindWritable : FKind → Prop
  | .binary => True
  | .numeric v _ => ValuesOk v
  | _ => False

/-- An implication or exclusion between two features. -/
def simple : Constraint → Bool
  | .bin .implies (.feature _) (.feature _) => true
  | .bin .excludes (.feature _) (.feature _) => true
  | _ => false

/-- A constraint that can be read when printed. -/
def ConstraintWritable (c : Constraint) : Prop := IdentNames c ∧ Readable c ∧ FitsInt64 c

structure Writable (d : Desc) : Prop where
  name : Trimmed d.name
  path : Trimmed d.path
  commit : Trimmed d.commit
  /-- the parser knows the root by its name -/
  root : isRootName d.root = true
  names : ∀ a ∈ d.attrs, Solid a.name ∧ isRootName a.name = false
  siblings : ∀ a ∈ d.attrs, ∀ b ∈ d.attrs, d.parent a.name = d.parent b.name → lower a.name = lower b.name → a.name = b.name
  kinds : ∀ a ∈ d.attrs, KindWritable a.kind
  locs : ∀ a ∈ d.attrs, ∀ r ∈ a.locs, RangeWritable r
  known : ConstraintsKnown d
  constraints : ∀ x ∈ d.constraints, ConstraintWritable x.2 ∨ (x.1 = .boolean ∧ simple x.2 = true)

/-- An integer as value of type `int`. -/
def int32 (v : Int) : Int := v.bmod 4294967296

/-- All values of a list but the last are narrowed. -/
def keptList : List Int → List Int
  | [] => []
  | [v] => [v]
  | v :: vs => int32 v :: keptList vs

def keptValues : Values → Values
  | .range lo hi => .range lo hi
  | .list vs => .list (keptList vs)

def keptKind : FKind → FKind
  | .numeric v _ => .numeric (keptValues v) none
  | k => k

/-- What is kept of a location. -/
def keptRange (r : Range) : Range := { r with member := none, revision := none }

/-- What is kept of a feature. -/
def kept (a : Attr) : Attr := { a with kind := keptKind a.kind, locs := a.locs.map keptRange, output := [] }

/-- Two different features in one group. -/
def GroupMates (d : Desc) (a b : Str) : Prop :=
  a ≠ b ∧ a ∈ d.attrs.map Attr.name ∧ b ∈ d.attrs.map Attr.name ∧ d.parent a = d.parent b ∧ ∃ k, (d.parent a, k) ∈ d.groups

def Implies (d : Desc) (a b : Str) : Prop := ∃ k, (k, .bin .implies (.feature a) (.feature b)) ∈ d.constraints

/-- How often a feature implies another. -/
def impliesCount (d : Desc) (a b : Str) : Nat :=
  d.constraints.countP fun x => decide (x.2 = .bin .implies (.feature a) (.feature b))

/-- `d'` is what the document written for `d` stands for. -/
structure WrittenAs (d d' : Desc) : Prop where
  name : d'.name = d.name
  path : d'.path = d.path
  commit : d'.commit = d.commit
  root : d'.root = d.root
  attrs : d'.attrs.Perm (d.attrs.map kept)
  parent : ∀ a ∈ d.attrs, d'.parent a.name = d.parent a.name
  /-- groups are found again by their exclusions -/
  groups : ∀ n k, (n, k) ∈ d'.groups ↔ k = .alternative ∧ Exclusive d' n
  /-- implications and exclusions between features come first, those within groups among them; the
      others follow in their order -/
  boolean : ∃ l, d'.ofClass .boolean = l ++
      ((d.ofClass .boolean).filter fun x => !simple x.2).map (fun x => (x.1, readBack x.2)) ∧
    ∀ x, x ∈ l ↔ ∃ a b, (x = implies a b ∧ Implies d a b) ∨ (x = excludes a b ∧ (Excludes d a b ∨ GroupMates d a b))
  /-- every implication as often as before, but twice as often if the feature implies itself; exclusions once -/
  implied : ∀ a b, (d'.ofClass .boolean).count (implies a b) = (if a = b then 2 else 1) * impliesCount d a b
  excluded : ∀ a b, (d'.ofClass .boolean).count (excludes a b) ≤ 1
  nonBoolean : d'.ofClass .nonBoolean = (d.ofClass .nonBoolean).map fun x => (x.1, readBack x.2)
  mixed : d'.ofClass .mixed = (d.ofClass .mixed).map fun x => (x.1, readBack x.2)

end Verif.Spec

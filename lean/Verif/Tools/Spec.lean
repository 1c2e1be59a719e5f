import Verif.Solver.DescSpec
import Verif.Sampling.Spec
/-! # What the configuration generator is expected to write -/

namespace Verif.Spec
open Verif

/-- The description with an alternative group for every feature whose children exclude each other, as
    loading a file adds them. -/
noncomputable def withGroups (d : Desc) : Desc :=
  open Classical in
  { d with groups := ((d.root :: d.attrs.map Attr.name).filter fun n => decide (Exclusive d n)).map fun n => (n, .alternative) }

/-- What is written for a feature of a configuration, if it is selected and has an output string. -/
def attrShown (a : Assign) (x : Attr) : Option Str :=
  if x.output = [] then none
  else match x.kind with
    | .numeric _ _ => some (x.output ++ written (.int (a.int x.name)))
    | _ => if a.bool x.name then some x.output else none

/-- The text for a configuration, with the features in the given order. -/
def entryText (order : List Attr) (a : Assign) : Str := c!"[" ++ listed (order.filterMap (attrShown a)) ++ c!"]"

/-- The entries are the valid configurations of a description: one for each, numbered from zero. -/
structure WritesAll (F : IntFloats) (d : Desc) (order : List Attr) (es : List (Str × Str)) : Prop where
  /-- every feature has its place, after its parent -/
  perm : order.Perm d.attrs
  parents : order.Pairwise fun x y => d.parent x.name ≠ y.name
  /-- the keys are the numbers, ordered as texts -/
  keys : (es.map Prod.fst).Perm ((List.range es.length).map natText)
  sorted : es.Pairwise fun x y => strLt x.1 y.1 = true
  /-- the entries are for a list of the valid configurations without repetition -/
  entries : ∃ as : List Assign, as.length = es.length ∧
    (∀ (k : Nat) (a : Assign), as[k]? = some a → DescValid F d a ∧ (natText k, entryText order a) ∈ es) ∧
    as.Pairwise (fun a b => ∃ x ∈ d.attrs, attrValue x a ≠ attrValue x b) ∧
    ∀ a, DescValid F d a → ∃ b ∈ as, ∀ x ∈ d.attrs, attrValue x a = attrValue x b

/-- The field of a row in the column of a name, if there is such a column. -/
def cellOf (t : Sampling.Table) (row : List Str) (n : Str) : Option Str := if n ∈ t.columns then row[t.columns.idxOf n]? else none

/-- What is written for a feature of a row of a sample set. -/
def rowShown (t : Sampling.Table) (row : List Str) (x : Attr) : Option Str :=
  if x.output = [] then none
  else match cellOf t row x.name with
    | none => none
    | some v => match x.kind with
      | .binary => if v = c!"0" then none else some x.output
      | .numeric _ _ => if (convert v).asString = c!"false" then none else some (x.output ++ (convert v).asString)
      | _ => if cellValue x.kind v = c!"false" then none else some x.output

/-- The entries are the rows of a sample set, the last row first. -/
structure WritesRows (d : Desc) (t : Sampling.Table) (order : List Attr) (es : List (Str × Str)) : Prop where
  perm : order.Perm d.attrs
  parents : order.Pairwise fun x y => d.parent x.name ≠ y.name
  length : es.length = t.rows.length
  sorted : es.Pairwise fun x y => strLt x.1 y.1 = true
  entries : ∀ (k : Nat) (row : List Str), t.rows[k]? = some row →
    (natText (t.rows.length - 1 - k), c!"[" ++ listed (order.filterMap (rowShown t row)) ++ c!"]") ∈ es

end Verif.Spec

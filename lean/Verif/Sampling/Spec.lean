import Verif.Sampling.Model
import Verif.FM.Spec
/-!
# Sample sets: what tables say and what is listed
-/

namespace Verif.Spec
open Verif Verif.Sampling

/-- Columns have different names and rows a field for each. -/
structure TableOk (t : Table) : Prop where
  columns : t.columns.Nodup
  rows : ∀ r ∈ t.rows, r.length = t.columns.length

/-- The field of row `k` in the column named `n`. -/
def Cell (t : Table) (k : Nat) (n v : Str) : Prop :=
  ∃ (row : List Str) (j : Nat), t.rows[k]? = some row ∧ t.columns[j]? = some n ∧ row[j]? = some v

/-- The value of the option for a field: selected or not, or the field itself as option value. -/
def cellValue (k : FKind) (v : Str) : Str :=
  match k with
  | .binary => if v = c!"0" then c!"false" else c!"true"
  | .root => if v = c!"0" then c!"false" else c!"true"
  | _ => (convert v).asString

/-- What a configuration shows of a feature, if it selects it. -/
def shown (m : FModel) (c : Config) (i : Id) : Option Str :=
  match data m i with
  | some (.feat f) =>
    if f.attr.output = [] then none
    else match c.value f.attr.name with
      | none => none
      | some v => if v = c!"false" then none
        else match f.attr.kind with
          | .numeric _ _ => some (f.attr.output ++ v)
          | _ => some f.attr.output
  | _ => none

/-- Quoted strings with commas between them. -/
def listed : List Str → Str
  | [] => []
  | [s] => c!"\"" ++ s ++ c!"\""
  | s :: ss => c!"\"" ++ s ++ c!"\"" ++ c!", " ++ listed ss

end Verif.Spec

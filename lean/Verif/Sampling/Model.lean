import Verif.Config.Model
import Verif.FM.Iterate
/-!
# Sample sets

Models `SampleSetParser::readConfigurations` (`/repo/lib/Sampling/SampleSetParser.cpp`) and
`SampleSetWriter::writeConfigurations` (`/repo/lib/Sampling/SampleSetWriter.cpp`).

The CSV library is not part of the repository: a file enters the model as the header and the rows the
library hands out.  The YAML library is not modelled either: the result of writing is the
`std::map` that is passed to it.
-/

namespace Verif.Sampling
open Verif

/-- What the CSV reader hands out: names of the columns and the fields of every row. -/
structure Table where
  columns : List Str
  rows : List (List Str)
  deriving DecidableEq, Repr

/-- `Row[Name].get()`; `none` = the exception for a missing column or field. -/
def field (columns : List Str) (row : List Str) (n : Str) : Option Str := row[columns.idxOf n]?

/-- The value set for a feature (SampleSetParser.cpp:20-31). -/
def optionText (k : FKind) (v : Str) : Str :=
  if k = .binary ∨ k = .root then (if v = c!"0" then c!"false" else c!"true") else v

/-- The loop over the features (SampleSetParser.cpp:17-33). -/
def readRow (m : FModel) (columns row : List Str) : List Id → Config → Option Config
  | [], c => some c
  | i :: is, c =>
    match m.feat? i with
    | none => none
    | some f =>
      if f.attr.name ∈ columns then
        match field columns row f.attr.name with
        | none => none
        | some v => readRow m columns row is (c.set f.attr.name (optionText f.attr.kind v))
      else readRow m columns row is c

/-- The loop over the rows (SampleSetParser.cpp:14-35); every configuration is inserted in front. -/
def readRows (m : FModel) (columns : List Str) (is : List Id) : List (List Str) → List Config → Option (List Config)
  | [], cs => some cs
  | row :: rows, cs =>
    match readRow m columns row is [] with
    | none => none
    | some c => readRows m columns is rows (c :: cs)

/-- `readConfigurations` (SampleSetParser.cpp:7-37). -/
def readConfigurations (E : Env) (m : FModel) (t : Table) : Option (List Config) :=
  match m.iterate E with
  | none => none
  | some is => readRows m t.columns is t.rows []

/-- The loop over the features (SampleSetWriter.cpp:21-39). -/
def flags (m : FModel) (c : Config) : List Id → Str → Option Str
  | [], acc => some acc
  | i :: is, acc =>
    match m.feat? i with
    | none => none
    | some f =>
      match c.value f.attr.name with
      | none => flags m c is acc
      | some v =>
        if v ≠ c!"false" ∧ f.attr.output ≠ [] then
          flags m c is ((if acc.length ≠ 1 then acc ++ c!", " else acc) ++ c!"\"" ++ f.attr.output ++
            (match f.attr.kind with | .numeric _ _ => v | _ => []) ++ c!"\"")
        else flags m c is acc

/-- `std::map::operator[]=`: entries ordered by key. -/
def mapInsert (k v : Str) : List (Str × Str) → List (Str × Str)
  | [] => [(k, v)]
  | (k', v') :: es =>
    if strLt k k' then (k, v) :: (k', v') :: es
    else if strLt k' k then (k', v') :: mapInsert k v es
    else (k', v) :: es

/-- The loop over the configurations (SampleSetWriter.cpp:17-43). -/
def writeAll (m : FModel) (is : List Id) : Nat → List Config → List (Str × Str) → Option (List (Str × Str))
  | _, [], es => some es
  | k, c :: cs, es =>
    match flags m c is c!"[" with
    | none => none
    | some t => writeAll m is (k + 1) cs (mapInsert (natText k) (t ++ c!"]") es)

/-- `writeConfigurations` up to the YAML output (SampleSetWriter.cpp:10-43). -/
def writeConfigurations (E : Env) (m : FModel) (cs : List Config) : Option (List (Str × Str)) :=
  match m.iterate E with
  | none => none
  | some is => writeAll m is 0 cs []

end Verif.Sampling

import Verif.Graph.Model
import Verif.FM.Spec
/-!
# What the text of a feature says

The text is a record of fields, one per line.
-/

namespace Verif.Spec
open Verif

/-- Fields on lines of their own. -/
def recordTail : List (Str × Str) → Str
  | [] => []
  | (k, v) :: fs => c!",\n  " ++ k ++ c!": " ++ v ++ recordTail fs

/-- A record: `key: value` per line, separated by commas. -/
def record : List (Str × Str) → Str
  | [] => []
  | (k, v) :: fs => c!"  " ++ k ++ c!": " ++ v ++ recordTail fs

/-- A list in brackets, every element followed by a comma. -/
def bracketed (vs : List Str) : Str := ['['] ++ (vs.flatMap fun v => v ++ [',']) ++ [']']

/-- The fields that show what values a feature takes. -/
def valueFields : FKind → List (Str × Str)
  | .numeric (.range lo hi) _ => [(c!"minValue", intText lo), (c!"maxValue", intText hi)]
  | .numeric (.list vs) _ => [(c!"values", bracketed (vs.map intText))]
  | _ => []

/-- The fields of a feature whose parent feature (if any) and children have these names. -/
def featureFields (f : Feat) (parent : Option Str) (kids : List Str) : List (Str × Str) :=
  [(c!"name", c!"\"" ++ f.attr.name ++ c!"\""), (c!"optional", if f.attr.opt then c!"true" else c!"false")] ++
  (if f.attr.locs = [] then [] else [(c!"locations", f.attr.locs.flatMap fun r : Range => ['['] ++ r.toStr ++ [']'])]) ++
  (match parent with | none => [] | some p => [(c!"parent", p)]) ++
  [(c!"children", bracketed kids)] ++ valueFields f.attr.kind

/-- The text of node `i` shows feature `f` with its parent feature, and the children `kids` in this
    order. -/
structure ShowsFeature (m : FModel) (i : Id) (f : Feat) (parent : Option Str) (kids : List Id) (names : List Str) (t : Str) : Prop where
  text : t = record (featureFields f parent names)
  parent : ∀ n, parent = some n ↔ ∃ p, FParent m i p ∧ (n, p) ∈ m.features
  names : kids.map m.nameOf = names.map some
  order : kids.Sublist (edg m i)

/-- No line break. -/
def OneLine (s : Str) : Prop := '\n' ∉ s

/-- Nothing shown about the feature contains a line break, and its children's names no comma. -/
structure Tidy (f : Feat) (parent : Option Str) (kids : List Str) : Prop where
  name : OneLine f.attr.name
  parent : ∀ p, parent = some p → OneLine p
  kids : ∀ k ∈ kids, OneLine k ∧ ',' ∉ k
  locs : ∀ r ∈ f.attr.locs, OneLine r.toStr

end Verif.Spec

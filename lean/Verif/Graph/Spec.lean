import Verif.Graph.Model
import Verif.FM.Describe
/-!
# What the graph of a feature model shows

A reader of the statements keeps the blocks that are open and notes which node, edge or rank entry
stands in which blocks.
-/

namespace Verif.Spec
open Verif

/-- The nodes above a node, nearest first. -/
inductive Ancestors (m : FModel) : Id → List Id → Prop
  | root {i} : par m i = none → Ancestors m i []
  | step {i p l} : par m i = some p → Ancestors m p l → Ancestors m i (p :: l)

/-- A block in curly braces. -/
inductive Block
  | cluster (i : Id)
  | rank
  deriving DecidableEq, Repr

/-- What a statement shows. -/
inductive Shown
  | node (i : Id) (shape label : Str)
  | edge (p c : Id) (attrs : Str)
  | rank (i : Id)
  deriving DecidableEq, Repr

/-- Reading statements inside the given open blocks (innermost first) until all of them are closed;
    nothing if the braces do not match. -/
def reading : List Block → List DotItem → Option (List (Shown × List Block))
  | [], [] => some []
  | _ :: _, [] => none
  | st, .node _ i s l :: xs => (reading st xs).map ((.node i s l, st) :: ·)
  | st, .edge _ p c a :: xs => (reading st xs).map ((.edge p c a, st) :: ·)
  | st, .rankNode _ i :: xs => (reading st xs).map ((.rank i, st) :: ·)
  | st, .openCluster _ i :: xs => reading (.cluster i :: st) xs
  | st, .openRank _ :: xs => reading (.rank :: st) xs
  | .cluster _ :: st, .closeCluster _ :: xs => reading st xs
  | .rank :: st, .closeRank _ :: xs => reading st xs
  | _, _ => none

/-- The nodes that are shown. -/
def nodesIn (l : List (Shown × List Block)) : List Id :=
  l.filterMap fun e => match e.1 with | .node i _ _ => some i | _ => none

/-- The nodes an edge leads to. -/
def targetsIn (l : List (Shown × List Block)) : List Id :=
  l.filterMap fun e => match e.1 with | .edge _ c _ => some c | _ => none

/-- The nodes listed as having the same rank. -/
def ranksIn (l : List (Shown × List Block)) : List Id :=
  l.filterMap fun e => match e.1 with | .rank c => some c | _ => none

/-- The blocks of these nodes. -/
def clusters (l : List Id) : List Block := l.map .cluster

/-- A row of a table. -/
def cell (s : Str) : Str := c!"<tr><td>" ++ s ++ c!"</td></tr>"

/-- Bold text. -/
def bold (s : Str) : Str := c!"<b>" ++ s ++ c!"</b>"

/-- A table: a title, one row for each constraint and, below a line, one for each location. -/
def labelText (title : Str) (constraints locs : List Str) : Str :=
  c!"<<table align=\"center\" valign=\"middle\" border=\"0\" cellborder=\"0\" cellpadding=\"5\">" ++ cell (bold title) ++
    constraints.flatMap cell ++ (if locs = [] then [] else c!"<hr/>" ++ locs.flatMap (cell ∘ bold)) ++ c!"</table>>"

/-- The label shows the name and output string of the feature, the constraints it takes part in, and
    its locations. -/
def LabelOf (m : FModel) (f : Feat) (label : Str) : Prop :=
  ∃ cs : List Constraint,
    (f.constraints.map fun l => ((m.store l.root.cls)[l.root.idx]?).map Stored.tree) = cs.map some ∧
    label = labelText (escapeDot f.attr.name ++ c!" (Flag: " ++ Sxfm.trimC f.attr.output ++ c!")")
      (cs.map fun c => escapeDot c.toHtml) (f.attr.locs.map fun r => escapeDot r.toStr)

/-- A statement shows something true about the model and stands in the right place: a node in the
    clusters of all its ancestors, an edge in those of the child, a rank entry in the rank block of
    the parent's cluster. -/
def Right (m : FModel) : Shown × List Block → Prop
  | (.node i shape label, st) =>
    (∃ anc, Ancestors m i anc ∧ st = clusters anc) ∧
    ((∃ f, data m i = some (.feat f) ∧ shape = c!"box" ∧ LabelOf m f label) ∨
      (data m i = some (.rel .alternative) ∧ shape = c!"ellipse" ∧ label = c!"ALTERNATIVE") ∨
      (data m i = some (.rel .or) ∧ shape = c!"ellipse" ∧ label = c!"OR"))
  | (.edge p c a, st) =>
    par m c = some p ∧ (∃ anc, Ancestors m c anc ∧ st = clusters anc) ∧
    ((∃ f, data m c = some (.feat f) ∧ f.attr.opt = true ∧ a = c!"arrowhead=odot") ∨
      (∃ f, data m c = some (.feat f) ∧ f.attr.opt = false ∧ a = c!"arrowhead=dot") ∨
      (IsRel m c ∧ a = c!"arrowhead=none"))
  | (.rank c, st) => ∃ anc, Ancestors m c anc ∧ st = .rank :: clusters anc

/-- The statements are a picture of the tree: every node once, every parent link once, and nothing
    else. -/
structure Drawing (m : FModel) (xs : List DotItem) : Prop where
  shown : ∃ evs, reading [] xs = some evs ∧
    (nodesIn evs).Nodup ∧ (∀ i, i ∈ nodesIn evs ↔ Owned m i) ∧
    (targetsIn evs).Nodup ∧ (∀ c, c ∈ targetsIn evs ↔ Owned m c ∧ m.root ≠ some c) ∧
    (ranksIn evs).Nodup ∧ (∀ c, c ∈ ranksIn evs ↔ Owned m c ∧ m.root ≠ some c) ∧
    ∀ e ∈ evs, Right m e

/-! ## Quoted strings and HTML -/

/-- The inside of a quoted string of the DOT language: a quote only after a backslash. -/
def Quotable : Str → Prop
  | [] => True
  | '\\' :: [] => False
  | '\\' :: _ :: cs => Quotable cs
  | '"' :: _ => False
  | _ :: cs => Quotable cs

/-- The text that character data of an HTML label stands for: `<` starts a tag and `&` an entity, so
    neither can stand for itself. -/
def charData : Str → Option Str
  | [] => some []
  | '&' :: 'a' :: 'm' :: 'p' :: ';' :: cs => (charData cs).map ('&' :: ·)
  | '&' :: 'l' :: 't' :: ';' :: cs => (charData cs).map ('<' :: ·)
  | '&' :: 'g' :: 't' :: ';' :: cs => (charData cs).map ('>' :: ·)
  | '&' :: 'q' :: 'u' :: 'o' :: 't' :: ';' :: cs => (charData cs).map ('"' :: ·)
  | '&' :: _ => none
  | '<' :: _ => none
  | c :: cs => (charData cs).map (c :: ·)

end Verif.Spec

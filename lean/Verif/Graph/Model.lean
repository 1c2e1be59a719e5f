import Verif.FM.Transaction
import Verif.Xml.Model
/-!
# The graph of a feature model and the text of a feature

Models `toHTML` of constraints (`/repo/include/vara/Feature/Constraint.h`), the `GraphWriter`
specialisation for feature models (`/repo/include/vara/Feature/FeatureModel.h:484-645`), `toString`
of source ranges (`FeatureSourceRange.h:69-71, 229-242`) and of features
(`/repo/lib/Feature/Feature.cpp:7-49`) and `FeatureModel::dump` (`FeatureModel.cpp:15-22`).
`DOT::EscapeString` belongs to LLVM and is modelled from its published source
(`llvm/lib/Support/GraphWriter.cpp`).
-/

namespace Verif

/-! ## Labels -/

/-- `DOT::EscapeString` of LLVM. -/
def escapeDot : Str → Str
  | [] => []
  | '\n' :: cs => '\\' :: 'n' :: escapeDot cs
  | '\t' :: cs => ' ' :: ' ' :: escapeDot cs
  | '\\' :: 'l' :: cs => '\\' :: 'l' :: escapeDot cs
  | '\\' :: '|' :: cs => '|' :: escapeDot cs
  | '\\' :: '{' :: cs => '{' :: escapeDot cs
  | '\\' :: '}' :: cs => '}' :: escapeDot cs
  | c :: cs =>
    if c = '\\' ∨ c = '{' ∨ c = '}' ∨ c = '<' ∨ c = '>' ∨ c = '|' ∨ c = '"' then '\\' :: c :: escapeDot cs
    else c :: escapeDot cs

/-- The text between the operands in the patterns of the `toHTML` overrides (Constraint.h:179, 250,
    277, 305, 422, 449, 476, 504); the other classes inherit `toHTML() = toString()`
    (Constraint.h:81). -/
def BinOp.html : BinOp → Str
  | .and => c!"&amp;" | .implies => c!"=&gt;" | .excludes => c!"=&gt;" | .equivalence => c!"&lt;=&gt;"
  | .less => c!"&lt;" | .greater => c!"&gt;" | .lessEqual => c!"&lt;=" | .greaterEqual => c!"&gt;="
  | op => op.text

/-- `Constraint::toHTML`: the operands are printed with `toString`. -/
def Constraint.toHtml : Constraint → Str
  | .bin op l r =>
    ['('] ++ l.toStr ++ [' '] ++ op.html ++ [' '] ++ op.rightPrefix ++ r.toStr ++ [')']
  | c => c.toStr

/-- `FeatureSourceLocation::toString` (FeatureSourceRange.h:69-71). -/
def Loc.toStr (l : Loc) : Str := natText l.line ++ [':'] ++ natText l.column

/-- The bytes of the dash `–` in UTF-8. -/
def dash : Str := [Char.ofNat 0xe2, Char.ofNat 0x80, Char.ofNat 0x93]

/-- `FeatureSourceRange::toString` (FeatureSourceRange.h:229-242). -/
def Range.toStr (r : Range) : Str :=
  Xml.pathText r.path ++
    (match r.start with | some l => [':'] ++ l.toStr | none => []) ++
    (match r.stop with | some l => dash ++ l.toStr | none => []) ++
    (match r.member with | some o => c!" MemberOffset: " ++ o.toString | none => [])

namespace FModel

/-- One row of the label for each constraint (FeatureModel.h:582-586): the text of the whole
    constraint the leaf belongs to.  Following a stale pointer is undefined. -/
def constraintRows (m : FModel) : List CLeaf → Option Str
  | [] => some []
  | l :: ls =>
    match (m.store l.root.cls)[l.root.idx]? with
    | none => none
    | some s =>
      match m.cloneStored s, m.constraintRows ls with
      | some c, some t => some (c!"<tr><td>" ++ escapeDot c.toHtml ++ c!"</td></tr>" ++ t)
      | _, _ => none

/-- `buildFeatureLabel` (FeatureModel.h:580-606). -/
def featureLabel (m : FModel) (f : Feat) : Option Str :=
  (m.constraintRows f.constraints).map fun cs =>
    c!"<<table align=\"center\" valign=\"middle\" border=\"0\" cellborder=\"0\" cellpadding=\"5\">" ++
      (c!"<tr><td><b>" ++ escapeDot f.attr.name ++ c!" (Flag: " ++ Sxfm.trimC f.attr.output ++ c!")</b></td></tr>") ++
      cs ++
      (if f.attr.locs = [] then [] else
        c!"<hr/>" ++ f.attr.locs.flatMap fun r => c!"<tr><td><b>" ++ escapeDot r.toStr ++ c!"</b></td></tr>") ++
      c!"</table>>"

end FModel

/-! ## Statements -/

/-- The pieces of text the writer emits, with the column they start in. -/
inductive DotItem
  /-- `emitNode` (FeatureModel.h:609-633) -/
  | node (indent : Nat) (i : Id) (shape label : Str)
  /-- `emitEdge` (FeatureModel.h:635-643) -/
  | edge (indent : Nat) (p c : Id) (attrs : Str)
  /-- `subgraph cluster_…` and its attributes (FeatureModel.h:554-558) -/
  | openCluster (indent : Nat) (i : Id)
  /-- the end of a subgraph (FeatureModel.h:576) -/
  | closeCluster (indent : Nat)
  /-- `{ rank=same;` (FeatureModel.h:570-571) -/
  | openRank (indent : Nat)
  /-- a node in the list of nodes of the same rank (FeatureModel.h:572-574) -/
  | rankNode (indent : Nat) (i : Id)
  /-- its end (FeatureModel.h:575) -/
  | closeRank (indent : Nat)
  deriving DecidableEq, Repr

namespace FModel

/-- `emitNode` (FeatureModel.h:609-633). -/
def emitNode (m : FModel) (indent : Nat) (i : Id) : Option DotItem :=
  match m.heap i with
  | none => none
  | some n =>
    match n.data with
    | .feat f => (m.featureLabel f).map fun l => .node (indent + 2) i c!"box" l
    | .rel .alternative => some (.node (indent + 2) i c!"ellipse" c!"ALTERNATIVE")
    | .rel .or => some (.node (indent + 2) i c!"ellipse" c!"OR")

/-- The attribute of the edge to a child (FeatureModel.h:562-568). -/
def arrow (n : Node) : Str :=
  match n.data with
  | .feat f => c!"arrowhead=" ++ if f.attr.opt then c!"odot" else c!"dot"
  | .rel _ => c!"arrowhead=none"

/-- The loop over the children (FeatureModel.h:559-569). -/
def emitChildren (m : FModel) (emit : Id → Option (List DotItem)) (indent : Nat) (p : Id) :
    List Id → Option (List DotItem)
  | [] => some []
  | c :: cs =>
    match emit c, m.heap c, emitChildren m emit indent p cs with
    | some xs, some n, some ys => some (xs ++ .edge (indent + 4) p c (arrow n) :: ys)
    | _, _, _ => none

/-- `emitCluster` (FeatureModel.h:550-578).  `fuel` bounds the recursion depth. -/
def emitCluster (m : FModel) : Nat → Nat → Id → Option (List DotItem)
  | 0, _, _ => none
  | fuel + 1, indent, i =>
    match m.heap i, m.emitNode indent i with
    | some n, some x =>
      if n.edges = [] then some [x]
      else
        (m.emitChildren (emitCluster m fuel (indent + 2)) indent i n.edges).map fun xs =>
          x :: .openCluster (indent + 2) i ::
            (xs ++ .openRank (indent + 4) :: (n.edges.map fun c => .rankNode (indent + 6) c) ++
              [.closeRank (indent + 4), .closeCluster (indent + 2)])
    | _, _ => none

/-- `writeNodes` (FeatureModel.h:528): more than `next` nested calls mean a cycle, that is, recursion
    without end; without root a null pointer is followed. -/
def writeNodes (m : FModel) : Option (List DotItem) :=
  match m.root with
  | none => none
  | some r => m.emitCluster (m.next + 1) 0 r

end FModel

/-! ## Text -/

/-- `O.indent(n)`. -/
def spaces (n : Nat) : Str := List.replicate n ' '

/-- The text of a statement; `ptr` prints an address. -/
def DotItem.text (ptr : Id → Str) : DotItem → Str
  | .node n i shape label =>
    spaces n ++ c!"node_" ++ ptr i ++ c!" [shape=" ++ shape ++
      c!" margin=.1 fontsize=12 fontname=\"CMU Typewriter\" label=" ++ label ++ c!"];\n"
  | .edge n p c attrs =>
    spaces n ++ c!"node_" ++ ptr p ++ c!" -> node_" ++ ptr c ++
      (if attrs = [] then [] else c!" [" ++ attrs ++ c!"]") ++ c!";\n"
  | .openCluster n i =>
    spaces n ++ c!"subgraph cluster_" ++ ptr i ++ c!" {\n" ++ spaces (n + 2) ++ c!"label=\"\";\n" ++
      spaces (n + 2) ++ c!"margin=0;\n" ++ spaces (n + 2) ++ c!"style=invis;\n"
  | .closeCluster n => spaces n ++ c!"}\n"
  | .openRank n => spaces n ++ c!"{\n" ++ spaces (n + 2) ++ c!"rank=same;\n"
  | .rankNode n i => spaces n ++ c!"node_" ++ ptr i ++ c!";\n"
  | .closeRank n => spaces n ++ c!"}\n"

namespace FModel

/-- `writeHeader` (FeatureModel.h:512-526); `self` is the printed address of the model. -/
def writeHeader (m : FModel) (self title : Str) : Str :=
  (if title = [] then c!"digraph graph_" ++ self ++ c!" {\n"
   else c!"digraph \"" ++ escapeDot title ++ c!"\" {\n") ++
  c!"  graph [pad=.5 nodesep=2 ranksep=2 splines=true newrank=true bgcolor=white rankdir=tb overlap=false fontname=\"CMU Typewriter\" label=\"" ++
  escapeDot (c!"Feature model for " ++ m.name) ++ c!"\"];\n\n"

/-- `writeGraph` (FeatureModel.h:501-510). -/
def writeGraph (m : FModel) (ptr : Id → Str) (self title : Str) : Option Str :=
  m.writeNodes.map fun xs => m.writeHeader self title ++ xs.flatMap (DotItem.text ptr) ++ c!"}\n"

/-! ## `toString` of features -/

/-- The direct children that are features, each followed by a comma (Feature.cpp:24-28). -/
def childNames (m : FModel) : List Id → Option Str
  | [] => some []
  | c :: cs =>
    match m.heap c, m.childNames cs with
    | some n, some t =>
      match n.data with
      | .feat f => some (f.attr.name ++ [','] ++ t)
      | .rel _ => some t
    | _, _ => none

/-- `Feature::toString` (Feature.cpp:7-31). -/
def featureText (m : FModel) (i : Id) : Option Str :=
  match m.heap i with
  | none => none
  | some n =>
    match n.data, m.parentFeature i, m.childNames n.edges with
    | .feat f, some p, some cs =>
      (match p with
       | none => some []
       | some q => (m.nameOf q).map fun t => c!"parent: " ++ t ++ c!",\n  ").map fun pt =>
        c!"  name: \"" ++ f.attr.name ++ c!"\",\n  optional: " ++ (if f.attr.opt then c!"true" else c!"false") ++ c!",\n  " ++
          (if f.attr.locs = [] then [] else
            c!"locations: " ++ (f.attr.locs.flatMap fun r : Range => ['['] ++ r.toStr ++ [']']) ++ c!",\n  ") ++
          pt ++ c!"children: [" ++ cs ++ c!"]"
    | _, _, _ => none

/-- The part `NumericFeature::toString` adds (Feature.cpp:33-47). -/
def valuesDump : Values → Str
  | .range lo hi => c!",\n  minValue: " ++ intText lo ++ c!",\n  maxValue: " ++ intText hi
  | .list vs => c!",\n  values: [" ++ (vs.flatMap fun v => intText v ++ [',']) ++ c!"]"

/-- `toString` with dynamic dispatch (Feature.cpp:7-49). -/
def toText (m : FModel) (i : Id) : Option Str :=
  match m.feat? i with
  | none => none
  | some f =>
    (m.featureText i).map fun t => t ++ (match f.attr.kind with | .numeric v _ => valuesDump v | _ => [])

/-- `FeatureModel::dump` (FeatureModel.cpp:15-22, Feature.h:174): the features in the order of the map. -/
def dump (E : Env) (m : FModel) : Option Str :=
  ((E.mapOrder m.features).mapM fun e => (m.toText e.2).map fun t => c!"{\n" ++ t ++ c!"\n}\n").map fun ts =>
    ts.flatten ++ ['\n']

end FModel
end Verif

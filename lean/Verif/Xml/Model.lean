import Verif.Sxfm.Model
import Verif.FM.Iterate
import Verif.Step.Model
import Verif.Base.StrLemmas
/-!
# Feature models in XML

Models `FeatureModelXmlParser` (/repo/lib/Feature/FeatureModelParser.cpp:24-405) and
`FeatureModelXmlWriter` (/repo/lib/Feature/FeatureModelWriter.cpp).  The XML library is not modelled:
a document is the tree of its elements, an element having a name, attributes, text and child
elements.  Serialising such a tree and reading it back is taken to give the same tree; text between
child elements is blank in a valid document and left out.
-/

namespace Verif.Xml
open Verif Verif.Sxfm

/-- An element. -/
inductive Xml
  | node (name : Str) (attrs : List (Str × Str)) (text : Str) (kids : List Xml)

namespace Xml

def name : Xml → Str | .node n _ _ _ => n
def attrs : Xml → List (Str × Str) | .node _ a _ _ => a
def text : Xml → Str | .node _ _ t _ => t
def kids : Xml → List Xml | .node _ _ _ ks => ks

mutual
/-- `xmlNodeGetContent`: all text below the element. -/
def content : Xml → Str
  | .node _ _ t ks => t ++ contents ks
def contents : List Xml → Str
  | [] => []
  | k :: ks => k.content ++ contents ks
end

/-- `xmlGetProp`. -/
def prop (x : Xml) (a : Str) : Option Str := x.attrs.lookup a

end Xml

/-- An element with text only. -/
def leaf (n t : Str) : Xml := .node n [] t []

/-- An element with child elements only. -/
def group (n : Str) (ks : List Xml) : Xml := .node n [] [] ks

/-! ## Text -/

/-- `StringRef::ltrim`. -/
def ltrimC (s : Str) : Str := s.dropWhile isSpaceC

/-- A sign and digits. -/
def signedValue : Str → Int
  | '-' :: r => - (decValue (r.takeWhile isDigit) : Int)
  | '+' :: r => (decValue (r.takeWhile isDigit) : Int)
  | r => (decValue (r.takeWhile isDigit) : Int)

/-- A value of type `int`; others are undefined. -/
def asInt (v : Int) : Option Int := if -2147483648 ≤ v ∧ v ≤ 2147483647 then some v else none

/-- `atoi`: blanks, a sign, digits.  A value that does not fit `int` is undefined. -/
def atoi (s : Str) : Option Int := asInt (signedValue (s.dropWhile isSpaceC))

/-- Conversion of an `int` to `unsigned`. -/
def toUnsigned (v : Int) : Nat := (v % 4294967296).toNat

/-- Conversion of an `int64_t` to `int`. -/
def toInt (v : Int) : Int := let w := v % 4294967296; if w < 2147483648 then w else w - 4294967296

/-- The successive matches of the regular expression `-?\d+` (FeatureModelParser.cpp:123-129).  `cur`
    is the match under way, `neg` tells whether the character before is a minus sign. -/
def intTokens : Option Str → Bool → Str → List Str
  | some t, _, [] => [t]
  | none, _, [] => []
  | some t, neg, c :: cs =>
    if isDigit c then intTokens (some (t ++ [c])) neg cs else t :: intTokens none (c == '-') cs
  | none, neg, c :: cs =>
    if isDigit c then intTokens (some (if neg then ['-', c] else [c])) false cs else intTokens none (c == '-') cs

/-- The elements of a path without root directory; repeated slashes count once, a slash at the end
    gives an empty last element. -/
def pathParts : Nat → Str → List Str
  | 0, _ => []
  | fuel + 1, s =>
    if s = [] then []
    else
      let r := s.dropWhile (· != '/')
      let r' := r.dropWhile (· == '/')
      s.takeWhile (· != '/') ::
        (if r = [] then [] else if r' = [] then [[]] else pathParts fuel r')

/-- The elements of `fs::path(S)` on a POSIX system. -/
def pathElems (s : Str) : List Str :=
  if s.head? = some '/' then ['/'] :: pathParts s.length (s.dropWhile (· == '/')) else pathParts s.length s

/-- A text of a path with these elements (`fs::path::string` gives the text the path was made from,
    which may repeat slashes). -/
def pathText : List Str → Str
  | [] => []
  | p :: ps => if p = ['/'] then '/' :: List.intercalate ['/'] ps else List.intercalate ['/'] (p :: ps)

/-! ## Parser -/

/-- `getParentName` (FeatureModelBuilder.h:59-65): the parent of the last edge to the feature. -/
def parentName : List BCall → Str → Option Str
  | [], _ => none
  | x :: xs, n =>
    match parentName xs n with
    | some p => some p
    | none => match x with
      | .addEdge p c => if c = n then some p else none
      | _ => none

/-- An edge unless there is another parent already (FeatureModelParser.cpp:56-63, 72-78). -/
def tryEdge (calls : List BCall) (p c : Str) : SOut (List BCall) :=
  match parentName calls c with
  | some q => if q = p then .ok (calls ++ [.addEdge p c]) else .fail
  | none => .ok (calls ++ [.addEdge p c])

/-- The loop over `children` (FeatureModelParser.cpp:64-81); the names are not trimmed. -/
def childEdges (name : Str) : List BCall → List Xml → SOut (List BCall)
  | calls, [] => .ok calls
  | calls, k :: ks =>
    if k.name = c!"options" then
      match tryEdge calls name k.content with
      | .ok calls => childEdges name calls ks
      | .fail => .fail
      | .crash => .crash
    else childEdges name calls ks

/-- The loops over `excludedOptions` and `impliedOptions` (FeatureModelParser.cpp:82-109). -/
def pairConstraints (op : BinOp) (name : Str) : List BCall → List Xml → SOut (List BCall)
  | calls, [] => .ok calls
  | calls, k :: ks =>
    if k.name = c!"options" then
      match buildCalls [.feature name, .bin op, .feature (trimC k.content)] with
      | .ok c => pairConstraints op name (calls ++ [.addConstraint .boolean c]) ks
      | _ => .crash
    else pairConstraints op name calls ks

/-- `createFeatureSourceLocation` (FeatureModelParser.cpp:335-351); `none` = undefined. -/
def sourceLocation : Loc → List Xml → Option Loc
  | l, [] => some l
  | l, k :: ks =>
    if k.name = c!"line" then
      match atoi k.content with
      | some v => sourceLocation { l with line := toUnsigned v } ks
      | none => none
    else if k.name = c!"column" then
      match atoi k.content with
      | some v => sourceLocation { l with column := toUnsigned v } ks
      | none => none
    else sourceLocation l ks

/-- `createFeatureRevisionRange` (FeatureModelParser.cpp:314-333): introduced and removed. -/
def revisionTexts : Str × Str → List Xml → Str × Str
  | t, [] => t
  | t, k :: ks =>
    if k.name = c!"introduced" then revisionTexts (trimC k.content, t.2) ks
    else if k.name = c!"removed" then revisionTexts (t.1, trimC k.content) ks
    else revisionTexts t ks

def revisionRange (x : Xml) : RevRange :=
  let t := revisionTexts ([], []) x.kids
  if t.2 = [] then ⟨t.1, none⟩ else ⟨t.1, some t.2⟩

/-- The loop of `createFeatureSourceRange` (FeatureModelParser.cpp:180-199). -/
def rangeElems : Range → List Xml → Option Range
  | r, [] => some r
  | r, k :: ks =>
    if k.name = c!"revisionRange" then rangeElems { r with revision := some (revisionRange k) } ks
    else if k.name = c!"path" then rangeElems { r with path := pathElems (trimC k.content) } ks
    else if k.name = c!"start" then
      match sourceLocation ⟨0, 0⟩ k.kids with
      | some l => rangeElems { r with start := some l } ks
      | none => none
    else if k.name = c!"end" then
      match sourceLocation ⟨0, 0⟩ k.kids with
      | some l => rangeElems { r with stop := some l } ks
      | none => none
    else if k.name = c!"memberOffset" then rangeElems { r with member := createMemberOffset (trimC k.content) } ks
    else rangeElems r ks

/-- The category (FeatureModelParser.cpp:166-179); an unknown one is unreachable by the DTD. -/
def category (x : Xml) : Option Category :=
  match x.prop c!"category" with
  | none => some .necessary
  | some t => if t = c!"necessary" then some .necessary else if t = c!"inessential" then some .inessential else none

/-- `createFeatureSourceRange` (FeatureModelParser.cpp:157-200). -/
def sourceRange (x : Xml) : Option Range :=
  match category x with
  | none => none
  | some c => rangeElems ⟨[], none, none, c, none, none⟩ x.kids

/-- The loop over `locations` (FeatureModelParser.cpp:110-117). -/
def sourceRanges : List Range → List Xml → Option (List Range)
  | rs, [] => some rs
  | rs, k :: ks =>
    if k.name = c!"sourceRange" then
      match sourceRange k with
      | some r => sourceRanges (rs ++ [r]) ks
      | none => none
    else sourceRanges rs ks

/-- The variables of `parseConfigurationOption` (FeatureModelParser.cpp:27-34) and the calls made on the
    builder so far. -/
structure OptSt where
  name : Str := c!"root"
  output : Str := []
  opt : Bool := false
  lo : Int := 0
  hi : Int := 0
  values : List Int := []
  locs : List Range := []
  step : Option StepFn := none
  calls : List BCall

section
variable (sci : Str → Option Str)

/-- The elements that only numeric options have (FeatureModelParser.cpp:118-132). -/
def numElem (s : OptSt) (cnt : Str) (n : Str) : SOut OptSt :=
  if n = c!"minValue" then .ok { s with lo := parseInteger sci cnt }
  else if n = c!"maxValue" then .ok { s with hi := parseInteger sci cnt }
  else if n = c!"values" then .ok { s with values := s.values ++ (intTokens none false cnt).map (parseInteger sci) }
  else if n = c!"stepFunction" then
    match parseStepText cnt with
    | .ok f => .ok { s with step := some f }
    | .null => .ok { s with step := none }
    | _ => .crash
  else .ok s

/-- One element of an option (FeatureModelParser.cpp:36-135); blank elements are skipped. -/
def optElem (num : Bool) (s : OptSt) (h : Xml) : SOut OptSt :=
  if trimC h.content = [] then .ok s
  else if h.name = c!"name" then .ok { s with name := trimC h.content }
  else if h.name = c!"outputString" then .ok { s with output := ltrimC h.content }
  else if h.name = c!"optional" then .ok { s with opt := decide (trimC h.content = c!"True") }
  else if h.name = c!"parent" then
    (tryEdge s.calls (trimC h.content) s.name).bind fun cs => .ok { s with calls := cs }
  else if h.name = c!"children" then
    (childEdges s.name s.calls h.kids).bind fun cs => .ok { s with calls := cs }
  else if h.name = c!"excludedOptions" then
    (pairConstraints .excludes s.name s.calls h.kids).bind fun cs => .ok { s with calls := cs }
  else if h.name = c!"impliedOptions" then
    (pairConstraints .implies s.name s.calls h.kids).bind fun cs => .ok { s with calls := cs }
  else if h.name = c!"locations" then
    match sourceRanges s.locs h.kids with
    | some rs => .ok { s with locs := rs }
    | none => .crash
  else if num then numElem sci s (trimC h.content) h.name
  else .ok s

/-- The loop over the elements of an option. -/
def optElems (num : Bool) : OptSt → List Xml → SOut OptSt
  | s, [] => .ok s
  | s, h :: hs => (optElem sci num s h).bind fun s => optElems num s hs

/-- The feature made at the end (FeatureModelParser.cpp:138-153). -/
def optCall (num : Bool) (s : OptSt) : BCall :=
  if s.name = c!"root" ∨ s.name = c!"base" then .makeRoot s.name
  else if num then
    .makeFeature { name := s.name
                   kind := .numeric (if s.values = [] then .range s.lo s.hi else .list s.values) s.step
                   opt := s.opt, locs := s.locs, output := s.output }
  else .makeFeature { name := s.name, kind := .binary, opt := s.opt, locs := s.locs, output := s.output }

/-- `parseConfigurationOption` (FeatureModelParser.cpp:24-155). -/
def parseOption (num : Bool) (calls : List BCall) (x : Xml) : SOut (List BCall) :=
  (optElems sci num { calls := calls } x.kids).bind fun s => .ok (s.calls ++ [optCall num s])

/-- `parseOptions` (FeatureModelParser.cpp:202-214). -/
def parseOptions (num : Bool) : List BCall → List Xml → SOut (List BCall)
  | calls, [] => .ok calls
  | calls, k :: ks =>
    if k.name = c!"configurationOption" then
      (parseOption sci num calls k).bind fun calls => parseOptions num calls ks
    else parseOptions num calls ks

/-- What kind of constraint an element declares; the attributes of a mixed constraint are read without
    a test (FeatureModelParser.cpp:251-261). -/
def constraintKind (cl : CClass) (x : Xml) : Option CKind :=
  match cl with
  | .boolean => some .boolean
  | .nonBoolean => some .nonBoolean
  | .mixed =>
    match x.prop c!"req", x.prop c!"exprKind" with
    | some r, some e => some (.mixed ⟨decide (r ≠ c!"none"), decide (e ≠ c!"neg")⟩)
    | _, _ => none

/-- `parseConstraints` (FeatureModelParser.cpp:216-269). -/
def parseConstraints (cl : CClass) : List BCall → List Xml → SOut (List BCall)
  | calls, [] => .ok calls
  | calls, k :: ks =>
    if k.name = c!"constraint" then
      match parseText sci k.content with
      | .ok c =>
        match constraintKind cl k with
        | some kind => parseConstraints cl (calls ++ [.addConstraint kind c]) ks
        | none => .crash
      | .null => .fail
      | _ => .crash
    else parseConstraints cl calls ks

/-- One element of the document (FeatureModelParser.cpp:287-310). -/
def vmElem (calls : List BCall) (h : Xml) : SOut (List BCall) :=
  if h.name = c!"binaryOptions" then parseOptions sci false calls h.kids
  else if h.name = c!"numericOptions" then parseOptions sci true calls h.kids
  else if h.name = c!"booleanConstraints" then parseConstraints sci .boolean calls h.kids
  else if h.name = c!"nonBooleanConstraints" then parseConstraints sci .nonBoolean calls h.kids
  else if h.name = c!"mixedConstraints" then parseConstraints sci .mixed calls h.kids
  else .ok calls

def vmElems : List BCall → List Xml → SOut (List BCall)
  | calls, [] => .ok calls
  | calls, h :: hs => (vmElem sci calls h).bind fun calls => vmElems calls hs

/-- The path of the model (FeatureModelParser.cpp:276-280). -/
def rootPath (cwd : Str) : Option Str → Str
  | some p => trimC p
  | none => cwd

/-- `parseVm` (FeatureModelParser.cpp:271-312); `cwd` is the current directory.  A missing name reads
    as the empty text. -/
def parseVm (cwd : Str) (x : Xml) : SOut (List BCall) :=
  vmElems sci
    [.setVmName (trimC ((x.prop c!"name").getD [])),
     .setPath (rootPath cwd (x.prop c!"root")),
     .setCommit (trimC ((x.prop c!"commit").getD []))] x.kids

end

/-! ## Detection of alternative groups -/

/-- `std::any_of` with a predicate that may be undefined. -/
def anyM {α} (p : α → Option Bool) : List α → Option Bool
  | [] => some false
  | x :: xs =>
    match p x with
    | none => none
    | some true => some true
    | some false => anyM p xs

/-- The name of the feature behind a leaf of a stored constraint: that of the feature it is bound to,
    or of the shallow feature it owns. -/
def leafName (m : FModel) (s : Stored) (k : Nat) : Option Str :=
  match s.binds[k]? with
  | some (some i) => m.nameOf i
  | _ => s.tree.features[k]?

/-- The lambda in `detectExclude` (FeatureModelParser.cpp:357-369). -/
def excludesPair (m : FModel) (a b : Str) (r : CRoot) : Option Bool :=
  match (m.store r.cls)[r.idx]? with
  | none => none
  | some s =>
    match s.tree with
    | .bin _ (.feature _) (.feature _) =>
      match leafName m s 0, leafName m s 1 with
      | some x, some y => some (decide (x = a) && decide (y = b))
      | _, _ => none
    | _ => some false

/-- `detectExclude` (FeatureModelParser.cpp:353-370). -/
def detectExclude (m : FModel) (a b : Id) : Option Bool :=
  match m.feat? a, m.nameOf b with
  | some fa, some bn => anyM (excludesPair m fa.attr.name bn) fa.excludes
  | _, _ => none

/-- `F == C || (detectExclude(F, C) && detectExclude(C, F))` (FeatureModelParser.cpp:382-383). -/
def mutually (m : FModel) (a b : Id) : Option Bool :=
  if a = b then some true
  else
    match detectExclude m a b with
    | some true => detectExclude m b a
    | o => o

/-- The condition on one child (FeatureModelParser.cpp:379-385). -/
def altChild (m : FModel) (cs : List Id) (c : Id) : Option Bool :=
  match m.feat? c with
  | none => none
  | some f => if f.attr.opt then some false else FModel.allM (mutually m c) cs

/-- The condition on a feature (FeatureModelParser.cpp:377-388). -/
def altParent (E : Env) (m : FModel) (i : Id) : Option Bool :=
  match m.children E Node.isFeat i with
  | none => none
  | some cs => if cs.length > 1 then FModel.allM (altChild m cs) cs else some false

/-- The relationships asked for, in iteration order. -/
def altOps (E : Env) (m : FModel) : List Id → Option (List Op)
  | [] => some []
  | i :: is =>
    match altParent E m i with
    | none => none
    | some b => (altOps E m is).map fun os => if b then .addRelationship .alternative (.ptr (some i)) :: os else os

/-- `detectXMLAlternatives` (FeatureModelParser.cpp:372-391): a modify transaction, so that the model
    does not change before all features have been looked at. -/
def detectAlternatives (E : Env) (m : FModel) : Out :=
  match m.iterate E with
  | none => .ub
  | some is =>
    match altOps E m is with
    | none => .ub
    | some os => m.commitOps E os

/-- `buildFeatureModel` (FeatureModelParser.cpp:393-405) on a document that passed validation.  What
    `detectXMLAlternatives` returns is ignored. -/
def load (sci : Str → Option Str) (E : Env) (world : FModel) (cwd : Str) (x : Xml) : BuildRes :=
  match parseVm sci cwd x with
  | .crash => .ub
  | .fail => .null
  | .ok calls =>
    match world.build E (builderOf calls) with
    | .built m =>
      match detectAlternatives E m with
      | .ok m => .built m
      | .err _ m => .built m
      | .ub => .ub
    | r => r

/-! ## Writer -/

/-- Features put into an `OrderedFeatureVector` one after the other. -/
def ordered (m : FModel) (l : List Id) : Option (List Id) := m.vecRun [] (l.map .insert)

/-- The names of features. -/
def namesOf? (m : FModel) : List Id → Option (List Str)
  | [] => some []
  | i :: is =>
    match m.nameOf i with
    | none => none
    | some n => (namesOf? m is).map (n :: ·)

/-- An element listing options, left out if there are none (FeatureModelWriter.cpp:325-337, 358-370,
    398-411). -/
def optionList (n : Str) (ns : List Str) : List Xml :=
  if ns = [] then [] else [group n (ns.map (leaf c!"options"))]

/-- The targets of the simple implications or exclusions of a feature (FeatureModelWriter.cpp:342-356,
    380-396): both operands are features, the left one has this name.  Constraints of a model are bound;
    the shallow feature of an unbound leaf is not represented. -/
def targets (m : FModel) (n : Str) : List CRoot → Option (List Id)
  | [] => some []
  | r :: rs =>
    match (m.store r.cls)[r.idx]? with
    | none => none
    | some s =>
      match s.tree with
      | .bin _ (.feature _) (.feature _) =>
        match leafName m s 0, s.binds[1]? with
        | some x, some (some j) => if x = n then (targets m n rs).map (j :: ·) else targets m n rs
        | _, _ => none
      | _ => targets m n rs

/-- The exclusions are inserted unless present already (FeatureModelWriter.cpp:390-393). -/
def insertNew (m : FModel) : List Id → List Id → Option (List Id)
  | l, [] => some l
  | l, i :: is =>
    if i ∈ l then insertNew m l is
    else match m.vecStep l (.insert i) with
      | none => none
      | some l => insertNew m l is

/-- The other members of the group of a feature (FeatureModelWriter.cpp:375-379), of whichever kind. -/
def groupSiblings (E : Env) (m : FModel) (i : Id) : Option (List Id) :=
  match m.heap i with
  | none => none
  | some n =>
    match n.parent with
    | none => some []
    | some p =>
      match m.heap p with
      | none => none
      | some pn =>
        if pn.isRel then (m.children E Node.isFeat p).map fun l => E.setOrder (l.filter fun j => j ≠ i)
        else some []

/-- The features written as excluded. -/
def excluded (E : Env) (m : FModel) (i : Id) (f : Feat) : Option (List Id) :=
  match groupSiblings E m i with
  | none => none
  | some sib =>
    match ordered m sib, targets m f.attr.name f.excludes with
    | some l, some ts => insertNew m l ts
    | _, _ => none

/-- The element naming the parent (FeatureModelWriter.cpp:313-319). -/
def parentElem (m : FModel) (i : Id) : Option (List Xml) :=
  match m.parentFeature i with
  | none => none
  | some none => some []
  | some (some p) => (m.nameOf p).map fun n => [leaf c!"parent" n]

/-- The names of the children in order (FeatureModelWriter.cpp:321-323). -/
def childNames (E : Env) (m : FModel) (i : Id) : Option (List Str) :=
  match m.children E Node.isFeat i with
  | none => none
  | some cs =>
    match ordered m cs with
    | none => none
    | some cs => namesOf? m cs

def impliedNames (m : FModel) (f : Feat) : Option (List Str) :=
  match targets m f.attr.name f.implications with
  | none => none
  | some ts =>
    match ordered m ts with
    | none => none
    | some ts => namesOf? m ts

def excludedNames (E : Env) (m : FModel) (i : Id) (f : Feat) : Option (List Str) :=
  match excluded E m i f with
  | none => none
  | some es => namesOf? m es

/-- The text of a value list (FeatureModelWriter.cpp:432-438): all but the last pass through an `int`.
    An empty list is undefined. -/
def valuesText : List Int → Option Str
  | [] => none
  | [v] => some (intText v)
  | v :: vs => (valuesText vs).map fun t => intText (toInt v) ++ ';' :: t

/-- The numeric elements (FeatureModelWriter.cpp:419-444). -/
def numericElem : FKind → Option (List Xml)
  | .numeric (.range lo hi) _ => some [leaf c!"minValue" (intText lo), leaf c!"maxValue" (intText hi)]
  | .numeric (.list vs) _ => (valuesText vs).map fun t => [leaf c!"values" t]
  | _ => some []

/-- `writeSourceRange` (FeatureModelWriter.cpp:462-522); a missing start or end is dereferenced. -/
def writeRange (r : Range) : Option Xml :=
  match r.start, r.stop with
  | some s, some e =>
    some (.node c!"sourceRange"
      [(c!"category", match r.category with | .necessary => c!"necessary" | .inessential => c!"inessential")] []
      [leaf c!"path" (pathText r.path),
       group c!"start" [leaf c!"line" (natText s.line), leaf c!"column" (natText s.column)],
       group c!"end" [leaf c!"line" (natText e.line), leaf c!"column" (natText e.column)]])
  | _, _ => none

def writeRanges : List Range → Option (List Xml)
  | [] => some []
  | r :: rs =>
    match writeRange r with
    | none => none
    | some x => (writeRanges rs).map (x :: ·)

def locationsElem (rs : List Range) : Option (List Xml) :=
  if rs = [] then some [] else (writeRanges rs).map fun xs => [group c!"locations" xs]

/-- `writeFeature` (FeatureModelWriter.cpp:302-460). -/
def writeFeature (E : Env) (m : FModel) (i : Id) : Option Xml :=
  match m.feat? i with
  | none => none
  | some f =>
    match parentElem m i, childNames E m i, impliedNames m f, excludedNames E m i f,
      numericElem f.attr.kind, locationsElem f.attr.locs with
    | some p, some cs, some is, some es, some ns, some ls =>
      some (group c!"configurationOption"
        (leaf c!"name" f.attr.name :: (p ++ optionList c!"children" cs ++ optionList c!"impliedOptions" is ++
          optionList c!"excludedOptions" es ++ [leaf c!"optional" (if f.attr.opt then c!"True" else c!"False")] ++ ns ++ ls)))
    | _, _, _, _, _, _ => none

def writeFeatures (E : Env) (m : FModel) : List Id → Option (List Xml)
  | [] => some []
  | i :: is =>
    match writeFeature E m i with
    | none => none
    | some x => (writeFeatures E m is).map (x :: ·)

/-- `llvm::isa<RootFeature>(F) || llvm::isa<BinaryFeature>(F)`. -/
def isBinary (m : FModel) (i : Id) : Bool :=
  match m.feat? i with
  | some f => decide (f.attr.kind = .root) || decide (f.attr.kind = .binary)
  | none => false

/-- `llvm::isa<NumericFeature>(F)`. -/
def isNumeric (m : FModel) (i : Id) : Bool :=
  match m.feat? i with
  | some f => (match f.attr.kind with | .numeric _ _ => true | _ => false)
  | none => false

/-- Simple implications and exclusions are not written again (FeatureModelWriter.cpp:207-225). -/
def isSimple : Constraint → Bool
  | .bin .implies (.feature _) (.feature _) => true
  | .bin .excludes (.feature _) (.feature _) => true
  | _ => false

/-- A constraint element (FeatureModelWriter.cpp:227-233, 247-253, 267-295). -/
def constraintElem (cl : CClass) (s : Stored) (c : Constraint) : Option Xml :=
  match cl with
  | .mixed =>
    match s.info with
    | none => none
    | some i => some (.node c!"constraint"
        [(c!"req", if i.reqAll then c!"all" else c!"none"), (c!"exprKind", if i.positive then c!"pos" else c!"neg")] c.toStr [])
  | _ => some (leaf c!"constraint" c.toStr)

/-- The constraints of a container that are written.  The text of a constraint reads the features its
    leaves point to. -/
def constraintElems (m : FModel) (cl : CClass) : List Stored → Option (List Xml)
  | [] => some []
  | s :: ss =>
    if cl = .boolean ∧ isSimple s.tree = true then constraintElems m cl ss
    else
      match m.cloneStored s with
      | none => none
      | some c =>
        match constraintElem cl s c with
        | none => none
        | some x => (constraintElems m cl ss).map (x :: ·)

/-- `writeBooleanConstraints` etc. with the test in `writeVm` (FeatureModelWriter.cpp:112-125, 165-300). -/
def constraintGroup (m : FModel) (n : Str) (cl : CClass) : Option (List Xml) :=
  if m.store cl = [] then some []
  else (constraintElems m cl (m.store cl)).map fun xs => [group n xs]

/-- `writeVm` (FeatureModelWriter.cpp:90-129).  Errors of the XML library are not modelled. -/
def write (E : Env) (m : FModel) : Option Xml :=
  match m.iterate E with
  | none => none
  | some is =>
    match writeFeatures E m (is.filter (isBinary m)), writeFeatures E m (is.filter (isNumeric m)),
      constraintGroup m c!"booleanConstraints" .boolean, constraintGroup m c!"nonBooleanConstraints" .nonBoolean,
      constraintGroup m c!"mixedConstraints" .mixed with
    | some bs, some ns, some x, some y, some z =>
      some (.node c!"vm"
        ([(c!"name", m.name), (c!"root", m.path)] ++ (if m.commit = [] then [] else [(c!"commit", m.commit)])) []
        (group c!"binaryOptions" bs :: group c!"numericOptions" ns :: (x ++ y ++ z)))
    | _, _, _, _, _ => none

end Verif.Xml

import Verif.FM.Build
import Verif.Constraint.Parser
/-!
# SXFM parser

Models `FeatureModelSxfmParser` (`/repo/lib/Feature/FeatureModelParser.cpp:449-878`).  The XML library
and the validation against the DTD are not modelled: a document is the name attribute and the child
elements with their text content.  Lengths and indentation levels are unbounded (the code uses
64-bit sizes and checked conversions to `int`).
-/

namespace Verif.Sxfm
open Verif

/-- Outcome of a parsing function: success, `return false`, or a crash (undefined behaviour, a failed
    assertion or an uncaught exception). -/
inductive SOut (α : Type)
  | ok (a : α)
  | fail
  | crash
  deriving DecidableEq, Repr

def SOut.bind {α β : Type} : SOut α → (α → SOut β) → SOut β
  | .ok a, f => f a
  | .fail, _ => .fail
  | .crash, _ => .crash

/-! ## Strings -/

/-- `isspace` in the C locale, also the default character set of `StringRef::trim`. -/
def isSpaceC (c : Char) : Bool :=
  c == ' ' || c == '\t' || c == '\n' || c == Char.ofNat 11 || c == Char.ofNat 12 || c == '\r'

/-- The lines `std::getline` reads one after another. -/
def splitLines : Str → List Str
  | [] => []
  | c :: cs =>
    if c = '\n' then [] :: splitLines cs
    else match splitLines cs with
      | [] => [[c]]
      | l :: ls => (c :: l) :: ls

/-- The test for lines to skip (FeatureModelParser.cpp:575, 765); true for the empty line too. -/
def isBlank (s : Str) : Bool := s.all isSpaceC

/-- `std::string::find` of a string from the front: position of the first occurrence. -/
def findSub (k : Str) : Str → Option Nat
  | [] => if k = [] then some 0 else none
  | c :: cs => if k.isPrefixOf (c :: cs) then some 0 else (findSub k cs).map (· + 1)

/-- `StringRef::count` of a string: occurrences that do not overlap, from the left, and none for the
    empty string (LLVM 15 and later).  `skip` is the number of characters of the last occurrence
    still to be passed. -/
def countFrom (k : Str) : Nat → Str → Nat
  | _, [] => 0
  | skip + 1, _ :: cs => countFrom k skip cs
  | 0, c :: cs => if k.isPrefixOf (c :: cs) then countFrom k (k.length - 1) cs + 1 else countFrom k 0 cs

def countSub (k s : Str) : Nat := if k = [] then 0 else countFrom k 0 s

/-- `trim` (FeatureModelParser.cpp:22). -/
def trimC (s : Str) : Str := ((s.dropWhile isSpaceC).reverse.dropWhile isSpaceC).reverse

/-- The text up to a character, all of it if the character is absent (`substr(0, find(c))`). -/
def upTo (c : Char) (s : Str) : Str := s.takeWhile (· != c)

/-- The text after the first occurrence of a character, empty if the character is absent. -/
def after (c : Char) (s : Str) : Str := (s.dropWhile (· != c)).drop 1

/-! ## Cardinalities -/

/-- `parseCardinality` (FeatureModelParser.cpp:859-878); `llvm::to_integer` into a 32-bit `int`. -/
def parseCardinality (s : Str) : Option Int :=
  if s = c!"*" then some (-1)
  else match getAsInt64 10 s with
    | none => none
    | some v => if -2147483648 ≤ v ∧ v ≤ 2147483647 then some v else none

/-- The two texts that `extractCardinality` reads (lines 828-841), `none` without `[`.  Without a comma
    `CommaPos` is `npos`: the first text is the rest of the line and `Pos + 1` wraps to the start. -/
def cardTexts (s : Str) : Option (Str × Str) :=
  if '[' ∈ s then
    let r := after '[' s
    if ',' ∈ r then some (upTo ',' r, upTo ']' (after ',' r))
    else some (r, upTo ']' s)
  else none

/-- `extractCardinality` (FeatureModelParser.cpp:821-856). -/
def extractCardinality (s : Str) : Option (Int × Int) :=
  match cardTexts s with
  | none => none
  | some (lo, hi) =>
    match parseCardinality lo, parseCardinality hi with
    | some a, some b => if a ≠ 1 ∨ (b ≠ 1 ∧ b ≠ -1) then none else some (a, b)
    | _, _ => none

/-! ## The feature tree -/

/-- The identifiers in parentheses of a line: the matches of the regular expression
    `\([a-zA-Z\d_]*\)` (lines 670-676) without the parentheses.  After a match the code goes on behind
    it; what it skips contains no further opening parenthesis. -/
def idents : Str → List Str
  | [] => []
  | c :: cs =>
    if c = '(' ∧ (cs.dropWhile isIdChar).head? = some ')' then cs.takeWhile isIdChar :: idents cs
    else idents cs

/-- The name after the kind letter (lines 643-668), `s` being the line from `Pos + 1` on. -/
def bracketName (s : Str) : Str :=
  if upTo '[' s = [] then
    if after ' ' s = [] then [] else after ' ' s
  else upTo '[' s

def nameIn (s : Str) : Str :=
  let n := if '[' ∈ upTo ' ' s then bracketName s else upTo ' ' s
  if '(' ∈ n then upTo '(' n else n

/-- What one line says. -/
structure Entry where
  isRoot : Bool := false
  opt : Bool := false
  card : Option RKind := none
  name : Str
  ids : List Str
  deriving DecidableEq, Repr

/-- Group kind of accepted cardinalities (lines 713-718). -/
def groupKind (b : Int) : RKind := if b = -1 then .or else .alternative

/-- The `switch` on the kind letter and the name (lines 605-675); `p` is `Pos - 1`. -/
def readEntry (line : Str) (p : Nat) : SOut Entry :=
  match line[p]? with
  | none => .crash
  | some c =>
    let name := nameIn (line.drop (p + 2))
    if c = 'r' then .ok { isRoot := true, name := name, ids := idents line }
    else if c = 'm' then .ok { name := name, ids := idents line }
    else if c = 'o' then .ok { opt := true, name := name, ids := idents line }
    else if c = 'g' then
      match extractCardinality line with
      | none => .fail
      | some ab => .ok { card := some (groupKind ab.2), name := name, ids := idents line }
    else if c = ' ' then .ok { name := nameIn (line.drop (p + 1)), ids := idents line }
    else .fail

/-- The check on identifiers and names (lines 677-684). -/
def idsOk (e : Entry) : Bool := e.ids.all fun i => decide (i = e.name) || (findSub i e.name).isNone

/-- The variables of `parseFeatureTree` (lines 548-563) with the calls made on the builder.
    `last = none` is `LastIndentationLevel == -1`. -/
structure TreeSt where
  last : Option Nat := none
  rootLevel : Nat := 0
  counter : Nat := 0
  parents : Nat → Option Str := fun _ => none
  groups : List (Nat × Str × RKind) := []
  /-- `IdentifierMap`, later entries first -/
  table : List (Str × Str) := []
  calls : List BCall := []

/-- The name of the feature of a line: the one given or an artificial one (lines 687-691). -/
def entryName (counter : Nat) (e : Entry) : Str :=
  if e.name = [] then c!"group_" ++ natText (counter + 1) else e.name

/-- The calls that end the group of a level, if one is open (lines 714-720). -/
def flushCalls (groups : List (Nat × Str × RKind)) (level : Nat) : List BCall :=
  (groups.filter fun g => g.1 = level).map fun g => .emplaceRelationship g.2.2 g.2.1

/-- One line after its entry is read (lines 677-733). -/
def enter (st : TreeSt) (level : Nat) (e : Entry) : SOut TreeSt :=
  if ¬ idsOk e then .fail
  else
    let name := entryName st.counter e
    let make : BCall := if e.isRoot then .makeRoot name else .makeFeature { name := name, kind := .binary, opt := e.opt }
    let rest := st.groups.filter fun g => ¬ g.1 = level
    let st' : TreeSt :=
      { last := some level
        rootLevel := if st.last.isNone then level else st.rootLevel
        counter := if e.name = [] then st.counter + 1 else st.counter
        parents := fun l => if l = level then some name else st.parents l
        groups := match e.card with
          | none => rest
          | some k => (level, name, k) :: rest
        table := (e.ids.map fun i => (i, e.name)).reverse ++ st.table
        calls := st.calls ++ [make] }
    if st.last.isNone then .ok { st' with calls := st'.calls ++ flushCalls st.groups level }
    else if level = st.rootLevel then .fail
    else
      match level with
      | 0 => .crash
      | l + 1 =>
        match st.parents l with
        | none => .crash
        | some p => .ok { st' with calls := st'.calls ++ .addEdge p name :: flushCalls st.groups level }

/-- The indentation level of a line (lines 586-590). -/
def levelOf (ind line : Str) : Nat := countSub ind (upTo ':' line)

/-- One round of the loop (lines 571-733). -/
def treeLine (ind : Str) (st : TreeSt) (line : Str) : SOut TreeSt :=
  if isBlank line then .ok st
  else if ':' ∉ line then .fail
  else
    let level := levelOf ind line
    if st.last.any (fun l => l + 1 < level) then .fail
    else (readEntry line (level * ind.length + 1)).bind (enter st level)

def treeLines (ind : Str) : TreeSt → List Str → SOut TreeSt
  | st, [] => .ok st
  | st, l :: ls => (treeLine ind st l).bind fun st => treeLines ind st ls

/-- `parseFeatureTree` (FeatureModelParser.cpp:542-744) on the text of the element; `order` is the
    iteration order of the hash table of the groups that are still open.  Returns the calls on the
    builder and the identifier table. -/
def parseTree (order : List (Nat × Str × RKind) → List (Nat × Str × RKind)) (ind : Str)
    (table : List (Str × Str)) (text : Str) : SOut (List BCall × List (Str × Str)) :=
  (treeLines ind { table := table } (splitLines text)).bind fun st =>
    .ok (st.calls ++ (order st.groups).map fun g => .emplaceRelationship g.2.2 g.2.1, st.table)

/-! ## Constraints -/

/-- The replacement loop (lines 790-794, 803-808): `none` when more than `fuel` replacements are made. -/
def replaceAll (k v : Str) : Nat → Str → Option Str
  | fuel, s =>
    match findSub k s with
    | none => some s
    | some i =>
      match fuel with
      | 0 => none
      | fuel + 1 => replaceAll k v fuel (s.take i ++ v ++ s.drop (i + k.length))

/-- The name an identifier stands for. -/
def nameFor (table : List (Str × Str)) (k : Str) : Str := (table.lookup k).getD []

/-- Insertion into a list sorted by `std::greater`. -/
def insertDesc (k : Str) : List Str → List Str
  | [] => [k]
  | x :: xs => if k = x then x :: xs else if strLt x k then k :: x :: xs else x :: insertDesc k xs

/-- `Keys` (lines 757-761): the identifiers in descending order. -/
def keys (table : List (Str × Str)) : List Str := (table.map Prod.fst).foldr insertDesc []

/-- Replacement of the identifiers (lines 782-795). -/
def renameKeys (table : List (Str × Str)) (fuel : Nat) : List Str → Str → Option Str
  | [], s => some s
  | k :: ks, s =>
    if nameFor table k = k then renameKeys table fuel ks s
    else (replaceAll k (nameFor table k) fuel s).bind (renameKeys table fuel ks)

/-- Replacement of the connectives (lines 798-809); the two are kept in a hash table. -/
def connectives (orFirst : Bool) (fuel : Nat) (s : Str) : Option Str :=
  if orFirst then (replaceAll c!" or " c!" | " fuel s).bind (replaceAll c!" and " c!" & " fuel)
  else (replaceAll c!" and " c!" & " fuel s).bind (replaceAll c!" or " c!" | " fuel)

/-- One round of the loop of `parseConstraints` (lines 763-816): the calls it adds; `none` when a
    replacement loop makes more than `fuel` rounds. -/
def constraintLine (sci : Str → Option Str) (orFirst : Bool) (fuel : Nat) (table : List (Str × Str)) (line : Str) :
    Option (SOut (List BCall)) :=
  if isBlank line then some (.ok [])
  else if ':' ∉ line then some .fail
  else
    ((renameKeys table fuel (keys table) (trimC (after ':' line))).bind (connectives orFirst fuel)).map fun s =>
      match parseText sci s with
      | .ok c => .ok [.addConstraint .boolean c]
      | .null => .ok []
      | .ub => .crash
      | .diverges => .crash

/-- `parseConstraints` (FeatureModelParser.cpp:746-819). -/
def constraintLines (sci : Str → Option Str) (orFirst : Bool) (fuel : Nat) (table : List (Str × Str)) :
    List Str → Option (SOut (List BCall))
  | [] => some (.ok [])
  | l :: ls =>
    match constraintLine sci orFirst fuel table l with
    | none => none
    | some (.ok cs) => (constraintLines sci orFirst fuel table ls).map fun r => r.bind fun cs' => .ok (cs ++ cs')
    | some .fail => some .fail
    | some .crash => some .crash

/-! ## Documents -/

/-- A child element of the document. -/
inductive Elem
  | tree (indentation : Option Str) (text : Str)
  | constraints (text : Str)
  | other
  deriving DecidableEq, Repr

structure Doc where
  name : Option Str
  elems : List Elem
  deriving DecidableEq, Repr

/-- The parser object: `Indentation`, `IdentifierMap` and the calls made on `FMB`. -/
structure PState where
  ind : Str := c!"\t"
  table : List (Str × Str) := []
  calls : List BCall := []

/-- Everything outside the parser that the result may depend on. -/
structure SEnv where
  sci : Str → Option Str
  orFirst : Bool
  order : List (Nat × Str × RKind) → List (Nat × Str × RKind)
  order_perm : ∀ l, (order l).Perm l

/-- One child element (lines 514-537). -/
def parseElem (E : SEnv) (fuel : Nat) (st : PState) : Elem → Option (SOut PState)
  | .other => some (.ok st)
  | .tree i text =>
    let ind := i.getD st.ind
    some ((parseTree E.order ind st.table text).bind fun r => .ok { ind := ind, table := r.2, calls := st.calls ++ r.1 })
  | .constraints text =>
    (constraintLines E.sci E.orFirst fuel st.table (splitLines text)).map fun r =>
      r.bind fun cs => .ok { st with calls := st.calls ++ cs }

def parseElems (E : SEnv) (fuel : Nat) : PState → List Elem → Option (SOut PState)
  | st, [] => some (.ok st)
  | st, e :: es =>
    match parseElem E fuel st e with
    | none => none
    | some (.ok st) => parseElems E fuel st es
    | some .fail => some .fail
    | some .crash => some .crash

/-- `parseVm` (FeatureModelParser.cpp:504-540) on a validated document: the calls on the builder.  A
    missing name attribute constructs a `std::string` from a null pointer. -/
def parseDoc (E : SEnv) (fuel : Nat) (d : Doc) : Option (SOut (List BCall)) :=
  match d.name with
  | none => some .crash
  | some n => (parseElems E fuel { calls := [.setVmName n] } d.elems).map fun r => r.bind fun st => .ok st.calls

/-- Result of `FeatureModelSxfmParser::buildFeatureModel` (lines 453-459) on a validated document. -/
inductive SRes
  | crash
  | null
  | built (m : FModel)

/-- The builder's result as a result of the parser. -/
def ofBuild : BuildRes → SRes
  | .ub => .crash
  | .null => .null
  | .built m => .built m

def load (E : SEnv) (F : Env) (world : FModel) (fuel : Nat) (d : Doc) : Option SRes :=
  (parseDoc E fuel d).map fun r =>
    match r with
    | .crash => .crash
    | .fail => .null
    | .ok calls => ofBuild (world.build F (builderOf calls))

end Verif.Sxfm

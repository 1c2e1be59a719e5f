import Verif.Xml.Model
/-!
# Calls of the writer to the XML library

`Xml/Model` takes the writer to be a function from models to trees.  Here the writer
(/repo/lib/Feature/FeatureModelWriter.cpp) is a program that calls the text writer of libxml2 and looks
at the code every call returns.  What the library returns is arbitrary: any call may fail, depending on
all calls made so far.

Simplified: the features of a model are collected before they are written (nothing changes them in
between); texts handed over as `char *` are taken to contain no NUL character.
-/

namespace Verif.Xml
open Verif

/-- The functions of libxml2 the writer calls. -/
inductive XCall
  /-- `xmlTextWriterSetIndent` -/
  | indent
  /-- `xmlTextWriterSetIndentString` -/
  | indentText (s : Str)
  /-- `xmlTextWriterStartDocument` -/
  | startDocument (version encoding : Str)
  /-- `xmlTextWriterWriteDTD` -/
  | dtd (name system : Str)
  /-- `xmlTextWriterStartElement` -/
  | start (name : Str)
  /-- `xmlTextWriterWriteAttribute` -/
  | attribute (name value : Str)
  /-- `xmlTextWriterWriteElement` -/
  | element (name text : Str)
  /-- `xmlTextWriterWriteString` -/
  | string (text : Str)
  /-- `xmlTextWriterEndElement` -/
  | stop
  /-- `xmlTextWriterEndDocument` -/
  | endDocument
  deriving DecidableEq

/-- The library: the code returned by the last of the calls made so far. -/
abbrev Lib := List XCall → Int

/-- The calls made so far and the variable `RC`. -/
structure WState where
  calls : List XCall
  rc : Int

/-- What a part of the writer comes to. -/
inductive WRes
  | done (s : WState)
  | ub

/-- A part of the writer. -/
abbrev W := Lib → WState → WRes

namespace W

/-- `RC = f(…);` for a function of the library. -/
def call (c : XCall) : W := fun L s => .done ⟨s.calls ++ [c], L (s.calls ++ [c])⟩

/-- Two parts with `CHECK_RC` between them (FeatureModelWriter.cpp:11-14). -/
def seq (a b : W) : W := fun L s =>
  match a L s with
  | .ub => .ub
  | .done s' => if s'.rc < 0 then .done s' else b L s'

@[inherit_doc] scoped infixr:60 " ;; " => seq

/-- Nothing; `RC` keeps its value. -/
def skip : W := fun _ s => .done s

/-- Something read that may not be there. -/
def need {α} (o : Option α) (k : α → W) : W :=
  match o with
  | none => fun _ _ => .ub
  | some a => k a

/-- A loop with `CHECK_RC` at the end of its body. -/
def each {α} (k : α → W) : List α → W
  | [] => skip
  | a :: as => k a ;; each k as

end W

open W

/-- The loops over options (FeatureModelWriter.cpp:329-336, 362-369, 402-409). -/
def optionsW (n : Str) (m : FModel) (is : List Id) : W :=
  if is = [] then skip
  else
    call (.start n) ;;
    each (fun i => need (m.nameOf i) fun x => call (.element c!"options" x)) is ;;
    call .stop

/-- The element naming the parent (FeatureModelWriter.cpp:313-319). -/
def parentW (m : FModel) (i : Id) : W :=
  need (m.parentFeature i) fun p =>
    match p with
    | none => skip
    | some p => need (m.nameOf p) fun n => call (.element c!"parent" n)

/-- The children (FeatureModelWriter.cpp:321-337). -/
def childrenW (E : Env) (m : FModel) (i : Id) : W :=
  need (m.children E Node.isFeat i) fun cs => need (ordered m cs) fun cs => optionsW c!"children" m cs

/-- The implications (FeatureModelWriter.cpp:339-370). -/
def impliedW (m : FModel) (f : Feat) : W :=
  need (targets m f.attr.name f.implications) fun ts => need (ordered m ts) fun ts => optionsW c!"impliedOptions" m ts

/-- The exclusions (FeatureModelWriter.cpp:372-411). -/
def excludedW (E : Env) (m : FModel) (i : Id) (f : Feat) : W :=
  need (excluded E m i f) fun es => optionsW c!"excludedOptions" m es

/-- The numeric elements (FeatureModelWriter.cpp:419-444). -/
def numericW : FKind → W
  | .numeric (.range lo hi) _ =>
    call (.element c!"minValue" (intText lo)) ;; call (.element c!"maxValue" (intText hi))
  | .numeric (.list vs) _ => need (valuesText vs) fun t => call (.element c!"values" t)
  | _ => skip

/-- `writeSourceRange` (FeatureModelWriter.cpp:462-522). -/
def rangeW (r : Range) : W :=
  call (.start c!"sourceRange") ;;
  (match r.category with
    | .necessary => call (.attribute c!"category" c!"necessary")
    | .inessential => call (.attribute c!"category" c!"inessential")) ;;
  call (.element c!"path" (pathText r.path)) ;;
  call (.start c!"start") ;;
  need r.start fun s =>
  call (.element c!"line" (natText s.line)) ;;
  call (.element c!"column" (natText s.column)) ;;
  call .stop ;;
  call (.start c!"end") ;;
  need r.stop fun e =>
  call (.element c!"line" (natText e.line)) ;;
  call (.element c!"column" (natText e.column)) ;;
  call .stop ;;
  call .stop

/-- The locations (FeatureModelWriter.cpp:446-456). -/
def locationsW (rs : List Range) : W :=
  if rs = [] then skip
  else call (.start c!"locations") ;; each rangeW rs ;; call .stop

/-- `writeFeature` (FeatureModelWriter.cpp:302-460). -/
def featureW (E : Env) (m : FModel) (i : Id) : W :=
  call (.start c!"configurationOption") ;;
  need (m.feat? i) fun f =>
  call (.element c!"name" f.attr.name) ;;
  parentW m i ;;
  childrenW E m i ;;
  impliedW m f ;;
  excludedW E m i f ;;
  call (.element c!"optional" (if f.attr.opt then c!"True" else c!"False")) ;;
  numericW f.attr.kind ;;
  locationsW f.attr.locs ;;
  call .stop

/-- `writeBinaryFeatures` and `writeNumericFeatures` (FeatureModelWriter.cpp:131-162). -/
def featuresW (E : Env) (m : FModel) (n : Str) (which : Id → Bool) : W :=
  call (.start n) ;;
  (need (m.iterate E) fun is => each (featureW E m) (is.filter which)) ;;
  call .stop

/-- A constraint (FeatureModelWriter.cpp:227-233, 247-253, 267-295). -/
def constraintW (m : FModel) (cl : CClass) (s : Stored) : W :=
  if cl = .boolean ∧ isSimple s.tree = true then skip
  else
    call (.start c!"constraint") ;;
    (if cl = .mixed then
      need s.info fun i =>
        call (.attribute c!"req" (if i.reqAll then c!"all" else c!"none")) ;;
        call (.attribute c!"exprKind" (if i.positive then c!"pos" else c!"neg"))
     else skip) ;;
    need (m.cloneStored s) fun c =>
    call (.string c.toStr) ;;
    call .stop

/-- `writeBooleanConstraints`, `writeNonBooleanConstraints` and `writeMixedConstraints` with the test in
    `writeVm` (FeatureModelWriter.cpp:112-125, 165-300).  The set of alternative groups is always empty
    (173-187), so the loop over it is left out. -/
def constraintsW (m : FModel) (n : Str) (cl : CClass) : W :=
  if m.store cl = [] then skip
  else call (.start n) ;; each (constraintW m cl) (m.store cl) ;; call .stop

/-- `writeVm` (FeatureModelWriter.cpp:90-129). -/
def vmW (E : Env) (m : FModel) : W :=
  call (.start c!"vm") ;;
  call (.attribute c!"name" m.name) ;;
  call (.attribute c!"root" m.path) ;;
  (if m.commit = [] then skip else call (.attribute c!"commit" m.commit)) ;;
  featuresW E m c!"binaryOptions" (isBinary m) ;;
  featuresW E m c!"numericOptions" (isNumeric m) ;;
  constraintsW m c!"booleanConstraints" .boolean ;;
  constraintsW m c!"nonBooleanConstraints" .nonBoolean ;;
  constraintsW m c!"mixedConstraints" .mixed ;;
  call .endDocument

/-- `writeFeatureModel(xmlTextWriterPtr)` (FeatureModelWriter.cpp:72-88). -/
def modelW (E : Env) (m : FModel) : W :=
  call .indent ;;
  call (.indentText c!"  ") ;;
  call (.startDocument c!"1.0" c!"UTF-8") ;;
  call (.dtd c!"vm" c!"vm.dtd") ;;
  vmW E m

/-- The writer on a library that has been called by nobody yet. -/
def runW (w : W) (L : Lib) : WRes := w L ⟨[], 0⟩

/-- `writeFeatureModel(std::string Path)` (FeatureModelWriter.cpp:25-35): the calls made and the number
    returned; `opened` tells whether `xmlNewTextWriterFilename` could open the file.  `return false` is the
    number zero.  `none` is undefined behaviour. -/
def writeToFile (E : Env) (m : FModel) (opened : Bool) (L : Lib) : Option (List XCall × Int) :=
  if opened = true then
    match runW (modelW E m) L with
    | .done s => some (s.calls, s.rc)
    | .ub => none
  else some ([], 0)

/-- `writeFeatureModel()` (FeatureModelWriter.cpp:37-70): `created` tells whether `xmlNewTextWriterDoc`
    gave a writer, `dump` is what `xmlDocDumpMemoryEnc` produces for the calls made (nothing if it fails,
    which leaves a null pointer and the length zero).  The outer option is undefined behaviour. -/
def writeToText (E : Env) (m : FModel) (created : Bool) (L : Lib) (dump : List XCall → Option Str) :
    Option (Option Str) :=
  if created = true then
    match runW (modelW E m) L with
    | .done s => if s.rc < 0 then some none else some (some ((dump s.calls).getD []))
    | .ub => none
  else some none

/-- `get_feature_model_as_string` (pybind_FeatureModelXmlWriter.cpp:16-20). -/
def pyText (E : Env) (m : FModel) (created : Bool) (L : Lib) (dump : List XCall → Option Str) : Option Str :=
  (writeToText E m created L dump).map (·.getD [])

/-- `write_feature_model_to_file` (pybind_FeatureModelXmlWriter.cpp:21-26). -/
def pyFile (E : Env) (m : FModel) (opened : Bool) (L : Lib) : Option Int :=
  (writeToFile E m opened L).map (·.2)

end Verif.Xml

/-! ## Specification -/

namespace Verif.Spec
open Verif Verif.Xml

/-- An element that is being written. -/
structure Open where
  name : Str
  attrs : List (Str × Str)
  text : Str
  kids : List Xml

/-- What the text writer has been told: the elements not ended yet, innermost first, and the document
    element once it is complete. -/
structure Pending where
  open_ : List Open
  doc : Option Xml

/-- A finished element goes into the element around it.  Elements stand in elements without text. -/
def Pending.put (x : Xml) : Pending → Option Pending
  | ⟨[], none⟩ => some ⟨[], some x⟩
  | ⟨o :: os, d⟩ => if o.text = [] then some ⟨{ o with kids := o.kids ++ [x] } :: os, d⟩ else none
  | _ => none

/-- The innermost element ends. -/
def Pending.close : Pending → Option Pending
  | ⟨o :: os, d⟩ => Pending.put (.node o.name o.attrs o.text o.kids) ⟨os, d⟩
  | _ => none

/-- All elements end. -/
def Pending.closeAll : Nat → Pending → Option Pending
  | 0, w => some w
  | n + 1, w => w.close.bind (closeAll n)

/-- What a call adds; nothing if no well-formed document would come of it. -/
def Pending.step (w : Pending) : XCall → Option Pending
  | .indent | .indentText _ | .startDocument _ _ | .dtd _ _ => if w.open_ = [] ∧ w.doc.isNone then some w else none
  | .start n => if w.doc.isNone then some { w with open_ := ⟨n, [], [], []⟩ :: w.open_ } else none
  | .attribute n v =>
    match w.open_ with
    | o :: os =>
      if o.text = [] ∧ o.kids.isEmpty ∧ n ∉ o.attrs.map (·.1) then
        some { w with open_ := { o with attrs := o.attrs ++ [(n, v)] } :: os }
      else none
    | [] => none
  | .element n t => w.put (.node n [] t [])
  | .string t =>
    match w.open_ with
    | o :: os => if o.kids.isEmpty then some { w with open_ := { o with text := o.text ++ t } :: os } else none
    | [] => none
  | .stop => w.close
  | .endDocument => w.closeAll w.open_.length

/-- What a list of calls adds. -/
def Pending.steps : Pending → List XCall → Option Pending
  | w, [] => some w
  | w, c :: cs => (w.step c).bind (·.steps cs)

/-- A list of calls writes a document. -/
def Document (cs : List XCall) (x : Xml) : Prop := Pending.steps ⟨[], none⟩ cs = some ⟨[], some x⟩

/-- Some call of a list fails. -/
def Fails (L : Lib) (cs : List XCall) : Prop := ∃ k, k < cs.length ∧ L (cs.take (k + 1)) < 0

/-- The `k`-th call is the first to fail. -/
def FailsAt (L : Lib) (cs : List XCall) (k : Nat) : Prop :=
  k < cs.length ∧ L (cs.take (k + 1)) < 0 ∧ ∀ j, j < k → ¬ L (cs.take (j + 1)) < 0

end Verif.Spec

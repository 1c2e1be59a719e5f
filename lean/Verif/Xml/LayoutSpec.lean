import Verif.Xml.Doc
import Verif.Xml.Dtd
/-!
# Documents that differ in layout only

Independent of the parser: when two documents are to be read alike.  Blanks may stand around a text
and between elements, an element of an option without visible text may be missing, and so may
elements that are declared but have no meaning.  Numbers may be spelled in different ways, numbers in a
list separated by different texts, and all texts of `optional` but `True` mean the same.  In a constraint
blanks may also stand next to operators that are signs, to parentheses and to other blanks.
-/

namespace Verif.Spec
open Verif Verif.Xml

/-- The texts differ in blanks at the ends only. -/
inductive Padded : Str → Str → Prop
  | mk {a b a' b' u : Str} : blank a → blank b → blank a' → blank b' → Padded (a ++ u ++ b) (a' ++ u ++ b')

/-- The texts differ in blanks at the beginning only. -/
inductive PaddedLeft : Str → Str → Prop
  | mk {a a' u : Str} : blank a → blank a' → PaddedLeft (a ++ u) (a' ++ u)

/-- There is something to read. -/
def Visible (s : Str) : Prop := ∃ c ∈ s, ¬ (c = ' ' ∨ c = '\t' ∨ c = '\n' ∨ c = '\r')

def Digits (ds : Str) : Prop := ds ≠ [] ∧ ∀ c ∈ ds, isDigit c = true

/-- The text does not go on with a digit. -/
def NoDigitNext (r : Str) : Prop := ∀ c, r.head? = some c → isDigit c = false

/-- An optional sign, digits, and then no digit; this is the number they stand for. -/
inductive LineText : Str → Int → Prop where
  | plain {ds r : Str} : ds ≠ [] → (∀ c ∈ ds, isDigit c = true) → (∀ c, r.head? = some c → isDigit c = false) →
      LineText (ds ++ r) (decValue ds)
  | plus {ds r : Str} : ds ≠ [] → (∀ c ∈ ds, isDigit c = true) → (∀ c, r.head? = some c → isDigit c = false) →
      LineText ('+' :: (ds ++ r)) (decValue ds)
  | minus {ds r : Str} : ds ≠ [] → (∀ c ∈ ds, isDigit c = true) → (∀ c, r.head? = some c → isDigit c = false) →
      LineText ('-' :: (ds ++ r)) (-(decValue ds : Int))

/-- Digits, perhaps behind a minus sign. -/
inductive Numeral : Str → Int → Prop
  | plain {ds} : Digits ds → Numeral ds (decValue ds)
  | minus {ds} : Digits ds → Numeral ('-' :: ds) (-(decValue ds : Int))

/-- The numbers in a text, with anything between them that is no digit. -/
inductive Numbers : Str → List Int → Prop
  | nil {s} : (∀ c ∈ s, isDigit c = false) → Numbers s []
  | plain {sep ds r vs} : (∀ c ∈ sep, isDigit c = false) → sep.getLast? ≠ some '-' → Digits ds → NoDigitNext r → Numbers r vs →
      Numbers (sep ++ (ds ++ r)) (decValue ds :: vs)
  | minus {sep ds r vs} : (∀ c ∈ sep, isDigit c = false) → Digits ds → NoDigitNext r → Numbers r vs →
      Numbers (sep ++ '-' :: (ds ++ r)) (-(decValue ds : Int) :: vs)

/-- The text says something else than `True`. -/
inductive SaysFalse : Str → Prop
  | mk {a u b} : blank a → blank b → Solid u → u ≠ c!"True" → SaysFalse (a ++ u ++ b)

/-- Texts that say the same although they differ in more than blanks. -/
inductive SameValue : Str → Str → Str → Prop
  | position {n a b s t v} : n = c!"line" ∨ n = c!"column" → blank a → blank b → LineText s v → LineText t v →
      -2147483648 ≤ v ∧ v ≤ 2147483647 → SameValue n (a ++ s) (b ++ t)
  | bound {n a b a' b' s t v} : n = c!"minValue" ∨ n = c!"maxValue" → blank a → blank b → blank a' → blank b' →
      Numeral s v → Numeral t v → SameValue n (a ++ s ++ b) (a' ++ t ++ b')
  | values {s t vs} : vs ≠ [] → Numbers s vs → Numbers t vs → SameValue c!"values" s t
  | optional {s t} : SaysFalse s → SaysFalse t → SameValue c!"optional" s t

/-- When the texts of two elements are to be read alike; `p` is the name of the element around them, `n`
    that of the elements. -/
def SameText (p n s t : Str) : Prop :=
  if p = c!"children" then s = t
  else if n = c!"outputString" then PaddedLeft s t
  else Padded s t ∨ SameValue n s t

/-- The elements that have other elements in them, below an option. -/
def compound : List Str :=
  [c!"children", c!"impliedOptions", c!"excludedOptions", c!"locations", c!"sourceRange", c!"revisionRange", c!"start", c!"end"]

mutual
/-- Elements that differ in blanks only; `p` is the name of the element around them. -/
inductive SameElem : Str → Xml → Xml → Prop
  | text {p n as s t} : SameText p n s t → SameElem p (.node n as s []) (.node n as t [])
  | elements {p n as s t ks ks'} : n ∈ compound → blank s → blank t → SameElems n ks ks' →
      SameElem p (.node n as s ks) (.node n as t ks')
inductive SameElems : Str → List Xml → List Xml → Prop
  | nil {p} : SameElems p [] []
  | cons {p k k' ks ks'} : SameElem p k k' → SameElems p ks ks' → SameElems p (k :: ks) (k' :: ks')
end

/-- Elements of an option that have no meaning: declared but not supported, or without visible text. -/
def Meaningless (x : Xml) : Prop :=
  x.name ∈ [c!"prefix", c!"preFix", c!"postfix", c!"postFix", c!"defaultValue"] ∨ ¬ Visible x.content

/-- The elements of two options. -/
inductive SameParts : List Xml → List Xml → Prop
  | nil : SameParts [] []
  | cons {k k' ks ks'} : SameElem c!"configurationOption" k k' → SameParts ks ks' → SameParts (k :: ks) (k' :: ks')
  | left {k ks ks'} : Meaningless k → SameParts ks ks' → SameParts (k :: ks) ks'
  | right {k ks ks'} : Meaningless k → SameParts ks ks' → SameParts ks (k :: ks')

/-- Blanks next to these say nothing in a constraint. -/
def separators : List Char := [' ', '\t', '\r', '\n', '(', ')', '~', '*', '&', '|']

/-- Constraints that differ in blanks only. -/
inductive SameSpacing : Str → Str → Prop
  | refl {s} : SameSpacing s s
  | symm {s t} : SameSpacing s t → SameSpacing t s
  | trans {s t u} : SameSpacing s t → SameSpacing t u → SameSpacing s u
  | ends {a u b} : blank a → blank b → u ≠ [] → SameSpacing (a ++ u ++ b) u
  | after {s c w t} : c ∈ separators → blank w → SameSpacing (s ++ [c] ++ w ++ t) (s ++ [c] ++ t)
  | before {s w c t} : c ∈ separators → blank w → SameSpacing (s ++ w ++ c :: t) (s ++ c :: t)

/-- Options, or constraints with their attributes. -/
inductive SameEntry : Xml → Xml → Prop
  | option {as as' s s' ks ks'} : SameParts ks ks' →
      SameEntry (.node c!"configurationOption" as s ks) (.node c!"configurationOption" as' s' ks')
  | constraint {as s t} : SameSpacing s t → SameEntry (.node c!"constraint" as s []) (.node c!"constraint" as t [])

inductive SameEntries : List Xml → List Xml → Prop
  | nil : SameEntries [] []
  | cons {k k' ks ks'} : SameEntry k k' → SameEntries ks ks' → SameEntries (k :: ks) (k' :: ks')

inductive SameSections : List Xml → List Xml → Prop
  | nil : SameSections [] []
  | cons {n as as' s s' ks ks' hs hs'} : SameEntries ks ks' → SameSections hs hs' →
      SameSections (.node n as s ks :: hs) (.node n as' s' ks' :: hs')

/-- The attribute is given in both or in neither, up to blanks at its ends. -/
def SameAtt (a : Str) (as as' : List (Str × Str)) : Prop :=
  (as.lookup a = none ∧ as'.lookup a = none) ∨
    ∃ s t, as.lookup a = some s ∧ as'.lookup a = some t ∧ Padded s t

/-- Documents that differ in layout only. -/
structure SameDoc (x y : Xml) : Prop where
  name : SameAtt c!"name" x.attrs y.attrs
  root : SameAtt c!"root" x.attrs y.attrs
  commit : SameAtt c!"commit" x.attrs y.attrs
  sections : SameSections x.kids y.kids

/-- The document in some layout: as `Doc.toXml` has it, or one that differs from it in layout only. -/
def LaidOut (x : Doc) (y : Xml) : Prop := y = x.toXml ∨ SameDoc x.toXml y

end Verif.Spec

import Verif.Base.Str
/-!
# Source locations and ranges

Models `FeatureSourceRange` and its nested classes
(`/repo/include/vara/Feature/FeatureSourceRange.h`) and the narrowing conversion of
`/repo/include/vara/Utils/VariantUtil.h`.
-/

namespace Verif

/-- `FeatureSourceLocation` (FeatureSourceRange.h:52-91). -/
structure Loc where
  line : Nat
  column : Nat
  deriving DecidableEq, Repr

/-- `operator==` (FeatureSourceRange.h:73-76). -/
def Loc.eq (a b : Loc) : Bool := a.line == b.line && a.column == b.column

/-- `operator<` (FeatureSourceRange.h:78-82). -/
def Loc.lt (a b : Loc) : Bool :=
  decide (a.line < b.line) || (a.line == b.line && decide (a.column < b.column))

/-- `operator>` (FeatureSourceRange.h:84-86). -/
def Loc.gt (a b : Loc) : Bool := b.lt a

/-- `StringRef::rsplit("::")` when the separator occurs: the text before and after its last
    occurrence. -/
def rsplitSep : Str → Option (Str × Str)
  | [] => none
  | c :: cs =>
    match rsplitSep cs with
    | some (p, m) => some (c :: p, m)
    | none =>
      match c, cs with
      | ':', ':' :: r => some ([], r)
      | _, _ => none

/-- `S.find("::")` with the two slices around it: the text before and after the first
    occurrence. -/
def splitSep : Str → Option (Str × Str)
  | ':' :: ':' :: r => some ([], r)
  | [] => none
  | c :: cs => (splitSep cs).map fun p => (c :: p.1, p.2)

/-- `StringRef::split(A, "::")` (unlimited, keeping empty parts); `fuel` bounds the rounds, the
    length of the text is enough. -/
def splitAll : Nat → Str → List Str
  | 0, s => [s]
  | fuel + 1, s =>
    match splitSep s with
    | none => [s]
    | some (a, r) => a :: splitAll fuel r

/-- `FeatureMemberOffset` (FeatureSourceRange.h:93-171). -/
structure MemberOffset where
  cls : List Str
  member : Str
  deriving DecidableEq, Repr

/-- `splitClass` (FeatureSourceRange.h:159-167). -/
def splitClass (s : Str) : List Str := if s = [] then [] else splitAll s.length s

/-- `createFeatureMemberOffset` with `splitMemberOffset` (FeatureSourceRange.h:95-103, 149-157);
    `rsplit` gives an empty second part when the separator does not occur. -/
def createMemberOffset (s : Str) : Option MemberOffset :=
  match rsplitSep s with
  | none => none
  | some (c, m) => if m = [] then none else some ⟨splitClass c, m⟩

/-- `isMemberOffsetFormat` (FeatureSourceRange.h:105-108). -/
def isMemberOffsetFormat (s : Str) : Bool :=
  match rsplitSep s with
  | none => false
  | some (_, m) => decide (m ≠ [])

/-- The text of `className()` (FeatureSourceRange.h:116-124). -/
def MemberOffset.className (m : MemberOffset) : Str :=
  match m.cls with
  | [] => []
  | c :: cs => cs.foldl (fun acc x => acc ++ c!"::" ++ x) c

/-- `className(Nested)` (FeatureSourceRange.h:112-115): `none` = failed assertion. -/
def MemberOffset.nested (m : MemberOffset) (n : Nat) : Option Str :=
  if n < m.cls.length then m.cls[m.cls.length - n - 1]? else none

/-- `toString` (FeatureSourceRange.h:132-134). -/
def MemberOffset.toString (m : MemberOffset) : Str := m.className ++ c!"::" ++ m.member

/-- `operator==` (FeatureSourceRange.h:136-138). -/
def MemberOffset.eq (a b : MemberOffset) : Bool := decide (a.member = b.member) && decide (a.cls = b.cls)

/-- `Category` (FeatureSourceRange.h:28). -/
inductive Category
  | necessary | inessential
  deriving DecidableEq, Repr

/-- `FeatureRevisionRange` (FeatureSourceRange.h:30-50). -/
structure RevRange where
  introduced : Str
  removed : Option Str
  deriving DecidableEq, Repr

/-- `FeatureSourceRange` (FeatureSourceRange.h:257-262).  A path is its list of elements, which is
    what `std::filesystem::path` compares. -/
structure Range where
  path : List Str
  start : Option Loc
  stop : Option Loc
  category : Category
  member : Option MemberOffset
  revision : Option RevRange
  deriving DecidableEq, Repr

/-- `std::optional`'s `operator==`. -/
def optEq {α} (eq : α → α → Bool) : Option α → Option α → Bool
  | none, none => true
  | some a, some b => eq a b
  | _, _ => false

/-- `operator==` (FeatureSourceRange.h:246-250). -/
def Range.eq (a b : Range) : Bool :=
  decide (a.category = b.category) && decide (a.path = b.path) && optEq Loc.eq a.start b.start &&
    optEq Loc.eq a.stop b.stop && optEq MemberOffset.eq a.member b.member

/-- `checkedNarrowingSignConversion(Val)` (VariantUtil.h:22-29), called with a 64-bit value: the
    parameter is a 32-bit `unsigned`, so the argument is reduced modulo 2^32 first.
    `none` = failed assertion. -/
def narrow (asserts : Bool) (v : Nat) : Option Int :=
  let w := v % 4294967296
  if asserts && decide (w > 2147483647) then none
  else if w > 2147483647 then some 2147483647
  else some w

end Verif

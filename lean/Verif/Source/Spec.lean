import Verif.Source.Model
/-! # Specification: `::`-separated names -/

namespace Verif.Spec

/-- The text contains the separator `::`. -/
def HasSep (s : Str) : Prop := ∃ p q, s = p ++ c!"::" ++ q

/-- Joining components with `::`. -/
def joinSep : List Str → Str
  | [] => []
  | [c] => c
  | c :: cs => c ++ c!"::" ++ joinSep cs

/-- `m` is what follows the last separator of `s`, `p` what precedes it: the separator does not
    occur again one character or more to the right. -/
def LastSep (s p m : Str) : Prop := s = p ++ c!"::" ++ m ∧ ¬ HasSep (':' :: m)

/-- `cs` are the components of `s`, cut at the leftmost separators: no separator begins inside a
    component. -/
inductive Components : Str → List Str → Prop
  | last {s} : ¬ HasSep s → Components s [s]
  | cons {a s cs} : ¬ HasSep (a ++ [':']) → Components s cs → Components (a ++ c!"::" ++ s) (a :: cs)

end Verif.Spec

import Verif.FM.Children
/-!
# Iteration, comparison and ordered vectors of features

Models `DFSIterator` (/repo/include/vara/Feature/FeatureModel.h:73-166), `Feature::operator<`
(/repo/lib/Feature/Feature.cpp:48-81) and `OrderedFeatureVector`
(/repo/include/vara/Feature/OrderedFeatureVector.h, /repo/lib/Feature/OrderedFeatureVector.cpp).
-/

namespace Verif

/-- `Range.insert(std::upper_bound(Range.begin(), Range.end(), X, Lt), X)`.  The standard demands
    that the elements not below `X` come after all others; otherwise the result is undefined. -/
def upperInsert {α} (lt : α → α → Bool) (x : α) (l : List α) : Option (List α) :=
  if (l.dropWhile (fun e => !lt x e)).all (fun e => lt x e) then
    some (l.takeWhile (fun e => !lt x e) ++ x :: l.dropWhile (fun e => !lt x e))
  else none

namespace FModel

/-- `F->getName().lower()`. -/
def low (m : FModel) (i : Id) : Str := lower ((m.nameOf i).getD [])

/-! ## The iterator -/

/-- The members of a `DFSIterator` (FeatureModel.h:156-158), the top of the stack first. -/
structure DFS where
  frontier : List Id
  visited : List Id

/-- The constructor (FeatureModel.h:86-90). -/
def DFS.mk' : Option Id → DFS
  | some f => ⟨[f], []⟩
  | none => ⟨[], []⟩

/-- The children of a feature in the order in which they are pushed (FeatureModel.h:120-129):
    sorted by descending lower-case name. -/
def sortedChildren (m : FModel) (E : Env) (f : Id) : Option (List Id) :=
  match m.children E Node.isFeat f with
  | none => none
  | some cs => cs.foldlM (fun l c => upperInsert (fun a b => strLt (m.low b) (m.low a)) c l) []

/-- `operator++` (FeatureModel.h:112-137). -/
def DFS.next (m : FModel) (E : Env) (it : DFS) : Option DFS :=
  match it.frontier with
  | [] => some it
  | f :: rest =>
    match m.sortedChildren E f with
    | none => none
    | some cs =>
      some { frontier := (cs.filter (fun c => !(c ∈ f :: it.visited : Bool))).reverse ++ rest
             visited := f :: it.visited }

/-- `operator==` (FeatureModel.h:145-150); features are compared by `Feature::operator==`
    (Feature.h:91-93). -/
def DFS.eq (m : FModel) (a b : DFS) : Bool :=
  match a.frontier, b.frontier with
  | x :: _, y :: _ => decide (m.low x = m.low y)
  | [], [] => true
  | _, _ => false

/-- `for (auto It = Begin; It != End; ++It)` collecting `*It`; `none` if it does not end within
    `fuel` rounds or is undefined. -/
def collect (m : FModel) (E : Env) (stop : DFS) : Nat → DFS → Option (List Id)
  | 0, _ => none
  | fuel + 1, it =>
    if it.eq m stop then some []
    else
      match it.frontier with
      | [] => none
      | f :: _ =>
        match it.next m E with
        | none => none
        | some it => (collect m E stop fuel it).map (f :: ·)

/-- `begin()` (FeatureModel.h:162). -/
def begin (m : FModel) : DFS := .mk' m.root

/-- `end()` (FeatureModel.h:163-165). -/
def end? (m : FModel) : Option DFS :=
  match m.root with
  | none => some (.mk' none)
  | some r => (m.parentFeature r).map .mk'

/-- All features in iteration order, `for (auto *F : FM.features())`.  A tree has fewer features
    than objects were ever made. -/
def iterate (m : FModel) (E : Env) : Option (List Id) :=
  match m.end? with
  | none => none
  | some stop => m.collect E stop (m.next + 1) m.begin

/-! ## Comparison -/

/-- The stack of ancestors from a feature to its root, the root on top (Feature.cpp:52-57); `acc` is
    what was pushed before. -/
def trace (m : FModel) : Nat → Id → List Id → Option (List Id)
  | 0, _, _ => none
  | fuel + 1, i, acc =>
    match m.parentFeature i with
    | none => none
    | some none => some (i :: acc)
    | some (some p) => m.trace fuel p (i :: acc)

/-- The comparison of two traces below the common root (Feature.cpp:63-80). -/
def lessTrace (m : FModel) : List Id → List Id → Bool
  | _, [] => false
  | [], _ :: _ => true
  | a :: as, b :: bs => if a = b then m.lessTrace as bs else strLt (m.low a) (m.low b)

/-- `*A < *B` (Feature.cpp:48-81). -/
def less (m : FModel) (a b : Id) : Option Bool :=
  match m.trace (m.next + 1) a [], m.trace (m.next + 1) b [] with
  | some (ra :: ta), some (rb :: tb) =>
    if ra = rb then some (m.lessTrace (ra :: ta) (rb :: tb)) else some (strLt (m.low a) (m.low b))
  | _, _ => none

/-! ## Ordered vectors -/

/-- Calls on an `OrderedFeatureVector`. -/
inductive VecOp
  | insert (f : Id)
  | remove (f : Id)

/-- `*A < *B` in a context where it is defined. -/
def lessB (m : FModel) (a b : Id) : Bool := (m.less a b).getD false

/-- One call: `insert` (OrderedFeatureVector.cpp:7-13), `remove` (OrderedFeatureVector.h:39-42).
    Comparisons that are undefined make the call undefined. -/
def vecStep (m : FModel) (l : List Id) : VecOp → Option (List Id)
  | .insert f => if l.all (fun e => (m.less f e).isSome) then upperInsert m.lessB f l else none
  | .remove f => some (l.filter (fun e => e ≠ f))

/-- A sequence of calls. -/
def vecRun (m : FModel) : List Id → List VecOp → Option (List Id)
  | l, [] => some l
  | l, o :: os => (m.vecStep l o).bind fun l => m.vecRun l os

end FModel

/-! ## What is expected -/

namespace Spec

/-- The children features of `i`, each once, in alphabetical order ignoring case. -/
structure Kids (m : FModel) (i : Id) (cs : List Id) : Prop where
  nodup : cs.Nodup
  mem : ∀ c, c ∈ cs ↔ Via m isF i c
  sorted : cs.Pairwise (fun a b => strLt (m.low b) (m.low a) = false)

/-- `l` is a preorder traversal of the subtree of `i`: `i`, then the traversals of its children
    features in alphabetical order. -/
inductive Pre (m : FModel) : Id → List Id → Prop
  | node {i cs} {ls : List (List Id)} : Kids m i cs → ls.length = cs.length →
      (∀ (k : Nat) c l, cs[k]? = some c → ls[k]? = some l → Pre m c l) → Pre m i (i :: ls.flatten)

/-- Features with the same parent feature have different names ignoring case. -/
def SiblingsDiffer (m : FModel) : Prop :=
  ∀ p a b, Known m p → Via m isF p a → Via m isF p b → m.low a = m.low b → a = b

/-- `a` is above `b`, or they are in the subtrees of two siblings of which the first comes first in
    alphabetical order. -/
def Before (m : FModel) (a b : Id) : Prop :=
  (a ≠ b ∧ Below m a b) ∨
  ∃ p x y, Known m p ∧ Via m isF p x ∧ Via m isF p y ∧ Below m x a ∧ Below m y b ∧ strLt (m.low x) (m.low y) = true

end Spec
end Verif

import Verif.FM.Clone
/-!
# Merging models

Models `mergeFeatureModels`, `mergeSubtree`, `featureCopy` and `compareProperties`
(`/repo/lib/Feature/FeatureModelTransaction.cpp:162-265`).

Both models live on one heap.  The second one is only read; its objects are below `next` when the copy
transaction is opened, so what is read from `m2` is the same at any time (`C30_inputs_unchanged`).
-/

namespace Verif
namespace FModel

/-- `featureCopy` (FeatureModelTransaction.cpp:205-226). -/
def featureCopy (a : Attr) : Option Attr :=
  match a.kind with
  | .binary => some { name := a.name, kind := .binary, opt := a.opt, locs := a.locs }
  | .numeric v _ => some { name := a.name, kind := .numeric v none, opt := a.opt, locs := a.locs }
  | .root => some { name := a.name, kind := .root }
  | .unknown => none

/-- `Feature::FeatureKind` of a feature. -/
def sameFeatureKind : FKind → FKind → Bool
  | .binary, .binary => true
  | .numeric _ _, .numeric _ _ => true
  | .root, .root => true
  | .unknown, .unknown => true
  | _, _ => false

/-- `F.getParent()->getKind() == NK_FEATURE`-like test: whether the parent node is a feature; a missing
    parent is dereferenced. -/
def parentIsFeat (m : FModel) (i : Id) : Option Bool :=
  match m.heap i with
  | none => none
  | some n =>
    match n.parent with
    | none => none
    | some p => (m.heap p).map Node.isFeat

/-- `*(F1.getParentFeature()) != *(F2.getParentFeature())` (FeatureModelTransaction.cpp:234-236,
    Feature.h:78-84): whether the names are the same ignoring case; a missing parent is dereferenced. -/
def sameParentName (m1 m2 : FModel) (i j : Id) : Option Bool :=
  match m1.parentFeature i, m2.parentFeature j with
  | some (some p), some (some q) =>
    match m1.nameOf p, m2.nameOf q with
    | some a, some b => some (decide (lower a = lower b))
    | _, _ => none
  | _, _ => none

/-- The comparisons after the test of the parents (FeatureModelTransaction.cpp:239-264). -/
def compareRest (m1 m2 : FModel) (i j : Id) (a b : Attr) (strict : Bool) : Option Bool :=
  if !strict then some true
  else if a.opt ≠ b.opt then some false
  else if !sameFeatureKind a.kind b.kind then some false
  else if a.kind = .root then some true
  else
    match m1.parentIsFeat i, m2.parentIsFeat j with
    | some x, some y =>
      if x ≠ y then some false
      else
        match a.kind, b.kind with
        | .binary, _ => some true
        | .numeric v _, .numeric w _ => some (decide (v = w))
        | _, _ => some false
    | _, _ => none

/-- `compareProperties` (FeatureModelTransaction.cpp:228-265); `none` = undefined. -/
def compareProperties (m1 m2 : FModel) (i j : Id) (strict : Bool) : Option Bool :=
  match m1.feat? i, m2.feat? j with
  | some f, some g =>
    if f.attr.name ≠ g.attr.name then some false
    else if f.attr.kind ≠ .root ∧ g.attr.kind ≠ .root then
      match sameParentName m1 m2 i j with
      | none => none
      | some false => some false
      | some true => compareRest m1 m2 i j f.attr g.attr strict
    else compareRest m1 m2 i j f.attr g.attr strict
  | _, _ => none

/-- Run on each element until one returns false. -/
def boolFold {α} (f : FModel → α → Option (FModel × Bool)) : FModel → List α → Option (FModel × Bool)
  | c, [] => some (c, true)
  | c, x :: xs =>
    match f c x with
    | none => none
    | some (c, false) => some (c, false)
    | some (c, true) => boolFold f c xs

/-- The part of `mergeSubtree` before the children (FeatureModelTransaction.cpp:175-194) for the feature
    `j` of the second model; `c` is the copy in the transaction. -/
def mergeOne (E : Env) (strict : Bool) (m1 m2 c : FModel) (j : Id) : Option (FModel × Bool) :=
  match m2.feat? j with
  | none => none
  | some g =>
    match m1.getFeature g.attr.name with
    | some i =>
      match m1.feat? i, m1.compareProperties m2 i j strict with
      | some f, some true =>
        (copyRun E c ((g.attr.locs.filter fun r => !f.attr.locs.any fun l => l.eq r).map fun r =>
          .addLocation (.ptr (some i)) r)).map fun c => (c, true)
      | some _, some false => some (c, false)
      | _, _ => none
    | none =>
      match featureCopy g.attr with
      | none => some (c, false)
      | some a =>
        match m2.parentFeature j with
        | none => none
        | some p => (copyRun E c [.addFeature a p]).map fun c => (c, true)

/-- `mergeSubtree` (FeatureModelTransaction.cpp:172-203); `fuel` bounds the recursion depth. -/
def mergeSubtree (E : Env) (strict : Bool) (m1 m2 : FModel) : Nat → FModel → Id → Option (FModel × Bool)
  | 0, _, _ => none
  | fuel + 1, c, j =>
    match mergeOne E strict m1 m2 c j with
    | none => none
    | some (c, false) => some (c, false)
    | some (c, true) =>
      match m2.children E Node.isFeat j with
      | none => none
      | some cs => boolFold (fun c x => mergeSubtree E strict m1 m2 fuel c x) c cs

/-- `mergeFeatureModels` (FeatureModelTransaction.cpp:162-170): `none` = undefined or an exception,
    otherwise null or the merged model.  The error of a failed `commit` is dereferenced
    (FeatureModelTransaction.cpp:169, Result.h:122-127).  That the first model cannot be cloned counts as
    undefined, although without assertions the result may also be null. -/
def mergeFeatureModels (E : Env) (m1 m2 : FModel) (strict : Bool) : Option (Option FModel) :=
  if E.asserts && decide (m1.consistent E ≠ some true) then none
  else
    match m1.clone E, m2.root with
    | .built c, some r =>
      match mergeSubtree E strict m1 m2 (m2.next + 1) c r with
      | none => none
      | some (_, false) => some none
      | some (c, true) =>
        match c.consistent E with
        | some true => some (some c)
        | _ => none
    | _, _ => none

end FModel
end Verif

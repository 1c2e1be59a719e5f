import Verif.Merge.Model
/-!
# What merging two models means
-/

namespace Verif.Spec
open Verif

/-- The two models live on the same heap. -/
structure SameHeap (m1 m2 : FModel) : Prop where
  heap : m2.heap = m1.heap
  next : m2.next = m1.next

/-- The node above the feature is a group. -/
def InGroup (m : FModel) (i : Id) : Prop := ∃ r, par m i = some r ∧ IsRel m r

/-- Kinds that can be merged strictly: no feature without kind, and the same values. -/
def SameKind : FKind → FKind → Prop
  | .binary, .binary => True
  | .root, .root => True
  | .numeric v _, .numeric w _ => v = w
  | _, _ => False

/-- The parent features have the same name up to case. -/
def SameParent (m1 m2 : FModel) (i j : Id) : Prop :=
  ∃ p q pn qn, FParent m1 i p ∧ FParent m2 j q ∧ (pn, p) ∈ m1.features ∧ (qn, q) ∈ m2.features ∧ lower pn = lower qn

/-- The feature `i` of the first and the feature `j` of the second model do not conflict. -/
def Fits (strict : Bool) (m1 m2 : FModel) (i j : Id) : Prop :=
  ∃ f g, data m1 i = some (.feat f) ∧ data m2 j = some (.feat g) ∧
    (f.attr.kind = .root ∨ g.attr.kind = .root ∨ SameParent m1 m2 i j) ∧
    (strict = true → f.attr.opt = g.attr.opt ∧ SameKind f.attr.kind g.attr.kind ∧
      (f.attr.kind = .root ∨ (InGroup m1 i ↔ InGroup m2 j)))

/-- The feature `j` of the second model can be merged into the first: it fits the feature of its name or, if
    there is none, it has a kind. -/
def Mergeable (strict : Bool) (m1 m2 : FModel) (j : Id) : Prop :=
  ∃ n g, (n, j) ∈ m2.features ∧ data m2 j = some (.feat g) ∧
    ((∃ i, (n, i) ∈ m1.features ∧ Fits strict m1 m2 i j) ∨ ((∀ i, (n, i) ∉ m1.features) ∧ g.attr.kind ≠ .unknown))

/-- The locations of the second feature that the first does not have (equality of locations is
    `Range.eq`, see C14). -/
def newLocs (f g : Feat) : List Range := g.attr.locs.filter fun r => !f.attr.locs.any fun l => l.eq r

/-- `c` is the union of the features of `m1` and `m2`. -/
structure MergedModel (m1 m2 c : FModel) : Prop where
  wf : WF c
  bound : Bound c
  /-- exactly the features of both -/
  names : ∀ n, (∃ i, (n, i) ∈ c.features) ↔ (∃ i, (n, i) ∈ m1.features) ∨ ∃ j, (n, j) ∈ m2.features
  /-- the root is that of the first -/
  root : ∃ n i r, m1.root = some i ∧ (n, i) ∈ m1.features ∧ c.root = some r ∧ (n, r) ∈ c.features
  /-- features of the first keep what a clone keeps and their parent, and get the new locations -/
  first : ∀ n i f, (n, i) ∈ m1.features → data m1 i = some (.feat f) → ∃ i' f' ls, (n, i') ∈ c.features ∧
    data c i' = some (.feat f') ∧ f'.attr = { clonedAttr f.attr with locs := (clonedAttr f.attr).locs ++ ls } ∧
    (∀ j g, (n, j) ∈ m2.features → data m2 j = some (.feat g) → ls = newLocs f g) ∧
    ((∀ j, (n, j) ∉ m2.features) → ls = []) ∧
    (∀ p pn, FParent m1 i p → (pn, p) ∈ m1.features → ∃ p', FParent c i' p' ∧ (pn, p') ∈ c.features)
  /-- the other features of the second are copied, directly below their parent (also if they were in a group) -/
  second : ∀ n j g, (n, j) ∈ m2.features → data m2 j = some (.feat g) → (∀ i, (n, i) ∉ m1.features) →
    ∃ i' f', (n, i') ∈ c.features ∧ data c i' = some (.feat f') ∧ f'.attr = clonedAttr g.attr ∧
      (∀ q qn, FParent m2 j q → (qn, q) ∈ m2.features → ∃ p', par c i' = some p' ∧ (qn, p') ∈ c.features)
  name : c.name = m1.name
  path : c.path = m1.path
  commit : c.commit = m1.commit
  /-- the constraints are those of the first -/
  store : ∀ cl, (c.store cl).map Stored.tree = (m1.store cl).map Stored.tree ∧
    (c.store cl).map Stored.info = (m1.store cl).map Stored.info

end Verif.Spec

import Verif.FM.Frame
/-!
# Descriptions of feature models

A description names the features, their attributes, the parent of each, the groups and the
constraints; it says nothing about addresses.
-/

namespace Verif.Spec
open Verif

structure Desc where
  name : Str
  path : Str
  commit : Str
  /-- name of the root -/
  root : Str
  /-- the other features -/
  attrs : List Attr
  /-- name of the parent feature of each of them -/
  parent : Str → Str
  /-- features whose children form a group -/
  groups : List (Str × RKind)
  constraints : List (CKind × Constraint)

/-- The constraints of a class, in order. -/
def Desc.ofClass (d : Desc) (cl : CClass) : List (CKind × Constraint) := d.constraints.filter fun x => decide (x.1.cls = cl)

/-- Every feature lists exactly the constraint leaves that carry its name, and the implications and
    exclusions that mention it, an implication as often as it mentions the feature. -/
def Registered (m : FModel) : Prop :=
  ∀ i f, Known m i → data m i = some (.feat f) →
    (∀ l, l ∈ f.constraints ↔ ∃ s, (m.store l.root.cls)[l.root.idx]? = some s ∧ s.tree.features[l.leaf]? = some f.attr.name) ∧
    (∀ r, r ∈ f.implications ↔ ∃ s, (m.store r.cls)[r.idx]? = some s ∧ IsImplies s.tree ∧ f.attr.name ∈ s.tree.features) ∧
    (∀ r, r ∈ f.excludes ↔ ∃ s, (m.store r.cls)[r.idx]? = some s ∧ IsExcludes s.tree ∧ f.attr.name ∈ s.tree.features) ∧
    (∀ r s, (m.store r.cls)[r.idx]? = some s → IsImplies s.tree → f.implications.count r = s.tree.features.count f.attr.name)

/-- The model is the one described. -/
structure Describes (d : Desc) (m : FModel) : Prop where
  wf : WF m
  bound : Bound m
  name : m.name = d.name
  path : m.path = d.path
  commit : m.commit = d.commit
  distinct : (d.attrs.map Attr.name).Nodup
  root_new : d.root ∉ d.attrs.map Attr.name
  /-- exactly the named features -/
  names : ∀ n, (∃ i, (n, i) ∈ m.features) ↔ n = d.root ∨ n ∈ d.attrs.map Attr.name
  root : ∃ i f, m.root = some i ∧ (d.root, i) ∈ m.features ∧ data m i = some (.feat f) ∧
    f.attr = { name := d.root, kind := .root }
  /-- with these attributes and parents -/
  feat : ∀ a ∈ d.attrs, ∃ i f p, (a.name, i) ∈ m.features ∧ data m i = some (.feat f) ∧ f.attr = a ∧
    (d.parent a.name, p) ∈ m.features ∧ FParent m i p
  groups_known : ∀ g ∈ d.groups, g.1 = d.root ∨ g.1 ∈ d.attrs.map Attr.name
  /-- a group contains all children of its feature -/
  grouped : ∀ n k i, (n, k) ∈ d.groups → (n, i) ∈ m.features →
    ∃ r, edg m i = [r] ∧ data m r = some (.rel k) ∧ ∀ c ∈ edg m r, IsFeat m c
  ungrouped : ∀ n i, (n, i) ∈ m.features → (∀ k, (n, k) ∉ d.groups) → ∀ c ∈ edg m i, IsFeat m c
  /-- there are no other groups -/
  rels : ∀ r ∈ m.rels, ∃ n k i, (n, k) ∈ d.groups ∧ (n, i) ∈ m.features ∧ par m r = some i
  store : ∀ cl, m.store cl = (d.ofClass cl).map fun x => ⟨x.2, x.2.features.map m.getFeature, x.1.info⟩
  registered : Registered m

end Verif.Spec

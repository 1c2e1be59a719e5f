import Verif.FM.Transaction
/-!
# What a well-formed feature model is

Independent of how the library walks the object graph: a node is looked at through its data, its
parent pointer and its child edges only.
-/

namespace Verif.Spec
open Verif

/-- What the object at an address is; nothing if there is none. -/
def data (m : FModel) (i : Id) : Option NodeData := (m.heap i).map (·.data)

/-- Its parent pointer. -/
def par (m : FModel) (i : Id) : Option Id := (m.heap i).bind (·.parent)

/-- Its child edges. -/
def edg (m : FModel) (i : Id) : List Id := match m.heap i with | some n => n.edges | none => []

/-- The object is a feature. -/
def IsFeat (m : FModel) (i : Id) : Prop := ∃ f, data m i = some (.feat f)

/-- The object is a relationship. -/
def IsRel (m : FModel) (i : Id) : Prop := ∃ k, data m i = some (.rel k)

/-- A feature the model knows by name. -/
def Known (m : FModel) (i : Id) : Prop := i ∈ m.features.map Prod.snd

/-- A node that belongs to the model. -/
def Owned (m : FModel) (i : Id) : Prop := Known m i ∨ i ∈ m.rels

/-- `i` is in the subtree of `a` (following parents upwards from `i` leads to `a`). -/
inductive Below (m : FModel) (a : Id) : Id → Prop
  | refl : Below m a a
  | step {i p} : par m i = some p → Below m a p → Below m a i

/-- Well-formed: a rooted tree of features and relationships. -/
structure WF (m : FModel) : Prop where
  /-- there is a root: a known feature of root kind without parent -/
  root_ok : ∃ r f, m.root = some r ∧ Known m r ∧ data m r = some (.feat f) ∧ f.attr.kind = .root ∧ par m r = none
  /-- names are unique -/
  names : (m.features.map Prod.fst).Nodup
  /-- the entry of a name is a feature of that name -/
  feat_ok : ∀ e ∈ m.features, ∃ f, data m e.2 = some (.feat f) ∧ f.attr.name = e.1
  rels_nodup : m.rels.Nodup
  rel_ok : ∀ r ∈ m.rels, IsRel m r
  /-- a parent link is matched by a child edge, and by one only -/
  par_edge : ∀ i p, Owned m i → par m i = some p → Owned m p ∧ i ∈ edg m p
  edge_par : ∀ i c, Owned m i → c ∈ edg m i → Owned m c ∧ par m c = some i
  edges_nodup : ∀ i, Owned m i → (edg m i).Nodup
  /-- only the root has no parent, and it is the only feature of root kind -/
  orphan : ∀ i, Owned m i → par m i = none → m.root = some i
  one_root : ∀ i f, Known m i → data m i = some (.feat f) → f.attr.kind = .root → m.root = some i
  /-- everything is below the root, so there is no cycle -/
  reach : ∀ i r, Owned m i → m.root = some r → Below m r i
  /-- addresses not handed out yet are unused -/
  fresh : ∀ i, m.heap i ≠ none → i < m.next

/-- All stored constraints. -/
def allStored (m : FModel) : List Stored := m.booleans ++ m.nonBooleans ++ m.mixeds

/-- Some stored constraint refers to the feature. -/
def Mentioned (m : FModel) (i : Id) : Prop := ∃ s ∈ allStored m, some i ∈ s.binds

/-- Every stored constraint has one pointer per feature leaf, null or to the model's feature of
    that name. -/
structure Bound (m : FModel) : Prop where
  len : ∀ s ∈ allStored m, s.binds.length = s.tree.features.length
  bind : ∀ s ∈ allStored m, ∀ (k : Nat) (i : Id), s.binds[k]? = some (some i) →
    ∃ n, s.tree.features[k]? = some n ∧ (n, i) ∈ m.features

/-- `c` is a nearest descendant of kind `T`: reached without passing through a node of that kind. -/
inductive Via (m : FModel) (T : NodeData → Bool) : Id → Id → Prop
  | here {i c d} : c ∈ edg m i → data m c = some d → T d = true → Via m T i c
  | skip {i c d x} : c ∈ edg m i → data m c = some d → T d = false → Via m T c x → Via m T i x

/-- The same within a number of levels. -/
inductive ViaD (m : FModel) (T : NodeData → Bool) : Nat → Id → Id → Prop
  | here {n i c d} : c ∈ edg m i → data m c = some d → T d = true → ViaD m T (n + 1) i c
  | skip {n i c d x} : c ∈ edg m i → data m c = some d → T d = false → ViaD m T n c x →
      ViaD m T (n + 1) i x

/-- Kinds asked for. -/
def isF : NodeData → Bool | .feat _ => true | .rel _ => false
def isR : NodeData → Bool | .feat _ => false | .rel _ => true

/-- `p` is the nearest feature ancestor of `i`. -/
inductive FParent (m : FModel) : Id → Id → Prop
  | direct {i p} : par m i = some p → IsFeat m p → FParent m i p
  | skip {i r p} : par m i = some r → IsRel m r → FParent m r p → FParent m i p

/-- `m'` is `m` without the nodes in `S`; nothing else changed. -/
structure Without (m m' : FModel) (S : Id → Prop) : Prop where
  gone : ∀ j, S j → m'.heap j = none
  data : ∀ j, ¬ S j → data m' j = data m j
  par : ∀ j, ¬ S j → par m' j = par m j
  edges : ∀ j, Owned m j → ¬ S j → (edg m' j).Sublist (edg m j) ∧ ∀ c, c ∈ edg m' j ↔ c ∈ edg m j ∧ ¬ S c
  foreign : ∀ j, ¬ Owned m j → edg m' j = edg m j
  features : m'.features.Sublist m.features ∧ ∀ e, e ∈ m'.features ↔ e ∈ m.features ∧ ¬ S e.2
  rels : m'.rels.Sublist m.rels ∧ ∀ r, r ∈ m'.rels ↔ r ∈ m.rels ∧ ¬ S r
  next : m'.next = m.next
  root : m'.root = m.root
  name : m'.name = m.name
  path : m'.path = m.path
  commit : m'.commit = m.commit
  booleans : m'.booleans = m.booleans
  nonBooleans : m'.nonBooleans = m.nonBooleans
  mixeds : m'.mixeds = m.mixeds

/-- When a modification does what it says (its use is meaningful in the given model). -/
def Legal (m : FModel) : Op → Prop
  | .addFeature a p => a.kind ≠ .root ∧ ∀ i, p = some i → Known m i
  | .removeFeature f recursive =>
    ∀ i, m.resolve f = some i → Known m i ∧ m.root ≠ some i ∧
      if recursive then
        (∀ j, Below m i j → ¬ Mentioned m j) ∧
        (∀ j, Below m i j → IsRel m j → ∀ c ∈ edg m j, IsFeat m c)
      else
        (∃ c, Via m isF i c) ∨
        (¬ Mentioned m i ∧ (edg m i = [] ∨ ∃ r, edg m i = [r] ∧ edg m r = []))
  | .addRelationship _ p =>
    ∃ i, m.resolve p = some i ∧ Known m i ∧ ∀ c, Via m isF i c → c ∈ edg m i
  | .removeRelationship p =>
    ∀ i, m.resolve p = some i → Known m i ∧ (∃ r, Via m isR i r) ∧
      ∀ r, Via m isR i r → r ∈ edg m i ∧ ∀ c ∈ edg m r, IsFeat m c
  | .addLocation f _ => ∃ i, m.resolve f = some i ∧ Known m i
  | .removeLocation f r =>
    ∃ i ft, m.resolve f = some i ∧ Known m i ∧ data m i = some (.feat ft) ∧ ∃ l ∈ ft.attr.locs, l.eq r = true
  | .addConstraint _ _ => True
  | .setName _ => True
  | .setCommit _ => True
  | .setPath _ => True
  | .setRoot n => ∀ i ft, m.root = some i → data m i = some (.feat ft) → ft.attr.name = n ∨ ¬ Mentioned m i
  | .addChild p c =>
    ∀ ci pi, m.resolve c = some ci → m.resolve p = some pi →
      Owned m ci ∧ Owned m pi ∧ m.root ≠ some ci ∧ (ci = pi ∨ ¬ Below m ci pi)

/-- Every modification of the list is legal in the model it is applied to. -/
def LegalRun (E : Env) : FModel → List Op → Prop
  | _, [] => True
  | m, o :: os => Legal m o ∧ ∀ m', m.exec E o = .ok m' → LegalRun E m' os

end Verif.Spec

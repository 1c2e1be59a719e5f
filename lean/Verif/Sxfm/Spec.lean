import Verif.Sxfm.Card
/-!
# Feature trees and how they are written in SXFM

A forest is a list of trees in the form "first tree, its children, the remaining trees".
-/

namespace Verif.Spec
open Verif

/-- The kinds of lines below the root. -/
inductive LineKind
  | mandatory
  | optional
  | member
  /-- a group; the flag says whether the cardinality is written before the name -/
  | group (k : RKind) (cardFirst : Bool)
  deriving DecidableEq, Repr

/-- A feature: kind, name (none for an unnamed feature) and identifier. -/
structure Label where
  kind : LineKind
  name : Option Str
  id : Option Str
  deriving DecidableEq, Repr

inductive Forest
  | nil
  | cons (n : Label) (children rest : Forest)
  deriving DecidableEq, Repr

/-! ## Text -/

def idText : Option Str → Str
  | none => []
  | some i => c!"(" ++ i ++ c!")"

def cardText : RKind → Str
  | .alternative => c!"[1,1]"
  | .or => c!"[1,*]"

def Label.title (n : Label) : Str := n.name.getD [] ++ idText n.id

/-- The part of a line after the indentation. -/
def Label.text (n : Label) : Str :=
  match n.kind with
  | .mandatory => c!":m " ++ n.title
  | .optional => c!":o " ++ n.title
  | .member => c!": " ++ n.title
  | .group k true => c!":g " ++ cardText k ++ c!" " ++ n.title
  | .group k false => c!":g " ++ n.title ++ c!" " ++ cardText k

/-- `n` copies of a string. -/
def times (ind : Str) : Nat → Str
  | 0 => []
  | n + 1 => ind ++ times ind n

/-- The lines of a forest whose trees start at level `d`. -/
def Forest.lines (ind : Str) : Nat → Forest → List Str
  | _, .nil => []
  | d, .cons n c r => (times ind d ++ n.text) :: (c.lines ind (d + 1) ++ r.lines ind d)

/-- The text of a feature tree. -/
def treeText (ind rootName : Str) (rootId : Option Str) (f : Forest) : List Str :=
  (c!":r " ++ rootName ++ idText rootId) :: f.lines ind 1

/-- Lines put together. -/
def joinLines : List Str → Str
  | [] => []
  | l :: ls => l ++ '\n' :: joinLines ls

/-! ## Meaning -/

/-- Number of unnamed features. -/
def Forest.unnamed : Forest → Nat
  | .nil => 0
  | .cons n c r => (if n.name = none then 1 else 0) + c.unnamed + r.unnamed

/-- The `k`-th unnamed feature is called `group_k`. -/
def Label.called (n : Label) (k : Nat) : Str := n.name.getD (c!"group_" ++ natText (k + 1))

def LineKind.opt : LineKind → Bool
  | .optional => true
  | _ => false

/-- The features in the order of their lines, `k` unnamed ones before. -/
def Forest.attrs : Nat → Forest → List Attr
  | _, .nil => []
  | k, .cons n c r =>
    { name := n.called k, kind := .binary, opt := n.kind.opt } ::
      (c.attrs (k + if n.name = none then 1 else 0) ++ r.attrs (k + (if n.name = none then 1 else 0) + c.unnamed))

/-- Pairs of parent and child; `p` is the parent of the trees. -/
def Forest.edges (p : Str) : Nat → Forest → List (Str × Str)
  | _, .nil => []
  | k, .cons n c r =>
    (p, n.called k) :: (c.edges (n.called k) (k + if n.name = none then 1 else 0) ++
      r.edges p (k + (if n.name = none then 1 else 0) + c.unnamed))

/-- The groups. -/
def Forest.groups : Nat → Forest → List (Str × RKind)
  | _, .nil => []
  | k, .cons n c r =>
    (match n.kind with
      | .group g _ => [(n.called k, g)]
      | _ => []) ++
      (c.groups (k + if n.name = none then 1 else 0) ++ r.groups (k + (if n.name = none then 1 else 0) + c.unnamed))

/-- A name that the format can carry. -/
def PlainName (s : Str) : Prop := s ≠ [] ∧ ∀ c ∈ s, c ≠ ' ' ∧ c ≠ '[' ∧ c ≠ '(' ∧ c ≠ '\n'

/-- An identifier: letters, digits and underscores; contained in the name only if equal to it. -/
def PlainId (name i : Str) : Prop := (∀ c ∈ i, isIdChar c = true) ∧ (i = name ∨ ¬ ∃ a b, name = a ++ i ++ b)

def Label.Plain (n : Label) : Prop :=
  (∀ s, n.name = some s → PlainName s) ∧ ∀ i, n.id = some i → PlainId (n.name.getD []) i

def Forest.Plain : Forest → Prop
  | .nil => True
  | .cons n c r => n.Plain ∧ c.Plain ∧ r.Plain

/-- An indentation string. -/
def PlainIndent (s : Str) : Prop := s ≠ [] ∧ ∀ c ∈ s, c ≠ ':' ∧ c ≠ '[' ∧ c ≠ '(' ∧ c ≠ '\n'

/-- The parent of a feature according to a list of edges. -/
def parentIn (root : Str) (es : List (Str × Str)) (n : Str) : Str := ((es.find? fun e => e.2 = n).map Prod.fst).getD root

/-- The model that a feature tree describes. -/
def treeDesc (modelName root : Str) (f : Forest) (cs : List (CKind × Constraint)) : Desc where
  name := modelName
  path := []
  commit := []
  root := root
  attrs := f.attrs 0
  parent := parentIn root (f.edges root 0)
  groups := f.groups 0
  constraints := cs

end Verif.Spec

namespace Verif.Spec
open Verif

/-- The edges asked for. -/
def edgesOf (calls : List BCall) : List (Str × Str) :=
  calls.filterMap fun | .addEdge p c => some (p, c) | _ => none

/-- Identifiers with the names they stand for, in the order of the lines. -/
def Forest.ids : Forest → List (Str × Str)
  | .nil => []
  | .cons n c r => (n.id.toList.map fun i => (i, n.name.getD [])) ++ (c.ids ++ r.ids)

/-- Names of a feature tree that a model can hold: all different, none of them `root` except the root's. -/
def DistinctNames (root : Str) (f : Forest) : Prop :=
  (root :: (f.attrs 0).map Attr.name).Nodup ∧ c!"root" ∉ (f.attrs 0).map Attr.name

end Verif.Spec

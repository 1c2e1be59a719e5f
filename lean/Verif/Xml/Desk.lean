import Verif.FM.Region
import Verif.FM.Clone
import Verif.FM.ScriptLemmas
import Verif.FM.CopyScript
import Verif.Xml.Model
import Verif.Xml.Read
import Verif.Merge.Desc
/-!
# Several models at a time

A program has any number of models in variables, all of them on one heap, and does with them in any order what the
library offers: building, loading, cloning, merging, transactions of both kinds, destruction.
-/

namespace Verif.Desk
open Verif Verif.Spec Verif.Xml

/-- The heap and the variables of type `std::unique_ptr<FeatureModel>`, null or a model.  The heap is the one of the desk,
    whatever a model has in that field. -/
structure Desk where
  heap : Id → Option Node
  next : Nat
  models : List (Option FModel)

/-- A model on the heap of the desk. -/
def on (D : Desk) (m : FModel) : FModel := { m with heap := D.heap, next := D.next }

/-- `*Var`; nothing if the variable is null or does not exist. -/
def get (D : Desk) (k : Nat) : Option FModel :=
  match D.models[k]? with
  | some (some m) => some (on D m)
  | _ => none

/-- The heap alone, for calls that make a model. -/
def world (D : Desk) : FModel :=
  { heap := D.heap, next := D.next, name := [], root := none, path := [], commit := [], features := [], booleans := [],
    nonBooleans := [], mixeds := [], rels := [] }

/-- A model has been changed. -/
def put (D : Desk) (k : Nat) (m : FModel) : Desk := ⟨m.heap, m.next, D.models.set k (some m)⟩

/-- A call returned a model or null. -/
def push (D : Desk) : Option FModel → Desk
  | none => { D with models := D.models ++ [none] }
  | some m => ⟨m.heap, m.next, D.models ++ [some m]⟩

/-- The destructor of a model frees its features and relationships (FeatureModel.h:37-38, 467-471: the containers own them). -/
def freeAll (D : Desk) (k : Nat) (m : FModel) : Desk :=
  { D with heap := fun i => if i ∈ m.features.map Prod.snd ++ m.rels then none else D.heap i, models := D.models.set k none }

/-- What a program does. -/
inductive DeskOp
  /-- a builder is filled and builds (FeatureModelBuilder.cpp:9-32) -/
  | build (calls : List BCall)
  /-- a valid document is parsed (FeatureModelParser.cpp:393-405) -/
  | load (cwd : Str) (x : Xml)
  /-- `Var->clone()` (FeatureModel.cpp:59-105) -/
  | clone (k : Nat)
  /-- a modify transaction on a model, from opening to commit (FeatureModelTransaction.h:978-993) -/
  | modify (k : Nat) (ops : List Op)
  /-- the same, with references looked up in that model when the transaction is filled -/
  | edit (k : Nat) (es : List Edit)
  /-- a copy transaction on a model, from opening to commit (FeatureModelTransaction.h:808-817) -/
  | copy (k : Nat) (ops : List Op)
  /-- the same, with references looked up in the model, or in the copy if the model has no such feature -/
  | copyEdit (k : Nat) (es : List Edit)
  /-- `mergeFeatureModels(*Var, *Var2, Strict)` (FeatureModelTransaction.cpp:162-170) -/
  | merge (j k : Nat) (strict : Bool)
  /-- the variable is reset or goes out of scope -/
  | delete (k : Nat)

/-- The result of a call that makes a model. -/
def made (D : Desk) : BuildRes → Option Desk
  | .built m => some (push D (some m))
  | .null => some (push D none)
  | .ub => none

/-- The result of a transaction, successful or not. -/
def done (D : Desk) (k : Nat) : Out → Option Desk
  | .ok m => some (put D k m)
  | .err _ m => some (put D k m)
  | .ub => none

/-- One step; `none` is undefined behaviour, such as using a null variable. -/
def step (sci : Str → Option Str) (E : Env) (D : Desk) : DeskOp → Option Desk
  | .build calls => made D ((world D).build E (builderOf calls))
  | .load cwd x => made D (load sci E (world D) cwd x)
  | .clone k => (get D k).bind fun m => made D (m.clone E)
  | .modify k ops => (get D k).bind fun m => done D k (m.commitOps E ops)
  | .edit k es => (get D k).bind fun m => done D k (m.commitOps E (es.map (·.op m)))
  | .copy k ops => (get D k).bind fun m => (m.copyTransaction E ops).map (push D)
  | .copyEdit k es => (get D k).bind fun m => (runCopy E m es).map (push D)
  | .merge j k strict => (get D j).bind fun m1 => (get D k).bind fun m2 => (m1.mergeFeatureModels E m2 strict).map (push D)
  | .delete k => (get D k).map (freeAll D k)

/-- A program. -/
def run (sci : Str → Option Str) (E : Env) : Desk → List DeskOp → Option Desk
  | D, [] => some D
  | D, o :: os => (step sci E D o).bind fun D => run sci E D os

/-- Nothing made yet. -/
def empty : Desk := ⟨fun _ => none, 0, []⟩

/-! ## Specification -/

/-- The variable whose model an operation may change. -/
def DeskOp.target : DeskOp → Option Nat
  | .modify k _ => some k
  | .edit k _ => some k
  | .delete k => some k
  | _ => none

/-- A variable has the same model as before: the same members, and each of its nodes as it was. -/
def Same (D D' : Desk) (j : Nat) : Prop :=
  ∀ m, get D j = some m → ∃ m', get D' j = some m' ∧ m' = { m with heap := m'.heap, next := m'.next } ∧
    ∀ i, Owned m i → m'.heap i = m.heap i

/-- The pointers in a modification are to features of the model. -/
def OwnRefs (m : FModel) : Op → Prop
  | .addFeature _ p => ∀ i, p = some i → Owned m i
  | .removeFeature f _ => ∀ i, f = .ptr (some i) → Owned m i
  | .addRelationship _ p => ∀ i, p = .ptr (some i) → Owned m i
  | .removeRelationship p => ∀ i, p = .ptr (some i) → Owned m i
  | .addLocation f _ => ∀ i, f = .ptr (some i) → Owned m i
  | .removeLocation f _ => ∀ i, f = .ptr (some i) → Owned m i
  | .addChild p c => (∀ i, p = .ptr (some i) → Owned m i) ∧ ∀ i, c = .ptr (some i) → Owned m i
  | _ => True

/-- So for all modify transactions of an operation; copy transactions may use any pointers. -/
def Own (D : Desk) : DeskOp → Prop
  | .modify k ops => ∀ m, get D k = some m → ∀ o ∈ ops, OwnRefs m o
  | _ => True

/-- Models are well-formed and share no nodes. -/
structure Tidy (D : Desk) : Prop where
  fresh : ∀ i, D.heap i ≠ none → i < D.next
  wf : ∀ k m, get D k = some m → WF m
  bound : ∀ k m, get D k = some m → Bound m
  apart : ∀ j k m m', j ≠ k → get D j = some m → get D k = some m' → ∀ i, Owned m i → ¬ Owned m' i

/-- What an operation makes of the descriptions of the models: it concerns one of them. -/
inductive Goes (sci : Str → Option Str) (ds : List (Option Desc)) : DeskOp → List (Option Desc) → Prop
  | build {calls d} : Buildable calls d → ConstraintsKnown d → Goes sci ds (.build calls) (ds ++ [some d])
  | load {cwd x d gs} : Spec.Doc.Ok sci x → DocDescribes cwd x d → ConstraintsKnown d →
      (∀ n k, (n, k) ∈ gs ↔ k = .alternative ∧ Exclusive d n) → Goes sci ds (.load cwd x.toXml) (ds ++ [some { d with groups := gs }])
  | clone {k d} : ds[k]? = some (some d) → c!"root" ∉ d.attrs.map Attr.name → Goes sci ds (.clone k) (ds ++ [some d.cloned])
  | edit {k d es} : ds[k]? = some (some d) → Desc.CanAll d.Has d es → Goes sci ds (.edit k es) (ds.set k (some (es.foldl Desc.edit d)))
  | copyEdit {k d es} : ds[k]? = some (some d) → c!"root" ∉ d.attrs.map Attr.name → d.cloned.CanCopy es →
      Goes sci ds (.copyEdit k es) (ds ++ [some (es.foldl Desc.inCopy d.cloned)])
  | merge {j k strict d d2} : ds[j]? = some (some d) → ds[k]? = some (some d2) → c!"root" ∉ d.attrs.map Attr.name → d.root = d2.root →
      Desc.Takes strict d d2 → d.OutsideGroups d2 → Goes sci ds (.merge j k strict) (ds ++ [some (d.merged d2)])
  | conflict {j k strict d d2} : ds[j]? = some (some d) → ds[k]? = some (some d2) → c!"root" ∉ d.attrs.map Attr.name → d.root = d2.root →
      ¬ Desc.Takes strict d d2 → Goes sci ds (.merge j k strict) (ds ++ [none])
  | delete {k d} : ds[k]? = some (some d) → Goes sci ds (.delete k) (ds.set k none)

/-- A program on the descriptions. -/
inductive GoesAll (sci : Str → Option Str) : List (Option Desc) → List DeskOp → List (Option Desc) → Prop
  | nil {ds} : GoesAll sci ds [] ds
  | cons {ds o ds' os ds''} : Goes sci ds o ds' → GoesAll sci ds' os ds'' → GoesAll sci ds (o :: os) ds''

/-- Each variable has the model described for it, and is null if none is. -/
def Matches (D : Desk) (ds : List (Option Desc)) : Prop :=
  D.models.length = ds.length ∧ ∀ k, (∀ d, ds[k]? = some (some d) → ∃ m, get D k = some m ∧ Describes d m) ∧
    (ds[k]? = some none → get D k = none)

end Verif.Desk

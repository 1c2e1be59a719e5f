import Verif.Xml.Desk
/-!
# Copy transactions open side by side with models and each other

Models the life of `FeatureModelCopyTransaction` objects (/repo/include/vara/Feature/FeatureModelTransaction.h:34-76, 806-972)
among the models of a program (`Desk`).  The copy a transaction holds (`FM`, :971) has a place on the desk like any other
model; the program gets it when the transaction commits.
-/

namespace Verif.Lab
open Verif Verif.Spec Verif.Xml Verif.Desk

/-- A copy transaction (FeatureModelTransaction.h:966, 971): `Continue` and the place of the copy, if there is one. -/
structure CTx where
  cont : Bool
  copy : Option Nat
  deriving DecidableEq, Repr

/-- The models and the transaction variables; a variable is empty once its object is destroyed. -/
structure Lab where
  desk : Desk
  txs : List (Option CTx)

/-- What a call answers. -/
inductive LRes
  | none
  | err (e : FTErr)
  /-- the model at this place of the desk -/
  | model (k : Nat)
  deriving DecidableEq, Repr

/-- What a program does. -/
inductive LabOp
  /-- something with its models -/
  | desk (o : DeskOp)
  /-- `auto T = FeatureModelCopyTransaction::openTransaction(*Var)` -/
  | opens (k : Nat)
  /-- a modification on a transaction -/
  | call (t : Nat) (o : Op)
  /-- the same; the parent of a new feature is looked up by name in a model (`some j`) or known from an earlier call on this
      transaction -/
  | edit (t : Nat) (src : Option Nat) (e : Edit)
  | commit (t : Nat)
  | abort (t : Nat)
  /-- `FeatureModelCopyTransaction N(std::move(T))` -/
  | move (t : Nat)
  /-- `S = std::move(T)` -/
  | assign (s t : Nat)
  /-- the destructor -/
  | destroy (t : Nat)

/-- The models a program names in an operation. -/
def named : DeskOp → List Nat
  | .clone k => [k]
  | .modify k _ => [k]
  | .edit k _ => [k]
  | .copy k _ => [k]
  | .copyEdit k _ => [k]
  | .merge j k _ => [j, k]
  | .delete k => [k]
  | _ => []

/-- Is the model inside a transaction, where the program cannot name it? -/
def held (L : Lab) (k : Nat) : Bool := L.txs.any fun x => match x with | some x => decide (x.copy = some k) | none => false

/-- `FM.reset()`. -/
def reset (D : Desk) : Option Nat → Option Desk
  | none => some D
  | some k => (get D k).map (freeAll D k)

/-- `isUncommitted` (FeatureModelTransaction.h:824-826). -/
def uncommitted (x : CTx) : Bool := x.cont && x.copy.isSome

/-- The modifications that answer with an error when there is no copy (FeatureModelTransaction.h:833-835, 865-867, 923-925,
    952-954); `addChild` (:960-963) does not look. -/
def careful : Op → Option LRes
  | .addFeature _ _ => some (.err .error)
  | .addRelationship _ _ => some (.err .error)
  | .addConstraint _ _ => some (.err .error)
  | .setRoot _ => some (.err .error)
  | .addChild _ _ => some .none
  | _ => none

/-- What the program sees of a modification's error: only some return it. -/
def seen (o : Op) (e : FTErr) : LRes := match careful o with | some (.err _) => .err e | _ => .none

/-- A modification (FeatureModelTransaction.h:831-963): runs at once on the copy; without a copy it answers an error, or is
    undefined (a null pointer is dereferenced, after an assertion). -/
def call (E : Env) (L : Lab) (x : CTx) (o : Op) : Option (Lab × LRes) :=
  match x.copy with
  | none => (careful o).map fun r => (L, r)
  | some k =>
    (get L.desk k).bind fun c =>
      match c.copyExec E o with
      | .ok c' => some ({ L with desk := put L.desk k c' }, .none)
      | .err e c' => some ({ L with desk := put L.desk k c' }, seen o e)
      | .ub => none

/-- The modification of an edit: the parent of a new feature is a pointer into a model or into the copy. -/
def callOf (D : Desk) (x : CTx) (src : Option Nat) : Edit → Op
  | .add a p => .addFeature a (((match src with | some j => get D j | none => x.copy.bind (get D)).bind fun m => m.getFeature p))
  | e => e.op (world D)

/-- `abortImpl` (FeatureModelTransaction.h:819-822). -/
def abortTx (L : Lab) (t : Nat) (x : CTx) : Option Lab :=
  (reset L.desk x.copy).map fun D => ⟨D, L.txs.set t (some ⟨false, none⟩)⟩

/-- One step: opening (FeatureModelTransaction.h:50-54, 808), modifications (:831-963), commit (:810-817), abort (:819-822),
    moving (:60-62, members moved one by one), the destructor (:63-66); `none` is undefined behaviour, which
    includes failed assertions, empty variables and models inside transactions. -/
def step (sci : Str → Option Str) (E : Env) (L : Lab) : LabOp → Option (Lab × LRes)
  | .desk o => if (named o).any (held L) then none else (Desk.step sci E L.desk o).map fun D => ({ L with desk := D }, .none)
  | .opens k =>
    if held L k then none
    else
      (get L.desk k).bind fun m =>
        if E.asserts && !decide (m.consistent E = some true) then none
        else
          match m.clone E with
          | .built c => some (⟨push L.desk (some c), L.txs ++ [some ⟨true, some L.desk.models.length⟩]⟩, .none)
          | .null => some ({ L with txs := L.txs ++ [some ⟨true, none⟩] }, .none)
          | .ub => none
  | .call t o =>
    match L.txs[t]? with
    | some (some x) => call E L x o
    | _ => none
  | .edit t src e =>
    match L.txs[t]? with
    | some (some x) => call E L x (callOf L.desk x src e)
    | _ => none
  | .commit t =>
    match L.txs[t]? with
    | some (some x) =>
      match x.cont, x.copy with
      | true, some k =>
        (get L.desk k).bind fun c =>
          match c.consistent E with
          | none => none
          | some true => some ({ L with txs := L.txs.set t (some { x with copy := none }) }, .model k)
          | some false => (abortTx L t x).map fun L => (L, .err .aborted)
      | _, _ => (abortTx L t x).map fun L => (L, .err .aborted)
    | _ => none
  | .abort t =>
    match L.txs[t]? with
    | some (some x) => (abortTx L t x).map fun L => (L, .none)
    | _ => none
  | .move t =>
    match L.txs[t]? with
    | some (some x) => some ({ L with txs := (L.txs.set t (some { x with copy := none })) ++ [some x] }, .none)
    | _ => none
  | .assign s t =>
    match L.txs[s]?, L.txs[t]? with
    | some (some y), some (some x) =>
      if s = t then some (L, .none)
      else (reset L.desk y.copy).map fun D => (⟨D, (L.txs.set s (some x)).set t (some { x with copy := none })⟩, .none)
    | _, _ => none
  | .destroy t =>
    match L.txs[t]? with
    | some (some x) =>
      if E.asserts && uncommitted x then none
      else (reset L.desk x.copy).map fun D => (⟨D, L.txs.set t none⟩, .none)
    | _ => none

/-- A program and what its calls answer. -/
def run (sci : Str → Option Str) (E : Env) : Lab → List LabOp → Option (Lab × List LRes)
  | L, [] => some (L, [])
  | L, o :: os =>
    match step sci E L o with
    | none => none
    | some (L, r) => (run sci E L os).map fun x => (x.1, r :: x.2)

/-- Nothing made yet. -/
def empty : Lab := ⟨Desk.empty, []⟩

/-! ## Specification -/

/-- The model an operation may change or destroy: the one of a modify transaction, or the copy of the transaction it is a call
    on (for an assignment, the copy of the transaction that is overwritten). -/
def Target (L : Lab) : LabOp → Nat → Prop
  | .desk o, j => o.target = some j
  | .opens _, _ => False
  | .call t _, j => ∃ x, L.txs[t]? = some (some x) ∧ x.copy = some j
  | .edit t _ _, j => ∃ x, L.txs[t]? = some (some x) ∧ x.copy = some j
  | .commit t, j => ∃ x, L.txs[t]? = some (some x) ∧ x.copy = some j
  | .abort t, j => ∃ x, L.txs[t]? = some (some x) ∧ x.copy = some j
  | .move _, _ => False
  | .assign s _, j => ∃ x, L.txs[s]? = some (some x) ∧ x.copy = some j
  | .destroy t, j => ∃ x, L.txs[t]? = some (some x) ∧ x.copy = some j

/-- The pointers of modify transactions are to nodes of their own model; those of copy transactions may be any. -/
def OwnLab (L : Lab) : LabOp → Prop
  | .desk o => Own L.desk o
  | _ => True

/-- Descriptions of all models, and for each transaction variable: empty, without a copy, or with the copy at a place. -/
structure Told where
  models : List (Option Desc)
  txs : List (Option (Option Nat))

/-- Is the model inside a transaction? -/
def Told.Held (T : Told) (k : Nat) : Prop := some (some k) ∈ T.txs

/-- What an operation does according to the descriptions, and what it answers. -/
inductive Does (sci : Str → Option Str) (T : Told) : LabOp → Told → LRes → Prop
  | desk {o ds'} : (∀ k ∈ named o, ¬ T.Held k) → Goes sci T.models o ds' → Does sci T (.desk o) { T with models := ds' } .none
  | opens {k d} : ¬ T.Held k → T.models[k]? = some (some d) → c!"root" ∉ d.attrs.map Attr.name →
      Does sci T (.opens k) ⟨T.models ++ [some d.cloned], T.txs ++ [some (some T.models.length)]⟩ .none
  | edit {t k d src e} : T.txs[t]? = some (some (some k)) → T.models[k]? = some (some d) → ((∃ p c, e = .move p c) ∨ d.Can e) →
      (∀ a p j, e = .add a p → src = some j → ∃ d', T.models[j]? = some (some d') ∧ d'.Has p) →
      Does sci T (.edit t src e) { T with models := T.models.set k (some (d.inCopy e)) } .none
  | commit {t k} : T.txs[t]? = some (some (some k)) → Does sci T (.commit t) { T with txs := T.txs.set t (some none) } (.model k)
  | again {t} : T.txs[t]? = some (some none) → Does sci T (.commit t) T (.err .aborted)
  | abort {t k} : T.txs[t]? = some (some (some k)) → Does sci T (.abort t) ⟨T.models.set k none, T.txs.set t (some none)⟩ .none
  | aborted {t} : T.txs[t]? = some (some none) → Does sci T (.abort t) T .none
  | move {t x} : T.txs[t]? = some (some x) → Does sci T (.move t) { T with txs := T.txs.set t (some none) ++ [some x] } .none
  | assign {s t x} : s ≠ t → T.txs[s]? = some (some none) → T.txs[t]? = some (some x) →
      Does sci T (.assign s t) { T with txs := (T.txs.set s (some x)).set t (some none) } .none
  | destroy {t} : T.txs[t]? = some (some none) → Does sci T (.destroy t) { T with txs := T.txs.set t none } .none

/-- A program according to the descriptions. -/
inductive AllDoes (sci : Str → Option Str) : Told → List LabOp → Told → List LRes → Prop
  | nil {T} : AllDoes sci T [] T []
  | cons {T o T' r os T'' rs} : Does sci T o T' r → AllDoes sci T' os T'' rs → AllDoes sci T (o :: os) T'' (r :: rs)

/-- The models are as told, and so are the transactions. -/
def Fits (L : Lab) (T : Told) : Prop := Matches L.desk T.models ∧ L.txs.map (Option.map CTx.copy) = T.txs

end Verif.Lab

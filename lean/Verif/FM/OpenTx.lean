import Verif.FM.Transaction
/-!
# Several modify transactions on one model

Models the life of `FeatureModelModifyTransaction` objects (/repo/include/vara/Feature/FeatureModelTransaction.h):
opening, the defaulted moves, calls, destructors, and the end of the model they refer to.  Copy transactions have a model
of their own (see `FModel.copyTransaction`) and are left out here.
-/

namespace Verif.OpenTx

/-- The model, unless it has been deleted, and the transaction objects by the name of their variable. -/
structure World where
  model : Option FModel
  txs : Nat → Option Tx

/-- What a program does with transactions. -/
inductive TCall
  /-- `auto K = FeatureModelModifyTransaction::openTransaction(FM)` -/
  | opens (k : Nat)
  /-- a method of the object, or its destructor -/
  | on (k : Nat) (c : TxCall)
  /-- `FeatureModelModifyTransaction N(std::move(K))` -/
  | move (n k : Nat)
  /-- `J = std::move(K)` -/
  | assign (j k : Nat)
  /-- the model is deleted -/
  | delete
  deriving DecidableEq, Repr

/-- Another value for one variable. -/
def set (f : Nat → Option Tx) (k : Nat) (t : Option Tx) : Nat → Option Tx := fun i => if i = k then t else f i

/-- The modifications that assert that the transaction still has its model (FeatureModelTransaction.h:1012, 1054, 1062, 1070,
    1078, 1087). -/
def asserting : Op → Bool
  | .addFeature _ _ => true
  | .setName _ => true
  | .setCommit _ => true
  | .setPath _ => true
  | .setRoot _ => true
  | .addChild _ _ => true
  | _ => false

/-- A call on a transaction whose model may be gone: `FM` is then a dangling pointer, which only committing follows
    (FeatureModelTransaction.h:978-997, 63-76). `none` = undefined. -/
def callTx (E : Env) (m : Option FModel) (t : Tx) : TxCall → Option (Option FModel × Tx × TxRes)
  | .op o => if E.asserts && !t.opened && asserting o then none else some (m, { t with ops := t.ops ++ [o] }, .none)
  | .abort => some (m, { t with opened := false }, .none)
  | .commit =>
    match m with
    | some m => (m.txStep E t .commit).map fun r => (some r.1, r.2)
    | none => if t.opened then none else some (none, t, .err .aborted)
  | .destroy =>
    match m with
    | some m => (m.txStep E t .destroy).map fun r => (some r.1, r.2)
    | none => if t.opened then none else some (none, t, .none)

/-- `openTransaction` (FeatureModelTransaction.h:47-51) asserts that the model is consistent. -/
def openable (E : Env) : Option FModel → Bool
  | none => false
  | some m => !E.asserts || decide (m.consistent E = some true)

/-- A transaction that has been moved from (FeatureModelTransaction.h:60-62, the defaulted moves, and the members at
    :1094-1097): the vector of modifications is empty, `Continue` and the pointer `FM` are left as they were. -/
def movedFrom (t : Tx) : Tx := { t with ops := [] }

/-- One step; `none` is undefined behaviour, which includes using an object that does not exist and moving an object to itself.  -/
def step (E : Env) (w : World) : TCall → Option (World × TxRes)
  | .opens k =>
    match w.txs k with
    | some _ => none
    | none => if openable E w.model then some ({ w with txs := set w.txs k (some ⟨true, []⟩) }, .none) else none
  | .on k c =>
    match w.txs k with
    | none => none
    | some t => (callTx E w.model t c).map fun r =>
        ({ model := r.1, txs := set w.txs k (if c = .destroy then none else some r.2.1) }, r.2.2)
  | .move n k =>
    match w.txs n, w.txs k with
    | none, some t => some ({ w with txs := set (set w.txs n (some t)) k (some (movedFrom t)) }, .none)
    | _, _ => none
  | .assign j k =>
    if j = k then none
    else
      match w.txs j, w.txs k with
      | some _, some t => some ({ w with txs := set (set w.txs j (some t)) k (some (movedFrom t)) }, .none)
      | _, _ => none
  | .delete =>
    match w.model with
    | some _ => some ({ w with model := none }, .none)
    | none => none

/-- A program and the results of its calls. -/
def run (E : Env) : World → List TCall → Option (World × List TxRes)
  | w, [] => some (w, [])
  | w, c :: cs =>
    match step E w c with
    | none => none
    | some (w, r) => (run E w cs).map fun x => (x.1, r :: x.2)

/-- No transactions yet. -/
def start (m : FModel) : World := ⟨some m, fun _ => none⟩

/-! ## What is expected, in terms of the history only -/

/-- What was recorded on the transaction in the variable since it was last opened; the history has its newest call first. -/
def recorded (k : Nat) : List TCall → List Op
  | [] => []
  | .on j (.op o) :: past => if j = k then recorded k past ++ [o] else recorded k past
  | .opens j :: past => if j = k then [] else recorded k past
  | _ :: past => recorded k past

/-- Has it been committed or aborted since? -/
def ended (k : Nat) : List TCall → Bool
  | [] => false
  | .on j .commit :: past => decide (j = k) || ended k past
  | .on j .abort :: past => decide (j = k) || ended k past
  | .opens j :: past => if j = k then false else ended k past
  | _ :: past => ended k past

/-- Is there a transaction in the variable? -/
def there (k : Nat) : List TCall → Bool
  | [] => false
  | .on j .destroy :: past => if j = k then false else there k past
  | .opens j :: past => decide (j = k) || there k past
  | _ :: past => there k past

/-- The results of modifications that are executed at once: the model after them and what is reported. -/
inductive Applied (E : Env) (m : FModel) (ops : List Op) : FModel → TxRes → Prop
  | ok {m'} : m.commitOps E ops = .ok m' → Applied E m ops m' .ok
  | err {e m'} : m.commitOps E ops = .err e m' → Applied E m ops m' (.err e)

/-- What one call has to do to the model and to answer, given what happened before; transactions are not moved and the model is
    not deleted. -/
inductive Does (E : Env) (past : List TCall) : FModel → TCall → FModel → TxRes → Prop
  | opens {m k} : there k past = false → (E.asserts = true → m.consistent E = some true) → Does E past m (.opens k) m .none
  | records {m k o} : there k past = true → (E.asserts = true → asserting o = true → ended k past = false) →
      Does E past m (.on k (.op o)) m .none
  | aborts {m k} : there k past = true → Does E past m (.on k .abort) m .none
  | commits {m k m' r} : there k past = true → ended k past = false → Applied E m (recorded k past) m' r →
      Does E past m (.on k .commit) m' r
  | again {m k} : there k past = true → ended k past = true → Does E past m (.on k .commit) m (.err .aborted)
  | destroyed {m k m' r} : there k past = true → ended k past = false → Applied E m (recorded k past) m' r →
      Does E past m (.on k .destroy) m' .none
  | gone {m k} : there k past = true → ended k past = true → Does E past m (.on k .destroy) m .none

/-- A whole program. -/
inductive AllDo (E : Env) : List TCall → FModel → List TCall → FModel → List TxRes → Prop
  | nil {past m} : AllDo E past m [] m []
  | cons {past m c m' r cs m'' rs} : Does E past m c m' r → AllDo E (c :: past) m' cs m'' rs → AllDo E past m (c :: cs) m'' (r :: rs)

/-- The program opens, uses and destroys transactions only. -/
def Plain (cs : List TCall) : Prop := ∀ c ∈ cs, (∃ k, c = .opens k) ∨ ∃ k d, c = .on k d

/-- The call is about this variable. -/
def TCall.about (k : Nat) : TCall → Bool
  | .opens j => decide (j = k)
  | .on j _ => decide (j = k)
  | .move a b => decide (a = k) || decide (b = k)
  | .assign a b => decide (a = k) || decide (b = k)
  | .delete => false

/-- Use the variable `k` wherever the program uses `n`. -/
def TCall.rename (n k : Nat) : TCall → TCall
  | .opens j => .opens (if j = n then k else j)
  | .on j c => .on (if j = n then k else j) c
  | .move a b => .move (if a = n then k else a) (if b = n then k else b)
  | .assign a b => .assign (if a = n then k else a) (if b = n then k else b)
  | .delete => .delete

end Verif.OpenTx

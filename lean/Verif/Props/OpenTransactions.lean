import Verif.FM.OpenTx
import Verif.FM.Consistent
import Verif.FM.Effects
import Verif.FM.Examples
import Verif.Props.FeatureTree
import Verif.FM.BuildSteps
/-!
# Property C96: transactions that are open at the same time, and moved ones
-/

namespace Verif.Props
open Spec OpenTx

/-- The objects are as the history says. -/
def AsTold (past : List TCall) (w : World) : Prop :=
  ∀ k, w.txs k = if there k past then some ⟨!ended k past, recorded k past⟩ else none

theorem applied_iff {E : Env} {m : FModel} {t : Tx} (ht : t.opened = true) {m' : FModel} {t' : Tx} {r : TxRes} :
    m.txCommit E t = some (m', t', r) ↔ Applied E m t.ops m' r ∧ t' = { t with opened := false } := by
  unfold FModel.txCommit
  rw [if_pos ht]
  constructor
  · intro h
    cases hc : m.commitOps E t.ops with
    | ok n => rw [hc] at h; simp only [Option.some.injEq, Prod.mk.injEq] at h; obtain ⟨rfl, rfl, rfl⟩ := h; exact ⟨.ok hc, rfl⟩
    | err e n => rw [hc] at h; simp only [Option.some.injEq, Prod.mk.injEq] at h; obtain ⟨rfl, rfl, rfl⟩ := h; exact ⟨.err hc, rfl⟩
    | ub => rw [hc] at h; cases h
  · rintro ⟨h, rfl⟩
    cases h with
    | ok h => rw [h]
    | err h => rw [h]

/-- One call. -/
theorem step_does {E : Env} {past : List TCall} {m : FModel} {f : Nat → Option Tx} (h : AsTold past ⟨some m, f⟩) {c : TCall}
    (hc : (∃ k, c = .opens k) ∨ ∃ k d, c = .on k d) {m' : FModel} {r : TxRes} :
    ((∃ f', step E ⟨some m, f⟩ c = some (⟨some m', f'⟩, r)) → Does E past m c m' r) ∧
      (Does E past m c m' r → ∃ f', step E ⟨some m, f⟩ c = some (⟨some m', f'⟩, r) ∧ AsTold (c :: past) ⟨some m', f'⟩) := by
  rcases hc with ⟨k, rfl⟩ | ⟨k, d, rfl⟩
  · have hk : f k = _ := h k
    cases ht : there k past with
    | true =>
      rw [ht] at hk
      constructor
      · rintro ⟨f', h1⟩
        simp [step, hk] at h1
      · intro h1; cases h1 with
        | opens h2 => rw [ht] at h2; cases h2
    | false =>
      rw [ht] at hk
      simp only [Bool.false_eq_true, if_false] at hk
      constructor
      · rintro ⟨f', h1⟩
        simp only [step, hk] at h1
        by_cases ho : openable E (some m)
        · rw [if_pos ho] at h1
          simp only [Option.some.injEq, Prod.mk.injEq, World.mk.injEq] at h1
          obtain ⟨⟨rfl, _⟩, rfl⟩ := h1
          refine .opens ht ?_
          intro ha
          simpa [openable, ha] using ho
        · rw [if_neg ho] at h1; cases h1
      · intro h1; cases h1 with
        | opens h2 h3 =>
          refine ⟨OpenTx.set f k (some ⟨true, []⟩), ?_, ?_⟩
          · simp only [step, hk]
            rw [if_pos]
            unfold openable
            cases ha : E.asserts
            · rfl
            · simp [h3 ha]
          · intro i
            have hi : f i = _ := h i
            by_cases e : i = k
            · subst e; simp [OpenTx.set, there, ended, recorded]
            · have e' : ¬ k = i := fun h => e h.symm
              simp [OpenTx.set, there, ended, recorded, e, e', hi]
  · have hk : f k = _ := h k
    cases ht : there k past with
    | false =>
      rw [ht] at hk
      constructor
      · rintro ⟨f', h1⟩
        simp [step, hk] at h1
      · intro h1; cases h1 <;> simp_all
    | true =>
      rw [ht] at hk
      simp only [if_true] at hk
      have other : ∀ {x : Option Tx} (i : Nat), i ≠ k → OpenTx.set f k x i = f i := by
        intro x i e; simp [OpenTx.set, e]
      have same : ∀ {x : Option Tx}, OpenTx.set f k x k = x := by intro x; simp [OpenTx.set]
      cases d with
      | op o =>
        have told : AsTold (.on k (.op o) :: past) ⟨some m, OpenTx.set f k (some ⟨!ended k past, recorded k past ++ [o]⟩)⟩ := by
          intro i
          have hi : f i = _ := h i
          by_cases e : i = k
          · subst e; simp [same, there, ended, recorded, ht]
          · have e' : ¬ k = i := fun h => e h.symm
            simp [other i e, there, ended, recorded, e', hi]
        constructor
        · rintro ⟨f', h1⟩
          simp only [step, hk, callTx] at h1
          by_cases ha : (E.asserts && !(!ended k past) && asserting o) = true
          · rw [if_pos ha] at h1; cases h1
          · rw [if_neg ha] at h1
            simp only [Option.map_some, Option.some.injEq, Prod.mk.injEq, World.mk.injEq] at h1
            obtain ⟨⟨rfl, _⟩, rfl⟩ := h1
            refine .records ht ?_
            intro h2 h3
            simpa [h2, h3] using ha
        · intro h1; cases h1 with
          | records _ h2 =>
            refine ⟨_, ?_, told⟩
            simp only [step, hk, callTx]
            rw [if_neg]
            · rfl
            · intro h3
              simp only [Bool.and_eq_true, Bool.not_not] at h3
              rw [h2 h3.1.1 h3.2] at h3
              exact absurd h3.1.2 (by decide)
      | abort =>
        constructor
        · rintro ⟨f', h1⟩
          simp only [step, hk, callTx, Option.map_some, Option.some.injEq, Prod.mk.injEq, World.mk.injEq] at h1
          obtain ⟨⟨rfl, _⟩, rfl⟩ := h1
          exact .aborts ht
        · intro h1; cases h1 with
          | aborts _ =>
            refine ⟨_, by simp only [step, hk, callTx, Option.map_some]; rfl, ?_⟩
            intro i
            have hi : f i = _ := h i
            by_cases e : i = k
            · subst e; simp [same, there, ended, recorded, ht]
            · have e' : ¬ k = i := fun h => e h.symm
              simp [other i e, there, ended, recorded, e', hi]
      | commit =>
        have told : ∀ n, AsTold (.on k .commit :: past) ⟨n, OpenTx.set f k (some ⟨false, recorded k past⟩)⟩ := by
          intro n i
          have hi : f i = _ := h i
          by_cases e : i = k
          · subst e; simp [same, there, ended, recorded, ht]
          · have e' : ¬ k = i := fun h => e h.symm
            simp [other i e, there, ended, recorded, e', hi]
        cases hn : ended k past with
        | true =>
          rw [hn] at hk
          constructor
          · rintro ⟨f', h1⟩
            simp only [step, hk, callTx, FModel.txStep, FModel.txCommit, Bool.not_true, Bool.false_eq_true, if_false,
              Option.map_some, Option.some.injEq, Prod.mk.injEq, World.mk.injEq] at h1
            obtain ⟨⟨rfl, _⟩, rfl⟩ := h1
            exact .again ht hn
          · intro h1; cases h1 with
            | commits _ h2 => rw [hn] at h2; cases h2
            | again _ _ =>
              refine ⟨_, ?_, told _⟩
              simp [step, hk, callTx, FModel.txStep, FModel.txCommit]
        | false =>
          rw [hn] at hk
          constructor
          · rintro ⟨f', h1⟩
            simp only [step, hk, callTx, FModel.txStep] at h1
            cases hx : m.txCommit E ⟨!false, recorded k past⟩ with
            | none => rw [hx] at h1; cases h1
            | some x =>
              obtain ⟨n, t', r'⟩ := x
              rw [hx] at h1
              simp only [Option.map_some, Option.some.injEq, Prod.mk.injEq, World.mk.injEq] at h1
              obtain ⟨⟨rfl, _⟩, rfl⟩ := h1
              exact .commits ht hn ((applied_iff rfl).1 hx).1
          · intro h1; cases h1 with
            | again _ h2 => rw [hn] at h2; cases h2
            | commits _ _ h2 =>
              refine ⟨_, ?_, told _⟩
              have hx : m.txCommit E ⟨!false, recorded k past⟩ = _ := (applied_iff rfl).2 ⟨h2, rfl⟩
              simp only [step, hk, callTx, FModel.txStep]
              rw [hx]
              simp
      | destroy =>
        have told : ∀ n, AsTold (.on k .destroy :: past) ⟨n, OpenTx.set f k none⟩ := by
          intro n i
          have hi : f i = _ := h i
          by_cases e : i = k
          · subst e; simp [same, there]
          · have e' : ¬ k = i := fun h => e h.symm
            simp [other i e, there, ended, recorded, e', hi]
        cases hn : ended k past with
        | true =>
          rw [hn] at hk
          constructor
          · rintro ⟨f', h1⟩
            simp only [step, hk, callTx, FModel.txStep, Bool.not_true, Bool.false_eq_true, if_false,
              Option.map_some, Option.some.injEq, Prod.mk.injEq, World.mk.injEq] at h1
            obtain ⟨⟨rfl, _⟩, rfl⟩ := h1
            exact .gone ht hn
          · intro h1; cases h1 with
            | destroyed _ h2 => rw [hn] at h2; cases h2
            | gone _ _ =>
              refine ⟨_, ?_, told _⟩
              simp [step, hk, callTx, FModel.txStep]
        | false =>
          rw [hn] at hk
          constructor
          · rintro ⟨f', h1⟩
            simp only [step, hk, callTx, FModel.txStep, Bool.not_false, if_true] at h1
            cases hx : m.txCommit E ⟨true, recorded k past⟩ with
            | none => rw [hx] at h1; cases h1
            | some x =>
              obtain ⟨n, t', r'⟩ := x
              rw [hx] at h1
              simp only [Option.map_some, Option.some.injEq, Prod.mk.injEq, World.mk.injEq] at h1
              obtain ⟨⟨rfl, _⟩, rfl⟩ := h1
              exact .destroyed ht hn ((applied_iff rfl).1 hx).1
          · intro h1; cases h1 with
            | gone _ h2 => rw [hn] at h2; cases h2
            | destroyed _ _ h2 =>
              refine ⟨_, ?_, told _⟩
              have hx : m.txCommit E ⟨true, recorded k past⟩ = _ := (applied_iff rfl).2 ⟨h2, rfl⟩
              simp only [step, hk, callTx, FModel.txStep, Bool.not_false, if_true]
              rw [hx]
              simp

/-- The model is there as long as it is not deleted. -/
theorem step_model {E : Env} {m : FModel} {f : Nat → Option Tx} {c : TCall} (hc : (∃ k, c = .opens k) ∨ ∃ k d, c = .on k d)
    {w : World} {r : TxRes} (h : step E ⟨some m, f⟩ c = some (w, r)) : ∃ m' f', w = ⟨some m', f'⟩ := by
  rcases hc with ⟨k, rfl⟩ | ⟨k, d, rfl⟩
  · unfold step at h
    cases hk : f k with
    | some t => simp [hk] at h
    | none =>
      simp only [hk] at h
      by_cases ho : openable E (some m)
      · rw [if_pos ho] at h; cases h; exact ⟨_, _, rfl⟩
      · rw [if_neg ho] at h; cases h
  · unfold step at h
    cases hk : f k with
    | none => simp [hk] at h
    | some t =>
      simp only [hk] at h
      have : ∀ x, callTx E (some m) t d = some x → ∃ m', x.1 = some m' := by
        intro x hx
        cases d with
        | op o =>
          unfold callTx at hx
          by_cases ha : (E.asserts && !t.opened && asserting o) = true
          · simp [ha] at hx
          · simp only [ha, if_false, Bool.false_eq_true] at hx; cases hx; exact ⟨_, rfl⟩
        | abort => cases hx; exact ⟨_, rfl⟩
        | commit =>
          simp only [callTx, Option.map_eq_some_iff] at hx
          obtain ⟨y, _, rfl⟩ := hx; exact ⟨_, rfl⟩
        | destroy =>
          simp only [callTx, Option.map_eq_some_iff] at hx
          obtain ⟨y, _, rfl⟩ := hx; exact ⟨_, rfl⟩
      rw [Option.map_eq_some_iff] at h
      obtain ⟨x, hx, he⟩ := h
      obtain ⟨m', hm⟩ := this x hx
      cases he
      exact ⟨m', _, by rw [hm]⟩

theorem run_does {E : Env} : ∀ {cs : List TCall}, Plain cs → ∀ {past m f m' rs}, AsTold past ⟨some m, f⟩ →
    ((∃ w, run E ⟨some m, f⟩ cs = some (w, rs) ∧ w.model = some m') ↔ AllDo E past m cs m' rs)
  | [], _, past, m, f, m', rs, h => by
    constructor
    · rintro ⟨w, h1, h2⟩
      simp only [run, Option.some.injEq, Prod.mk.injEq] at h1
      obtain ⟨rfl, rfl⟩ := h1
      cases h2
      exact .nil
    · intro h1; cases h1; exact ⟨_, rfl, rfl⟩
  | c :: cs, hp, past, m, f, m', rs, h => by
    have hc := hp c List.mem_cons_self
    have hp' : Plain cs := fun d hd => hp d (List.mem_cons_of_mem _ hd)
    constructor
    · rintro ⟨w, h1, h2⟩
      unfold run at h1
      cases hs : step E ⟨some m, f⟩ c with
      | none => rw [hs] at h1; cases h1
      | some x =>
        obtain ⟨w1, r⟩ := x
        rw [hs] at h1
        simp only [Option.map_eq_some_iff] at h1
        obtain ⟨y, h3, h4⟩ := h1
        cases h4
        obtain ⟨m1, f1, rfl⟩ := step_model hc hs
        have hd := (step_does h hc).1 ⟨f1, hs⟩
        obtain ⟨f2, h5, h6⟩ := (step_does h hc).2 hd
        rw [hs] at h5
        cases h5
        exact .cons hd ((run_does hp' h6).1 ⟨y.1, h3, h2⟩)
    · intro h1
      cases h1 with
      | cons h2 h3 =>
        obtain ⟨f1, h4, h5⟩ := (step_does h hc).2 h2
        obtain ⟨w, h6, h7⟩ := (run_does hp' h5).2 h3
        exact ⟨w, by simp only [run, h4, h6, Option.map_some], h7⟩

/-- Any number of transactions may be open at once, and their calls may be mixed in any way: the model after the program
    and the answers are those of executing, at each first commit or destruction of a transaction, what was recorded on
    that transaction before, on the model as it is then.  Nothing else changes the model; and the program is defined exactly
    if those executions are. -/
theorem C96_serial {E : Env} {m m' : FModel} {cs : List TCall} {rs : List TxRes} (hp : Plain cs) :
    (∃ w, run E (start m) cs = some (w, rs) ∧ w.model = some m') ↔ AllDo E [] m cs m' rs :=
  run_does hp (fun _ => rfl)

/-- Two transactions, recorded in turns, the second one committed first; the first one adds a child to what the second one adds. -/
example : (run (stdEnv true) (start chain) [.opens 0, .opens 1, .on 0 (.op (.addChild (.name c!"D") (.name c!"C"))),
      .on 1 (.op (.addFeature { name := c!"D", kind := .binary } none)), .on 0 (.op (.setName c!"N")), .on 1 .commit,
      .on 1 .commit, .on 0 .destroy]).map (fun x => (x.1.model.map fun m =>
        (m.name, (par m 3).toList ++ (par m 4).toList), x.2)) =
    some (some (c!"N", [4, 0]), [.none, .none, .none, .none, .none, .ok, .err .aborted, .none]) := by decide

/-! ## Moved transactions -/

/-- The variable that stands for `i` in the program without the move. -/
def stands (n k i : Nat) : Nat := if i = n then k else i

/-- The worlds of a program that has moved `k` to `n` and of the program that goes on with `k`. -/
structure Alike (n k : Nat) (x : Option Tx) (w1 w2 : World) : Prop where
  model : w1.model = w2.model
  txs : ∀ i, i ≠ k → w1.txs i = w2.txs (stands n k i)
  old : w1.txs k = x

theorem stands_inj {n k i j : Nat} (hi : i ≠ k) (hj : j ≠ k) : stands n k i = stands n k j ↔ i = j := by
  unfold stands
  by_cases h1 : i = n <;> by_cases h2 : j = n <;> simp [h1, h2] <;> omega

theorem Alike.set {n k : Nat} {x : Option Tx} {w1 w2 : World} (h : Alike n k x w1 w2) {j : Nat} (hj : j ≠ k)
    (m : Option FModel) (t : Option Tx) :
    Alike n k x ⟨m, OpenTx.set w1.txs j t⟩ ⟨m, OpenTx.set w2.txs (stands n k j) t⟩ where
  model := rfl
  txs := by
    intro i hi
    show (if i = j then t else w1.txs i) = (if stands n k i = stands n k j then t else w2.txs (stands n k i))
    rw [h.txs i hi]
    by_cases e : i = j
    · rw [if_pos e, if_pos ((stands_inj hi hj).2 e)]
    · rw [if_neg e, if_neg (fun e' => e ((stands_inj hi hj).1 e'))]
  old := by
    show (if k = j then t else w1.txs k) = x
    rw [if_neg (fun e => hj e.symm), h.old]

theorem alike_step {E : Env} {n k : Nat} {x : Option Tx} {w1 w2 : World} (h : Alike n k x w1 w2) {c : TCall}
    (hc : c.about k = false) {w2' : World} {r : TxRes} (hs : step E w2 (c.rename n k) = some (w2', r)) :
    ∃ w1', step E w1 c = some (w1', r) ∧ Alike n k x w1' w2' := by
  cases c with
  | opens j =>
    have hj : j ≠ k := by simpa [TCall.about] using hc
    have hs : step E w2 (.opens (stands n k j)) = some (w2', r) := hs
    simp only [step] at hs ⊢
    rw [h.txs j hj, h.model]
    cases hk : w2.txs (stands n k j) with
    | some t => simp [hk] at hs
    | none =>
      simp only [hk] at hs ⊢
      by_cases ho : openable E w2.model
      · rw [if_pos ho] at hs ⊢
        cases hs
        exact ⟨_, rfl, h.set hj _ _⟩
      · rw [if_neg ho] at hs; cases hs
  | on j d =>
    have hj : j ≠ k := by simpa [TCall.about] using hc
    have hs : step E w2 (.on (stands n k j) d) = some (w2', r) := hs
    simp only [step] at hs ⊢
    rw [h.txs j hj, h.model]
    cases hk : w2.txs (stands n k j) with
    | none => simp [hk] at hs
    | some t =>
      simp only [hk, Option.map_eq_some_iff] at hs ⊢
      obtain ⟨y, h1, h2⟩ := hs
      cases h2
      exact ⟨_, ⟨y, h1, rfl⟩, h.set hj _ _⟩
  | move a b =>
    have hab : a ≠ k ∧ b ≠ k := by simpa [TCall.about] using hc
    have hs : step E w2 (.move (stands n k a) (stands n k b)) = some (w2', r) := hs
    simp only [step] at hs ⊢
    rw [h.txs a hab.1, h.txs b hab.2]
    cases ha : w2.txs (stands n k a) with
    | some t => simp [ha] at hs
    | none =>
      cases hb : w2.txs (stands n k b) with
      | none => simp [ha, hb] at hs
      | some t =>
        simp only [ha, hb, Option.some.injEq, Prod.mk.injEq] at hs ⊢
        obtain ⟨rfl, rfl⟩ := hs
        have h1 := h.set hab.1 w1.model (some t)
        have h2 := h1.set hab.2 w1.model (some (movedFrom t))
        exact ⟨_, ⟨rfl, rfl⟩, by rw [← h.model]; exact h2⟩
  | assign a b =>
    have hab : a ≠ k ∧ b ≠ k := by simpa [TCall.about] using hc
    have hs : step E w2 (.assign (stands n k a) (stands n k b)) = some (w2', r) := hs
    simp only [step] at hs ⊢
    rw [h.txs a hab.1, h.txs b hab.2]
    by_cases e : a = b
    · rw [if_pos ((stands_inj hab.1 hab.2).2 e)] at hs; cases hs
    · rw [if_neg (fun e' => e ((stands_inj hab.1 hab.2).1 e'))] at hs
      rw [if_neg e]
      cases ha : w2.txs (stands n k a) with
      | none => simp [ha] at hs
      | some u =>
        cases hb : w2.txs (stands n k b) with
        | none => simp [ha, hb] at hs
        | some t =>
          simp only [ha, hb, Option.some.injEq, Prod.mk.injEq] at hs ⊢
          obtain ⟨rfl, rfl⟩ := hs
          have h1 := h.set hab.1 w1.model (some t)
          have h2 := h1.set hab.2 w1.model (some (movedFrom t))
          exact ⟨_, ⟨rfl, rfl⟩, by rw [← h.model]; exact h2⟩
  | delete =>
    have hs : step E w2 .delete = some (w2', r) := hs
    simp only [step] at hs ⊢
    rw [h.model]
    cases hm : w2.model with
    | none => simp [hm] at hs
    | some m =>
      simp only [hm, Option.some.injEq, Prod.mk.injEq] at hs ⊢
      obtain ⟨rfl, rfl⟩ := hs
      exact ⟨_, ⟨rfl, rfl⟩, ⟨rfl, h.txs, h.old⟩⟩

theorem alike_run {E : Env} {n k : Nat} {x : Option Tx} : ∀ {cs : List TCall}, (∀ c ∈ cs, c.about k = false) →
    ∀ {w1 w2 : World}, Alike n k x w1 w2 → ∀ {w2' : World} {rs : List TxRes},
    run E w2 (cs.map (TCall.rename n k)) = some (w2', rs) →
    ∃ w1', run E w1 cs = some (w1', rs) ∧ Alike n k x w1' w2'
  | [], _, w1, w2, h, w2', rs, hr => by
    simp only [List.map_nil, run, Option.some.injEq, Prod.mk.injEq] at hr
    obtain ⟨rfl, rfl⟩ := hr
    exact ⟨w1, rfl, h⟩
  | c :: cs, hc, w1, w2, h, w2', rs, hr => by
    simp only [List.map_cons, run] at hr
    cases hs : step E w2 (c.rename n k) with
    | none => rw [hs] at hr; cases hr
    | some y =>
      obtain ⟨v2, r⟩ := y
      rw [hs] at hr
      simp only [Option.map_eq_some_iff] at hr
      obtain ⟨z, h1, h2⟩ := hr
      cases h2
      obtain ⟨v1, h3, h4⟩ := alike_step h (hc c List.mem_cons_self) hs
      obtain ⟨w1', h5, h6⟩ := alike_run (fun d hd => hc d (List.mem_cons_of_mem _ hd)) h4 h1
      exact ⟨w1', by simp only [run, h3, h5, Option.map_some], h6⟩

theorem run_append {E : Env} : ∀ (as bs : List TCall) (w : World),
    run E w (as ++ bs) = match run E w as with
      | none => none
      | some (w', rs) => (run E w' bs).map fun x => (x.1, rs ++ x.2)
  | [], bs, w => by simp [run]
  | a :: as, bs, w => by
    simp only [List.cons_append, run]
    cases step E w a with
    | none => rfl
    | some y =>
      simp only
      rw [run_append as bs y.1]
      cases run E y.1 as with
      | none => rfl
      | some z => cases hb : run E z.1 bs <;> simp [hb]

/-- Destroying a transaction that has been moved from changes nothing, if the model can be checked. -/
theorem destroy_moved {E : Env} {w : World} {k : Nat} {t : Tx} (hk : w.txs k = some (movedFrom t))
    (hm : t.opened = true → ∃ m, w.model = some m ∧ m.consistent E ≠ none) :
    step E w (.on k .destroy) = some (⟨w.model, OpenTx.set w.txs k none⟩, .none) := by
  unfold step
  simp only [hk, callTx, if_true]
  cases ho : t.opened with
  | false =>
    cases hw : w.model with
    | none => simp [movedFrom, ho]
    | some m => simp [movedFrom, ho, FModel.txStep]
  | true =>
    obtain ⟨m, h1, h2⟩ := hm ho
    rw [h1]
    simp only [movedFrom, FModel.txStep, FModel.txCommit, ho, if_true, FModel.commitOps, FModel.outFold]
    cases hc : m.consistent E with
    | none => exact absurd hc h2
    | some b => cases b <;> rfl

/-- Moving a transaction to a new variable and going on with that makes no difference to the model or to any answer, wherever
    the variable moved from is destroyed; provided that the model still exists there if the transaction was open, and can be checked. -/
theorem C96_move_partial {E : Env} {w : World} {n k : Nat} {t : Tx} (h1 : w.txs n = none) (h2 : w.txs k = some t)
    {as bs : List TCall} (ha : ∀ c ∈ as, c.about k = false) (hb : ∀ c ∈ bs, c.about k = false) {v u : World} {rs ss : List TxRes}
    (hr : run E w (as.map (TCall.rename n k)) = some (v, rs)) (hs : run E v (bs.map (TCall.rename n k)) = some (u, ss))
    (hm : t.opened = true → ∃ m, v.model = some m ∧ m.consistent E ≠ none) :
    ∃ u', run E w (.move n k :: as ++ .on k .destroy :: bs) = some (u', .none :: rs ++ .none :: ss) ∧ u'.model = u.model := by
  have start : Alike n k (some (movedFrom t)) ⟨w.model, OpenTx.set (OpenTx.set w.txs n (some t)) k (some (movedFrom t))⟩ w := by
    refine ⟨rfl, ?_, by simp [OpenTx.set]⟩
    intro i hi
    by_cases e : i = n
    · subst e; simp [OpenTx.set, stands, hi, h2]
    · simp [OpenTx.set, stands, hi, e]
  obtain ⟨v', h3, h4⟩ := alike_run ha start hr
  have h5 := destroy_moved (E := E) (w := v') h4.old (by rw [h4.model]; exact hm)
  have h6 : Alike n k none ⟨v'.model, OpenTx.set v'.txs k none⟩ v := by
    refine ⟨h4.model, ?_, by simp [OpenTx.set]⟩
    intro i hi
    rw [← h4.txs i hi]
    simp [OpenTx.set, hi]
  obtain ⟨u', h7, h8⟩ := alike_run hb h6 hs
  refine ⟨u', ?_, h8.model⟩
  rw [List.cons_append, run]
  simp only [step, h1, h2]
  rw [run_append]
  simp only [h3, run, h5, h7, Option.map_some]
  simp

/-- The hypotheses are met: `chain` with an open transaction that has something recorded is moved to variable 1, which records more
    and commits; the destructor of variable 0 runs in between. -/
example : (run (stdEnv true) (start chain) [.opens 0, .on 0 (.op (.setName c!"N")), .move 1 0, .on 1 (.op (.setCommit c!"c")),
      .on 0 .destroy, .on 1 .commit, .on 1 .destroy]).map (fun x => (x.1.model.map fun m => (m.name, m.commit), x.2)) =
    some (some (c!"N", c!"c"), [.none, .none, .none, .none, .none, .ok, .none]) ∧
    (run (stdEnv true) (start chain) ([.opens 0, .on 0 (.op (.setName c!"N"))] ++
      ([TCall.on 1 (.op (.setCommit c!"c")), .on 1 .commit, .on 1 .destroy].map (TCall.rename 1 0)))).map
        (fun x => (x.1.model.map fun m => (m.name, m.commit), x.2)) =
      some (some (c!"N", c!"c"), [.none, .none, .none, .ok, .none]) := by decide

/-- From a property of the result to the result. -/
theorem of_outcome {α β : Type} {x : Option (World × α)} {g : World × α → β} {b : β} (h : x.map g = some b) :
    ∃ w r, x = some (w, r) ∧ g (w, r) = b := by
  rw [Option.map_eq_some_iff] at h
  obtain ⟨y, h1, h2⟩ := h
  exact ⟨y.1, y.2, h1, h2⟩

/-- The claim is false: a transaction that has been moved from is not closed.  In every state it takes further modifications and
    commits them as if nothing had happened. -/
theorem C96_moved_still_open {E : Env} {m m' : FModel} {f : Nat → Option Tx} {n k : Nat} {qs : List Op} (h1 : f n = none)
    (h2 : f k = some ⟨true, qs⟩) {o : Op} (hc : m.commitOps E [o] = .ok m') :
    ∃ w, run E ⟨some m, f⟩ [.move n k, .on k (.op o), .on k .commit] = some (w, [.none, .none, .ok]) ∧ w.model = some m' := by
  have key : (run E ⟨some m, f⟩ [.move n k, .on k (.op o), .on k .commit]).map (fun x => (x.1.model, x.2)) =
      some (some m', [.none, .none, .ok]) := by
    simp [run, step, h1, h2, OpenTx.set, callTx, movedFrom, FModel.txStep, FModel.txCommit, hc]
  obtain ⟨w, r, h3, h4⟩ := of_outcome key
  simp only [Prod.mk.injEq] at h4
  obtain ⟨h5, rfl⟩ := h4
  exact ⟨w, h3, h5⟩

/-- The claim is false: assigning to a transaction throws away what was recorded on it, whatever that was, although
    its destructor would have executed it. -/
theorem C96_assign_loses {E : Env} {m m' : FModel} {f : Nat → Option Tx} {j k : Nat} (hjk : j ≠ k) {qs : List Op} {t : Tx}
    (h1 : f j = some ⟨true, qs⟩) (h2 : f k = some t) (hc : m.commitOps E qs = .ok m') :
    (∃ w, run E ⟨some m, f⟩ [.assign j k] = some (w, [.none]) ∧ w.model = some m ∧ w.txs j = some t) ∧
    (∃ w, run E ⟨some m, f⟩ [.on j .destroy, .move j k] = some (w, [.none, .none]) ∧ w.model = some m' ∧ w.txs j = some t) := by
  have hkj : ¬ k = j := fun h => hjk h.symm
  have a : (run E ⟨some m, f⟩ [.assign j k]).map (fun x => (x.1.model, x.1.txs j, x.2)) = some (some m, some t, [.none]) := by
    simp [run, step, h1, h2, hjk, OpenTx.set]
  have b : (run E ⟨some m, f⟩ [.on j .destroy, .move j k]).map (fun x => (x.1.model, x.1.txs j, x.2)) =
      some (some m', some t, [.none, .none]) := by
    simp [run, step, h1, h2, hjk, hkj, OpenTx.set, callTx, FModel.txStep, FModel.txCommit, hc]
  obtain ⟨w, r, h3, h4⟩ := of_outcome a
  obtain ⟨w', r', h5, h6⟩ := of_outcome b
  simp only [Prod.mk.injEq] at h4 h6
  obtain ⟨h7, h8, rfl⟩ := h4
  obtain ⟨h9, h10, rfl⟩ := h6
  exact ⟨⟨w, h3, h7, h8⟩, ⟨w', h5, h9, h10⟩⟩

/-- The claim is false: the variable moved from must not outlive the model, even if the transaction was committed by then.  The same
    program without the move is defined. -/
theorem C96_moved_outlives {E : Env} {m m' : FModel} {f : Nat → Option Tx} {n k : Nat} {qs : List Op} (h1 : f n = none)
    (h2 : f k = some ⟨true, qs⟩) (hc : m.commitOps E qs = .ok m') :
    run E ⟨some m, f⟩ [.move n k, .on n .commit, .on n .destroy, .delete, .on k .destroy] = none ∧
    ∃ w, run E ⟨some m, f⟩ [.on k .commit, .on k .destroy, .delete] = some (w, [.ok, .none, .none]) := by
  have hnk : ¬ n = k := by intro h; rw [h, h2] at h1; cases h1
  have hkn : ¬ k = n := fun h => hnk h.symm
  constructor
  · simp [run, step, h1, h2, OpenTx.set, hnk, hkn, callTx, FModel.txStep, FModel.txCommit, hc, movedFrom]
  · have key : (run E ⟨some m, f⟩ [.on k .commit, .on k .destroy, .delete]).map (fun x => x.2) = some [.ok, .none, .none] := by
      simp [run, step, h2, OpenTx.set, callTx, FModel.txStep, FModel.txCommit, hc]
    obtain ⟨w, r, h3, h4⟩ := of_outcome key
    cases h4
    exact ⟨w, h3⟩

/-- Two transactions remove the same leaf, the first one commits: if the second one refers to the feature by name, it reports that
    the feature is missing and nothing happens; if it refers to it by pointer, its commit is undefined. -/
theorem C96_removed_by_other {E : Env} {m : FModel} (w : WF m) {i : Id} {n : Str} (hi : (n, i) ∈ m.features) (hr : m.root ≠ some i)
    (he : edg m i = []) :
    (∃ m' v, run E (start m) [.opens 0, .opens 1, .on 0 (.op (.removeFeature (.name n) false)),
        .on 1 (.op (.removeFeature (.name n) false)), .on 0 .commit, .on 1 .commit] =
          some (v, [.none, .none, .none, .none, .ok, .err .missingFeature]) ∧ v.model = some m' ∧
        Without m m' (fun j => Owned m j ∧ Below m i j)) ∧
    run E (start m) [.opens 0, .opens 1, .on 0 (.op (.removeFeature (.name n) false)),
        .on 1 (.op (.removeFeature (.ptr (some i)) false)), .on 0 .commit, .on 1 .commit] = none := by
  have ki : Known m i := List.mem_map.2 ⟨(n, i), hi, rfl⟩
  have hres : m.resolve (.name n) = some i := by
    exact getFeature_mem w.names hi
  obtain ⟨m', h1, h2⟩ := C21_remove_leaf_partial w E hres ki hr (fun c hc => by
    obtain ⟨d, hd⟩ := via_of_rels hc
    rw [he] at hd; cases hd) (.inl he)
  have w' : WF m' := by
    refine wf_of_without w h2 ?_ ?_
    · rintro j c ho ⟨_, hb⟩ hc
      obtain ⟨h3, h4⟩ := w.edge_par j c ho hc
      exact ⟨h3, .step h4 hb⟩
    · rintro r hroot ⟨_, hb⟩
      cases hb with
      | refl => exact hr hroot
      | step hp _ => rw [w.root_par hroot] at hp; cases hp
  have hopen : openable E (some m) = true := by simp [openable, consistent_of_WF w E]
  have hc1 : m.commitOps E [.removeFeature (.name n) false] = .ok m' := by
    simp [FModel.commitOps, FModel.outFold, h1, consistent_of_WF w' E]
  have hmiss : ∀ j, (n, j) ∉ m'.features := by
    intro j hj
    have h3 := (h2.features.2 _).1 hj
    have : j = i := w.entry_unique h3.1 hi
    subst this
    exact h3.2 ⟨.inl ki, .refl⟩
  have hc2 : m'.commitOps E [.removeFeature (.name n) false] = .err .missingFeature m' := by
    simp [FModel.commitOps, FModel.outFold, C21_remove_missing m' E hmiss]
  have hc3 : m'.commitOps E [.removeFeature (.ptr (some i)) false] = .ub := by
    have hg : m'.heap i = none := h2.gone i ⟨.inl ki, .refl⟩
    have : m'.exec E (.removeFeature (.ptr (some i)) false) = .ub := by
      show m'.execRemoveFeature E (.ptr (some i)) false = _
      simp [FModel.execRemoveFeature, FModel.resolve, FModel.removeRec, FModel.children, FModel.childrenImpl, hg]
    simp [FModel.commitOps, FModel.outFold, this]
  constructor
  · have key : (run E (start m) [.opens 0, .opens 1, .on 0 (.op (.removeFeature (.name n) false)),
        .on 1 (.op (.removeFeature (.name n) false)), .on 0 .commit, .on 1 .commit]).map (fun x => (x.1.model, x.2)) =
          some (some m', [.none, .none, .none, .none, .ok, .err .missingFeature]) := by
      simp [run, step, start, hopen, OpenTx.set, callTx, FModel.txStep, FModel.txCommit, hc1, hc2]
    obtain ⟨v, r, h3, h4⟩ := of_outcome key
    simp only [Prod.mk.injEq] at h4
    obtain ⟨h5, rfl⟩ := h4
    exact ⟨m', v, h3, h5, h2⟩
  · simp [run, step, start, hopen, OpenTx.set, callTx, FModel.txStep, FModel.txCommit, hc1, hc3]

/-- After the model is gone, committing or destroying a transaction is undefined exactly if it is still open; one that was
    committed or aborted before answers as always. -/
theorem C96_model_gone (E : Env) {f : Nat → Option Tx} {k : Nat} {t : Tx} (ht : f k = some t) :
    (step E ⟨none, f⟩ (.on k .commit) = none ↔ t.opened = true) ∧ (step E ⟨none, f⟩ (.on k .destroy) = none ↔ t.opened = true) ∧
      (t.opened = false → (step E ⟨none, f⟩ (.on k .commit)).map Prod.snd = some (.err .aborted)) := by
  cases h : t.opened <;> simp [step, ht, callTx, h]

/-- Recording on a transaction that was committed or aborted: with assertions these modifications stop the program, all others
    are recorded in vain; without assertions all are. -/
theorem C96_recording_after_end (E : Env) {m : Option FModel} {f : Nat → Option Tx} {k : Nat} {t : Tx} (ht : f k = some t) (hc : t.opened = false)
    (o : Op) : step E ⟨m, f⟩ (.on k (.op o)) = none ↔ E.asserts = true ∧
      ((∃ a p, o = .addFeature a p) ∨ (∃ p c, o = .addChild p c) ∨ ∃ n, o = .setName n ∨ o = .setCommit n ∨ o = .setPath n ∨ o = .setRoot n) := by
  cases o <;> cases h : E.asserts <;> simp [step, ht, callTx, hc, h, asserting]

/-- Both apply to a transaction that was aborted and one that was not. -/
example : ∃ (f : Nat → Option Tx) (t t' : Tx), f 0 = some t ∧ t.opened = false ∧ f 1 = some t' ∧ t'.opened = true :=
  ⟨fun i => if i = 0 then some ⟨false, []⟩ else some ⟨true, []⟩, ⟨false, []⟩, ⟨true, []⟩, rfl, rfl, rfl, rfl⟩

end Verif.Props

import Verif.Props.PythonLifetimes

/-!
# One Python object for each part of a model

A call that returns a pointer for which there is a Python object gives that object as it is.  So there is never more than one
object alive for a part of a model, and asking again for a part in hand changes nothing: in particular what comes out of an
iterator does not keep the model alive if there was an object for it before.
-/

namespace Verif.Keep

/-- What a step does to the objects: nothing, a variable goes away, one not freed gets a variable, or one more is there, for
    something without an object. -/
theorem step_shape {s s' : Objs} {op : PyOp} (h : step s op = some s') :
    s' = s ∨ (∃ n, s' = hold false s n) ∨ (∃ n, n ∈ live s [] ∧ s' = hold true s n) ∨
    (∃ a, s' = a :: s ∧ (∀ j ∈ a.keeps, j ∈ live s []) ∧ ∀ p, a.what = .part p → registered s a.home p = none) := by
  have give_ok : ∀ k p ks, (∀ j ∈ ks, j ∈ live s []) → (∃ n, n ∈ live s [] ∧ give s k p ks = hold true s n) ∨
      (∃ a, give s k p ks = a :: s ∧ (∀ j ∈ a.keeps, j ∈ live s []) ∧ ∀ p, a.what = .part p → registered s a.home p = none) := by
    intro k p ks hks
    cases hr : registered s k p with
    | some i => exact .inl ⟨i, registered_live hr, by simp only [give, hr]⟩
    | none => exact .inr ⟨⟨k, .part p, ks, true⟩, by simp only [give, hr], hks, fun q hq => by cases hq; exact hr⟩
  have key : ∀ h f, call s h f = some s' →
      (∀ o s1, h ∈ live s [] → f o = some s1 → s1 = s ∨ (∃ k p ks, (∀ j ∈ ks, j ∈ live s []) ∧ s1 = give s k p ks) ∨
        ∃ k r ks, (∀ j ∈ ks, j ∈ live s []) ∧ s1 = giveIter s k r ks) →
      s' = s ∨ (∃ n, s' = hold false s n) ∨ (∃ n, n ∈ live s [] ∧ s' = hold true s n) ∨
        (∃ a, s' = a :: s ∧ (∀ j ∈ a.keeps, j ∈ live s []) ∧ ∀ p, a.what = .part p → registered s a.home p = none) := by
    intro h f hc hs
    rcases call_cases s h f with e | ⟨o, s1, h1, h2, h3, h4⟩
    · rw [e] at hc; cases hc; exact .inl rfl
    · rw [h4] at hc
      by_cases e : freed s o.home = true
      · rw [if_pos e] at hc; cases hc
      · rw [if_neg e] at hc; cases hc
        rcases hs o s' (live_held h1 h2) h3 with e | ⟨k, p, ks, hk, e⟩ | ⟨k, r, ks, hk, e⟩
        · exact .inl e
        · rw [e]; exact .inr (.inr (give_ok k p ks hk))
        · exact .inr (.inr (.inr ⟨⟨k, .iter r, ks, true⟩, e, hk, fun p hp => by cases hp⟩))
  have one : ∀ h, h ∈ live s [] → ∀ j ∈ [h], j ∈ live s [] := by
    intro h hl j hj; simp at hj; subst hj; exact hl
  have non : ∀ j ∈ ([] : List Nat), j ∈ live s [] := by simp
  cases op with
  | load => cases h; exact .inr (.inr (.inr ⟨_, rfl, by simp, fun p hp => by cases hp⟩))
  | drop i => cases h; exact .inr (.inl ⟨i, rfl⟩)
  | use i => exact key i (fun _ => some s) h fun o s1 _ e => by cases e; exact .inl rfl
  | next i p =>
    refine key i _ h ?_
    intro o s1 hl e
    cases hw : o.what with
    | model => simp [hw] at e
    | part p => simp [hw] at e
    | iter r =>
      simp only [hw] at e
      by_cases hp : r.gives p = true
      · rw [if_pos hp] at e; cases e; exact .inr (.inl ⟨_, _, _, one i hl, rfl⟩)
      · rw [if_neg hp] at e; cases e
  | getFeature i j =>
    refine key i _ h ?_
    intro o s1 hl e
    cases hw : o.what with
    | model => simp only [hw] at e; cases e; exact .inr (.inl ⟨_, _, _, non, rfl⟩)
    | part p => simp [hw] at e
    | iter r => simp [hw] at e
  | iterate i =>
    refine key i _ h ?_
    intro o s1 hl e
    cases hw : o.what with
    | model => simp only [hw] at e; cases e; exact .inr (.inr ⟨_, _, _, one i hl, rfl⟩)
    | part p => simp [hw] at e
    | iter r => simp [hw] at e
  | constraints i =>
    refine key i _ h ?_
    intro o s1 hl e
    cases hw : o.what with
    | model => simp only [hw] at e; cases e; exact .inr (.inr ⟨_, _, _, non, rfl⟩)
    | part p => simp [hw] at e
    | iter r => simp [hw] at e
  | inner i =>
    refine key i _ h ?_
    intro o s1 hl e
    cases hw : o.what with
    | model => simp [hw] at e
    | iter r => simp [hw] at e
    | part p =>
      cases p with
      | wrapper j => simp only [hw] at e; cases e; exact .inr (.inl ⟨_, _, _, one i hl, rfl⟩)
      | location i j => simp [hw] at e
      | node j => simp [hw] at e
      | constraint j => simp [hw] at e
  | children i =>
    refine key i _ h ?_
    intro o s1 hl e
    cases hw : o.what with
    | model => simp [hw] at e
    | iter r => simp [hw] at e
    | part p =>
      cases p with
      | node j => simp only [hw] at e; cases e; exact .inr (.inr ⟨_, _, _, one i hl, rfl⟩)
      | location i j => simp [hw] at e
      | wrapper j => simp [hw] at e
      | constraint j => simp [hw] at e
  | parent i j =>
    refine key i _ h ?_
    intro o s1 hl e
    cases hw : o.what with
    | model => simp [hw] at e
    | iter r => simp [hw] at e
    | part p =>
      cases p with
      | node j => simp only [hw] at e; cases e; exact .inr (.inl ⟨_, _, _, non, rfl⟩)
      | location i j => simp [hw] at e
      | wrapper j => simp [hw] at e
      | constraint j => simp [hw] at e
  | locations i =>
    refine key i _ h ?_
    intro o s1 hl e
    cases hw : o.what with
    | model => simp [hw] at e
    | iter r => simp [hw] at e
    | part p =>
      cases p with
      | node j => simp only [hw] at e; cases e; exact .inr (.inr ⟨_, _, _, non, rfl⟩)
      | location i j => simp [hw] at e
      | wrapper j => simp [hw] at e
      | constraint j => simp [hw] at e

/-- No part of a model has two objects alive. -/
def OneEach (s : Objs) : Prop :=
  ∀ m n om on p, get s m = some om → get s n = some on → m ∈ live s [] → n ∈ live s [] → om.home = on.home →
    om.what = .part p → on.what = .part p → m = n

theorem registered_none {s : Objs} {k : Nat} {p : Part} (h : registered s k p = none) {n : Nat} {o : Obj} (hg : get s n = some o)
    (hl : n ∈ live s []) (hk : o.home = k) (hw : o.what = .part p) : False := by
  have := List.find?_eq_none.1 h n hl
  rw [hg] at this
  exact this (decide_eq_true ⟨hk, hw⟩)

theorem registered_some {s : Objs} {k : Nat} {p : Part} {n : Nat} (h : registered s k p = some n) :
    ∃ o, get s n = some o ∧ o.home = k ∧ o.what = .part p := by
  have h1 := List.find?_some h
  cases hg : get s n with
  | none => rw [hg] at h1; cases h1
  | some o => rw [hg] at h1; exact ⟨o, rfl, (of_decide_eq_true h1).1, (of_decide_eq_true h1).2⟩

theorem get_hold_same {b : Bool} {s : Objs} {i n : Nat} {o : Obj} (h : get (hold b s i) n = some o) :
    ∃ o', get s n = some o' ∧ o'.home = o.home ∧ o'.what = o.what := by
  rw [get_hold] at h
  by_cases e : n = i
  · rw [if_pos e] at h
    cases hg : get s n with
    | none => simp [hg] at h
    | some o' =>
      subst e
      rw [hg] at h
      cases h
      exact ⟨o', rfl, rfl, rfl⟩
  · rw [if_neg e] at h; exact ⟨o, h, rfl, rfl⟩

theorem oneEach_step {s s' : Objs} (O : OneEach s) {op : PyOp} (h : step s op = some s') : OneEach s' := by
  have hold_ok : ∀ b i, (∀ n, n ∈ live (hold b s i) [] → n ∈ live s []) → OneEach (hold b s i) := by
    intro b i hl m n om on p gm gn lm ln hh wm wn
    obtain ⟨om', g1, e1, e2⟩ := get_hold_same gm
    obtain ⟨on', g2, e3, e4⟩ := get_hold_same gn
    exact O m n om' on' p g1 g2 (hl m lm) (hl n ln) (by rw [e1, e3, hh]) (e2.trans wm) (e4.trans wn)
  rcases step_shape h with rfl | ⟨i, rfl⟩ | ⟨i, hi, rfl⟩ | ⟨a, rfl, ha, hn⟩
  · exact O
  · exact hold_ok false i (fun n hin => live_drop n hin)
  · exact hold_ok true i (live_hold hi)
  · intro m n om on p gm gn lm ln hh wm wn
    have bm : m < s.length ∨ m = s.length := by have := get_lt gm; simp at this; omega
    have bn : n < s.length ∨ n = s.length := by have := get_lt gn; simp at this; omega
    rcases bm with bm | bm <;> rcases bn with bn | bn
    · rw [get_cons _ bm] at gm; rw [get_cons _ bn] at gn
      exact O m n om on p gm gn (live_new ha m bm lm) (live_new ha n bn ln) hh wm wn
    · rw [get_cons _ bm] at gm; rw [bn, get_new] at gn; cases gn
      exact (registered_none (hn p wn) gm (live_new ha m bm lm) hh wm).elim
    · rw [get_cons _ bn] at gn; rw [bm, get_new] at gm; cases gm
      exact (registered_none (hn p wm) gn (live_new ha n bn ln) hh.symm wn).elim
    · rw [bm, bn]

theorem hold_held {s : Objs} {n : Nat} {o : Obj} (h : get s n = some o) (hh : o.held = true) : hold true s n = s := by
  induction s with
  | nil => rfl
  | cons a s ih =>
    simp only [get] at h
    simp only [hold]
    by_cases e : n = s.length
    · rw [if_pos e] at h; cases h
      rw [if_pos e]
      cases o; cases hh; rfl
    · rw [if_neg e] at h; rw [if_neg e, ih h]

end Verif.Keep

namespace Verif.Props
open Verif.Keep

/-- In every state a program can get to, a part of a model has at most one Python object alive: two that are reached from the
    variables of the program and stand for the same part of the same model are one and the same. -/
theorem C95_one_object {ops : List PyOp} {s : Objs} (h : run [] ops = some s) {m n : Nat} {om on : Obj} {p : Part}
    (gm : get s m = some om) (gn : get s n = some on) (rm : Reached s m) (rn : Reached s n) (hh : om.home = on.home)
    (wm : om.what = .part p) (wn : on.what = .part p) : m = n := by
  have O : OneEach s := by
    suffices key : ∀ ops s0, OneEach s0 → run s0 ops = some s → OneEach s from
      key ops [] (by intro m n om on p hm; cases hm) h
    intro ops
    induction ops with
    | nil => intro s0 O h; cases h; exact O
    | cons op ops ih =>
      intro s0 O h
      simp only [run] at h
      cases hs : step s0 op with
      | none => simp [hs] at h
      | some s1 => rw [hs] at h; exact ih s1 (oneEach_step O hs) h
  exact O m n om on p gm gn ((C95_alive h m).2 rm) ((C95_alive h n).2 rn) hh wm wn

/-- Asking again for what is in hand changes nothing, in any program: whatever call gives the pointer, as long as it does not use
    freed memory itself, the program goes on exactly as if the call had not been made.  So an object from an iterator, or the
    `constraint` of a constraint, keeps the model alive only if it was not in hand before. -/
theorem C95_again {ops : List PyOp} {s : Objs} (h : run [] ops = some s) {i n : Nat} {o on : Obj} {op : PyOp} {p : Part}
    (ho : get s i = some o) (hh : o.held = true) (hop : op.pointer i o.what = some p) (gn : get s n = some on)
    (hn : on.held = true) (hk : on.home = o.home) (hw : on.what = .part p) (hlive : o.home ∈ live s []) (rest : List PyOp) :
    run s (op :: rest) = run s rest := by
  have hreg : registered s o.home p = some n := by
    cases hr : registered s o.home p with
    | none => exact (registered_none hr gn (live_held gn hn) hk hw).elim
    | some m =>
      obtain ⟨om, h1, h2, h3⟩ := registered_some hr
      exact congrArg some (C95_one_object h h1 gn ((C95_alive h m).1 (registered_live hr))
        ((C95_alive h n).1 (live_held gn hn)) (h2.trans hk.symm) h3 hw)
  have hgive : ∀ ks, give s o.home p ks = s := by
    intro ks
    simp only [give, hreg]
    exact hold_held gn hn
  have fin : ∀ f ks, f o = some (give s o.home p ks) → call s i f = some s := by
    intro f ks hf
    have : freed s o.home = false := by simp [freed, hlive]
    simp only [call, ho, hh, hf, this, hgive ks, Bool.not_true, Bool.false_eq_true, if_false]
  have hstep : step s op = some s := by
    cases op <;> cases hv : o.what <;> rw [hv] at hop <;> simp only [PyOp.pointer] at hop <;> try (cases hop; done)
    · rename_i h' j
      split at hop
      · rename_i e; cases hop; subst e; simp only [step]; refine fin _ [] ?_; simp [hv]
      · cases hop
    · rename_i h' j q
      cases q <;> simp only at hop <;> try (cases hop; done)
      split at hop
      · rename_i e; cases hop; subst e; simp only [step]; refine fin _ [] ?_; simp [hv]
      · cases hop
    · rename_i h' q r
      split at hop
      · rename_i e; cases hop; obtain ⟨rfl, e⟩ := e; simp only [step]; refine fin _ [h'] ?_; simp [hv, e]
      · cases hop
    · rename_i h' q
      cases q <;> simp only at hop <;> try (cases hop; done)
      split at hop
      · rename_i e; cases hop; subst e; simp only [step]; refine fin _ [h'] ?_; simp [hv]
      · cases hop
  simp only [run, hstep]

/-- Not vacuous: the program of `C95_same_object`, in which the iterator gives the feature in hand. -/
example : run [] ([.load, .getFeature 0 4, .iterate 0] ++ [.next 2 (.node 4), .drop 0, .drop 2, .use 1]) =
    run [] ([.load, .getFeature 0 4, .iterate 0] ++ [.drop 0, .drop 2, .use 1]) := by decide

end Verif.Props

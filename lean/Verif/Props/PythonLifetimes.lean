import Verif.Python.Keep
/-!
# C95: objects of a model, held in Python, stay usable
-/

namespace Verif.Keep

/-! ## Lemmas -/

theorem get_lt {s : Objs} {n : Nat} {o : Obj} (h : get s n = some o) : n < s.length := by
  induction s with
  | nil => cases h
  | cons a s ih =>
    by_cases e : n = s.length
    · simp [e]
    · simp only [get, e, if_false] at h
      have := ih h
      simp; omega

theorem get_cons {s : Objs} {n : Nat} (a : Obj) (h : n < s.length) : get (a :: s) n = get s n := by
  simp only [get]
  rw [if_neg (by omega)]

theorem get_new (s : Objs) (a : Obj) : get (a :: s) s.length = some a := by simp [get]

theorem hold_length (b : Bool) (s : Objs) (n : Nat) : (hold b s n).length = s.length := by
  induction s with
  | nil => rfl
  | cons a s ih =>
    by_cases e : n = s.length
    · simp [hold, e]
    · simp [hold, e, ih]

theorem get_hold (b : Bool) (s : Objs) (n j : Nat) :
    get (hold b s n) j = if j = n then (get s j).map (fun o => { o with held := b }) else get s j := by
  induction s with
  | nil => simp [get, hold]
  | cons a s ih =>
    by_cases e : n = s.length
    · subst e
      by_cases ej : j = s.length
      · simp [hold, get, ej]
      · simp [hold, get, ej]
    · by_cases ej : j = s.length
      · subst ej
        have e' : ¬ s.length = n := fun h => e h.symm
        simp [hold, get, e, e', hold_length]
      · simp only [hold, e, if_false, get, hold_length, ej, ih]

theorem live_lt {s : Objs} {kept : List Nat} {n : Nat} (h : n ∈ live s kept) : n < s.length := by
  induction s generalizing kept with
  | nil => cases h
  | cons a s ih =>
    simp only [live] at h
    simp only [List.length_cons]
    by_cases e : (a.held || decide (s.length ∈ kept)) = true
    · rw [if_pos e] at h
      rcases List.mem_cons.1 h with rfl | h
      · omega
      · have := ih h; omega
    · rw [if_neg e] at h
      have := ih h; omega

theorem live_kept {s : Objs} {kept : List Nat} {n : Nat} (h : n ∈ kept) (hl : n < s.length) : n ∈ live s kept := by
  induction s generalizing kept with
  | nil => cases hl
  | cons a s ih =>
    simp only [live]
    simp only [List.length_cons] at hl
    by_cases e : n = s.length
    · subst e
      simp [h]
    · have hl' : n < s.length := by omega
      by_cases e : (a.held || decide (s.length ∈ kept)) = true
      · rw [if_pos e]; exact List.mem_cons_of_mem _ (ih (List.mem_append_right _ h) hl')
      · rw [if_neg e]; exact ih h hl'

theorem live_held {s : Objs} {kept : List Nat} {n : Nat} {o : Obj} (h : get s n = some o) (hh : o.held = true) : n ∈ live s kept := by
  induction s generalizing kept with
  | nil => cases h
  | cons a s ih =>
    simp only [live]
    by_cases e : n = s.length
    · subst e
      rw [get_new] at h; cases h
      simp [hh]
    · simp only [get, e, if_false] at h
      by_cases e : (a.held || decide (s.length ∈ kept)) = true
      · rw [if_pos e]; exact List.mem_cons_of_mem _ (ih h)
      · rw [if_neg e]; exact ih h

theorem live_closed {s : Objs} {kept : List Nat} {n j : Nat} {o : Obj} (h : n ∈ live s kept) (hg : get s n = some o)
    (hj : j ∈ o.keeps) (hlt : j < n) : j ∈ live s kept := by
  induction s generalizing kept with
  | nil => cases h
  | cons a s ih =>
    simp only [live] at h ⊢
    by_cases e : (a.held || decide (s.length ∈ kept)) = true
    · rw [if_pos e] at h ⊢
      apply List.mem_cons_of_mem
      rcases List.mem_cons.1 h with rfl | h
      · rw [get_new] at hg; cases hg
        exact live_kept (List.mem_append_left _ hj) hlt
      · rw [get_cons a (live_lt h)] at hg
        exact ih h hg
    · rw [if_neg e] at h ⊢
      rw [get_cons a (live_lt h)] at hg
      exact ih h hg

/-- Each object keeps, directly or not, the object of its model. -/
def Rooted (s : Objs) : Prop :=
  ∀ n o, get s n = some o → (o.home = n ∧ o.what = .model) ∨
    (o.what ≠ .model ∧ ∃ j o', j ∈ o.keeps ∧ j < n ∧ get s j = some o' ∧ o'.home = o.home)

theorem rooted_live {s : Objs} {kept : List Nat} (R : Rooted s) :
    ∀ n o, get s n = some o → n ∈ live s kept → o.home ∈ live s kept := by
  intro n
  induction n using Nat.strongRecOn with
  | _ n ih =>
    intro o ho hl
    rcases R n o ho with ⟨h, _⟩ | ⟨_, j, o', h1, h2, h3, h4⟩
    · rw [h]; exact hl
    · rw [← h4]
      exact ih j h2 o' h3 (live_closed hl ho h1 h2)

theorem rooted_hold {s : Objs} (R : Rooted s) (b : Bool) (n : Nat) : Rooted (hold b s n) := by
  have key : ∀ j o, get (hold b s n) j = some o → ∃ o', get s j = some o' ∧ o'.home = o.home ∧ o'.what = o.what ∧ o'.keeps = o.keeps := by
    intro j o h
    rw [get_hold] at h
    by_cases e : j = n
    · rw [if_pos e] at h
      obtain ⟨o', h1, rfl⟩ := Option.map_eq_some_iff.1 h
      exact ⟨o', h1, rfl, rfl, rfl⟩
    · rw [if_neg e] at h
      exact ⟨o, h, rfl, rfl, rfl⟩
  have back : ∀ j o', get s j = some o' → ∃ o, get (hold b s n) j = some o ∧ o.home = o'.home := by
    intro j o' h
    rw [get_hold, h]
    by_cases e : j = n
    · rw [if_pos e]; exact ⟨_, rfl, rfl⟩
    · rw [if_neg e]; exact ⟨_, rfl, rfl⟩
  intro j o h
  obtain ⟨o', h1, h2, h3, h4⟩ := key j o h
  rw [← h2, ← h3, ← h4]
  rcases R j o' h1 with a | ⟨a, i, o1, b1, b2, b3, b4⟩
  · exact .inl a
  · obtain ⟨o2, c1, c2⟩ := back i o1 b3
    exact .inr ⟨a, i, o2, b1, b2, c1, by rw [c2, b4]⟩

theorem rooted_cons {s : Objs} (R : Rooted s) {a : Obj}
    (h : (a.home = s.length ∧ a.what = .model) ∨
      (a.what ≠ .model ∧ ∃ j o', j ∈ a.keeps ∧ get s j = some o' ∧ o'.home = a.home)) : Rooted (a :: s) := by
  intro n o ho
  by_cases e : n = s.length
  · subst e
    rw [get_new] at ho; cases ho
    rcases h with h | ⟨h0, j, o', h1, h2, h3⟩
    · exact .inl h
    · have := get_lt h2
      exact .inr ⟨h0, j, o', h1, this, by rw [get_cons _ this]; exact h2, h3⟩
  · have hl : n < s.length := by have := get_lt ho; simp at this; omega
    rw [get_cons _ hl] at ho
    rcases R n o ho with h | ⟨h0, j, o', h1, h2, h3, h4⟩
    · exact .inl h
    · exact .inr ⟨h0, j, o', h1, h2, by rw [get_cons _ (by omega)]; exact h3, h4⟩

theorem rooted_give {s : Objs} (R : Rooted s) {k h : Nat} {o : Obj} (p : Part) (ho : get s h = some o) (hk : o.home = k) :
    Rooted (give s k p [h]) := by
  unfold give
  cases registered s k p with
  | some n => exact rooted_hold R true n
  | none => exact rooted_cons R (.inr ⟨by simp, h, o, by simp, ho, hk⟩)

theorem rooted_giveIter {s : Objs} (R : Rooted s) {k h : Nat} {o : Obj} (r : Range) (ho : get s h = some o) (hk : o.home = k) :
    Rooted (giveIter s k r [h]) :=
  rooted_cons R (.inr ⟨by simp, h, o, by simp, ho, hk⟩)

/-- What a call comes to. -/
theorem call_cases (s : Objs) (h : Nat) (f : Obj → Option Objs) :
    call s h f = some s ∨
    ∃ o s', get s h = some o ∧ o.held = true ∧ f o = some s' ∧ call s h f = (if freed s o.home then none else some s') := by
  unfold call
  cases hg : get s h with
  | none => exact .inl rfl
  | some o =>
    cases hh : o.held with
    | false => exact .inl (by simp [hh])
    | true =>
      cases hf : f o with
      | none => exact .inl (by simp [hh, hf])
      | some s' => exact .inr ⟨o, s', rfl, hh, hf, by simp [hh, hf]⟩

/-! ### What is freed stays freed -/

theorem live_mono {s : Objs} {k1 k2 : List Nat} (h : ∀ n, n ∈ k1 → n < s.length → n ∈ live s k2) : ∀ n, n ∈ live s k1 → n ∈ live s k2 := by
  induction s generalizing k1 k2 with
  | nil => intro n hn; cases hn
  | cons a s ih =>
    intro n hn
    have hmem : ∀ k, (live (a :: s) k) = if a.held || decide (s.length ∈ k) then s.length :: live s (a.keeps ++ k) else live s k := fun _ => rfl
    have low : ∀ i, i < s.length → i ∈ live (a :: s) k2 →
        i ∈ (if a.held || decide (s.length ∈ k2) then live s (a.keeps ++ k2) else live s k2) := by
      intro i hi hin
      rw [hmem] at hin
      by_cases e2 : (a.held || decide (s.length ∈ k2)) = true
      · rw [if_pos e2] at hin ⊢
        rcases List.mem_cons.1 hin with rfl | hin
        · exact absurd hi (Nat.lt_irrefl _)
        · exact hin
      · rw [if_neg e2] at hin ⊢; exact hin
    have top : s.length ∈ k1 → (a.held || decide (s.length ∈ k2)) = true := by
      intro hk
      have := h _ hk (by simp)
      rw [hmem] at this
      by_cases e2 : (a.held || decide (s.length ∈ k2)) = true
      · exact e2
      · rw [if_neg e2] at this
        exact absurd (live_lt this) (Nat.lt_irrefl _)
    rw [hmem] at hn ⊢
    by_cases e2 : (a.held || decide (s.length ∈ k2)) = true
    · rw [if_pos e2]
      simp only [e2, if_true] at low
      by_cases e1 : (a.held || decide (s.length ∈ k1)) = true
      · rw [if_pos e1] at hn
        rcases List.mem_cons.1 hn with rfl | hn
        · exact List.mem_cons_self ..
        · refine List.mem_cons_of_mem _ (ih ?_ n hn)
          intro i hi hl
          rcases List.mem_append.1 hi with hi | hi
          · exact live_kept (List.mem_append_left _ hi) hl
          · exact low i hl (h i hi (by simp; omega))
      · rw [if_neg e1] at hn
        refine List.mem_cons_of_mem _ (ih ?_ n hn)
        intro i hi hl
        exact low i hl (h i hi (by simp; omega))
    · rw [if_neg e2]
      simp only [e2] at low
      have e1 : ¬ (a.held || decide (s.length ∈ k1)) = true := by
        intro e1
        cases hh : a.held with
        | true => simp [hh] at e2
        | false =>
          rw [hh] at e1
          simp only [Bool.false_or, decide_eq_true_eq] at e1
          exact e2 (top e1)
      rw [if_neg e1] at hn
      refine ih ?_ n hn
      intro i hi hl
      exact low i hl (h i hi (by simp; omega))

theorem live_drop {s : Objs} {k : List Nat} {h : Nat} : ∀ n, n ∈ live (hold false s h) k → n ∈ live s k := by
  induction s generalizing k with
  | nil => intro n hn; exact hn
  | cons a s ih =>
    intro n hn
    by_cases e : h = s.length
    · subst e
      simp only [hold, if_true, live, Bool.false_or] at hn ⊢
      by_cases e1 : decide (s.length ∈ k) = true
      · rw [if_pos e1] at hn
        rw [if_pos (by rw [e1]; simp)]; exact hn
      · rw [if_neg e1] at hn
        cases hh : a.held with
        | true =>
          simp only [Bool.true_or, if_true]
          refine List.mem_cons_of_mem _ (live_mono ?_ n hn)
          intro i hi hl
          exact live_kept (List.mem_append_right _ hi) hl
        | false => simp [e1]; exact hn
    · simp only [hold, e, if_false, live, hold_length] at hn ⊢
      by_cases e1 : (a.held || decide (s.length ∈ k)) = true
      · rw [if_pos e1] at hn ⊢
        rcases List.mem_cons.1 hn with rfl | hn
        · exact List.mem_cons_self ..
        · exact List.mem_cons_of_mem _ (ih n hn)
      · rw [if_neg e1] at hn ⊢
        exact ih n hn

theorem live_hold {s : Objs} {k : List Nat} {h : Nat} (hl : h ∈ live s k) : ∀ n, n ∈ live (hold true s h) k → n ∈ live s k := by
  induction s generalizing k with
  | nil => intro n hn; exact hn
  | cons a s ih =>
    intro n hn
    by_cases e : h = s.length
    · subst e
      simp only [hold, if_true, live, Bool.true_or] at hn hl ⊢
      by_cases e1 : (a.held || decide (s.length ∈ k)) = true
      · rw [if_pos e1]; exact hn
      · rw [if_neg e1] at hl
        exact absurd (live_lt hl) (Nat.lt_irrefl _)
    · simp only [hold, e, if_false, live, hold_length] at hn hl ⊢
      by_cases e1 : (a.held || decide (s.length ∈ k)) = true
      · rw [if_pos e1] at hn hl ⊢
        rcases List.mem_cons.1 hl with rfl | hl
        · exact absurd rfl e
        · rcases List.mem_cons.1 hn with rfl | hn
          · exact List.mem_cons_self ..
          · exact List.mem_cons_of_mem _ (ih hl n hn)
      · rw [if_neg e1] at hn hl ⊢
        exact ih hl n hn

theorem registered_live {s : Objs} {k : Nat} {p : Part} {n : Nat} (h : registered s k p = some n) : n ∈ live s [] :=
  List.mem_of_find?_eq_some h

theorem live_new {s : Objs} {a : Obj} (h : ∀ j ∈ a.keeps, j ∈ live s []) : ∀ n, n < s.length → n ∈ live (a :: s) [] → n ∈ live s [] := by
  intro n hl hn
  simp only [live, List.append_nil] at hn
  by_cases e : (a.held || decide (s.length ∈ ([] : List Nat))) = true
  · rw [if_pos e] at hn
    rcases List.mem_cons.1 hn with rfl | hn
    · exact absurd hl (Nat.lt_irrefl _)
    · exact live_mono (fun i hi _ => h i hi) n hn
  · rw [if_neg e] at hn; exact hn

/-! ### What alive means -/

/-- Referred to by a variable, or kept by an object that is reached. -/
inductive Reached (s : Objs) : Nat → Prop
  | held {n o} : get s n = some o → o.held = true → Reached s n
  | kept {n o j} : Reached s n → get s n = some o → j ∈ o.keeps → Reached s j

/-- Objects keep older ones only. -/
def Older (s : Objs) : Prop := ∀ n o, get s n = some o → ∀ j ∈ o.keeps, j < n

theorem live_sound {R : Nat → Prop} {s : Objs} {kept : List Nat} (h1 : ∀ n o, get s n = some o → o.held = true → R n)
    (h2 : ∀ n o, get s n = some o → R n → ∀ j ∈ o.keeps, R j) (hk : ∀ n ∈ kept, R n) : ∀ n, n ∈ live s kept → R n := by
  induction s generalizing kept with
  | nil => intro n hn; cases hn
  | cons a s ih =>
    intro n hn
    have g1 : ∀ n o, get s n = some o → o.held = true → R n := fun n o ho => h1 n o (by rw [get_cons _ (get_lt ho)]; exact ho)
    have g2 : ∀ n o, get s n = some o → R n → ∀ j ∈ o.keeps, R j := fun n o ho => h2 n o (by rw [get_cons _ (get_lt ho)]; exact ho)
    simp only [live] at hn
    by_cases e : (a.held || decide (s.length ∈ kept)) = true
    · rw [if_pos e] at hn
      have ra : R s.length := by
        cases hh : a.held with
        | true => exact h1 _ a (get_new s a) hh
        | false =>
          rw [hh] at e
          simp only [Bool.false_or, decide_eq_true_eq] at e
          exact hk _ e
      rcases List.mem_cons.1 hn with rfl | hn
      · exact ra
      · refine ih g1 g2 ?_ n hn
        intro j hj
        rcases List.mem_append.1 hj with hj | hj
        · exact h2 _ a (get_new s a) ra j hj
        · exact hk j hj
    · rw [if_neg e] at hn
      exact ih g1 g2 hk n hn

theorem live_iff_reached {s : Objs} (ho : Older s) (n : Nat) : n ∈ live s [] ↔ Reached s n := by
  constructor
  · exact live_sound (fun n o => .held) (fun n o h r j hj => .kept r h hj) (by simp) n
  · intro h
    induction h with
    | held h hh => exact live_held h hh
    | kept _ h hj ih => exact live_closed ih h hj (ho _ _ h _ hj)

theorem older_cons {s : Objs} (O : Older s) {a : Obj} (h : ∀ j ∈ a.keeps, j < s.length) : Older (a :: s) := by
  intro n o ho
  by_cases e : n = s.length
  · subst e
    rw [get_new] at ho; cases ho
    exact h
  · have hl : n < s.length := by have := get_lt ho; simp at this; omega
    rw [get_cons _ hl] at ho
    exact O n o ho

theorem older_hold {s : Objs} (O : Older s) (b : Bool) (n : Nat) : Older (hold b s n) := by
  intro j o ho
  rw [get_hold] at ho
  by_cases e : j = n
  · rw [if_pos e] at ho
    obtain ⟨o1, h1, rfl⟩ := Option.map_eq_some_iff.1 ho
    exact O j o1 h1
  · rw [if_neg e] at ho
    exact O j o ho

theorem older_give {s : Objs} (O : Older s) {k : Nat} {p : Part} {ks : List Nat} (h : ∀ j ∈ ks, j < s.length) : Older (give s k p ks) := by
  unfold give
  cases registered s k p with
  | some n => exact older_hold O true n
  | none => exact older_cons O h

theorem older_step {s s' : Objs} (O : Older s) {op : PyOp} (h : step s op = some s') : Older s' := by
  have key : ∀ h f, call s h f = some s' → (∀ o s1, h < s.length → f o = some s1 → Older s1) → Older s' := by
    intro h f hc hs
    rcases call_cases s h f with e | ⟨o, s1, h1, _, h3, h4⟩
    · rw [e] at hc; cases hc; exact O
    · rw [h4] at hc
      by_cases e : freed s o.home = true
      · rw [if_pos e] at hc; cases hc
      · rw [if_neg e] at hc; cases hc
        exact hs o s' (get_lt h1) h3
  have model : ∀ h (g : Obj → Objs), (∀ o, h < s.length → Older (g o)) →
      (call s h fun o => match o.what with | .model => some (g o) | _ => none) = some s' → Older s' := by
    intro h g hg e
    refine key h _ e ?_
    intro o s1 hl e
    cases hw : o.what with
    | model => simp only [hw] at e; cases e; exact hg o hl
    | part p => simp [hw] at e
    | iter r => simp [hw] at e
  have node : ∀ h (g : Obj → Objs), (∀ o, h < s.length → Older (g o)) →
      (call s h fun o => match o.what with | .part (.node _) => some (g o) | _ => none) = some s' → Older s' := by
    intro h g hg e
    refine key h _ e ?_
    intro o s1 hl e
    cases hw : o.what with
    | model => simp [hw] at e
    | iter r => simp [hw] at e
    | part p =>
      cases p with
      | node i => simp only [hw] at e; cases e; exact hg o hl
      | location i j => simp [hw] at e
      | wrapper j => simp [hw] at e
      | constraint j => simp [hw] at e
  have one : ∀ h, h < s.length → ∀ j ∈ [h], j < s.length := by
    intro h hl j hj; simp at hj; subst hj; exact hl
  cases op with
  | load => cases h; exact older_cons O (by simp)
  | drop i => cases h; exact older_hold O false i
  | use i => exact key i (fun _ => some s) h (fun o s1 _ e => by cases e; exact O)
  | getFeature i j => exact model i _ (fun o _ => older_give O (by simp)) h
  | iterate i => exact model i _ (fun o hl => older_cons O (one i hl)) h
  | constraints i => exact model i _ (fun o _ => older_cons O (by simp)) h
  | parent i j => exact node i _ (fun o _ => older_give O (by simp)) h
  | children i => exact node i _ (fun o hl => older_cons O (one i hl)) h
  | locations i => exact node i _ (fun o _ => older_cons O (by simp)) h
  | next i p =>
    refine key i _ h ?_
    intro o s1 hl e
    cases hw : o.what with
    | model => simp [hw] at e
    | part p => simp [hw] at e
    | iter r =>
      simp only [hw] at e
      by_cases hp : r.gives p = true
      · rw [if_pos hp] at e; cases e; exact older_give O (one i hl)
      · rw [if_neg hp] at e; cases e
  | inner i =>
    refine key i _ h ?_
    intro o s1 hl e
    cases hw : o.what with
    | model => simp [hw] at e
    | iter r => simp [hw] at e
    | part p =>
      cases p with
      | wrapper j => simp only [hw] at e; cases e; exact older_give O (one i hl)
      | location i j => simp [hw] at e
      | node j => simp [hw] at e
      | constraint j => simp [hw] at e

end Verif.Keep

namespace Verif.Props
open Verif.Keep

/-- The calls whose results keep the model: all but `get_root`, `get_feature`, `parent`, `locations` and the lists of
    constraints. -/
def _root_.Verif.Keep.PyOp.keeping : PyOp → Bool
  | .getFeature _ _ | .parent _ _ | .locations _ | .constraints _ => false
  | _ => true

theorem keeping_step {s : Objs} (R : Rooted s) {op : PyOp} (hop : op.keeping = true) : ∃ s', step s op = some s' ∧ Rooted s' := by
  have key : ∀ h f, (∀ o s', get s h = some o → f o = some s' → Rooted s') → ∃ s', call s h f = some s' ∧ Rooted s' := by
    intro h f hf
    rcases call_cases s h f with e | ⟨o, s', h1, h2, h3, h4⟩
    · exact ⟨s, e, R⟩
    · have hl := rooted_live R h o h1 (live_held (kept := []) h1 h2)
      refine ⟨s', ?_, hf o s' h1 h3⟩
      rw [h4, if_neg]
      simp [freed, hl]
  cases op with
  | load => exact ⟨_, rfl, rooted_cons R (.inl ⟨rfl, rfl⟩)⟩
  | getFeature h i => cases hop
  | parent h i => cases hop
  | locations h => cases hop
  | constraints h => cases hop
  | drop h => exact ⟨_, rfl, rooted_hold R false h⟩
  | use h =>
    refine key h (fun _ => some s) ?_
    intro o s' _ e
    cases e; exact R
  | iterate h =>
    refine key h _ ?_
    intro o s' ho e
    cases hw : o.what with
    | model => simp only [hw] at e; cases e; exact rooted_giveIter R _ ho rfl
    | part p => simp [hw] at e
    | iter r => simp [hw] at e
  | children h =>
    refine key h _ ?_
    intro o s' ho e
    cases hw : o.what with
    | model => simp [hw] at e
    | iter r => simp [hw] at e
    | part p =>
      cases p with
      | node i => simp only [hw] at e; cases e; exact rooted_giveIter R _ ho rfl
      | location i j => simp [hw] at e
      | wrapper j => simp [hw] at e
      | constraint j => simp [hw] at e
  | next h p =>
    refine key h _ ?_
    intro o s' ho e
    cases hw : o.what with
    | model => simp [hw] at e
    | part p => simp [hw] at e
    | iter r =>
      simp only [hw] at e
      by_cases hp : r.gives p = true
      · rw [if_pos hp] at e; cases e; exact rooted_give R p ho rfl
      · rw [if_neg hp] at e; cases e
  | inner h =>
    refine key h _ ?_
    intro o s' ho e
    cases hw : o.what with
    | model => simp [hw] at e
    | iter r => simp [hw] at e
    | part p =>
      cases p with
      | wrapper j => simp only [hw] at e; cases e; exact rooted_give R _ ho rfl
      | location i j => simp [hw] at e
      | node j => simp [hw] at e
      | constraint j => simp [hw] at e

/-- A program that gets its objects by iterating over models and nodes never uses freed memory, whatever variables it drops
    and when. -/
theorem C95_iterating_partial (ops : List PyOp) (h : ∀ op ∈ ops, op.keeping = true) : ∃ s, run [] ops = some s := by
  suffices key : ∀ s, Rooted s → ∃ s', run s ops = some s' from key [] (by intro n o h; cases h)
  induction ops with
  | nil => intro s _; exact ⟨s, rfl⟩
  | cons op ops ih =>
    intro s R
    obtain ⟨s', h1, h2⟩ := keeping_step R (h op (List.mem_cons_self ..))
    obtain ⟨t, ht⟩ := ih (fun o ho => h o (List.mem_cons_of_mem _ ho)) s' h2
    exact ⟨t, by simp only [run, h1]; exact ht⟩

/-- Not vacuous: the second child of the first feature of a model, used when every other variable is gone; the model is
    still there. -/
example : run [] [.load, .iterate 0, .next 1 (.node 4), .children 2, .next 3 (.node 7), .drop 0, .drop 1, .drop 2, .drop 3, .use 4] =
    some [⟨0, .part (.node 7), [3], true⟩, ⟨0, .iter .nodes, [2], false⟩, ⟨0, .part (.node 4), [1], false⟩, ⟨0, .iter .nodes, [0], false⟩,
      ⟨0, .model, [], false⟩] := by decide

/-! ### Keeping the model in a variable -/

/-- The program never lets go of a model. -/
def neverDrops : Objs → List PyOp → Bool
  | _, [] => true
  | s, op :: os =>
    (match op with
      | .drop h => match Keep.get s h with
        | some o => decide (o.what ≠ .model)
        | none => true
      | _ => true) &&
    match step s op with
    | none => true
    | some s' => neverDrops s' os

/-- All models are held, and every object belongs to one. -/
def Homely (s : Objs) : Prop :=
  ∀ n o, get s n = some o → ∃ o', get s o.home = some o' ∧ o'.what = .model ∧ o'.held = true ∧ (o.what = .model → o.home = n)

theorem homely_hold {s : Objs} (H : Homely s) {b : Bool} {n : Nat} (h : b = false → ∀ o, get s n = some o → o.what ≠ .model) :
    Homely (hold b s n) := by
  intro j o ho
  rw [get_hold] at ho
  have : ∃ o1, get s j = some o1 ∧ o1.home = o.home ∧ o1.what = o.what := by
    by_cases e : j = n
    · rw [if_pos e] at ho
      obtain ⟨o1, h1, rfl⟩ := Option.map_eq_some_iff.1 ho
      exact ⟨o1, h1, rfl, rfl⟩
    · rw [if_neg e] at ho
      exact ⟨o, ho, rfl, rfl⟩
  obtain ⟨o1, a1, a2, a3⟩ := this
  obtain ⟨o', b1, b2, b3, b4⟩ := H j o1 a1
  rw [a2] at b1 b4
  rw [a3] at b4
  rw [get_hold]
  by_cases e : o.home = n
  · rw [if_pos e, b1]
    refine ⟨_, rfl, b2, ?_, b4⟩
    cases b with
    | true => rfl
    | false => exact absurd b2 (h rfl o' (e ▸ b1))
  · rw [if_neg e]
    exact ⟨o', b1, b2, b3, b4⟩

theorem homely_cons {s : Objs} (H : Homely s) {k : Nat} {w : What} {ks : List Nat} (hw : w ≠ .model) {n : Nat} {o : Obj} (ho : get s n = some o)
    (hk : o.home = k) : Homely (⟨k, w, ks, true⟩ :: s) := by
  intro j a ha
  by_cases e : j = s.length
  · subst e
    rw [get_new] at ha; cases ha
    obtain ⟨o', b1, b2, b3, _⟩ := H n o ho
    simp only [← hk]
    exact ⟨o', by rw [get_cons _ (get_lt b1)]; exact b1, b2, b3, fun h => absurd h hw⟩
  · have hl : j < s.length := by have := get_lt ha; simp at this; omega
    rw [get_cons _ hl] at ha
    obtain ⟨o', b1, b2, b3, b4⟩ := H j a ha
    exact ⟨o', by rw [get_cons _ (get_lt b1)]; exact b1, b2, b3, b4⟩

theorem homely_give {s : Objs} (H : Homely s) {k : Nat} (p : Part) {ks : List Nat} {n : Nat} {o : Obj} (ho : get s n = some o)
    (hk : o.home = k) : Homely (give s k p ks) := by
  unfold give
  cases registered s k p with
  | some i => exact homely_hold H (fun h => by cases h)
  | none => exact homely_cons H (by simp) ho hk

theorem homely_step {s : Objs} (H : Homely s) {op : PyOp} (hd : ∀ h o, op = .drop h → get s h = some o → o.what ≠ .model) :
    ∃ s', step s op = some s' ∧ Homely s' := by
  have key : ∀ h f, (∀ o s', get s h = some o → f o = some s' → Homely s') → ∃ s', call s h f = some s' ∧ Homely s' := by
    intro h f hf
    rcases call_cases s h f with e | ⟨o, s', h1, _, h3, h4⟩
    · exact ⟨s, e, H⟩
    · obtain ⟨o', b1, _, b3, _⟩ := H h o h1
      have hl := live_held (kept := []) b1 b3
      refine ⟨s', ?_, hf o s' h1 h3⟩
      rw [h4, if_neg]
      simp [freed, hl]
  have model : ∀ h (g : Obj → Objs), (∀ o, get s h = some o → Homely (g o)) →
      ∃ s', (call s h fun o => match o.what with | .model => some (g o) | _ => none) = some s' ∧ Homely s' := by
    intro h g hg
    refine key h _ ?_
    intro o s' ho e
    cases hw : o.what with
    | model => simp only [hw] at e; cases e; exact hg o ho
    | part p => simp [hw] at e
    | iter r => simp [hw] at e
  have node : ∀ h (g : Obj → Objs), (∀ o, get s h = some o → Homely (g o)) →
      ∃ s', (call s h fun o => match o.what with | .part (.node _) => some (g o) | _ => none) = some s' ∧ Homely s' := by
    intro h g hg
    refine key h _ ?_
    intro o s' ho e
    cases hw : o.what with
    | model => simp [hw] at e
    | iter r => simp [hw] at e
    | part p =>
      cases p with
      | node i => simp only [hw] at e; cases e; exact hg o ho
      | location i j => simp [hw] at e
      | wrapper j => simp [hw] at e
      | constraint j => simp [hw] at e
  cases op with
  | load =>
    refine ⟨_, rfl, ?_⟩
    intro j a ha
    by_cases e : j = s.length
    · subst e
      rw [get_new] at ha; cases ha
      exact ⟨_, get_new s _, rfl, rfl, fun _ => rfl⟩
    · have hl : j < s.length := by have := get_lt ha; simp at this; omega
      rw [get_cons _ hl] at ha
      obtain ⟨o', b1, b2, b3, b4⟩ := H j a ha
      exact ⟨o', by rw [get_cons _ (get_lt b1)]; exact b1, b2, b3, b4⟩
  | getFeature h i => exact model h _ fun o ho => homely_give H _ ho rfl
  | iterate h => exact model h _ fun o ho => homely_cons H (by simp) ho rfl
  | constraints h => exact model h _ fun o ho => homely_cons H (by simp) ho rfl
  | parent h i => exact node h _ fun o ho => homely_give H _ ho rfl
  | children h => exact node h _ fun o ho => homely_cons H (by simp) ho rfl
  | locations h => exact node h _ fun o ho => homely_cons H (by simp) ho rfl
  | drop h => exact ⟨_, rfl, homely_hold H fun _ o ho => hd h o rfl ho⟩
  | use h =>
    refine key h (fun _ => some s) ?_
    intro o s' _ e
    cases e; exact H
  | next h p =>
    refine key h _ ?_
    intro o s' ho e
    cases hw : o.what with
    | model => simp [hw] at e
    | part p => simp [hw] at e
    | iter r =>
      simp only [hw] at e
      by_cases hp : r.gives p = true
      · rw [if_pos hp] at e; cases e; exact homely_give H p ho rfl
      · rw [if_neg hp] at e; cases e
  | inner h =>
    refine key h _ ?_
    intro o s' ho e
    cases hw : o.what with
    | model => simp [hw] at e
    | iter r => simp [hw] at e
    | part p =>
      cases p with
      | wrapper j => simp only [hw] at e; cases e; exact homely_give H _ ho rfl
      | location i j => simp [hw] at e
      | node j => simp [hw] at e
      | constraint j => simp [hw] at e

/-- A program that keeps its models in variables never uses freed memory, whatever it calls. -/
theorem C95_model_held_partial (ops : List PyOp) (h : neverDrops [] ops = true) : ∃ s, run [] ops = some s := by
  suffices key : ∀ ops s, Homely s → neverDrops s ops = true → ∃ s', run s ops = some s' from key ops [] (by intro n o h; cases h) h
  intro ops
  induction ops with
  | nil => intro s _ _; exact ⟨s, rfl⟩
  | cons op ops ih =>
    intro s H hd
    simp only [neverDrops, Bool.and_eq_true] at hd
    obtain ⟨s', h1, h2⟩ := homely_step H (op := op) (by
      rintro h o rfl ho
      simpa [ho] using hd.1)
    rw [h1] at hd
    obtain ⟨t, ht⟩ := ih s' h2 hd.2
    exact ⟨t, by simp only [run, h1]; exact ht⟩

/-- Not vacuous: a location of the parent of a feature. -/
example : neverDrops [] [.load, .getFeature 0 3, .parent 1 2, .drop 1, .locations 2, .next 3 (.location 2 0), .drop 2, .use 4] = true ∧
    (run [] [.load, .getFeature 0 3, .parent 1 2, .drop 1, .locations 2, .next 3 (.location 2 0), .drop 2, .use 4]).isSome = true := by
  decide

/-! ### Where it fails -/

/-- The calls whose results keep nothing, with the kind of object they are called on. -/
def _root_.Verif.Keep.PyOp.loose (h : Nat) : PyOp → What → Option What
  | .getFeature h' i, .model => if h' = h then some (.part (.node i)) else none
  | .constraints h', .model => if h' = h then some (.iter .wrappers) else none
  | .parent h' i, .part (.node _) => if h' = h then some (.part (.node i)) else none
  | .locations h', .part (.node _) => if h' = h then some (.iter .locations) else none
  | _, _ => none

/-- The claim is false: in every state, an object got by `get_root`, `get_feature`, `parent`, `locations` or a list of
    constraints from an object that alone holds the model is unusable as soon as that object is dropped — unless there was
    a Python object for the same feature. -/
theorem C95_not_kept (s : Objs) {h : Nat} {o : Obj} {op : PyOp} {w : What} (ho : get s h = some o) (hh : o.held = true)
    (hlive : o.home ∈ live s []) (halone : o.home ∉ live (hold false s h) []) (hop : op.loose h o.what = some w)
    (hnew : ∀ p, w = .part p → registered s o.home p = none) : run s [op, .drop h, .use s.length] = none := by
  have hlt := get_lt ho
  have key : ∀ s1, step s op = some s1 → s1 = ⟨o.home, w, [], true⟩ :: s → run s [op, .drop h, .use s.length] = none := by
    intro s1 h1 h2
    have h3 : step s1 (.drop h) = some (⟨o.home, w, [], true⟩ :: hold false s h) := by
      rw [h2]
      simp only [step, hold]
      rw [if_neg (by omega)]
    have h4 : step (⟨o.home, w, [], true⟩ :: hold false s h) (.use s.length) = none := by
      have hg : get (⟨o.home, w, [], true⟩ :: hold false s h) s.length = some ⟨o.home, w, [], true⟩ := by
        have := get_new (hold false s h) ⟨o.home, w, [], true⟩
        rwa [hold_length] at this
      have hf : freed (⟨o.home, w, [], true⟩ :: hold false s h) o.home = true := by
        have hlt2 : o.home < s.length := live_lt hlive
        simp only [freed, live, Bool.true_or, if_true, List.nil_append, List.mem_cons, hold_length]
        have : o.home ≠ s.length := by omega
        simp [this, halone]
      simp [step, call, hg, hf]
    simp only [run, h1, h3, h4]
  have hfree : freed s o.home = false := by simp [freed, hlive]
  cases op with
  | getFeature h' i =>
    cases hw : o.what with
    | model =>
      rw [hw] at hop
      by_cases e : h' = h
      · subst e
        simp [PyOp.loose] at hop
        subst hop
        refine key _ ?_ rfl
        simp [step, call, ho, hh, hw, hfree, give, hnew _ rfl]
      · simp [PyOp.loose, e] at hop
    | part p => simp [hw, PyOp.loose] at hop
    | iter r => simp [hw, PyOp.loose] at hop
  | constraints h' =>
    cases hw : o.what with
    | model =>
      rw [hw] at hop
      by_cases e : h' = h
      · subst e
        simp [PyOp.loose] at hop
        subst hop
        refine key _ ?_ rfl
        simp [step, call, ho, hh, hw, hfree, giveIter]
      · simp [PyOp.loose, e] at hop
    | part p => simp [hw, PyOp.loose] at hop
    | iter r => simp [hw, PyOp.loose] at hop
  | parent h' i =>
    cases hw : o.what with
    | model => simp [hw, PyOp.loose] at hop
    | iter r => simp [hw, PyOp.loose] at hop
    | part p =>
      cases p with
      | node j =>
        rw [hw] at hop
        by_cases e : h' = h
        · subst e
          simp [PyOp.loose] at hop
          subst hop
          refine key _ ?_ rfl
          simp [step, call, ho, hh, hw, hfree, give, hnew _ rfl]
        · simp [PyOp.loose, e] at hop
      | location i j => simp [hw, PyOp.loose] at hop
      | wrapper j => simp [hw, PyOp.loose] at hop
      | constraint j => simp [hw, PyOp.loose] at hop
  | locations h' =>
    cases hw : o.what with
    | model => simp [hw, PyOp.loose] at hop
    | iter r => simp [hw, PyOp.loose] at hop
    | part p =>
      cases p with
      | node j =>
        rw [hw] at hop
        by_cases e : h' = h
        · subst e
          simp [PyOp.loose] at hop
          subst hop
          refine key _ ?_ rfl
          simp [step, call, ho, hh, hw, hfree, giveIter]
        · simp [PyOp.loose, e] at hop
      | location i j => simp [hw, PyOp.loose] at hop
      | wrapper j => simp [hw, PyOp.loose] at hop
      | constraint j => simp [hw, PyOp.loose] at hop
  | _ => simp [PyOp.loose] at hop

/-- Not vacuous: `loadFeatureModel(p).get_root().name`, and `next(f.locations)` of a feature got by iterating. -/
example : run [] [.load, .getFeature 0 0, .drop 0, .use 1] = none ∧
    run [] [.load, .iterate 0, .next 1 (.node 4), .drop 0, .drop 1, .locations 2, .drop 2, .next 3 (.location 4 0)] = none := by decide

/-- And a feature got by iterating is unusable too if there was an object for it that `get_feature` made: it is that object
    again, and it keeps nothing. -/
theorem C95_same_object :
    run [] [.load, .getFeature 0 4, .iterate 0, .next 2 (.node 4), .drop 0, .drop 2, .use 1] = none ∧
    (run [] [.load, .iterate 0, .next 1 (.node 4), .drop 0, .drop 1, .use 2]).isSome = true := by decide

/-- The pointer a call on an object gives back, if the class of the object has the method. -/
def _root_.Verif.Keep.PyOp.pointer (h : Nat) : PyOp → What → Option Part
  | .getFeature h' i, .model => if h' = h then some (.node i) else none
  | .parent h' i, .part (.node _) => if h' = h then some (.node i) else none
  | .next h' p, .iter r => if h' = h ∧ r.gives p = true then some p else none
  | .inner h', .part (.wrapper j) => if h' = h then some (.constraint j) else none
  | _, _ => none

/-- What comes back is what was asked for: a call that gives a pointer leaves the program with an object for that part of
    that very model, whether the object is a new one or was there before. -/
theorem C95_gives {s s' : Objs} {h : Nat} {o : Obj} {op : PyOp} {p : Part} (ho : get s h = some o) (hh : o.held = true)
    (hop : op.pointer h o.what = some p) (hs : step s op = some s') :
    ∃ n o', get s' n = some o' ∧ o'.held = true ∧ o'.home = o.home ∧ o'.what = .part p := by
  have key : ∀ ks, ∃ n o', get (give s o.home p ks) n = some o' ∧ o'.held = true ∧ o'.home = o.home ∧ o'.what = .part p := by
    intro ks
    unfold give
    cases hr : registered s o.home p with
    | none => exact ⟨_, _, get_new s _, rfl, rfl, rfl⟩
    | some i =>
      have h1 := List.find?_some hr
      cases hg : get s i with
      | none => rw [hg] at h1; cases h1
      | some oi =>
        rw [hg] at h1
        have h2 := of_decide_eq_true h1
        refine ⟨i, { oi with held := true }, ?_, rfl, h2.1, h2.2⟩
        show get (hold true s i) i = _
        rw [get_hold, if_pos rfl, hg]; rfl
  have fin : ∀ f ks, call s h f = some s' → f o = some (give s o.home p ks) →
      ∃ n o', get s' n = some o' ∧ o'.held = true ∧ o'.home = o.home ∧ o'.what = .part p := by
    intro f ks hc hf
    simp only [call, ho, hh, hf, Bool.not_true, Bool.false_eq_true, if_false] at hc
    by_cases e : freed s o.home = true
    · rw [if_pos e] at hc; cases hc
    · rw [if_neg e] at hc; cases hc; exact key ks
  cases op <;> cases hw : o.what <;> rw [hw] at hop <;> simp only [PyOp.pointer] at hop <;> try (cases hop; done)
  · rename_i h' i
    by_cases e : h' = h
    · rw [if_pos e] at hop; cases hop; subst e
      exact fin _ [] hs (by simp [hw])
    · rw [if_neg e] at hop; cases hop
  · rename_i h' i q
    cases q <;> simp only at hop <;> try (cases hop; done)
    by_cases e : h' = h
    · rw [if_pos e] at hop; cases hop; subst e
      exact fin _ [] hs (by simp [hw])
    · rw [if_neg e] at hop; cases hop
  · rename_i h' q r
    by_cases e : h' = h ∧ r.gives q = true
    · rw [if_pos e] at hop; cases hop
      obtain ⟨rfl, e⟩ := e
      exact fin _ [h'] hs (by simp [hw, e])
    · rw [if_neg e] at hop; cases hop
  · rename_i h' q
    cases q <;> simp only at hop <;> try (cases hop; done)
    by_cases e : h' = h
    · rw [if_pos e] at hop; cases hop; subst e
      exact fin _ [h'] hs (by simp [hw])
    · rw [if_neg e] at hop; cases hop

/-- Not vacuous: the same feature of two models. -/
example : (run [] [.load, .load, .getFeature 0 4, .getFeature 1 4]).map (fun s => (get s 2, get s 3)) =
    some (some ⟨0, .part (.node 4), [], true⟩, some ⟨1, .part (.node 4), [], true⟩) := by decide

/-- In every state a program can get to, the objects alive are exactly those reached from its variables. -/
theorem C95_alive {ops : List PyOp} {s : Objs} (h : run [] ops = some s) (n : Nat) : n ∈ live s [] ↔ Reached s n := by
  refine live_iff_reached ?_ n
  suffices key : ∀ ops s0, Older s0 → run s0 ops = some s → Older s from key ops [] (by intro n o h; cases h) h
  intro ops
  induction ops with
  | nil => intro s0 O h; cases h; exact O
  | cons op ops ih =>
    intro s0 O h
    simp only [run] at h
    cases hs : step s0 op with
    | none => simp [hs] at h
    | some s1 =>
      rw [hs] at h
      exact ih s1 (older_step O hs) h

/-- What is freed is never used again nor handed out: an object not alive stays so, whatever the program does. -/
theorem C95_freed_stays {s s' : Objs} {op : PyOp} (h : step s op = some s') {n : Nat} (hn : n < s.length) (hf : n ∉ live s []) :
    n ∉ live s' [] := by
  have give_ok : ∀ k p ks, (∀ j ∈ ks, j ∈ live s []) → n ∉ live (give s k p ks) [] := by
    intro k p ks hks hin
    unfold give at hin
    cases hr : registered s k p with
    | some i => rw [hr] at hin; exact hf (live_hold (registered_live hr) n hin)
    | none => rw [hr] at hin; exact hf (live_new hks n hn hin)
  have iter_ok : ∀ k r ks, (∀ j ∈ ks, j ∈ live s []) → n ∉ live (giveIter s k r ks) [] :=
    fun k r ks hks hin => hf (live_new (a := ⟨k, .iter r, ks, true⟩) hks n hn hin)
  have key : ∀ h f, call s h f = some s' → (∀ o s1, h ∈ live s [] → f o = some s1 → n ∉ live s1 []) → n ∉ live s' [] := by
    intro h f hc hs
    rcases call_cases s h f with e | ⟨o, s1, h1, h2, h3, h4⟩
    · rw [e] at hc; cases hc; exact hf
    · rw [h4] at hc
      by_cases e : freed s o.home = true
      · rw [if_pos e] at hc; cases hc
      · rw [if_neg e] at hc; cases hc
        exact hs o s' (live_held h1 h2) h3
  have one : ∀ h, h ∈ live s [] → ∀ j ∈ [h], j ∈ live s [] := by
    intro h hl j hj; simp at hj; subst hj; exact hl
  cases op with
  | load =>
    cases h
    exact fun hin => hf (live_new (by simp) n hn hin)
  | drop i =>
    cases h
    exact fun hin => hf (live_drop n hin)
  | use i =>
    refine key i (fun _ => some s) h ?_
    intro o s1 _ e
    cases e; exact hf
  | next i p =>
    refine key i _ h ?_
    intro o s1 hl e
    cases hw : o.what with
    | model => simp [hw] at e
    | part p => simp [hw] at e
    | iter r =>
      simp only [hw] at e
      by_cases hp : r.gives p = true
      · rw [if_pos hp] at e; cases e; exact give_ok _ _ _ (one i hl)
      · rw [if_neg hp] at e; cases e
  | getFeature i j =>
    refine key i _ h ?_
    intro o s1 hl e
    cases hw : o.what with
    | model => simp only [hw] at e; cases e; exact give_ok _ _ _ (by simp)
    | part p => simp [hw] at e
    | iter r => simp [hw] at e
  | iterate i =>
    refine key i _ h ?_
    intro o s1 hl e
    cases hw : o.what with
    | model => simp only [hw] at e; cases e; exact iter_ok _ _ _ (one i hl)
    | part p => simp [hw] at e
    | iter r => simp [hw] at e
  | constraints i =>
    refine key i _ h ?_
    intro o s1 hl e
    cases hw : o.what with
    | model => simp only [hw] at e; cases e; exact iter_ok _ _ _ (by simp)
    | part p => simp [hw] at e
    | iter r => simp [hw] at e
  | inner i =>
    refine key i _ h ?_
    intro o s1 hl e
    cases hw : o.what with
    | model => simp [hw] at e
    | iter r => simp [hw] at e
    | part p =>
      cases p with
      | wrapper j => simp only [hw] at e; cases e; exact give_ok _ _ _ (one i hl)
      | location i j => simp [hw] at e
      | node j => simp [hw] at e
      | constraint j => simp [hw] at e
  | children i =>
    refine key i _ h ?_
    intro o s1 hl e
    cases hw : o.what with
    | model => simp [hw] at e
    | iter r => simp [hw] at e
    | part p =>
      cases p with
      | node j => simp only [hw] at e; cases e; exact iter_ok _ _ _ (one i hl)
      | location i j => simp [hw] at e
      | wrapper j => simp [hw] at e
      | constraint j => simp [hw] at e
  | parent i j =>
    refine key i _ h ?_
    intro o s1 hl e
    cases hw : o.what with
    | model => simp [hw] at e
    | iter r => simp [hw] at e
    | part p =>
      cases p with
      | node j => simp only [hw] at e; cases e; exact give_ok _ _ _ (by simp)
      | location i j => simp [hw] at e
      | wrapper j => simp [hw] at e
      | constraint j => simp [hw] at e
  | locations i =>
    refine key i _ h ?_
    intro o s1 hl e
    cases hw : o.what with
    | model => simp [hw] at e
    | iter r => simp [hw] at e
    | part p =>
      cases p with
      | node j => simp only [hw] at e; cases e; exact iter_ok _ _ _ (by simp)
      | location i j => simp [hw] at e
      | wrapper j => simp [hw] at e
      | constraint j => simp [hw] at e

/-- Not vacuous: the object of a model that was let go. -/
example : 0 ∉ live [⟨0, .part (.node 4), [], true⟩, ⟨0, .model, [], false⟩] [] := by decide

end Verif.Props

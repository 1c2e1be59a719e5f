import Verif.Sxfm.Clause
import Verif.Sxfm.Read
/-! Indentation levels of accepted and rejected texts, loops of the replacement, whole documents. -/

namespace Verif.Sxfm
open Verif Verif.Spec

/-! ### Levels -/

/-- Where a line ends up. -/
theorem enter_ok {st st' : TreeSt} {level : Nat} {e : Entry} (h : enter st level e = .ok st') :
    st'.last = some level ∧ st'.rootLevel = (if st.last.isNone then level else st.rootLevel) ∧
    (∃ n, st'.parents = fun l => if l = level then some n else st.parents l) ∧
    (st.last.isNone = false → level ≠ st.rootLevel ∧ ∃ l p, level = l + 1 ∧ st.parents l = some p) := by
  unfold enter at h
  simp only at h
  by_cases h1 : idsOk e = true
  · rw [if_neg (by simpa using h1)] at h
    by_cases h2 : st.last.isNone = true
    · rw [if_pos h2] at h
      cases h
      exact ⟨rfl, rfl, ⟨_, rfl⟩, fun hx => by rw [h2] at hx; cases hx⟩
    · rw [if_neg h2] at h
      by_cases h3 : level = st.rootLevel
      · rw [if_pos h3] at h; cases h
      · rw [if_neg h3] at h
        cases level with
        | zero => cases h
        | succ l =>
          simp only at h
          cases hp : st.parents l with
          | none => rw [hp] at h; cases h
          | some p =>
            rw [hp] at h
            cases h
            exact ⟨rfl, rfl, ⟨_, rfl⟩, fun _ => ⟨h3, l, p, rfl, hp⟩⟩
  · rw [if_pos (by simpa using h1)] at h
    cases h

theorem treeLine_blank {ind : Str} (st : TreeSt) {l : Str} (h : isBlank l = true) : treeLine ind st l = .ok st := by
  unfold treeLine; rw [if_pos h]

/-- An accepted line that is not blank was entered at its level. -/
theorem treeLine_ok {ind : Str} {st st' : TreeSt} {l : Str} (hb : ¬ isBlank l = true) (h : treeLine ind st l = .ok st') :
    (∀ k, st.last = some k → levelOf ind l ≤ k + 1) ∧ ∃ e, enter st (levelOf ind l) e = .ok st' := by
  unfold treeLine at h
  rw [if_neg hb] at h
  split at h
  · cases h
  · simp only at h
    split at h
    · cases h
    · rename_i hj
      refine ⟨?_, ?_⟩
      · intro k hk
        rw [hk] at hj
        simp at hj
        exact hj
      · cases hr : readEntry l (levelOf ind l * ind.length + 1) with
        | ok e => rw [hr] at h; exact ⟨e, h⟩
        | fail => rw [hr] at h; cases h
        | crash => rw [hr] at h; cases h

theorem bind_ok {α β : Type} {x : SOut α} {f : α → SOut β} {b : β} (h : x.bind f = .ok b) : ∃ a, x = .ok a ∧ f a = .ok b := by
  cases x with
  | ok a => exact ⟨a, rfl, h⟩
  | fail => cases h
  | crash => cases h

theorem treeLines_ok_append {ind : Str} {a b : List Str} {st st' : TreeSt} (h : treeLines ind st (a ++ b) = .ok st') :
    ∃ s, treeLines ind st a = .ok s ∧ treeLines ind s b = .ok st' := by
  rw [treeLines_append] at h
  exact bind_ok h

theorem treeLines_blanks {ind : Str} (st : TreeSt) : ∀ {bs : List Str}, (∀ b ∈ bs, isBlank b = true) → treeLines ind st bs = .ok st
  | [], _ => rfl
  | b :: bs, h => by
    rw [treeLines, treeLine_blank st (h b (by simp))]
    exact treeLines_blanks st (fun x hx => h x (by simp [hx]))

/-- A jump by more than one level is rejected. -/
theorem jump_never_ok {ind : Str} {pre blanks post : List Str} {a b : Str} (ha : ¬ isBlank a = true) (hb : ¬ isBlank b = true)
    (hbl : ∀ x ∈ blanks, isBlank x = true) (hj : levelOf ind a + 1 < levelOf ind b) (st st' : TreeSt) :
    treeLines ind st (pre ++ a :: (blanks ++ b :: post)) ≠ .ok st' := by
  intro h
  obtain ⟨s1, _, h2⟩ := treeLines_ok_append h
  rw [treeLines] at h2
  obtain ⟨s2, h3, h4⟩ := bind_ok h2
  obtain ⟨s3, h5, h6⟩ := treeLines_ok_append h4
  rw [treeLines_blanks _ hbl] at h5
  cases h5
  rw [treeLines] at h6
  obtain ⟨s4, h7, _⟩ := bind_ok h6
  obtain ⟨_, e, he⟩ := treeLine_ok ha h3
  have := (treeLine_ok hb h7).1 _ (enter_ok he).1
  omega

/-- And the parser returns null, if the lines before are read. -/
theorem jump_fails {ind : Str} {pre blanks post : List Str} {a b : Str} (ha : ¬ isBlank a = true) (hb : ¬ isBlank b = true)
    (hbl : ∀ x ∈ blanks, isBlank x = true) (hj : levelOf ind a + 1 < levelOf ind b) {st s : TreeSt}
    (h : treeLines ind st (pre ++ [a]) = .ok s) : treeLines ind st (pre ++ a :: (blanks ++ b :: post)) = .fail := by
  have e : pre ++ a :: (blanks ++ b :: post) = (pre ++ [a]) ++ (blanks ++ b :: post) := by simp
  rw [e, treeLines_append, h]
  show treeLines ind s (blanks ++ b :: post) = _
  rw [treeLines_append, treeLines_blanks _ hbl]
  show treeLines ind s (b :: post) = _
  obtain ⟨s1, _, h2⟩ := treeLines_ok_append h
  rw [treeLines] at h2
  obtain ⟨s2, h3, h4⟩ := bind_ok h2
  cases h4
  obtain ⟨_, e, he⟩ := treeLine_ok ha h3
  have hl := (enter_ok he).1
  have hf : treeLine ind s b = .fail := by
    unfold treeLine
    rw [if_neg hb]
    split
    · rfl
    · simp only
      rw [if_pos (by rw [hl]; simp; exact hj)]
  rw [treeLines, hf]
  rfl

/-- Accepted lines are blank or have a colon and one of the known letters. -/
theorem treeLine_letter {ind : Str} {st st' : TreeSt} {l : Str} (hb : ¬ isBlank l = true) (h : treeLine ind st l = .ok st') :
    ':' ∈ l ∧ ∃ c, l[levelOf ind l * ind.length + 1]? = some c ∧ c ∈ ['r', 'm', 'o', 'g', ' '] := by
  unfold treeLine at h
  rw [if_neg hb] at h
  split at h
  · cases h
  · rename_i hc
    refine ⟨Decidable.of_not_not hc, ?_⟩
    simp only at h
    split at h
    · cases h
    · obtain ⟨e, he, _⟩ := bind_ok h
      unfold readEntry at he
      split at he
      · cases he
      · rename_i c hl
        refine ⟨c, hl, ?_⟩
        simp only [List.mem_cons, List.not_mem_nil, or_false]
        simp only at he
        by_cases h1 : c = 'r'
        · exact .inl h1
        by_cases h2 : c = 'm'
        · exact .inr (.inl h2)
        by_cases h3 : c = 'o'
        · exact .inr (.inr (.inl h3))
        by_cases h4 : c = 'g'
        · exact .inr (.inr (.inr (.inl h4)))
        by_cases h5 : c = ' '
        · exact .inr (.inr (.inr (.inr h5)))
        rw [if_neg h1, if_neg h2, if_neg h3, if_neg h4, if_neg h5] at he
        cases he

theorem treeLines_letter {ind : Str} {ls : List Str} {st st' : TreeSt} (h : treeLines ind st ls = .ok st') {l : Str} (hl : l ∈ ls)
    (hb : ¬ isBlank l = true) : ':' ∈ l ∧ ∃ c, l[levelOf ind l * ind.length + 1]? = some c ∧ c ∈ ['r', 'm', 'o', 'g', ' '] := by
  obtain ⟨a, b, rfl⟩ := List.append_of_mem hl
  obtain ⟨s, _, h2⟩ := treeLines_ok_append h
  rw [treeLines] at h2
  obtain ⟨s', h3, _⟩ := bind_ok h2
  exact treeLine_letter hb h3

/-- What holds below the root line. -/
structure Rooted (r : Nat) (st : TreeSt) : Prop where
  last : st.last.isNone = false
  root : st.rootLevel = r
  low : ∀ l, l < r → st.parents l = none

theorem rooted_line {ind : Str} {r : Nat} {st st' : TreeSt} (h : Rooted r st) {l : Str} (hl : treeLine ind st l = .ok st') :
    Rooted r st' ∧ (¬ isBlank l = true → r < levelOf ind l) := by
  by_cases hb : isBlank l = true
  · rw [treeLine_blank st hb] at hl
    cases hl
    exact ⟨h, fun hx => absurd hb hx⟩
  · obtain ⟨_, e, he⟩ := treeLine_ok hb hl
    obtain ⟨h1, h2, ⟨n, h3⟩, h4⟩ := enter_ok he
    obtain ⟨h5, k, p, h6, h7⟩ := h4 h.last
    have hr : r < levelOf ind l := by
      rw [h.root] at h5
      by_cases hk : k < r
      · rw [h.low k hk] at h7; cases h7
      · omega
    refine ⟨⟨by rw [h1]; rfl, by rw [h2, h.last]; exact h.root, ?_⟩, fun _ => hr⟩
    intro x hx
    rw [h3]
    simp only
    rw [if_neg (by omega)]
    exact h.low x hx

theorem rooted_lines {ind : Str} {r : Nat} : ∀ {ls : List Str} {st st' : TreeSt}, Rooted r st → treeLines ind st ls = .ok st' →
    ∀ l ∈ ls, ¬ isBlank l = true → r < levelOf ind l
  | [], _, _, _, _, l, hl, _ => by cases hl
  | x :: xs, st, st', h, hl, l, hm, hb => by
    rw [treeLines] at hl
    obtain ⟨s, h1, h2⟩ := bind_ok hl
    obtain ⟨h3, h4⟩ := rooted_line h h1
    rcases List.mem_cons.1 hm with rfl | hm
    · exact h4 hb
    · exact rooted_lines h3 h2 l hm hb

/-- After the first line all lines are deeper. -/
theorem one_root {ind : Str} {blanks rest : List Str} {a : Str} (ha : ¬ isBlank a = true)
    (hbl : ∀ x ∈ blanks, isBlank x = true) {table : List (Str × Str)} {st : TreeSt}
    (h : treeLines ind { table := table } (blanks ++ a :: rest) = .ok st) :
    ∀ l ∈ rest, ¬ isBlank l = true → levelOf ind a < levelOf ind l := by
  obtain ⟨s1, h1, h2⟩ := treeLines_ok_append h
  rw [treeLines_blanks _ hbl] at h1
  cases h1
  rw [treeLines] at h2
  obtain ⟨s2, h3, h4⟩ := bind_ok h2
  obtain ⟨_, e, he⟩ := treeLine_ok ha h3
  obtain ⟨h5, h6, ⟨n, h7⟩, _⟩ := enter_ok he
  refine rooted_lines (r := levelOf ind a) ⟨by rw [h5]; rfl, by rw [h6]; rfl, ?_⟩ h4
  intro l hl
  rw [h7]
  simp only
  rw [if_neg (by omega)]

/-! ### Crashes -/

theorem countFrom_le (k : Str) : ∀ (s : Str) (sk : Nat), sk ≤ s.length → countFrom k sk s * k.length + sk ≤ s.length
  | [], sk, h => by
    have : sk = 0 := by simpa using h
    subst this
    simp [countFrom]
  | c :: cs, sk + 1, h => by
    have := countFrom_le k cs sk (by simpa using h)
    rw [countFrom]
    simp
    omega
  | c :: cs, 0, _ => by
    rw [countFrom]
    by_cases hp : k.isPrefixOf (c :: cs) = true
    · rw [if_pos hp]
      have hl := (List.isPrefixOf_iff_prefix.1 hp).length_le
      simp at hl
      have := countFrom_le k cs (k.length - 1) (by omega)
      rw [Nat.add_mul]
      simp
      omega
    · rw [if_neg hp]
      have := countFrom_le k cs 0 (by omega)
      simp at this ⊢
      omega

theorem levelOf_le (ind l : Str) : levelOf ind l * ind.length ≤ (upTo ':' l).length := by
  unfold levelOf countSub
  split
  · simp
  · have := countFrom_le ind (upTo ':' l) 0 (by omega)
    omega

/-- Something follows the first colon: the line is long enough. -/
theorem readEntry_no_crash {ind l : Str} (hc : ':' ∈ l) (ha : after ':' l ≠ []) :
    readEntry l (levelOf ind l * ind.length + 1) ≠ .crash := by
  obtain ⟨a, b, rfl, h⟩ := split_at hc
  rw [after_append h] at ha
  have hle := levelOf_le ind (a ++ ':' :: b)
  rw [upTo_append h] at hle
  have hb : 0 < b.length := List.length_pos_iff.2 ha
  have hlt : levelOf ind (a ++ ':' :: b) * ind.length + 1 < (a ++ ':' :: b).length := by simp; omega
  unfold readEntry
  rw [List.getElem?_eq_getElem hlt]
  simp only
  repeat' split
  all_goals simp

/-- A state in which every level between the root's and the current one has a parent. -/
structure Linked (st : TreeSt) : Prop where
  full : ∀ k, st.last = some k → st.rootLevel ≤ k ∧ ∀ l, st.rootLevel ≤ l → l ≤ k → (st.parents l).isSome = true

theorem enter_no_crash {st : TreeSt} (h : Linked st) {level : Nat} {e : Entry}
    (hj : ∀ k, st.last = some k → level ≤ k + 1 ∧ st.rootLevel < level) : enter st level e ≠ .crash := by
  unfold enter
  simp only
  by_cases h1 : idsOk e = true
  · rw [if_neg (by simpa using h1)]
    by_cases h2 : st.last.isNone = true
    · rw [if_pos h2]; simp
    · rw [if_neg h2]
      cases hk : st.last with
      | none => rw [hk] at h2; exact absurd rfl h2
      | some k =>
        obtain ⟨h3, h4⟩ := hj k hk
        rw [if_neg (by omega)]
        cases level with
        | zero => omega
        | succ l =>
          simp only
          have := (h.full k hk).2 l (by omega) (by omega)
          cases hp : st.parents l with
          | none => rw [hp] at this; cases this
          | some p => simp
  · rw [if_pos (by simpa using h1)]; simp

theorem enter_linked {st st' : TreeSt} (h : Linked st) {level : Nat} {e : Entry}
    (hj : ∀ k, st.last = some k → level ≤ k + 1 ∧ st.rootLevel < level) (he : enter st level e = .ok st') : Linked st' := by
  obtain ⟨h1, h2, ⟨n, h3⟩, _⟩ := enter_ok he
  refine ⟨fun k hk => ?_⟩
  rw [h1] at hk
  cases hk
  cases hl : st.last with
  | none =>
    rw [hl] at h2
    simp at h2
    rw [h2]
    refine ⟨Nat.le_refl _, fun l h4 h5 => ?_⟩
    rw [h3]
    simp only
    rw [if_pos (by omega)]
    rfl
  | some j =>
    rw [hl] at h2
    simp at h2
    rw [h2]
    obtain ⟨h4, h5⟩ := hj j hl
    refine ⟨by omega, fun l h6 h7 => ?_⟩
    rw [h3]
    simp only
    split
    · rfl
    · exact (h.full j hl).2 l h6 (by omega)

theorem treeLine_no_crash {ind : Str} {st : TreeSt} (h : Linked st) {l : Str} (ha : ':' ∈ l → after ':' l ≠ [])
    (hr : ¬ isBlank l = true → ∀ k, st.last = some k → st.rootLevel < levelOf ind l) :
    treeLine ind st l ≠ .crash ∧ ∀ st', treeLine ind st l = .ok st' → Linked st' := by
  unfold treeLine
  by_cases hb : isBlank l = true
  · rw [if_pos hb]
    exact ⟨by simp, fun _ e => by cases e; exact h⟩
  · rw [if_neg hb]
    by_cases hc : ':' ∈ l
    · rw [if_neg (not_not_intro hc)]
      simp only
      split
      · exact ⟨by simp, fun _ e => by cases e⟩
      · rename_i hj
        have hj' : ∀ k, st.last = some k → levelOf ind l ≤ k + 1 ∧ st.rootLevel < levelOf ind l := by
          intro k hk
          rw [hk] at hj
          simp at hj
          exact ⟨hj, hr hb k hk⟩
        have hne := readEntry_no_crash (ind := ind) hc (ha hc)
        cases hre : readEntry l (levelOf ind l * ind.length + 1) with
        | crash => exact absurd hre hne
        | fail => exact ⟨by simp [SOut.bind], fun _ e => by cases e⟩
        | ok e => exact ⟨enter_no_crash h hj', fun st' he => enter_linked h hj' he⟩
    · rw [if_pos hc]
      exact ⟨by simp, fun _ e => by cases e⟩

theorem treeLines_no_crash {ind : Str} : ∀ {ls : List Str} {st : TreeSt}, Linked st →
    (∀ l ∈ ls, ':' ∈ l → after ':' l ≠ []) →
    (∀ l ∈ ls, ¬ isBlank l = true → st.last.isNone = false → st.rootLevel < levelOf ind l) →
    (st.last.isNone = true → ∀ bl a rest, ls = bl ++ a :: rest → (∀ x ∈ bl, isBlank x = true) → ¬ isBlank a = true →
      ∀ l ∈ rest, ¬ isBlank l = true → levelOf ind a < levelOf ind l) →
    treeLines ind st ls ≠ .crash
  | [], _, _, _, _, _ => by simp [treeLines]
  | l :: ls, st, h, ha, hr, h0 => by
    obtain ⟨h1, h2⟩ := treeLine_no_crash (ind := ind) h (ha l (by simp)) (fun hb k hk => hr l (by simp) hb (by rw [hk]; rfl))
    rw [treeLines]
    cases hl : treeLine ind st l with
    | crash => exact absurd hl h1
    | fail => simp [SOut.bind]
    | ok st' =>
      show treeLines ind st' ls ≠ .crash
      by_cases hb : isBlank l = true
      · rw [treeLine_blank st hb] at hl
        cases hl
        refine treeLines_no_crash h (fun x hx => ha x (by simp [hx])) (fun x hx => hr x (by simp [hx])) ?_
        intro hn bl a rest e hbl hna
        exact h0 hn (l :: bl) a rest (by rw [e]; rfl) (by
          intro x hx
          rcases List.mem_cons.1 hx with rfl | hx
          · exact hb
          · exact hbl x hx) hna
      · obtain ⟨_, e, he⟩ := treeLine_ok hb hl
        obtain ⟨e1, e2, _, _⟩ := enter_ok he
        refine treeLines_no_crash (h2 st' hl) (fun x hx => ha x (by simp [hx])) ?_ (by rw [e1]; intro hx; cases hx)
        intro x hx hbx _
        rw [e2]
        by_cases hn : st.last.isNone = true
        · rw [if_pos hn]
          exact h0 hn [] l ls rfl (by simp) hb x hx hbx
        · rw [if_neg hn]
          exact hr x (by simp [hx]) hbx (by cases hl' : st.last with | none => rw [hl'] at hn; exact absurd rfl hn | some _ => rfl)

/-- The first line that is not blank is unique. -/
theorem first_line : ∀ {bl bl' : List Str} {a a' : Str} {r r' : List Str}, (∀ x ∈ bl, isBlank x = true) → ¬ isBlank a = true →
    (∀ x ∈ bl', isBlank x = true) → ¬ isBlank a' = true → bl ++ a :: r = bl' ++ a' :: r' → bl = bl' ∧ a = a' ∧ r = r'
  | [], [], _, _, _, _, _, _, _, _, e => by cases e; exact ⟨rfl, rfl, rfl⟩
  | [], y :: ys, _, _, _, _, _, ha, hb, _, e => by
    cases e
    exact absurd (hb _ (by simp)) ha
  | x :: xs, [], _, _, _, _, hb, _, _, ha, e => by
    cases e
    exact absurd (hb _ (by simp)) ha
  | x :: xs, y :: ys, _, _, _, _, h1, h2, h3, h4, e => by
    rw [List.cons_append, List.cons_append] at e
    injection e with e1 e2
    obtain ⟨rfl, h⟩ := first_line (fun z hz => h1 z (by simp [hz])) h2 (fun z hz => h3 z (by simp [hz])) h4 e2
    exact ⟨by rw [e1], h⟩

theorem replaceAll_nonempty {k v : Str} (hv : v ≠ []) : ∀ {n : Nat} {s t : Str}, s ≠ [] → replaceAll k v n s = some t → t ≠ [] := by
  intro n
  induction n with
  | zero =>
    intro s t hs h
    rw [replaceAll] at h
    split at h
    · cases h; exact hs
    · cases h
  | succ n ih =>
    intro s t hs h
    rw [replaceAll] at h
    split at h
    · cases h; exact hs
    · refine ih ?_ h
      intro e
      exact hv (List.append_eq_nil_iff.1 (List.append_eq_nil_iff.1 e).1).2

theorem renameKeys_nonempty {table : List (Str × Str)} {n : Nat} : ∀ {ks : List Str} {s t : Str},
    (∀ k ∈ ks, nameFor table k ≠ [] ∨ k = []) → s ≠ [] → renameKeys table n ks s = some t → t ≠ []
  | [], s, t, _, hs, h => by cases h; exact hs
  | k :: ks, s, t, hk, hs, h => by
    rw [renameKeys] at h
    split at h
    · exact renameKeys_nonempty (fun x hx => hk x (by simp [hx])) hs h
    · rename_i hne
      rcases hk k (by simp) with h1 | h1
      · cases hr : replaceAll k (nameFor table k) n s with
        | none => rw [hr] at h; cases h
        | some u =>
          rw [hr] at h
          exact renameKeys_nonempty (fun x hx => hk x (by simp [hx])) (replaceAll_nonempty h1 hs hr) h
      · subst h1
        cases hr : replaceAll [] (nameFor table []) n s with
        | none => rw [hr] at h; cases h
        | some u =>
          rw [hr] at h
          exact renameKeys_nonempty (fun x hx => hk x (by simp [hx])) (replaceAll_nonempty hne hs hr) h

theorem trimC_nonempty {s : Str} (h : ¬ isBlank s = true) : trimC s ≠ [] := by
  obtain ⟨c, hc, hs⟩ : ∃ c ∈ s, isSpaceC c = false := by
    apply Classical.byContradiction
    intro hn
    apply h
    unfold isBlank
    rw [List.all_eq_true]
    intro x hx
    cases hs : isSpaceC x with
    | true => rfl
    | false => exact absurd ⟨x, hx, hs⟩ hn
  have keep : ∀ (t : Str), c ∈ t → c ∈ t.dropWhile isSpaceC := by
    intro t ht
    induction t with
    | nil => cases ht
    | cons x t ih =>
      rw [List.dropWhile_cons]
      split
      · rename_i hx
        rcases List.mem_cons.1 ht with rfl | ht
        · rw [hs] at hx; cases hx
        · exact ih ht
      · exact ht
  intro e
  have := List.mem_reverse.2 (keep _ (List.mem_reverse.2 (keep s hc)))
  rw [show ((s.dropWhile isSpaceC).reverse.dropWhile isSpaceC).reverse = trimC s from rfl, e] at this
  cases this

theorem constraintLine_no_crash (sci : Str → Option Str) (o : Bool) (n : Nat) {table : List (Str × Str)} {line : Str}
    (ht : ∀ k v, (k, v) ∈ table → v ≠ []) (h : ':' ∈ line → ¬ isBlank (after ':' line) = true) :
    constraintLine sci o n table line ≠ some .crash := by
  unfold constraintLine
  split
  · simp
  · split
    · simp
    · rename_i hc
      have hc : ':' ∈ line := Classical.not_not.1 hc
      cases hr : renameKeys table n (keys table) (trimC (after ':' line)) with
      | none => simp
      | some s =>
        have h1 : s ≠ [] := by
          refine renameKeys_nonempty ?_ (trimC_nonempty (h hc)) hr
          intro k hk
          obtain ⟨v, hv⟩ := lookup_of_mem (mem_keys.1 hk)
          exact .inl (by rw [nameFor_of hv]; exact ht k v (lookup_mem hv))
        rw [Option.bind_some]
        cases hcn : connectives o n s with
        | none => simp
        | some t =>
          have h2 : t ≠ [] := by
            have ne : ∀ (x : Str), ' ' :: x ≠ [] := by simp
            unfold connectives at hcn
            split at hcn
            · cases hq : replaceAll c!" or " c!" | " n s with
              | none => rw [hq] at hcn; cases hcn
              | some u => rw [hq] at hcn; exact replaceAll_nonempty (ne _) (replaceAll_nonempty (ne _) h1 hq) hcn
            · cases hq : replaceAll c!" and " c!" & " n s with
              | none => rw [hq] at hcn; cases hcn
              | some u => rw [hq] at hcn; exact replaceAll_nonempty (ne _) (replaceAll_nonempty (ne _) h1 hq) hcn
          rw [Option.map_some]
          rcases parseText_total sci h2 with hp | ⟨c, hp⟩
          · rw [hp]; simp
          · rw [hp]; simp

/-! ### A replacement that never ends -/

def loopA (n : Nat) : Str := List.replicate n 'b' ++ (c!"aab" ++ List.replicate n 'a')
def loopB (n : Nat) : Str := List.replicate n 'b' ++ (c!"abbaa" ++ List.replicate n 'a')

theorem find_in_loop (n : Nat) (s : Str) : findSub c!"ab" (List.replicate n 'b' ++ s) = (findSub c!"ab" s).map (· + n) := by
  rw [skip_of_head (by decide) (by
    intro c hc
    rw [(List.mem_replicate.1 hc).2]
    decide)]
  simp

theorem loop_step (fuel n : Nat) :
    replaceAll c!"ab" c!"bbaa" (fuel + 1) (loopA n) = replaceAll c!"ab" c!"bbaa" fuel (loopB n) ∧
    replaceAll c!"ab" c!"bbaa" (fuel + 1) (loopB n) = replaceAll c!"ab" c!"bbaa" fuel (loopA (n + 2)) := by
  have ha : findSub c!"ab" (loopA n) = some (1 + n) := by
    unfold loopA
    rw [find_in_loop]
    have : findSub c!"ab" (c!"aab" ++ List.replicate n 'a') = some 1 := rfl
    rw [this]; rfl
  have hb : findSub c!"ab" (loopB n) = some (0 + n) := by
    unfold loopB
    rw [find_in_loop]
    have : findSub c!"ab" (c!"abbaa" ++ List.replicate n 'a') = some 0 := rfl
    rw [this]; rfl
  constructor
  · rw [replaceAll, ha]
    simp only
    congr 1
    unfold loopA loopB
    have e : List.replicate n 'b' ++ (c!"aab" ++ List.replicate n 'a') =
        (List.replicate n 'b' ++ ['a']) ++ (c!"ab" ++ List.replicate n 'a') := by simp
    have hl : 1 + n = (List.replicate n 'b' ++ ['a']).length := by simp; omega
    rw [e, hl, List.take_left, ← List.drop_drop, List.drop_left]
    simp
  · rw [replaceAll, hb]
    simp only
    congr 1
    unfold loopA loopB
    have e : List.replicate n 'b' ++ (c!"abbaa" ++ List.replicate n 'a') =
        List.replicate n 'b' ++ (c!"ab" ++ (c!"baa" ++ List.replicate n 'a')) := by simp
    have hl : 0 + n = (List.replicate n 'b').length := by simp
    rw [e, hl, List.take_left, ← List.drop_drop, List.drop_left]
    have e2 : List.replicate (n + 2) 'b' = List.replicate n 'b' ++ c!"bb" := by
      rw [show c!"bb" = List.replicate 2 'b' from rfl, List.replicate_append_replicate]
    have e3 : List.replicate (n + 2) 'a' = c!"aa" ++ List.replicate n 'a' := rfl
    rw [e2, e3]
    simp

theorem loop_forever : ∀ (fuel n : Nat), replaceAll c!"ab" c!"bbaa" fuel (loopA n) = none ∧
    replaceAll c!"ab" c!"bbaa" fuel (loopB n) = none
  | 0, n => by
    have ha : findSub c!"ab" (loopA n) = some (1 + n) := by
      unfold loopA
      rw [find_in_loop]
      have : findSub c!"ab" (c!"aab" ++ List.replicate n 'a') = some 1 := rfl
      rw [this]; rfl
    have hb : findSub c!"ab" (loopB n) = some (0 + n) := by
      unfold loopB
      rw [find_in_loop]
      have : findSub c!"ab" (c!"abbaa" ++ List.replicate n 'a') = some 0 := rfl
      rw [this]; rfl
    constructor
    · rw [replaceAll, ha]
    · rw [replaceAll, hb]
  | fuel + 1, n => by
    rw [(loop_step fuel n).1, (loop_step fuel n).2]
    exact ⟨(loop_forever fuel n).2, (loop_forever fuel (n + 2)).1⟩

/-! ### Documents -/

theorem build_tree {world : FModel} (hf : ∀ i, world.heap i ≠ none → i < world.next) (F : Env) {root mn : Str} {f : Forest}
    {calls : List BCall} (h : TreeCalls root f calls) (hd : DistinctNames root f) {cons : List (CKind × Constraint)}
    (hk : ConstraintsKnown (treeDesc mn root f cons)) :
    ∃ m, world.build F (builderOf (.setVmName mn :: calls ++ cons.map fun c => .addConstraint c.1 c.2)) = .built m ∧
      Describes (treeDesc mn root f cons) m := by
  have hb := buildable_tree (mn := mn) (cons := cons) h hd rfl
  obtain ⟨m, h1, h2⟩ := build_ok hf F hb hk
  refine ⟨m, h1, h2.congr rfl rfl rfl rfl (List.nodup_cons.1 hd.1).2 (fun _ => Iff.rfl) (fun _ _ => rfl) ?_ (fun _ => rfl)⟩
  intro g
  exact (h.groups.mem_iff).symm

/-- The result of a document with a tree and constraints. -/
theorem load_two (E : SEnv) (F : Env) (world : FModel) (fuel : Nat) {n t c : Str} {i : Option Str} {calls : List BCall}
    {table : List (Str × Str)} (h : parseTree E.order (i.getD c!"\t") [] t = .ok (calls, table)) :
    load E F world fuel ⟨some n, [.tree i t, .constraints c]⟩ =
      (constraintLines E.sci E.orFirst fuel table (splitLines c)).map fun
        | .ok cs => ofBuild (world.build F (builderOf (.setVmName n :: calls ++ cs)))
        | .fail => .null
        | .crash => .crash := by
  unfold load parseDoc
  simp only [parseElems, parseElem, h, SOut.bind]
  cases constraintLines E.sci E.orFirst fuel table (splitLines c) with
  | none => rfl
  | some r =>
    cases r with
    | ok cs => rfl
    | fail => rfl
    | crash => rfl

theorem build_tree_unknown {world : FModel} (hf : ∀ i, world.heap i ≠ none → i < world.next) (F : Env) {root mn : Str}
    {f : Forest} {calls : List BCall} (h : TreeCalls root f calls) (hd : DistinctNames root f) {cons : List (CKind × Constraint)}
    (hk : ¬ ConstraintsKnown (treeDesc mn root f cons)) :
    world.build F (builderOf (.setVmName mn :: calls ++ cons.map fun c => .addConstraint c.1 c.2)) = .null :=
  build_constraint_missing hf F (buildable_tree (mn := mn) (cons := cons) h hd rfl) hk

end Verif.Sxfm

namespace Verif.Spec
open Verif Verif.Sxfm

/-- A line of the constraints element with one clause. -/
structure ClauseLine where
  label : Str
  pre : Str := []
  post : Str := []
  first : Lit
  rest : List Lit
  deriving DecidableEq, Repr

def ClauseLine.text (c : ClauseLine) : Str := c.label ++ ':' :: (c.pre ++ clauseText c.first c.rest ++ c.post)

def ClauseLine.lits (c : ClauseLine) : List Lit := c.first :: c.rest

/-- What the line says, the identifiers being replaced. -/
def ClauseLine.constraint (table : List (Str × Str)) (c : ClauseLine) : Constraint :=
  clauseConstraint (Lit.rename table c.first) (c.rest.map (Lit.rename table))

/-- A line that is treated properly. -/
structure ClauseLine.Good (table : List (Str × Str)) (c : ClauseLine) : Prop where
  label : ∀ x ∈ c.label, x ≠ ':' ∧ x ≠ '\n'
  pre : ∀ x ∈ c.pre, isSpaceC x = true ∧ x ≠ '\n'
  post : ∀ x ∈ c.post, isSpaceC x = true ∧ x ≠ '\n'
  words : ∀ l ∈ c.lits, IsWord l.2
  good : ∀ l ∈ c.lits, GoodWord table l.2
  names : ∀ l ∈ c.lits, LitOk (Lit.rename table l)

/-- The table of a feature tree: identifiers with the names they stand for. -/
def treeTable (root : Str) (rootId : Option Str) (f : Forest) : List (Str × Str) :=
  f.ids.reverse ++ rootId.toList.map fun i => (i, root)

/-- A document. -/
def sxfmDoc (name ind root : Str) (rootId : Option Str) (f : Forest) (cs : List ClauseLine) : Doc where
  name := some name
  elems := [.tree (some ind) (joinLines (treeText ind root rootId f)), .constraints (joinLines (cs.map ClauseLine.text))]

end Verif.Spec

namespace Verif.Sxfm
open Verif Verif.Spec

theorem sepTail_chars {c : Char} : ∀ {ls : List Lit}, c ∈ sepTail c!" or " ls → c ∈ c!" or" ∨ ∃ l ∈ ls, c ∈ Lit.text l
  | [], h => by cases h
  | l :: ls, h => by
    rw [sepTail] at h
    rcases List.mem_append.1 h with h | h
    · rcases List.mem_append.1 h with h | h
      · left
        revert h
        simp
        rintro (rfl | rfl | rfl | rfl) <;> simp
      · exact .inr ⟨l, by simp, h⟩
    · rcases sepTail_chars h with h | ⟨l', h1, h2⟩
      · exact .inl h
      · exact .inr ⟨l', by simp [h1], h2⟩

theorem litText_chars {l : Lit} (h : IsWord l.2) {c : Char} (hc : c ∈ Lit.text l) : c = '~' ∨ isIdChar c = true := by
  rcases List.mem_append.1 hc with hc | hc
  · left
    revert hc
    unfold sign
    cases l.1 <;> simp
  · exact .inr (h.2 c hc)

theorem clauseLine_no_newline {table : List (Str × Str)} {c : ClauseLine} (h : c.Good table) : '\n' ∉ c.text := by
  have hl : ∀ l ∈ c.lits, '\n' ∉ Lit.text l := by
    intro l hl hx
    rcases litText_chars (h.words l hl) hx with hx | hx
    · exact absurd hx (by decide)
    · exact absurd hx (by decide)
  intro hx
  unfold ClauseLine.text at hx
  rcases List.mem_append.1 hx with hx | hx
  · exact (h.label _ hx).2 rfl
  · rcases List.mem_cons.1 hx with hx | hx
    · exact absurd hx (by decide)
    · rcases List.mem_append.1 hx with hx | hx
      · rcases List.mem_append.1 hx with hx | hx
        · exact (h.pre _ hx).2 rfl
        · rcases List.mem_append.1 hx with hx | hx
          · exact hl c.first (by simp [ClauseLine.lits]) hx
          · rcases sepTail_chars hx with hx | ⟨l, h1, h2⟩
            · exact absurd hx (by decide)
            · exact hl l (by simp [ClauseLine.lits, h1]) h2
      · exact (h.post _ hx).2 rfl

theorem constraintLines_ok (sci : Str → Option Str) (o : Bool) {table : List (Str × Str)} (ht : IdTable table)
    (hor : table.lookup c!"or" = none) (hgo : GoodWord table c!"or") : ∀ {cs : List ClauseLine}, (∀ c ∈ cs, c.Good table) →
    ∃ n, ∀ m, n ≤ m → constraintLines sci o m table (cs.map ClauseLine.text) =
      some (.ok ((cs.map fun c => (CKind.boolean, c.constraint table)).map fun c => .addConstraint c.1 c.2))
  | [], _ => ⟨0, fun _ _ => rfl⟩
  | c :: cs, h => by
    have hc := h c (by simp)
    obtain ⟨n1, h1⟩ := clause_line sci o ht hor hc.words hc.good hgo hc.names (label := c.label) (a := c.pre) (b := c.post)
      (fun hx => (hc.label _ hx).1 rfl) (fun x hx => (hc.pre x hx).1) (fun x hx => (hc.post x hx).1)
    obtain ⟨n2, h2⟩ := constraintLines_ok sci o ht hor hgo (cs := cs) (fun x hx => h x (by simp [hx]))
    refine ⟨max n1 n2, fun m hm => ?_⟩
    have e1 := h1 m (Nat.le_trans (Nat.le_max_left _ _) hm)
    have e2 := h2 m (Nat.le_trans (Nat.le_max_right _ _) hm)
    rw [List.map_cons, constraintLines]
    show (match constraintLine sci o m table (c.label ++ ':' :: (c.pre ++ clauseText c.first c.rest ++ c.post)) with | none => _ | some (.ok cs) => _ | some .fail => _ | some .crash => _) = _
    rw [e1]
    simp only
    rw [e2]
    rfl

theorem treeTable_eq (root : Str) (o : Option Str) (f : Forest) :
    f.ids.reverse ++ ((o.toList.map fun i => (i, root)).reverse ++ []) = treeTable root o f := by
  unfold treeTable
  cases o <;> rfl

/-- Loading a document. -/
theorem load_doc {world : FModel} (hf : ∀ i, world.heap i ≠ none → i < world.next) (E : SEnv) (F : Env) {mn ind root : Str}
    {o : Option Str} {f : Forest} {cs : List ClauseLine} (hi : PlainIndent ind) (hn : PlainName root)
    (ho : ∀ i, o = some i → PlainId root i) (hp : f.Plain) (hd : DistinctNames root f)
    (ht : IdTable (treeTable root o f)) (hor : (treeTable root o f).lookup c!"or" = none)
    (hgo : GoodWord (treeTable root o f) c!"or") (hc : ∀ c ∈ cs, c.Good (treeTable root o f))
    (hk : ConstraintsKnown (treeDesc mn root f (cs.map fun c => (.boolean, c.constraint (treeTable root o f))))) :
    ∃ n, ∀ fuel, n ≤ fuel → ∃ m, load E F world fuel (sxfmDoc mn ind root o f cs) = some (.built m) ∧
      Describes (treeDesc mn root f (cs.map fun c => (.boolean, c.constraint (treeTable root o f)))) m := by
  obtain ⟨calls, h1, h2⟩ := parseTree_text hi hn ho hp E.order_perm []
  rw [treeTable_eq] at h1
  obtain ⟨n, h3⟩ := constraintLines_ok E.sci E.orFirst ht hor hgo hc
  obtain ⟨m, h4, h5⟩ := build_tree hf F (mn := mn) h2 hd hk
  refine ⟨n, fun fuel hfuel => ⟨m, ?_, h5⟩⟩
  have e : parseDoc E fuel (sxfmDoc mn ind root o f cs) = some (.ok (.setVmName mn :: calls ++
      (cs.map fun c => (CKind.boolean, c.constraint (treeTable root o f))).map fun c => .addConstraint c.1 c.2)) := by
    unfold parseDoc sxfmDoc
    simp only [parseElems, parseElem, Option.getD_some]
    rw [h1]
    simp only [SOut.bind]
    rw [splitLines_join (by
      intro l hl
      obtain ⟨c, hc', rfl⟩ := List.mem_map.1 hl
      exact clauseLine_no_newline (hc c hc')), h3 fuel hfuel]
    simp
  unfold load
  rw [e, Option.map_some]
  simp only
  rw [h4]
  rfl

theorem load_tree {world : FModel} (hf : ∀ i, world.heap i ≠ none → i < world.next) (E : SEnv) (F : Env) {mn ind root : Str}
    {o : Option Str} {f : Forest} (hi : PlainIndent ind) (hn : PlainName root) (ho : ∀ i, o = some i → PlainId root i)
    (hp : f.Plain) (hd : DistinctNames root f) (fuel : Nat) {i : Option Str} (hind : i.getD c!"\t" = ind) :
    ∃ m, load E F world fuel { name := some mn, elems := [.tree i (joinLines (treeText ind root o f))] } = some (.built m) ∧
      Describes (treeDesc mn root f []) m := by
  obtain ⟨calls, h1, h2⟩ := parseTree_text hi hn ho hp E.order_perm []
  obtain ⟨m, h4, h5⟩ := build_tree hf F (mn := mn) (cons := []) h2 hd (by intro x hx; cases hx)
  refine ⟨m, ?_, h5⟩
  unfold load parseDoc
  simp only [parseElems, parseElem, hind]
  rw [h1]
  simp only [SOut.bind, Option.map_some]
  rw [List.map_nil, List.append_nil] at h4
  show some (ofBuild (world.build F (builderOf (BCall.setVmName mn :: calls)))) = _
  rw [h4]
  rfl

end Verif.Sxfm

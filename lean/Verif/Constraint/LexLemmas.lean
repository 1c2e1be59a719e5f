import Verif.Constraint.LexSpec
/-! # Lemmas about the constraint lexer -/

namespace Verif
open Spec

theorem spells_ne_nil {t p} (h : Spells t p) : p ≠ [] := by cases h <;> simp

theorem takeWhile_longest {p : Char → Bool} {s longer : Str} (h : longer <+: s)
    (hp : ∀ x ∈ longer, p x = true) : longer.length ≤ (s.takeWhile p).length := by
  obtain ⟨r, rfl⟩ := h
  rw [List.takeWhile_append_of_pos hp]
  simp

theorem takeWhile_all {p : Char → Bool} (s : Str) : ∀ x ∈ s.takeWhile p, p x = true := by
  intro x hx
  induction s with
  | nil => simp at hx
  | cons a s ih =>
    rw [List.takeWhile_cons] at hx
    split at hx
    · simp at hx
      rcases hx with rfl | hx
      · assumption
      · exact ih hx
    · simp at hx

theorem isIdChar_iff (x : Char) : isIdChar x = true ↔ (isAlnum x = true ∨ x = '_') := by
  simp [isIdChar]

theorem isNumChar_iff (x : Char) : isNumChar x = true ↔
    (isDigit x = true ∨ x = 'e' ∨ x = 'E' ∨ x = '+' ∨ x = '-') := by
  simp [isNumChar, or_assoc]

theorem isWs_iff (x : Char) : isWs x = true ↔ (x = ' ' ∨ x = '\t' ∨ x = '\r' ∨ x = '\n') := by
  simp [isWs, or_assoc]

/-- What the first character of a spelled token says about it. -/
theorem spells_head {t c cs} (h : Spells t (c :: cs)) :
    (isAlpha c = true ∧ ∀ x ∈ c :: cs, isIdChar x = true) ∨
    (isDigit c = true ∧ isAlpha c = false ∧ ∀ x ∈ c :: cs, isNumChar x = true) ∨
    (isWs c = true ∧ isAlpha c = false ∧ isDigit c = false ∧ ∀ x ∈ c :: cs, isWs x = true) ∨
    (c :: cs) ∈ ([['('], [')'], ['~'], ['!'], ['+'], ['-'], ['*'], ['&'], ['|'], ['='], ['!', '='],
      ['=', '>'], ['-', '>'], ['<', '=', '>'], ['<', '-', '>'], ['<'], ['<', '='], ['>'],
      ['>', '=']] : List Str) := by
  cases h with
  | ident h1 h2 h3 =>
    refine .inl ⟨h1, ?_⟩
    intro x hx
    simp at hx
    rcases hx with rfl | hx
    · simp [isIdChar, isAlnum, h1]
    · exact (isIdChar_iff x).2 (h2 x hx)
  | number h1 h2 =>
    refine .inr (.inl ⟨h1, ?_, ?_⟩)
    · revert h1
      simp only [isDigit, isAlpha, isLowerAlpha, isUpperAlpha, Char.le_def, Bool.and_eq_true,
        decide_eq_true_eq, Bool.or_eq_false_iff, Bool.and_eq_false_iff, decide_eq_false_iff_not]
      intro h
      have h9 : c.val ≤ 57 := h.2
      have h0 : (48 : UInt32) ≤ c.val := h.1
      constructor
      · left; show ¬ ((97 : UInt32) ≤ c.val); grind
      · left; show ¬ ((65 : UInt32) ≤ c.val); grind
    · intro x hx
      simp at hx
      rcases hx with rfl | hx
      · simp [isNumChar, h1]
      · exact (isNumChar_iff x).2 (h2 x hx)
  | ws h =>
    have hc := h c (by simp)
    refine .inr (.inr (.inl ⟨(isWs_iff c).2 hc, ?_, ?_, fun x hx => (isWs_iff x).2 (h x hx)⟩))
    · rcases hc with rfl | rfl | rfl | rfl <;> decide
    · rcases hc with rfl | rfl | rfl | rfl <;> decide
  | orWord => exact .inl ⟨by decide, by decide⟩
  | _ => exact .inr (.inr (.inr (by decide)))

/-- What `munch` may return on a nonempty text. -/
def MunchOk (c : Char) (cs : Str) (r : Tok × Nat) : Prop :=
  (r.1 = .eof ∧ (c = Char.ofNat 0 ∨ c = Char.ofNat 255)) ∨
  (r.1 = .error [c] ∧ ¬ (c = Char.ofNat 0 ∨ c = Char.ofNat 255) ∧
    ∀ t piece, Spells t piece → ¬ piece <+: c :: cs) ∨
  (r.1.isEnd = false ∧ 1 ≤ r.2 ∧ r.2 ≤ (c :: cs).length ∧
    Longest r.1 ((c :: cs).take r.2) (c :: cs))

theorem longest_of {t s} (k : Nat) (h : Spells t (s.take k)) (hk : k ≤ s.length)
    (hmax : ∀ longer t', longer <+: s → Spells t' longer → longer.length ≤ k) :
    Longest t (s.take k) s := by
  refine ⟨h, s.drop k, by simp, ?_⟩
  intro longer hl hlen t' ht'
  have := hmax longer t' hl ht'
  simp at hlen
  omega

/-- Spelled tokens starting with a character that is no letter, digit or whitespace. -/
theorem spells_op {t c cs longer} (h : Spells t longer) (hp : longer <+: c :: cs)
    (h1 : isAlpha c = false) (h2 : isDigit c = false) (h3 : isWs c = false) :
    longer ∈ ([['('], [')'], ['~'], ['!'], ['+'], ['-'], ['*'], ['&'], ['|'], ['='], ['!', '='],
      ['=', '>'], ['-', '>'], ['<', '=', '>'], ['<', '-', '>'], ['<'], ['<', '='], ['>'],
      ['>', '=']] : List Str) := by
  cases longer with
  | nil => exact absurd rfl (spells_ne_nil h)
  | cons x xs =>
    have : x = c := by obtain ⟨r, hr⟩ := hp; simp at hr; exact hr.1
    subst this
    rcases spells_head h with ⟨a, _⟩ | ⟨a, _⟩ | ⟨a, _⟩ | a
    · simp [h1] at a
    · simp [h2] at a
    · simp [h3] at a
    · exact a

theorem takeWhile_prefix (p : Char → Bool) (s : Str) :
    s.take (s.takeWhile p).length = s.takeWhile p := by
  have h : s.takeWhile p <+: s := List.takeWhile_prefix p
  exact (List.prefix_iff_eq_take.1 h).symm

theorem munchIdentifier_ok {c cs} (hc : isAlpha c = true) :
    MunchOk c cs (munchIdentifier (c :: cs)) := by
  have hid : isIdChar c = true := by simp [isIdChar, isAlnum, hc]
  have htw : (c :: cs).takeWhile isIdChar = c :: cs.takeWhile isIdChar := by
    simp [hid]
  have hlen : ((c :: cs).takeWhile isIdChar).length ≤ (c :: cs).length :=
    (List.takeWhile_prefix _).length_le
  have hmax : ∀ longer t', longer <+: c :: cs → Spells t' longer →
      longer.length ≤ ((c :: cs).takeWhile isIdChar).length := by
    intro longer t' hp hs
    cases longer with
    | nil => simp
    | cons x xs =>
      have : x = c := by obtain ⟨r, hr⟩ := hp; simp at hr; exact hr.1
      subst this
      apply takeWhile_longest hp
      rcases spells_head hs with ⟨_, a⟩ | ⟨_, a, _⟩ | ⟨_, a, _⟩ | a
      · exact a
      · simp [hc] at a
      · simp [hc] at a
      · exfalso
        simp only [List.mem_cons, List.cons.injEq, List.not_mem_nil, or_false] at a
        rcases a with a | a | a | a | a | a | a | a | a | a | a | a | a | a | a | a | a | a | a <;>
          (obtain ⟨rfl, _⟩ := a; revert hc; decide)
  unfold munchIdentifier
  split
  · rename_i h
    refine .inr (.inr ⟨rfl, by decide, by rw [h] at hlen; simpa using hlen, ?_⟩)
    have h2 : (c :: cs).take 2 = ['o', 'r'] := by
      have := takeWhile_prefix isIdChar (c :: cs)
      rw [h] at this
      simpa using this
    refine longest_of 2 (by rw [h2]; exact .orWord) (by rw [h] at hlen; simpa using hlen) ?_
    intro longer t' hp hs
    have := hmax longer t' hp hs
    rw [h] at this
    simpa using this
  · rename_i h
    refine .inr (.inr ⟨rfl, by simp [htw], hlen, ?_⟩)
    refine longest_of _ ?_ hlen hmax
    simp only [takeWhile_prefix]
    rw [htw] at h ⊢
    refine .ident hc ?_ h
    intro x hx
    exact (isIdChar_iff x).1 (takeWhile_all cs x hx)

theorem munchNumber_ok {c cs} (hc : isDigit c = true) (ha : isAlpha c = false) :
    MunchOk c cs (munchNumber (c :: cs)) := by
  have hid : isNumChar c = true := by simp [isNumChar, hc]
  have htw : (c :: cs).takeWhile isNumChar = c :: cs.takeWhile isNumChar := by
    simp [hid]
  have hlen : ((c :: cs).takeWhile isNumChar).length ≤ (c :: cs).length :=
    (List.takeWhile_prefix _).length_le
  refine .inr (.inr ⟨rfl, by simp [munchNumber, htw], hlen, ?_⟩)
  refine longest_of _ ?_ hlen ?_
  · simp only [munchNumber, takeWhile_prefix]
    rw [htw]
    exact .number hc fun x hx => (isNumChar_iff x).1 (takeWhile_all cs x hx)
  · intro longer t' hp hs
    cases longer with
    | nil => simp
    | cons x xs =>
      have : x = c := by obtain ⟨r, hr⟩ := hp; simp at hr; exact hr.1
      subst this
      apply takeWhile_longest hp
      rcases spells_head hs with ⟨a, _⟩ | ⟨_, _, a⟩ | ⟨_, _, a, _⟩ | a
      · simp [ha] at a
      · exact a
      · simp [hc] at a
      · exfalso
        simp only [List.mem_cons, List.cons.injEq, List.not_mem_nil, or_false] at a
        rcases a with a | a | a | a | a | a | a | a | a | a | a | a | a | a | a | a | a | a | a <;>
          (obtain ⟨rfl, _⟩ := a; revert hc; decide)

theorem munchWhitespace_ok {c cs} (hc : isWs c = true) (ha : isAlpha c = false)
    (hd : isDigit c = false) : MunchOk c cs (munchWhitespace (c :: cs)) := by
  have htw : (c :: cs).takeWhile isWs = c :: cs.takeWhile isWs := by
    simp [hc]
  have hlen : ((c :: cs).takeWhile isWs).length ≤ (c :: cs).length :=
    (List.takeWhile_prefix _).length_le
  refine .inr (.inr ⟨rfl, by simp [munchWhitespace, htw], hlen, ?_⟩)
  refine longest_of _ ?_ hlen ?_
  · simp only [munchWhitespace, takeWhile_prefix]
    rw [htw]
    refine .ws fun x hx => (isWs_iff x).1 ?_
    rw [← htw] at hx
    exact takeWhile_all _ x hx
  · intro longer t' hp hs
    cases longer with
    | nil => simp
    | cons x xs =>
      have : x = c := by obtain ⟨r, hr⟩ := hp; simp at hr; exact hr.1
      subst this
      apply takeWhile_longest hp
      rcases spells_head hs with ⟨a, _⟩ | ⟨a, _, _⟩ | ⟨_, _, _, a⟩ | a
      · simp [ha] at a
      · simp [hd] at a
      · exact a
      · exfalso
        simp only [List.mem_cons, List.cons.injEq, List.not_mem_nil, or_false] at a
        rcases a with a | a | a | a | a | a | a | a | a | a | a | a | a | a | a | a | a | a | a <;>
          (obtain ⟨rfl, _⟩ := a; revert hc; decide)

/-- Tokens of one fixed character. -/
theorem single_ok {c cs t} (hs : Spells t [c]) (he : t.isEnd = false)
    (h1 : isAlpha c = false) (h2 : isDigit c = false) (h3 : isWs c = false)
    (hmax : ∀ longer, longer <+: c :: cs → longer ∈ ([['!', '='],
      ['=', '>'], ['-', '>'], ['<', '=', '>'], ['<', '-', '>'], ['<', '='], ['>', '=']] : List Str)
      → False) : MunchOk c cs (t, 1) := by
  refine .inr (.inr ⟨he, by simp, by simp, longest_of 1 (by simpa using hs) (by simp) ?_⟩)
  intro longer t' hp ht'
  have hm := spells_op ht' hp h1 h2 h3
  have := hmax longer hp
  simp only [List.mem_cons, List.not_mem_nil, or_false] at hm this
  rcases hm with h | h | h | h | h | h | h | h | h | h | h | h | h | h | h | h | h | h | h <;>
    first
    | (rw [h]; decide)
    | exact (this (by simp [h])).elim

theorem munchOperator_ok {c cs} (hc : c = '-' ∨ c = '!' ∨ c = '=' ∨ c = '>' ∨ c = '<') :
    MunchOk c cs (munchOperator (c :: cs)) := by
  have h1 : isAlpha c = false := by rcases hc with rfl | rfl | rfl | rfl | rfl <;> decide
  have h2 : isDigit c = false := by rcases hc with rfl | rfl | rfl | rfl | rfl <;> decide
  have h3 : isWs c = false := by rcases hc with rfl | rfl | rfl | rfl | rfl <;> decide
  have pre : ∀ k t, Spells t ((c :: cs).take k) → t.isEnd = false → 1 ≤ k → k ≤ (c :: cs).length →
      (∀ longer, longer <+: c :: cs → longer ∈ ([['('], [')'], ['~'], ['!'], ['+'], ['-'], ['*'],
        ['&'], ['|'], ['='], ['!', '='],
        ['=', '>'], ['-', '>'], ['<', '=', '>'], ['<', '-', '>'], ['<'], ['<', '='], ['>'],
        ['>', '=']] : List Str) → longer.length ≤ k) → MunchOk c cs (t, k) := by
    intro k t hs he hk1 hk2 hmax
    refine .inr (.inr ⟨he, hk1, hk2, longest_of k hs hk2 ?_⟩)
    intro longer t' hp ht'
    exact hmax longer hp (spells_op ht' hp h1 h2 h3)
  have hnil : ∀ (x : Char) (xs : Str), x :: xs <+: [] → False := by simp
  unfold munchOperator
  split
  all_goals first
    | (rename_i heq; cases heq
       refine pre _ _ (by constructor) rfl (by simp) (by simp) ?_
       intro longer hp hm
       simp only [List.mem_cons, List.not_mem_nil, or_false] at hm
       rcases hm with h | h | h | h | h | h | h | h | h | h | h | h | h | h | h | h | h | h | h <;>
         subst h <;> first | decide | (exfalso; simp [List.cons_prefix_cons] at hp))
    | (rename_i hne heq; cases heq
       refine pre _ _ (by constructor) rfl (by simp) (by simp) ?_
       intro longer hp hm
       simp only [List.mem_cons, List.not_mem_nil, or_false] at hm
       rcases hm with h | h | h | h | h | h | h | h | h | h | h | h | h | h | h | h | h | h | h <;>
         subst h <;> first
          | decide
          | (exfalso; simp [List.cons_prefix_cons] at hp; done)
          | (exfalso; obtain ⟨r, hr⟩ := hp; simp at hr; simp_all; done))
    | skip
  all_goals first
    | (obtain ⟨r, hr⟩ := hp; simp at hr; grind)
    | (rcases hc with rfl | rfl | rfl | rfl | rfl <;> grind)

theorem munch_ok (c : Char) (cs : Str) : MunchOk c cs (munch c (c :: cs)) := by
  unfold munch
  by_cases h1 : isAlpha c = true
  · rw [if_pos h1]; exact munchIdentifier_ok h1
  rw [if_neg h1]
  simp only [Bool.not_eq_true] at h1
  by_cases h2 : isDigit c = true
  · rw [if_pos h2]; exact munchNumber_ok h2 h1
  rw [if_neg h2]
  simp only [Bool.not_eq_true] at h2
  by_cases hend : (c == Char.ofNat 255 || c == Char.ofNat 0) = true
  · rw [if_pos hend]
    exact .inl ⟨rfl, by simp only [Bool.or_eq_true, beq_iff_eq] at hend; exact hend.symm⟩
  rw [if_neg hend]
  by_cases h3 : isWs c = true
  · rw [if_pos h3]; exact munchWhitespace_ok h3 h1 h2
  rw [if_neg h3]
  simp only [Bool.not_eq_true] at h3
  have one : ∀ x t, x ∈ ['(', ')', '+', '~', '*', '&', '|'] → Spells t [x] → t.isEnd = false →
      (c == x) = true → MunchOk c cs (t, 1) := by
    intro x t hx hs he hcx
    have hcx : c = x := by simpa using hcx
    subst hcx
    refine single_ok hs he h1 h2 h3 ?_
    intro longer hp hm
    simp only [List.mem_cons, List.not_mem_nil, or_false] at hm hx
    rcases hm with h | h | h | h | h | h | h <;> subst h <;>
      simp [List.cons_prefix_cons] at hp <;> obtain ⟨rfl, _⟩ := hp <;> simp at hx
  by_cases g1 : (c == '(') = true
  · rw [if_pos g1]; exact one '(' _ (by decide) .lpar rfl g1
  rw [if_neg g1]
  by_cases g2 : (c == ')') = true
  · rw [if_pos g2]; exact one ')' _ (by decide) .rpar rfl g2
  rw [if_neg g2]
  by_cases g3 : (c == '+') = true
  · rw [if_pos g3]; exact one '+' _ (by decide) .plus rfl g3
  rw [if_neg g3]
  by_cases g4 : (c == '~') = true
  · rw [if_pos g4]; exact one '~' _ (by decide) .neg rfl g4
  rw [if_neg g4]
  by_cases g5 : (c == '*') = true
  · rw [if_pos g5]; exact one '*' _ (by decide) .star rfl g5
  rw [if_neg g5]
  by_cases g6 : (c == '&') = true
  · rw [if_pos g6]; exact one '&' _ (by decide) .and rfl g6
  rw [if_neg g6]
  by_cases g7 : (c == '|') = true
  · rw [if_pos g7]; exact one '|' _ (by decide) .or rfl g7
  rw [if_neg g7]
  by_cases g8 : (c == '-' || c == '!' || c == '=' || c == '>' || c == '<') = true
  · rw [if_pos g8]
    exact munchOperator_ok (by simpa [or_assoc] using g8)
  · rw [if_neg g8]
    refine .inr (.inl ⟨by simp, ?_, ?_⟩)
    · simp only [Bool.or_eq_true, beq_iff_eq] at hend; exact fun h => hend h.symm
    intro t piece hs hp
    have hm := spells_op hs hp h1 h2 h3
    simp only [List.mem_cons, List.not_mem_nil, or_false] at hm
    simp only [Bool.or_eq_true, beq_iff_eq, not_or] at g1 g2 g3 g4 g5 g6 g7 g8
    rcases hm with h | h | h | h | h | h | h | h | h | h | h | h | h | h | h | h | h | h | h <;>
      subst h <;> simp only [List.cons_prefix_cons] at hp <;> grind

/-- An end token is always consumed alone; other tokens take at least one character. -/
theorem munch_progress {c cs} (h : (munch c (c :: cs)).1.isEnd = false) :
    1 ≤ (munch c (c :: cs)).2 ∧ (munch c (c :: cs)).2 ≤ (c :: cs).length ∧
      Longest (munch c (c :: cs)).1 ((c :: cs).take (munch c (c :: cs)).2) (c :: cs) := by
  rcases munch_ok c cs with ⟨e, _⟩ | ⟨e, _⟩ | ⟨_, e⟩
  · rw [e] at h; simp [Tok.isEnd] at h
  · rw [e] at h; simp [Tok.isEnd] at h
  · exact e

theorem lexLoop_total (f : Nat) (s : Str) (hf : s.length ≤ f) :
    ∃ ts, lexLoop f s = some ts := by
  induction f generalizing s with
  | zero => cases s <;> simp_all [lexLoop]
  | succ f ih =>
    cases s with
    | nil => exact ⟨[], rfl⟩
    | cons c cs =>
      simp only [lexLoop]
      split
      · exact ⟨_, rfl⟩
      · rename_i h
        have hp := munch_progress (by simpa using h)
        obtain ⟨ts, hts⟩ := ih ((c :: cs).drop (munch c (c :: cs)).2) (by simp at hf ⊢; omega)
        exact ⟨_, by rw [hts]; rfl⟩

theorem lexLoop_fuel (f g : Nat) (s : Str) (hf : s.length ≤ f) (hg : s.length ≤ g) :
    lexLoop f s = lexLoop g s := by
  induction f generalizing s g with
  | zero => cases s <;> cases g <;> simp_all [lexLoop]
  | succ f ih =>
    cases s with
    | nil => cases g <;> rfl
    | cons c cs =>
      cases g with
      | zero => simp at hg
      | succ g =>
        simp only [lexLoop]
        split
        · rfl
        · rename_i h
          have hp := munch_progress (by simpa using h)
          rw [ih g _ (by simp at hf ⊢; omega) (by simp at hg ⊢; omega)]

/-- The tokens of a text, before the final end marker is added. -/
def lexAll (s : Str) : List Tok := (lexLoop s.length s).getD []

theorem lexAll_nil : lexAll [] = [] := rfl

theorem lexLoop_eq (s : Str) : lexLoop s.length s = some (lexAll s) := by
  obtain ⟨ts, h⟩ := lexLoop_total s.length s (Nat.le_refl _)
  simp [lexAll, h]

theorem lexAll_cons (c : Char) (cs : Str) :
    lexAll (c :: cs) = if (munch c (c :: cs)).1.isEnd then [(munch c (c :: cs)).1]
      else (munch c (c :: cs)).1 :: lexAll ((c :: cs).drop (munch c (c :: cs)).2) := by
  have : lexLoop (c :: cs).length (c :: cs) = some (lexAll (c :: cs)) := lexLoop_eq _
  simp only [List.length_cons, lexLoop] at this
  split
  · rename_i h
    simp only [h, if_true] at this
    simpa using this.symm
  · rename_i h
    simp only [h] at this
    have hp := munch_progress (by simpa using h)
    rw [lexLoop_fuel _ ((c :: cs).drop (munch c (c :: cs)).2).length _
      (by simp at hp ⊢; omega) (Nat.le_refl _), lexLoop_eq] at this
    simpa using this.symm

end Verif

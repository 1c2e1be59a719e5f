import Verif.Step.Spec
import Verif.Base.StrLemmas
import Verif.Constraint.LexLemmas
/-! # Lemmas on the step-function lexer and parser -/

namespace Verif
open Spec

/-! ## Decimal numbers -/

theorem digit_not_dot {c : Char} (h : isDigit c = true) : c ≠ '.' := by
  rintro rfl; exact absurd h (by decide)

theorem filter_digits_self {s : Str} (h : ∀ x ∈ s, isDigit x = true) : s.filter isDigit = s :=
  List.filter_eq_self.2 h

theorem filter_dot_nil {s : Str} (h : ∀ x ∈ s, isDigit x = true) : s.filter (· == '.') = [] := by
  rw [List.filter_eq_nil_iff]
  intro x hx
  simpa using digit_not_dot (h x hx)

theorem dropWhile_digits {s : Str} (h : ∀ x ∈ s, isDigit x = true) (r : Str) :
    (s ++ r).dropWhile (· != '.') = r.dropWhile (· != '.') := by
  induction s with
  | nil => rfl
  | cons c s ih =>
    have hc : (c != '.') = true := by simpa using digit_not_dot (h c (by simp))
    simp only [List.cons_append, List.dropWhile_cons, hc, if_true]
    exact ih fun x hx => h x (by simp [hx])

theorem any_digit {s : Str} (h : ∀ x ∈ s, isDigit x = true) (hne : s ≠ []) : s.any isDigit = true := by
  cases s with
  | nil => exact absurd rfl hne
  | cons c s => simp [h c (by simp)]

theorem readDecimal_of {s : Str} {d : Decimal} (h : DecimalText s d) : readDecimal s = some d := by
  cases h with
  | int hne hd =>
    unfold readDecimal
    rw [any_digit hd hne, filter_dot_nil hd, filter_digits_self hd]
    have := dropWhile_digits hd []
    rw [List.append_nil] at this
    simp [this]
  | @point is fs hne h1 h2 =>
    unfold readDecimal
    have ha : (is ++ '.' :: fs).any isDigit = true := by
      rw [List.any_append, List.any_cons]
      cases is with
      | nil =>
        have : fs ≠ [] := by simpa using hne
        simp [any_digit h2 this]
      | cons c is => simp [h1 c (by simp)]
    have hf : (is ++ '.' :: fs).filter (· == '.') = ['.'] := by
      rw [List.filter_append, filter_dot_nil h1]
      simp [filter_dot_nil h2]
    have hg : (is ++ '.' :: fs).filter isDigit = is ++ fs := by
      rw [List.filter_append, filter_digits_self h1, List.filter_cons,
        if_neg (by decide), filter_digits_self h2]
    rw [ha, hf, hg, dropWhile_digits h1]
    simp

theorem decimal_of_read {s : Str} (hs : ∀ x ∈ s, isDigit x = true ∨ x = '.') {d : Decimal}
    (h : readDecimal s = some d) : DecimalText s d := by
  have key : ∃ d', DecimalText s d' := by
    unfold readDecimal at h
    split at h
    case isFalse => cases h
    case isTrue hc =>
      simp only [Bool.and_eq_true, decide_eq_true_eq] at hc
      obtain ⟨h1, h2⟩ := hc
      by_cases hdot : '.' ∈ s
      · obtain ⟨is, fs, rfl⟩ := List.append_of_mem hdot
        rw [List.filter_append] at h2
        have hdot : ('.' == '.') = true := rfl
        simp only [List.filter_cons, hdot, if_true, List.length_append, List.length_cons] at h2
        have e1 : is.filter (· == '.') = [] := List.length_eq_zero_iff.1 (by omega)
        have e2 : fs.filter (· == '.') = [] := List.length_eq_zero_iff.1 (by omega)
        rw [List.filter_eq_nil_iff] at e1 e2
        have d1 : ∀ x ∈ is, isDigit x = true := fun x hx =>
          (hs x (by simp [hx])).resolve_right (by simpa using e1 x hx)
        have d2 : ∀ x ∈ fs, isDigit x = true := fun x hx =>
          (hs x (by simp [hx])).resolve_right (by simpa using e2 x hx)
        refine ⟨_, .point ?_ d1 d2⟩
        intro e
        simp only [List.append_eq_nil_iff] at e
        rw [e.1, e.2] at h1
        exact absurd h1 (by decide)
      · have d1 : ∀ x ∈ s, isDigit x = true := fun x hx =>
          (hs x hx).resolve_right (by rintro rfl; exact hdot hx)
        refine ⟨_, .int ?_ d1⟩
        rintro rfl
        simp at h1
  obtain ⟨d', hd'⟩ := key
  rw [readDecimal_of hd'] at h
  cases h
  exact hd'

theorem constant_iff {s : Str} (hs : ∀ x ∈ s, isDigit x = true ∨ x = '.') (d : Option Decimal) :
    Constant s d ↔ readDecimal s = d := by
  cases d with
  | some d => exact ⟨readDecimal_of, decimal_of_read hs⟩
  | none =>
    constructor
    · intro h
      cases e : readDecimal s with
      | none => rfl
      | some d => exact absurd (decimal_of_read hs e) (h d)
    · intro h d hd
      rw [readDecimal_of hd] at h
      cases h

/-! ## The lexer -/

/-- `stepMunch` characterized: the token, the characters it took, and what follows. -/
inductive SSpell : STok → Str → Prop
  | ident {s} : StepIdent s → SSpell (.ident s) s
  | number {s} : Numeric s → SSpell (.number s) s
  | ws {c cs} : Blank (c :: cs) → SSpell .ws (c :: cs)
  | plus : SSpell .plus ['+']
  | star : SSpell .star ['*']
  | caret : SSpell .caret ['^']

/-- The characters that would extend a token. -/
def STok.extends : STok → Char → Bool
  | .ident _, c => isStepIdChar c
  | .number _, c => isStepNumChar c
  | .ws, c => isWs c
  | _, _ => false

theorem lower_numeric {s : Str} (hs : ∀ x ∈ s, isDigit x = true ∨ x = '.') : lower s = s := by
  unfold lower
  conv => rhs; rw [← List.map_id s]
  apply List.map_congr_left
  intro x hx
  rcases hs x hx with h | rfl
  · exact lowerChar_digit h
  · rfl

theorem isStepNumChar_iff (x : Char) : isStepNumChar x = true ↔ (isDigit x = true ∨ x = '.') := by
  simp [isStepNumChar]

theorem isStepIdChar_iff (x : Char) : isStepIdChar x = true ↔ (isAlnum x = true ∨ x = '_') := by
  simp [isStepIdChar]

theorem alpha_not_stepNum {c : Char} (h : isAlpha c = true) : isStepNumChar c = false := by
  simp only [isStepNumChar, alpha_not_digit h, Bool.false_or, beq_eq_false_iff_ne]
  rintro rfl
  exact absurd h (by decide)

theorem ws_not_stepNum {c : Char} (h : isWs c = true) : isStepNumChar c = false := by
  simp only [isWs, Bool.or_eq_true, beq_iff_eq] at h
  rcases h with ((rfl | rfl) | rfl) | rfl <;> decide

theorem takeWhile_append_stop {p : Char → Bool} {s rest : Str} (hs : ∀ x ∈ s, p x = true)
    (hr : ∀ c cs, rest = c :: cs → p c = false) : (s ++ rest).takeWhile p = s := by
  rw [List.takeWhile_append_of_pos hs]
  cases rest with
  | nil => simp
  | cons c cs => simp [hr c cs rfl]

theorem stepNum_not_alpha {c : Char} (h : isStepNumChar c = true) : isAlpha c = false := by
  rw [isStepNumChar_iff] at h
  rcases h with h | rfl
  · exact digit_not_alpha h
  · decide

/-- Munching a spelled token in front of something that does not extend it. -/
theorem stepMunch_spell {t c cs rest} (h : SSpell t (c :: cs))
    (hr : ∀ x xs, rest = x :: xs → t.extends x = false) :
    stepMunch c (c :: (cs ++ rest)) = (t, (c :: cs).length) := by
  unfold stepMunch
  cases h with
  | ident h =>
    obtain ⟨c', cs', e, ha, hcs⟩ := h
    cases e
    have hall : ∀ x ∈ c :: cs, isStepIdChar x = true := by
      intro x hx
      simp at hx
      rcases hx with rfl | hx
      · simp [isStepIdChar, isAlnum, ha]
      · exact (isStepIdChar_iff x).2 (hcs x hx)
    have := takeWhile_append_stop hall (rest := rest) hr
    rw [List.cons_append] at this
    rw [if_pos ha, this]
  | number h =>
    obtain ⟨_, h⟩ := h
    have hall : ∀ x ∈ c :: cs, isStepNumChar x = true := fun x hx => (isStepNumChar_iff x).2 (h x hx)
    have hc := hall c (by simp)
    have := takeWhile_append_stop hall (rest := rest) hr
    rw [List.cons_append] at this
    rw [if_neg (by simp [stepNum_not_alpha hc]), if_pos hc, this, lower_numeric h]
  | ws h =>
    have hall : ∀ x ∈ c :: cs, isWs x = true := fun x hx => (isWs_iff x).2 (h x hx)
    have hc := hall c (by simp)
    have := takeWhile_append_stop hall (rest := rest) hr
    rw [List.cons_append] at this
    rw [if_neg (by simp [ws_not_alpha hc]), if_neg (by simp [ws_not_stepNum hc])]
    rw [if_neg, if_pos hc, this]
    have := h c (by simp)
    rcases this with rfl | rfl | rfl | rfl <;> decide
  | plus => rfl
  | star => rfl
  | caret => rfl

/-- Every munch takes a spelled token, or is an end marker. -/
theorem stepMunch_cases (c : Char) (cs : Str) :
    (∃ piece rest, c :: cs = piece ++ rest ∧ SSpell (stepMunch c (c :: cs)).1 piece ∧
      (stepMunch c (c :: cs)).2 = piece.length ∧ (stepMunch c (c :: cs)).1.isEnd = false) ∨
    ((stepMunch c (c :: cs)).1 = .eof ∧ (c = Char.ofNat 0 ∨ c = Char.ofNat 255)) ∨
    (stepMunch c (c :: cs)).1 = .error [c] := by
  unfold stepMunch
  by_cases h1 : isAlpha c = true
  · left
    rw [if_pos h1]
    have hid : isStepIdChar c = true := by simp [isStepIdChar, isAlnum, h1]
    refine ⟨(c :: cs).takeWhile isStepIdChar, (c :: cs).dropWhile isStepIdChar,
      List.takeWhile_append_dropWhile.symm, ?_, rfl, rfl⟩
    simp only [List.takeWhile_cons, hid, if_true]
    refine .ident ⟨c, _, rfl, h1, fun x hx => ?_⟩
    exact (isStepIdChar_iff x).1 (takeWhile_all cs x hx)
  rw [if_neg h1]
  by_cases h2 : isStepNumChar c = true
  · left
    rw [if_pos h2]
    refine ⟨(c :: cs).takeWhile isStepNumChar, (c :: cs).dropWhile isStepNumChar,
      List.takeWhile_append_dropWhile.symm, ?_, rfl, rfl⟩
    have hall : ∀ x ∈ (c :: cs).takeWhile isStepNumChar, isDigit x = true ∨ x = '.' := fun x hx =>
      (isStepNumChar_iff x).1 (takeWhile_all _ x hx)
    simp only [lower_numeric hall]
    refine .number ⟨?_, hall⟩
    simp [h2]
  rw [if_neg h2]
  by_cases h3 : (c == Char.ofNat 255 || c == Char.ofNat 0) = true
  · rw [if_pos h3]
    simp only [Bool.or_eq_true, beq_iff_eq] at h3
    exact .inr (.inl ⟨rfl, h3.symm⟩)
  rw [if_neg h3]
  by_cases h4 : isWs c = true
  · left
    rw [if_pos h4]
    refine ⟨(c :: cs).takeWhile isWs, (c :: cs).dropWhile isWs,
      List.takeWhile_append_dropWhile.symm, ?_, rfl, rfl⟩
    have hall : ∀ x ∈ (c :: cs).takeWhile isWs, x = ' ' ∨ x = '\t' ∨ x = '\r' ∨ x = '\n' := fun x hx =>
      (isWs_iff x).1 (takeWhile_all _ x hx)
    simp only [List.takeWhile_cons, h4, if_true] at hall ⊢
    exact .ws hall
  rw [if_neg h4]
  by_cases h5 : (c == '+') = true
  · rw [if_pos h5]; rw [beq_iff_eq] at h5; subst h5; exact .inl ⟨['+'], cs, rfl, .plus, rfl, rfl⟩
  rw [if_neg h5]
  by_cases h6 : (c == '*') = true
  · rw [if_pos h6]; rw [beq_iff_eq] at h6; subst h6; exact .inl ⟨['*'], cs, rfl, .star, rfl, rfl⟩
  rw [if_neg h6]
  by_cases h7 : (c == '^') = true
  · rw [if_pos h7]; rw [beq_iff_eq] at h7; subst h7; exact .inl ⟨['^'], cs, rfl, .caret, rfl, rfl⟩
  rw [if_neg h7]
  exact .inr (.inr rfl)

theorem sspell_ne_nil {t p} (h : SSpell t p) : p ≠ [] := by
  cases h with
  | ident h => obtain ⟨c, cs, rfl, _⟩ := h; simp
  | number h => exact h.1
  | _ => simp

/-- A token list with its text: pieces spelled out, then an end. -/
inductive Reads : Str → List STok → Prop
  | done : Reads [] [.eof]
  | eofChar {c cs} : c = Char.ofNat 0 ∨ c = Char.ofNat 255 → Reads (c :: cs) [.eof]
  | error {s e} : Reads s [.error e]
  | token {t piece rest ts} : SSpell t piece → Reads rest ts → Reads (piece ++ rest) (t :: ts)

/-- The complete token list, end marker added if missing. -/
def closed (ts : List STok) : List STok :=
  match ts.getLast? with
  | some t => if t.isEnd then ts else ts ++ [.eof]
  | none => [.eof]

theorem closed_cons {t : STok} (ts : List STok) (h : t.isEnd = false) : closed (t :: ts) = t :: closed ts := by
  cases ts with
  | nil => simp [closed, h]
  | cons a as =>
    unfold closed
    rw [List.getLast?_cons_cons]
    cases e : (a :: as).getLast? with
    | none => simp at e
    | some x => simp only; split <;> rfl

theorem stepLexLoop_spec (f : Nat) (s : Str) (hf : s.length ≤ f) :
    ∃ ts, stepLexLoop f s = some ts ∧ (s ≠ [] → ts ≠ []) ∧ Reads s (closed ts) := by
  induction f generalizing s with
  | zero =>
    cases s with
    | nil => exact ⟨[], rfl, by simp, .done⟩
    | cons c cs => simp at hf
  | succ f ih =>
    cases s with
    | nil => exact ⟨[], rfl, by simp, .done⟩
    | cons c cs =>
      simp only [stepLexLoop]
      rcases stepMunch_cases c cs with ⟨piece, rest, e, hs, hl, he⟩ | ⟨e, hc⟩ | e
      · rw [if_neg (by simp [he])]
        have hd : (c :: cs).drop (stepMunch c (c :: cs)).2 = rest := by rw [hl, e]; simp
        rw [hd]
        have hlen : rest.length ≤ f := by
          have h1 := congrArg List.length e
          have h2 : 0 < piece.length := List.length_pos_iff.2 (sspell_ne_nil hs)
          simp at h1 hf
          omega
        obtain ⟨ts, h1, _, h3⟩ := ih rest hlen
        refine ⟨_ :: ts, by rw [h1]; rfl, by simp, ?_⟩
        rw [closed_cons _ he, e]
        rw [e] at hs
        exact .token hs h3
      · rw [e]
        exact ⟨_, rfl, by simp, .eofChar hc⟩
      · rw [e]
        exact ⟨_, rfl, by simp, .error⟩

theorem stepTokenize_spec {s : Str} (hs : s ≠ []) : ∃ ts, stepTokenize s = .ok ts ∧ Reads s ts := by
  obtain ⟨ts, h1, h2, h3⟩ := stepLexLoop_spec s.length s (Nat.le_refl _)
  refine ⟨closed ts, ?_, h3⟩
  unfold stepTokenize closed
  rw [h1]
  simp only
  cases e : ts.getLast? with
  | none => exact absurd (List.getLast?_eq_none_iff.1 e) (h2 hs)
  | some t => simp only; split <;> rfl

/-- The tokens of a text whose pieces do not run together. -/
inductive Spelled : Str → List STok → Prop
  | done {s} : Ignored s → Spelled s [.eof]
  | token {t piece rest ts} : SSpell t piece → (∀ x xs, rest = x :: xs → t.extends x = false) →
      Spelled rest ts → Spelled (piece ++ rest) (t :: ts)

theorem isEnd_of_sspell {t p} (h : SSpell t p) : t.isEnd = false := by cases h <;> rfl

theorem stepLexLoop_spelled {s ts} (h : Spelled s ts) : ∀ f, s.length ≤ f →
    ∃ us, stepLexLoop f s = some us ∧ closed us = ts := by
  induction h with
  | done hi =>
    intro f hf
    rcases hi with rfl | ⟨c, cs, rfl, hc⟩
    · exact ⟨[], by cases f <;> rfl, rfl⟩
    · cases f with
      | zero => simp at hf
      | succ f =>
        refine ⟨[.eof], ?_, rfl⟩
        have : stepMunch c (c :: cs) = (.eof, 1) := by
          rcases hc with rfl | rfl <;> rfl
        simp [stepLexLoop, this, STok.isEnd]
  | @token t piece rest ts hs hx _ ih =>
    intro f hf
    cases piece with
    | nil => exact absurd rfl (sspell_ne_nil hs)
    | cons c cs =>
      cases f with
      | zero => simp at hf
      | succ f =>
        obtain ⟨us, h1, h2⟩ := ih f (by simp at hf; omega)
        refine ⟨t :: us, ?_, by rw [closed_cons _ (isEnd_of_sspell hs), h2]⟩
        have := stepMunch_spell hs hx
        simp only [List.cons_append, stepLexLoop, this, isEnd_of_sspell hs]
        simp [h1]

theorem stepTokenize_spelled {s ts} (h : Spelled s ts) (hs : s ≠ []) : stepTokenize s = .ok ts := by
  obtain ⟨us, h1, h2⟩ := stepLexLoop_spelled h s.length (Nat.le_refl _)
  have hne : us ≠ [] := by
    obtain ⟨ts', e, h3, _⟩ := stepLexLoop_spec s.length s (Nat.le_refl _)
    rw [h1] at e
    cases e
    exact h3 hs
  unfold stepTokenize
  rw [h1]
  rw [← h2]
  unfold closed
  simp only
  cases e : us.getLast? with
  | none => exact absurd (List.getLast?_eq_none_iff.1 e) hne
  | some t => simp only; split <;> rfl

end Verif

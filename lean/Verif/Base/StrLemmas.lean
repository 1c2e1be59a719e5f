import Verif.Base.Str
/-! # Lemmas on character classes and integer text -/

namespace Verif

theorem isDigit_iff (c : Char) : isDigit c = true ↔ 48 ≤ c.toNat ∧ c.toNat ≤ 57 := by
  simp only [isDigit, Char.le_def, Bool.and_eq_true, decide_eq_true_eq]
  constructor
  · rintro ⟨h1, h2⟩
    exact ⟨UInt32.le_iff_toNat_le.1 h1, UInt32.le_iff_toNat_le.1 h2⟩
  · rintro ⟨h1, h2⟩
    exact ⟨UInt32.le_iff_toNat_le.2 h1, UInt32.le_iff_toNat_le.2 h2⟩

theorem isLowerAlpha_iff (c : Char) : isLowerAlpha c = true ↔ 97 ≤ c.toNat ∧ c.toNat ≤ 122 := by
  simp only [isLowerAlpha, Char.le_def, Bool.and_eq_true, decide_eq_true_eq]
  constructor
  · rintro ⟨h1, h2⟩
    exact ⟨UInt32.le_iff_toNat_le.1 h1, UInt32.le_iff_toNat_le.1 h2⟩
  · rintro ⟨h1, h2⟩
    exact ⟨UInt32.le_iff_toNat_le.2 h1, UInt32.le_iff_toNat_le.2 h2⟩

theorem isUpperAlpha_iff (c : Char) : isUpperAlpha c = true ↔ 65 ≤ c.toNat ∧ c.toNat ≤ 90 := by
  simp only [isUpperAlpha, Char.le_def, Bool.and_eq_true, decide_eq_true_eq]
  constructor
  · rintro ⟨h1, h2⟩
    exact ⟨UInt32.le_iff_toNat_le.1 h1, UInt32.le_iff_toNat_le.1 h2⟩
  · rintro ⟨h1, h2⟩
    exact ⟨UInt32.le_iff_toNat_le.2 h1, UInt32.le_iff_toNat_le.2 h2⟩

theorem isAlpha_iff (c : Char) : isAlpha c = true ↔
    (97 ≤ c.toNat ∧ c.toNat ≤ 122) ∨ (65 ≤ c.toNat ∧ c.toNat ≤ 90) := by
  simp [isAlpha, isLowerAlpha_iff, isUpperAlpha_iff]

theorem digit_not_alpha {c : Char} (h : isDigit c = true) : isAlpha c = false := by
  rw [isDigit_iff] at h
  rw [Bool.eq_false_iff, ne_eq, isAlpha_iff]
  omega

theorem alpha_not_digit {c : Char} (h : isAlpha c = true) : isDigit c = false := by
  rw [isAlpha_iff] at h
  rw [Bool.eq_false_iff, ne_eq, isDigit_iff]
  omega

theorem ws_not_alpha {c : Char} (h : isWs c = true) : isAlpha c = false := by
  simp only [isWs, Bool.or_eq_true, beq_iff_eq] at h
  rcases h with ((rfl | rfl) | rfl) | rfl <;> decide

theorem ws_not_digit {c : Char} (h : isWs c = true) : isDigit c = false := by
  simp only [isWs, Bool.or_eq_true, beq_iff_eq] at h
  rcases h with ((rfl | rfl) | rfl) | rfl <;> decide

theorem digitChar_toNat {d : Nat} (h : d < 10) : (digitChar d).toNat = 48 + d := by
  have : d = 0 ∨ d = 1 ∨ d = 2 ∨ d = 3 ∨ d = 4 ∨ d = 5 ∨ d = 6 ∨ d = 7 ∨ d = 8 ∨ d = 9 := by omega
  rcases this with rfl | rfl | rfl | rfl | rfl | rfl | rfl | rfl | rfl | rfl <;> rfl

theorem digitChar_isDigit {d : Nat} (h : d < 10) : isDigit (digitChar d) = true := by
  rw [isDigit_iff, digitChar_toNat h]; omega

theorem natText_digits (n : Nat) : ∀ c ∈ natText n, isDigit c = true := by
  induction n using natText.induct with
  | case1 n h =>
    intro c hc
    rw [natText, if_pos h] at hc
    simp at hc
    rw [hc]; exact digitChar_isDigit h
  | case2 n h ih =>
    intro c hc
    rw [natText, if_neg h] at hc
    simp at hc
    rcases hc with hc | rfl
    · exact ih c hc
    · exact digitChar_isDigit (by omega)

theorem natText_ne_nil (n : Nat) : natText n ≠ [] := by
  rw [natText]; split <;> simp

/-- Value of a decimal digit string. -/
def decValue (s : Str) : Nat := s.foldl (fun a c => a * 10 + digitVal c) 0

theorem natText_value (n : Nat) : decValue (natText n) = n := by
  induction n using natText.induct with
  | case1 n h =>
    rw [natText, if_pos h]
    simp [decValue, digitVal, digitChar_toNat h]
  | case2 n h ih =>
    rw [natText, if_neg h]
    rw [decValue] at ih ⊢
    rw [List.foldl_append, ih]
    simp [digitVal, digitChar_toNat (show n % 10 < 10 by omega)]
    omega

theorem foldl_dec_ge (s : Str) (a : Nat) : a ≤ s.foldl (fun a c => a * 10 + digitVal c) a := by
  induction s generalizing a with
  | nil => simp
  | cons c s ih =>
    simp only [List.foldl_cons]
    exact Nat.le_trans (by omega) (ih _)

theorem readDigits_dec (s : Str) (hs : ∀ c ∈ s, isDigit c = true) (a : Nat)
    (ha : a < 18446744073709551616) :
    readDigits 10 a s = if s.foldl (fun a c => a * 10 + digitVal c) a < 18446744073709551616
      then some (s.foldl (fun a c => a * 10 + digitVal c) a, []) else none := by
  induction s generalizing a with
  | nil => simp [readDigits, ha]
  | cons c s ih =>
    have hc := hs c (by simp)
    have hd : c.toNat - 48 < 10 := by rw [isDigit_iff] at hc; omega
    have ih' := ih (fun x hx => hs x (by simp [hx]))
    simp only [readDigits, radixDigit, hc, if_true, List.foldl_cons, hd]
    by_cases hlt : a * 10 + digitVal c < 18446744073709551616
    · have e : a * 10 + (c.toNat - 48) = a * 10 + digitVal c := rfl
      rw [e, if_pos hlt, ih' _ hlt]
      rfl
    · have e : a * 10 + (c.toNat - 48) = a * 10 + digitVal c := rfl
      have := foldl_dec_ge s (a * 10 + digitVal c)
      rw [e, if_neg hlt]
      exact (if_neg (by omega)).symm

theorem consumeUnsigned_dec (s : Str) (hs : ∀ c ∈ s, isDigit c = true) (hne : s ≠ []) :
    consumeUnsigned 10 s =
      if decValue s < 18446744073709551616 then some (decValue s, []) else none := by
  unfold consumeUnsigned
  simp only [show (10 : Nat) ≠ 0 by decide, if_false, hne]
  rw [readDigits_dec s hs 0 (by decide)]
  by_cases h : decValue s < 18446744073709551616
  · have h' := h
    rw [decValue] at h'
    rw [if_pos h', if_pos h]
    simp only [List.length_nil]
    rw [if_neg (by intro e; exact hne (List.length_eq_zero_iff.1 e.symm))]
    rfl
  · have h' := h
    rw [decValue] at h'
    rw [if_neg h', if_neg h]

theorem getAsInt64_dec (s : Str) (hs : ∀ c ∈ s, isDigit c = true) (hne : s ≠ []) :
    getAsInt64 10 s =
      if decValue s ≤ 9223372036854775807 then some (decValue s : Int) else none := by
  unfold getAsInt64
  split
  · have := hs '-' (by simp)
    exact absurd this (by decide)
  · rw [consumeUnsigned_dec s hs hne]
    by_cases h : decValue s < 18446744073709551616
    · rw [if_pos h]
    · rw [if_neg h, if_neg (by omega)]

theorem getAsInt64_neg_dec (s : Str) (hs : ∀ c ∈ s, isDigit c = true) (hne : s ≠ []) :
    getAsInt64 10 ('-' :: s) =
      if decValue s ≤ 9223372036854775808 then some (-(decValue s : Int)) else none := by
  unfold getAsInt64
  simp only
  rw [consumeUnsigned_dec s hs hne]
  by_cases h : decValue s < 18446744073709551616
  · rw [if_pos h]
  · rw [if_neg h, if_neg (by omega)]

theorem lowerChar_digit {c : Char} (h : isDigit c = true) : lowerChar c = c := by
  have := digit_not_alpha h
  simp [isAlpha] at this
  simp [lowerChar, this]

theorem lower_digits {s : Str} (hs : ∀ c ∈ s, isDigit c = true) : lower s = s := by
  induction s with
  | nil => rfl
  | cons c s ih =>
    simp only [lower, List.map_cons] at ih ⊢
    rw [lowerChar_digit (hs c (by simp)), ih (fun x hx => hs x (by simp [hx]))]

end Verif

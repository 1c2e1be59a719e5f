import Verif.Constraint.Double
import Verif.Sxfm.Card
/-!
# Property C07: literals in scientific notation and literals with signs

The theorems are for an arbitrary `other`, the part of `getAsDouble` that is not modelled (texts with
characters that are not part of a literal).
-/

namespace Verif.Props
open Spec

variable (other : Str → Option Str)

/-- A text of number characters that begins with a digit is one literal. -/
theorem parseText_number (sci : Str → Option Str) {s : Str} {c : Char} {cs : Str} (e : s = c :: cs)
    (hc : isDigit c = true) (hs : ∀ x ∈ s, isNumChar x = true) :
    parseText sci s = .ok (.int (parseInteger sci (lower s))) := by
  have hne : s ≠ [] := by rw [e]; simp
  rw [parseText_ok_iff sci hne]
  have hE : eLex s = [.number (lower s)] := by
    subst e
    have hws : isWs c = false := by
      cases h : isWs c with
      | false => rfl
      | true => simp [ws_not_digit h] at hc
    have htw : (c :: cs).takeWhile isNumChar = c :: cs := takeWhile_self hs
    have hm : munch c (c :: cs) = (.number (lower (c :: cs)), (c :: cs).length) := by
      simp only [munch, digit_not_alpha hc, hc, munchNumber, htw]
      rfl
    rw [eLex_cons hws, hm]
    simp [Tok.isEnd, eLex_nil]
  refine ⟨[.number (lower s)], by rw [tokE, hE]; rfl, ?_⟩
  exact (Derives.number (val := parseInteger sci) (lower s)).lift (Nat.zero_le _)

theorem Scientific.chars {s : Str} {n d : Nat} (h : Scientific s n d) :
    (∃ c cs, s = c :: cs ∧ isDigit c = true) ∧ (∀ x ∈ s, isNumChar x = true) ∧
    (lower s).any (fun c => c == 'e' || c == 'E') = true ∧ 0 < d := by
  have main : ∀ {m r : Str} {e : Char}, (∀ c ∈ m, isDigit c = true) → m ≠ [] →
      (∀ c ∈ r, isNumChar c = true) → (e = 'e' ∨ e = 'E') →
      (∃ c cs, m ++ e :: r = c :: cs ∧ isDigit c = true) ∧ (∀ x ∈ m ++ e :: r, isNumChar x = true) ∧
      (lower (m ++ e :: r)).any (fun c => c == 'e' || c == 'E') = true := by
    intro m r e hm hne hr he
    refine ⟨?_, ?_, ?_⟩
    · cases m with
      | nil => exact absurd rfl hne
      | cons c cs => exact ⟨c, cs ++ e :: r, rfl, hm c (by simp)⟩
    · intro x hx
      rw [List.mem_append, List.mem_cons] at hx
      rcases hx with hx | rfl | hx
      · simp [isNumChar, hm x hx]
      · rcases he with rfl | rfl <;> decide
      · exact hr x hx
    · rw [List.any_eq_true]
      refine ⟨'e', ?_, by decide⟩
      unfold lower
      rw [List.map_append, List.map_cons, List.mem_append, List.mem_cons]
      refine Or.inr (Or.inl ?_)
      rcases he with rfl | rfl <;> rfl
  have num : ∀ {x : Str}, (∀ c ∈ x, isDigit c = true) → ∀ c ∈ x, isNumChar c = true := by
    intro x h c hc
    simp [isNumChar, h c hc]
  have sgn : ∀ {x : Str} {g : Char}, (g = '+' ∨ g = '-') → (∀ c ∈ x, isDigit c = true) →
      ∀ c ∈ g :: x, isNumChar c = true := by
    intro x g hg h c hc
    rw [List.mem_cons] at hc
    rcases hc with rfl | hc
    · rcases hg with rfl | rfl <;> decide
    · exact num h c hc
  cases h with
  | up hm hne hx he hl =>
    obtain ⟨a, b, c⟩ := main hm hne (num hx) he
    exact ⟨a, b, c, Nat.one_pos⟩
  | plus hm hne hx he hl =>
    obtain ⟨a, b, c⟩ := main hm hne (sgn (Or.inl rfl) hx) he
    exact ⟨a, b, c, Nat.one_pos⟩
  | minus hm hne hx he hl =>
    obtain ⟨a, b, c⟩ := main hm hne (sgn (Or.inr rfl) hx) he
    exact ⟨a, b, c, Nat.pow_pos (by decide)⟩

/-- A literal in scientific notation is read as the nearest integer of the nearest double of its
    value, and saturates.  (Partial: exponents below 24000; the property as stated, with the value
    itself instead of the nearest double, fails: `C07_exponent_inexact`.) -/
theorem C07_exponent_partial {s : Str} {n d : Nat} (h : Scientific s n d) :
    ∃ x v, NearestDouble n d x ∧ NearestInt x (2 ^ 1074) v ∧
      parseText (sciDouble other) s = .ok (.int (if (v : Int) ≤ int64Max then (v : Int) else int64Max)) := by
  obtain ⟨⟨c, cs, e, hc⟩, hn, ha, hd⟩ := Scientific.chars h
  have hu : 2 ^ 1074 = onesUnits := by unfold onesUnits; rfl
  refine ⟨nearestDouble n d, roundEven (nearestDouble n d) onesUnits, nearestDouble_nearest n hd, ?_, ?_⟩
  · rw [hu]
    exact roundEven_nearest _ onesUnits_pos
  · rw [parseText_number _ e hc hn, parseInteger, if_pos ha, sciDouble_scientific other h]
    simp only [parsePlainInteger_format]

/-- A literal in scientific notation whose value is an integer up to `2 ^ 53` is read as that value. -/
theorem C07_exponent_exact {s : Str} {n d : Nat} (h : Scientific s (n * d) d) (hn : n ≤ 2 ^ 53) :
    parseText (sciDouble other) s = .ok (.int n) := by
  obtain ⟨x, v, hx, hv, hp⟩ := C07_exponent_partial other h
  have hu : 2 ^ 1074 = onesUnits := by unfold onesUnits; rfl
  rw [hu] at hv
  have := NearestDouble.exact (Scientific.chars h).2.2.2 hx hn hv
  subst this
  rw [hp, if_pos]
  unfold int64Max
  omega

theorem some_exact : Scientific c!"1500E-2" (15 * 10 ^ 2) (10 ^ 2) :=
  Scientific.minus (m := c!"1500") (x := c!"2") (by decide) (by decide) (by decide) (Or.inr rfl) (by decide)

example : parseText (sciDouble other) c!"1500E-2" = .ok (.int 15) :=
  C07_exponent_exact other (n := 15) some_exact (by decide)

example : ∃ n d, Scientific c!"9e+9999" n d :=
  ⟨_, _, Scientific.plus (m := c!"9") (x := c!"9999") (by decide) (by decide) (by decide) (Or.inl rfl)
    (by decide)⟩

/-- The claim is false for literals in scientific notation: a value that fits is not read as that
    value when it is no double. -/
theorem C07_exponent_inexact :
    parseText (sciDouble other) c!"9007199254740993e0" = .ok (.int 9007199254740992) ∧
    decValue c!"9007199254740993" = 9007199254740993 := by
  refine ⟨?_, by decide⟩
  have h : parseText (sciDouble other) c!"9007199254740993e0" =
      .ok (.int (parseInteger (sciDouble other) (lower c!"9007199254740993e0"))) :=
    parseText_number _ rfl (by decide) (by decide)
  rw [h]
  have hs : Scientific c!"9007199254740993e0" (decValue c!"9007199254740993" * 10 ^ decValue c!"0") 1 :=
    Scientific.up (m := c!"9007199254740993") (x := c!"0") (by decide) (by decide) (by decide)
      (Or.inl rfl) (by decide)
  rw [parseInteger, if_pos (by decide), sciDouble_scientific other hs]
  simp only [parsePlainInteger_format]
  have : roundEven (nearestDouble (decValue c!"9007199254740993" * 10 ^ decValue c!"0") 1) onesUnits =
      9007199254740992 := by
    unfold nearestDouble lastPlace onesUnits
    decide +kernel
  rw [this]
  rfl

/-- A text that begins with a digit and has only digits and signs, among them a sign, is one literal
    and is read as the largest 64-bit integer. -/
theorem C07_signed_digits (sci : Str → Option Str) {c : Char} {cs : Str} (hc : isDigit c = true)
    (hs : ∀ x ∈ cs, isDigit x = true ∨ x = '+' ∨ x = '-') (hg : '+' ∈ cs ∨ '-' ∈ cs) :
    parseText sci (c :: cs) = .ok (.int int64Max) := by
  have hs' : ∀ x ∈ c :: cs, isDigit x = true ∨ x = '+' ∨ x = '-' := by
    intro x hx
    rw [List.mem_cons] at hx
    rcases hx with rfl | hx
    · exact Or.inl hc
    · exact hs x hx
  have hn : ∀ x ∈ c :: cs, isNumChar x = true := by
    intro x hx
    rcases hs' x hx with h | rfl | rfl
    · simp [isNumChar, h]
    · decide
    · decide
  have hl : lower (c :: cs) = c :: cs := by
    have : ∀ x ∈ c :: cs, lowerChar x = x := by
      intro x hx
      rcases hs' x hx with h | rfl | rfl
      · exact lowerChar_digit h
      · rfl
      · rfl
    unfold lower
    conv => rhs; rw [← List.map_id (c :: cs)]
    exact List.map_congr_left this
  have hno : (c :: cs).any (fun c => c == 'e' || c == 'E') = false := by
    rw [Bool.eq_false_iff]
    intro h
    rw [List.any_eq_true] at h
    obtain ⟨x, hx, hx'⟩ := h
    simp at hx'
    rcases hs' x hx with h | rfl | rfl
    · rcases hx' with rfl | rfl
      · exact absurd h (by decide)
      · exact absurd h (by decide)
    · exact absurd hx' (by decide)
    · exact absurd hx' (by decide)
  have hcu : ∀ v, consumeUnsigned 10 (c :: cs) ≠ some (v, []) := by
    intro v h
    have := Sxfm.consumeUnsigned_digits h
    rcases hg with h | h
    · exact absurd (this.2 '+' (by simp [h])) (by decide)
    · exact absurd (this.2 '-' (by simp [h])) (by decide)
  have hne : c ≠ '-' := by rintro rfl; exact absurd hc (by decide)
  have hget : getAsInt64 10 (c :: cs) = none := by
    unfold getAsInt64
    split
    · rename_i he
      simp at he
      exact absurd he.1 hne
    · split
      · rename_i h
        exact absurd h (hcu _)
      · rfl
  rw [parseText_number sci rfl hc hn, hl, parseInteger, if_neg (by simp [hno]), parsePlainInteger, hget]
  simp [hne]

example : parseText (fun _ => none) c!"10+20-3" = .ok (.int int64Max) :=
  C07_signed_digits _ (by decide) (by decide) (by decide)

/-- A literal swallows the first character of an arrow behind it. -/
theorem C07_arrow_after_literal (sci : Str → Option Str) :
    parseText sci c!"3->A" = .ok (.bin .greater (.int int64Max) (.feature c!"A")) ∧
    parseText sci c!"3 ->A" = .ok (.bin .implies (.int 3) (.feature c!"A")) := ⟨rfl, rfl⟩

end Verif.Props

import Verif.Props.ConstraintText
import Verif.Sxfm.Card
/-!
# Property C07: sums and differences without spaces

General form of `C07_sum_of_literals_is_one_literal`.
-/

namespace Verif.Props
open Spec

variable (sci : Str → Option Str)

/-- Numbers joined by signs. -/
def SignedSum (s : Str) : Prop :=
  (∃ c cs, s = c :: cs ∧ isDigit c = true) ∧ (∀ c ∈ s, isDigit c = true ∨ c = '+' ∨ c = '-') ∧ ∃ c ∈ s, isDigit c = false

/-- Every sum or difference of literals that is written without spaces, of any length, is one literal
    and read as the largest 64-bit integer. -/
theorem C07_unspaced_sum {s : Str} (h : SignedSum s) : parseText sci s = .ok (.int int64Max) := by
  obtain ⟨⟨c, cs, hs, hc⟩, hall, ⟨x, hx, hxd⟩⟩ := h
  have hne : s ≠ [] := by rw [hs]; simp
  rw [parseText_ok_iff sci hne]
  have hlow : lower s = s := by
    unfold lower
    refine (List.map_congr_left ?_).trans (List.map_id s)
    intro y hy
    rcases hall y hy with hd | rfl | rfl
    · exact lowerChar_digit hd
    · decide
    · decide
  have hE : eLex s = [.number s] := by
    have hws : isWs c = false := by
      cases h : isWs c with
      | false => rfl
      | true => simp [ws_not_digit h] at hc
    have htw : s.takeWhile isNumChar = s := by
      apply takeWhile_self
      intro y hy
      rcases hall y hy with hd | rfl | rfl
      · simp [isNumChar, hd]
      · decide
      · decide
    have hm : munch c s = (.number s, s.length) := by
      simp only [munch, digit_not_alpha hc, hc, munchNumber, htw, hlow]
      rfl
    rw [hs] at hm ⊢
    rw [eLex_cons hws, hm]
    simp [Tok.isEnd, eLex_nil]
  refine ⟨[.number s], by rw [tokE, hE]; rfl, ?_⟩
  have hno : s.any (fun c => c == 'e' || c == 'E') = false := by
    rw [Bool.eq_false_iff]
    intro h
    rw [List.any_eq_true] at h
    obtain ⟨y, hy, hy'⟩ := h
    simp at hy'
    rcases hall y hy with hd | rfl | rfl
    · rcases hy' with rfl | rfl <;> exact absurd hd (by decide)
    · rcases hy' with h | h <;> exact absurd h (by decide)
    · rcases hy' with h | h <;> exact absurd h (by decide)
  have hv : parseInteger sci s = int64Max := by
    rw [parseInteger, if_neg (by simp [hno]), parsePlainInteger]
    cases hg : getAsInt64 10 s with
    | some v =>
      rcases Sxfm.getAsInt64_some hg with ⟨_, hd, _⟩ | ⟨t, ht, _⟩
      · rw [hd x hx] at hxd; cases hxd
      · rw [hs] at ht
        cases ht
        exact absurd hc (by decide)
    | none =>
      have hh : s.head? ≠ some '-' := by
        intro e
        rw [hs] at e
        simp at e
        subst e
        exact absurd hc (by decide)
      simp only [hh, if_false]
  have := Derives.number (val := parseInteger sci) s
  rw [hv] at this
  exact this.lift (Nat.zero_le _)

/-- For example. -/
example : SignedSum c!"12+3-45" := ⟨⟨_, _, rfl, by decide⟩, by decide, '+', by decide, by decide⟩

end Verif.Props

import Verif.Sxfm.Model
import Verif.Base.StrLemmas
/-! Cardinalities: what `extractCardinality` accepts. -/

namespace Verif.Spec

/-- A decimal spelling of one: any number of zeros and a one. -/
def SpellsOne (s : Str) : Prop := ∃ n, s = List.replicate n '0' ++ c!"1"

end Verif.Spec

namespace Verif.Sxfm
open Verif Verif.Spec

theorem isDigit_of_readDigits : ∀ (s : Str) (a v : Nat), readDigits 10 a s = some (v, []) → ∀ c ∈ s, isDigit c = true
  | [], _, _, _ => by simp
  | c :: cs, a, v, h => by
    rw [readDigits] at h
    cases hr : radixDigit c with
    | none => rw [hr] at h; simp at h
    | some d =>
      rw [hr] at h
      by_cases hd : d < 10
      · simp only [hd, if_true] at h
        by_cases hv : a * 10 + d < 18446744073709551616
        · simp only [hv, if_true] at h
          have ih := isDigit_of_readDigits cs _ _ h
          intro x hx
          rcases List.mem_cons.1 hx with rfl | hx
          · unfold radixDigit at hr
            by_cases h1 : isDigit x = true
            · exact h1
            · exfalso
              rw [if_neg h1] at hr
              by_cases h2 : isLowerAlpha x = true
              · rw [if_pos h2] at hr; simp at hr; omega
              · rw [if_neg h2] at hr
                by_cases h3 : isUpperAlpha x = true
                · rw [if_pos h3] at hr; simp at hr; omega
                · rw [if_neg h3] at hr; cases hr
          · exact ih x hx
        · simp [hv] at h
      · simp [hd] at h

theorem consumeUnsigned_digits {s : Str} {v : Nat} (h : consumeUnsigned 10 s = some (v, [])) :
    s ≠ [] ∧ ∀ c ∈ s, isDigit c = true := by
  unfold consumeUnsigned at h
  simp only [show (10 : Nat) ≠ 0 by decide, if_false] at h
  by_cases he : s = []
  · simp [he] at h
  · refine ⟨he, ?_⟩
    rw [if_neg he] at h
    cases hr : readDigits 10 0 s with
    | none => rw [hr] at h; cases h
    | some vr =>
      obtain ⟨v', r⟩ := vr
      rw [hr] at h
      simp only at h
      by_cases hl : r.length = s.length
      · simp [hl] at h
      · rw [if_neg hl] at h
        simp at h
        obtain ⟨rfl, rfl⟩ := h
        exact isDigit_of_readDigits s _ _ hr

/-- What the number reader accepts is a digit string with an optional minus sign. -/
theorem getAsInt64_some {s : Str} {v : Int} (h : getAsInt64 10 s = some v) :
    (s ≠ [] ∧ (∀ c ∈ s, isDigit c = true) ∧ v = decValue s) ∨
    (∃ t, s = '-' :: t ∧ t ≠ [] ∧ (∀ c ∈ t, isDigit c = true) ∧ v = -(decValue t : Int)) := by
  unfold getAsInt64 at h
  split at h
  · rename_i cs
    split at h
    · rename_i v' hc
      obtain ⟨h1, h2⟩ := consumeUnsigned_digits hc
      rw [consumeUnsigned_dec _ h2 h1] at hc
      refine .inr ⟨cs, rfl, h1, h2, ?_⟩
      by_cases hv : decValue cs < 18446744073709551616
      · simp only [hv, if_true] at hc
        cases hc
        split at h <;> simp at h
        exact h.symm
      · simp [hv] at hc
    · cases h
  · split at h
    · rename_i v' hc
      obtain ⟨h1, h2⟩ := consumeUnsigned_digits hc
      rw [consumeUnsigned_dec _ h2 h1] at hc
      refine .inl ⟨h1, h2, ?_⟩
      by_cases hv : decValue s < 18446744073709551616
      · simp only [hv, if_true] at hc
        cases hc
        split at h <;> simp at h
        exact h.symm
      · simp [hv] at hc
    · cases h

theorem digitVal_zero {c : Char} (h : isDigit c = true) (h0 : digitVal c = 0) : c = '0' := by
  rw [isDigit_iff] at h
  have : c.toNat = 48 := by unfold digitVal at h0; omega
  exact Char.toNat_inj.1 (by rw [this]; rfl)

theorem digitVal_one {c : Char} (h : isDigit c = true) (h0 : digitVal c = 1) : c = '1' := by
  rw [isDigit_iff] at h
  have : c.toNat = 49 := by unfold digitVal at h0; omega
  exact Char.toNat_inj.1 (by rw [this]; rfl)

theorem foldl_dec_pos : ∀ (s : Str) (a : Nat), 0 < a → s ≠ [] → 10 ≤ s.foldl (fun a c => a * 10 + digitVal c) a
  | [], _, _, h => absurd rfl h
  | c :: cs, a, ha, _ => by
    rw [List.foldl_cons]
    exact Nat.le_trans (by omega) (foldl_dec_ge cs _)

/-- Digit strings of value one. -/
theorem decValue_one : ∀ {s : Str}, (∀ c ∈ s, isDigit c = true) → (decValue s = 1 ↔ SpellsOne s)
  | [], _ => by
    constructor
    · intro h; exact absurd h (by decide)
    · rintro ⟨n, h⟩
      have := congrArg List.length h
      simp at this
  | c :: cs, hs => by
    have hc := hs c (by simp)
    have ih := decValue_one (s := cs) (fun x hx => hs x (by simp [hx]))
    by_cases h0 : digitVal c = 0
    · have hc0 := digitVal_zero hc h0
      subst hc0
      have : decValue ('0' :: cs) = decValue cs := by
        unfold decValue; rw [List.foldl_cons]; rfl
      rw [this, ih]
      constructor
      · rintro ⟨n, rfl⟩; exact ⟨n + 1, rfl⟩
      · rintro ⟨n, h⟩
        cases n with
        | zero => simp at h
        | succ n => exact ⟨n, by simpa [List.replicate_succ] using h⟩
    · have hd : decValue (c :: cs) = cs.foldl (fun a c => a * 10 + digitVal c) (digitVal c) := by
        unfold decValue; rw [List.foldl_cons]; simp
      constructor
      · intro h
        by_cases hcs : cs = []
        · subst hcs
          rw [hd] at h
          exact ⟨0, by rw [digitVal_one hc h]; rfl⟩
        · have := foldl_dec_pos cs (digitVal c) (by omega) hcs
          omega
      · rintro ⟨n, h⟩
        cases n with
        | zero =>
          simp at h
          obtain ⟨rfl, rfl⟩ := h
          rfl
        | succ n =>
          rw [List.replicate_succ] at h
          simp at h
          obtain ⟨rfl, _⟩ := h
          exact absurd rfl h0

theorem spellsOne_digits {s : Str} (h : SpellsOne s) : s ≠ [] ∧ ∀ c ∈ s, isDigit c = true := by
  obtain ⟨n, rfl⟩ := h
  refine ⟨by simp, ?_⟩
  intro c hc
  rcases List.mem_append.1 hc with h | h
  · rw [(List.mem_replicate.1 h).2]; decide
  · rw [List.mem_singleton.1 h]; decide

theorem parseCardinality_one {s : Str} : parseCardinality s = some 1 ↔ SpellsOne s := by
  constructor
  · intro h
    unfold parseCardinality at h
    by_cases hs : s = c!"*"
    · simp [hs] at h
    · rw [if_neg hs] at h
      cases hg : getAsInt64 10 s with
      | none => rw [hg] at h; cases h
      | some v =>
        rw [hg] at h
        simp only at h
        have : v = 1 := by split at h <;> simp at h; exact h
        subst this
        rcases getAsInt64_some hg with ⟨_, h2, h3⟩ | ⟨t, _, _, _, h3⟩
        · exact (decValue_one h2).1 (by omega)
        · omega
  · intro h
    obtain ⟨h1, h2⟩ := spellsOne_digits h
    have hv := (decValue_one h2).2 h
    have hs : s ≠ c!"*" := by
      intro e
      have := h2 '*' (by rw [e]; decide)
      exact absurd this (by decide)
    simp only [parseCardinality, hs, if_false, getAsInt64_dec s h2 h1, hv]
    decide

theorem parseCardinality_wild {s : Str} :
    parseCardinality s = some (-1) ↔ s = c!"*" ∨ ∃ t, s = '-' :: t ∧ SpellsOne t := by
  constructor
  · intro h
    unfold parseCardinality at h
    by_cases hs : s = c!"*"
    · exact .inl hs
    · rw [if_neg hs] at h
      cases hg : getAsInt64 10 s with
      | none => rw [hg] at h; cases h
      | some v =>
        rw [hg] at h
        simp only at h
        have : v = -1 := by split at h <;> simp at h; exact h
        subst this
        rcases getAsInt64_some hg with ⟨_, h2, h3⟩ | ⟨t, ht, _, h2, h3⟩
        · omega
        · exact .inr ⟨t, ht, (decValue_one h2).1 (by omega)⟩
  · rintro (rfl | ⟨t, rfl, h⟩)
    · rfl
    · obtain ⟨h1, h2⟩ := spellsOne_digits h
      have hv := (decValue_one h2).2 h
      have hs : '-' :: t ≠ c!"*" := by simp
      simp only [parseCardinality, hs, if_false, getAsInt64_neg_dec t h2 h1, hv]
      decide

theorem extractCardinality_some {s : Str} {a b : Int} :
    extractCardinality s = some (a, b) ↔ ∃ lo hi, cardTexts s = some (lo, hi) ∧ parseCardinality lo = some a ∧
      parseCardinality hi = some b ∧ a = 1 ∧ (b = 1 ∨ b = -1) := by
  unfold extractCardinality
  cases h : cardTexts s with
  | none => simp
  | some lh =>
    obtain ⟨lo, hi⟩ := lh
    simp only
    cases h1 : parseCardinality lo with
    | none => simp [h1]
    | some x =>
      cases h2 : parseCardinality hi with
      | none => simp [h2]
      | some y =>
        simp only
        by_cases hx : x ≠ 1 ∨ (y ≠ 1 ∧ y ≠ -1)
        · rw [if_pos hx]
          constructor
          · intro e; cases e
          · rintro ⟨lo', hi', e, e1, e2, rfl, hb⟩
            cases e
            rw [h1] at e1; rw [h2] at e2
            cases e1; cases e2
            rcases hx with hx | ⟨hx, hy⟩
            · exact absurd rfl hx
            · rcases hb with rfl | rfl
              · exact absurd rfl hx
              · exact absurd rfl hy
        · rw [if_neg hx]
          constructor
          · intro e
            cases e
            refine ⟨lo, hi, rfl, h1, h2, ?_, ?_⟩
            · exact Classical.byContradiction fun hn => hx (.inl hn)
            · by_cases hy : b = 1
              · exact .inl hy
              · by_cases hy' : b = -1
                · exact .inr hy'
                · exact absurd (.inr ⟨hy, hy'⟩) hx
          · rintro ⟨lo', hi', e, e1, e2, _, _⟩
            cases e
            rw [h1] at e1; rw [h2] at e2
            cases e1; cases e2
            rfl

/-! ### Splitting texts -/

theorem upTo_append {c : Char} {a b : Str} (h : c ∉ a) : upTo c (a ++ c :: b) = a := by
  unfold upTo
  rw [List.takeWhile_append_of_pos (by intro x hx; simp; rintro rfl; exact h hx)]
  simp

theorem upTo_self {c : Char} {a : Str} (h : c ∉ a) : upTo c a = a := by
  unfold upTo
  have := List.takeWhile_append_of_pos (p := (· != c)) (l₁ := a) (l₂ := []) (by intro x hx; simp; rintro rfl; exact h hx)
  simpa using this

theorem upTo_append_left {c : Char} {a b : Str} (h : c ∉ a) : upTo c (a ++ b) = a ++ upTo c b := by
  unfold upTo
  exact List.takeWhile_append_of_pos (by intro x hx; simp; rintro rfl; exact h hx)

theorem after_append {c : Char} {a b : Str} (h : c ∉ a) : after c (a ++ c :: b) = b := by
  unfold after
  rw [List.dropWhile_append_of_pos (by intro x hx; simp; rintro rfl; exact h hx)]
  simp

theorem after_append_left {c : Char} {a b : Str} (h : c ∉ a) : after c (a ++ b) = after c b := by
  unfold after
  rw [List.dropWhile_append_of_pos (by intro x hx; simp; rintro rfl; exact h hx)]

theorem after_none {c : Char} {a : Str} (h : c ∉ a) : after c a = [] := by
  have := after_append_left (b := []) h
  simpa [after] using this

theorem split_at {c : Char} {s : Str} (h : c ∈ s) : ∃ a b, s = a ++ c :: b ∧ c ∉ a := by
  induction s with
  | nil => cases h
  | cons x xs ih =>
    by_cases hx : x = c
    · exact ⟨[], xs, by simp [hx], by simp⟩
    · obtain ⟨a, b, rfl, hb⟩ := ih ((List.mem_cons.1 h).resolve_left (fun e => hx e.symm))
      exact ⟨x :: a, b, rfl, by simp [hb]; exact fun e => hx e.symm⟩

/-- The part up to a character and what follows. -/
theorem split_upTo (c : Char) (s : Str) : ∃ r, s = upTo c s ++ r ∧ c ∉ upTo c s ∧ (r = [] ∨ ∃ t, r = c :: t) := by
  by_cases h : c ∈ s
  · obtain ⟨a, b, rfl, ha⟩ := split_at h
    exact ⟨c :: b, by rw [upTo_append ha], by rw [upTo_append ha]; exact ha, .inr ⟨b, rfl⟩⟩
  · exact ⟨[], by rw [upTo_self h]; simp, by rw [upTo_self h]; exact h, .inl rfl⟩

theorem cardTexts_comma {pre lo hi rest : Str} (h1 : '[' ∉ pre) (h2 : ',' ∉ lo) (h3 : ']' ∉ hi)
    (hr : rest = [] ∨ ∃ t, rest = ']' :: t) :
    cardTexts (pre ++ '[' :: (lo ++ ',' :: (hi ++ rest))) = some (lo, hi) := by
  unfold cardTexts
  rw [if_pos (by simp), after_append h1, if_pos (by simp), upTo_append h2, after_append h2]
  rcases hr with rfl | ⟨t, rfl⟩
  · rw [List.append_nil, upTo_self h3]
  · rw [upTo_append h3]

theorem cardTexts_no_comma {pre r : Str} (h1 : '[' ∉ pre) (h2 : ',' ∉ r) :
    cardTexts (pre ++ '[' :: r) = some (r, upTo ']' (pre ++ '[' :: r)) := by
  unfold cardTexts
  rw [if_pos (by simp), after_append h1, if_neg h2]

/-- Without a comma the second text starts at the front of the line and ends at a bracket before the
    first opening one, or it contains the opening bracket and is no number. -/
theorem no_comma_rejected {pre r : Str} (h1 : '[' ∉ pre) (h2 : ',' ∉ r) (h3 : ']' ∉ pre) (a b : Int) :
    extractCardinality (pre ++ '[' :: r) ≠ some (a, b) := by
  intro h
  obtain ⟨lo, hi, hc, _, hb, _, hb'⟩ := extractCardinality_some.1 h
  rw [cardTexts_no_comma h1 h2] at hc
  cases hc
  rw [show pre ++ '[' :: r = (pre ++ ['[']) ++ r by simp, upTo_append_left (by simp [h3])] at hb
  have hm : '[' ∈ pre ++ ['['] ++ upTo ']' r := by simp
  rcases hb' with rfl | rfl
  · have := (spellsOne_digits (parseCardinality_one.1 hb)).2 '[' hm
    exact absurd this (by decide)
  · rcases parseCardinality_wild.1 hb with e | ⟨t, e, ht⟩
    · rw [e] at hm; exact absurd hm (by decide)
    · rw [e] at hm
      rcases List.mem_cons.1 hm with h | h
      · exact absurd h (by decide)
      · exact absurd ((spellsOne_digits ht).2 _ h) (by decide)

end Verif.Sxfm

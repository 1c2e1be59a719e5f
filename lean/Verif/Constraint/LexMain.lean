import Verif.Constraint.LexLemmas
import Verif.Constraint.ParserLemmas
import Verif.Base.StrLemmas
/-! # The lexer computes the longest-match tokenization; whitespace; printed texts -/

namespace Verif
open Spec

theorem lexAll_spec (n : Nat) (s : Str) (hn : s.length ≤ n) :
    (lexAll s).length ≤ s.length ∧
    ((Ended (lexAll s) ∧ Lexes s (lexAll s)) ∨
      ((∀ t ∈ lexAll s, t.isEnd = false) ∧ Lexes s (lexAll s ++ [.eof]))) := by
  induction n generalizing s with
  | zero =>
    cases s with
    | nil => exact ⟨by simp [lexAll_nil], .inr ⟨by simp [lexAll_nil], .done⟩⟩
    | cons c cs => simp at hn
  | succ n ih =>
    cases s with
    | nil => exact ⟨by simp [lexAll_nil], .inr ⟨by simp [lexAll_nil], .done⟩⟩
    | cons c cs =>
      rw [lexAll_cons]
      rcases munch_ok c cs with ⟨e, h⟩ | ⟨e, h, h'⟩ | ⟨e, h1, h2, h3⟩
      · rw [e]
        exact ⟨by simp [Tok.isEnd], .inl ⟨.last rfl, .eofChar h⟩⟩
      · rw [e]
        exact ⟨by simp [Tok.isEnd], .inl ⟨.last rfl, .error h h'⟩⟩
      · simp only [e]
        generalize munch c (c :: cs) = m at *
        have hlen : ((c :: cs).drop m.2).length ≤ n := by simp at hn ⊢; omega
        obtain ⟨hl, hr⟩ := ih ((c :: cs).drop m.2) hlen
        have hsplit : (c :: cs) = (c :: cs).take m.2 ++ (c :: cs).drop m.2 := by simp
        refine ⟨?_, ?_⟩
        · simp at hl ⊢; omega
        · rcases hr with ⟨hr1, hr2⟩ | ⟨hr1, hr2⟩
          · left
            refine ⟨.cons e hr1, ?_⟩
            have := Lexes.token (t := m.1) (by rw [← hsplit]; exact h3) hr2
            rwa [← hsplit] at this
          · right
            refine ⟨by simpa [e] using hr1, ?_⟩
            have := Lexes.token (t := m.1) (by rw [← hsplit]; exact h3) hr2
            rwa [← hsplit] at this

theorem ended_append {ts : List Tok} (h : ∀ t ∈ ts, t.isEnd = false) : Ended (ts ++ [.eof]) := by
  induction ts with
  | nil => exact .last rfl
  | cons t ts ih => exact .cons (h t (by simp)) (ih fun x hx => h x (by simp [hx]))

theorem ended_last {ts : List Tok} (h : Ended ts) : ∃ t, ts.getLast? = some t ∧ t.isEnd = true := by
  induction h with
  | last h => exact ⟨_, rfl, h⟩
  | @cons t ts h1 h2 ih =>
    obtain ⟨x, hx, hx'⟩ := ih
    exact ⟨x, by simp [List.getLast?_cons, hx], hx'⟩

theorem lexAll_ne_nil {s : Str} (h : s ≠ []) : lexAll s ≠ [] := by
  cases s with
  | nil => exact absurd rfl h
  | cons c cs => rw [lexAll_cons]; split <;> simp

/-- The token list of `tokenize`, given the tokens of the loop. -/
theorem tokenize_eq {s : Str} (h : s ≠ []) :
    ∃ ts, tokenize s = .ok ts ∧ Ended ts ∧ Lexes s ts ∧ ts.length ≤ s.length + 1 ∧
      ((Ended (lexAll s) ∧ ts = lexAll s) ∨
        ((∀ t ∈ lexAll s, t.isEnd = false) ∧ ts = lexAll s ++ [.eof])) := by
  unfold tokenize
  rw [lexLoop_eq]
  simp only
  obtain ⟨hl, hr⟩ := lexAll_spec s.length s (Nat.le_refl _)
  have hne := lexAll_ne_nil h
  rcases hr with ⟨h1, h2⟩ | ⟨h1, h2⟩
  · obtain ⟨t, ht, ht'⟩ := ended_last h1
    refine ⟨lexAll s, by simp [ht, ht'], h1, h2, by omega, .inl ⟨h1, rfl⟩⟩
  · refine ⟨lexAll s ++ [.eof], ?_, ended_append h1, h2, by simp; omega, .inr ⟨h1, rfl⟩⟩
    cases hg : (lexAll s).getLast? with
    | none => simp at hg; exact absurd hg hne
    | some t =>
      have := h1 t (List.mem_of_getLast? hg)
      simp [this]

/-! ## Determinism of the specification -/

theorem spells_unique {t t' p} (h : Spells t p) (h' : Spells t' p) : t = t' := by
  cases h <;> cases h' <;> first
    | rfl
    | (exfalso; revert ‹isAlpha _ = true›; decide)
    | (exfalso; revert ‹isDigit _ = true›; decide)
    | simp_all
    | skip
  · rename_i h1 _ _ h2 _; simp [alpha_not_digit h1] at h2
  · rename_i h1 _ _ h2
    have := ws_not_alpha ((isWs_iff _).2 h2.1)
    simp [h1] at this
  · rename_i h1 _ h2 _ _; simp [alpha_not_digit h2] at h1
  · rename_i h1 _ h2
    have := ws_not_digit ((isWs_iff _).2 h2.1)
    simp [h1] at this
  · rename_i h2 h1 _ _
    have := ws_not_alpha ((isWs_iff _).2 h2.1)
    simp [h1] at this
  · rename_i h2 h1 _
    have := ws_not_digit ((isWs_iff _).2 h2.1)
    simp [h1] at this

theorem spells_head_not_end {t c cs} (h : Spells t (c :: cs)) :
    ¬ (c = Char.ofNat 0 ∨ c = Char.ofNat 255) := by
  rintro (rfl | rfl) <;>
    (rcases spells_head h with ⟨a, _⟩ | ⟨a, _⟩ | ⟨a, _⟩ | a
     · revert a; decide
     · revert a; decide
     · revert a; decide
     · simp [List.mem_cons] at a)

theorem longest_unique {t t' p p' s} (h : Longest t p s) (h' : Longest t' p' s) :
    t = t' ∧ p = p' := by
  obtain ⟨h1, r, hr, hm⟩ := h
  obtain ⟨h1', r', hr', hm'⟩ := h'
  have hp : p <+: s := ⟨r, hr.symm⟩
  have hp' : p' <+: s := ⟨r', hr'.symm⟩
  have hlen : p.length = p'.length := by
    by_cases a : p.length < p'.length
    · exact absurd h1' (hm p' hp' a t')
    · by_cases b : p'.length < p.length
      · exact absurd h1 (hm' p hp b t)
      · omega
  have : p = p' := by
    rw [List.prefix_iff_eq_take.1 hp, List.prefix_iff_eq_take.1 hp', hlen]
  subst this
  exact ⟨spells_unique h1 h1', rfl⟩

theorem lexes_unique {s ts} (h : Lexes s ts) : ∀ ts', Lexes s ts' → ts = ts' := by
  induction h with
  | done =>
    intro ts' h'
    generalize hs : ([] : Str) = s at h'
    cases h' with
    | done => rfl
    | eofChar => cases hs
    | error => cases hs
    | token h1 _ =>
      simp at hs
      exact absurd hs.1 (spells_ne_nil h1.1)
  | @eofChar c cs hc =>
    intro ts' h'
    generalize hs : c :: cs = s at h'
    cases h' with
    | done => cases hs
    | eofChar => rfl
    | error h1 => cases hs; exact absurd hc h1
    | @token t piece rest _ h1 _ =>
      cases piece with
      | nil => exact absurd rfl (spells_ne_nil h1.1)
      | cons x xs =>
        simp at hs
        have := spells_head_not_end h1.1
        rw [← hs.1] at this
        exact absurd hc this
  | @error c cs hc hn =>
    intro ts' h'
    generalize hs : c :: cs = s at h'
    cases h' with
    | done => cases hs
    | eofChar h1 => cases hs; exact absurd h1 hc
    | error h1 => cases hs; rfl
    | @token t piece rest _ h1 _ => exact absurd (by rw [hs]; exact ⟨rest, rfl⟩) (hn t piece h1.1)
  | @token t piece rest ts hl hr ih =>
    intro ts' h'
    generalize hs : piece ++ rest = s at h'
    cases h' with
    | done =>
      simp at hs
      exact absurd hs.1 (spells_ne_nil hl.1)
    | eofChar h1 =>
      cases piece with
      | nil => exact absurd rfl (spells_ne_nil hl.1)
      | cons x xs =>
        simp at hs
        have := spells_head_not_end hl.1
        rw [hs.1] at this
        exact absurd h1 this
    | error h1 h2 => exact absurd ⟨rest, hs⟩ (h2 t piece hl.1)
    | @token t' piece' rest' ts'' hl' hr' =>
      rw [hs] at hl
      obtain ⟨rfl, rfl⟩ := longest_unique hl hl'
      have : rest = rest' := by simpa using hs
      subst this
      rw [ih _ hr']

end Verif

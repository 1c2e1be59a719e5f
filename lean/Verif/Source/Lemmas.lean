import Verif.Source.Spec
/-! # Lemmas on `::`-separated names -/

namespace Verif
open Spec

theorem hasSep_cons {c : Char} {s : Str} : HasSep (c :: s) ↔ (c = ':' ∧ ∃ r, s = ':' :: r) ∨ HasSep s := by
  constructor
  · rintro ⟨p, q, e⟩
    cases p with
    | nil => simp at e; exact .inl ⟨e.1, _, e.2⟩
    | cons d p =>
      simp at e
      exact .inr ⟨p, q, by simp [e.2]⟩
  · rintro (⟨rfl, r, rfl⟩ | ⟨p, q, rfl⟩)
    · exact ⟨[], r, rfl⟩
    · exact ⟨c :: p, q, by simp⟩

theorem not_hasSep_nil : ¬ HasSep [] := by rintro ⟨p, q, e⟩; simp at e

theorem rsplitSep_some {s p m} (h : rsplitSep s = some (p, m)) : LastSep s p m := by
  induction s generalizing p m with
  | nil => simp [rsplitSep] at h
  | cons c cs ih =>
    simp only [rsplitSep] at h
    split at h
    · rename_i p' m' e
      cases h
      obtain ⟨h1, h2⟩ := ih e
      exact ⟨by rw [h1]; simp, h2⟩
    · rename_i e
      split at h
      · rename_i r
        cases h
        refine ⟨rfl, ?_⟩
        intro hs
        obtain ⟨p', q', e'⟩ := hs
        have key : ∀ s, HasSep s → rsplitSep s ≠ none := by
          intro s
          induction s with
          | nil => exact fun h => absurd h not_hasSep_nil
          | cons c s ih2 =>
            intro h
            rw [hasSep_cons] at h
            simp only [rsplitSep]
            rcases h with ⟨rfl, r, rfl⟩ | h
            · split <;> simp
            · cases e2 : rsplitSep s with
              | none => exact absurd e2 (ih2 h)
              | some x => simp
        exact key _ ⟨p', q', e'⟩ e
      · cases h

theorem rsplitSep_none {s} : rsplitSep s = none ↔ ¬ HasSep s := by
  induction s with
  | nil => simp [rsplitSep, not_hasSep_nil]
  | cons c cs ih =>
    rw [hasSep_cons]
    simp only [rsplitSep]
    cases e : rsplitSep cs with
    | some x =>
      have : HasSep cs := by
        cases Classical.em (HasSep cs) with
        | inl h => exact h
        | inr h => rw [ih.2 h] at e; cases e
      simp [this]
    | none =>
      have hn := ih.1 e
      simp only [hn, or_false, not_and, not_exists]
      constructor
      · intro h hc r hr
        subst hc hr
        simp at h
      · intro h
        split
        · rename_i r; exact absurd rfl (h rfl r)
        · rfl

theorem lastSep_unique {s p m p' m'} (h : LastSep s p m) (h' : LastSep s p' m') : p = p' ∧ m = m' := by
  have key : ∀ {p m p' m' : Str}, p ++ c!"::" ++ m = p' ++ c!"::" ++ m' → ¬ HasSep (':' :: m) →
      p'.length ≤ p.length := by
    intro p m p' m' e hn
    apply Decidable.byContradiction
    intro hlt
    have e2 : p' ++ (c!"::" ++ m') = p ++ (c!"::" ++ m) := by
      rw [← List.append_assoc, ← List.append_assoc]; exact e.symm
    obtain ⟨t, ht, ht2⟩ : ∃ t, p' = p ++ t ∧ c!"::" ++ m = t ++ (c!"::" ++ m') := by
      rcases List.append_eq_append_iff.1 e2 with ⟨t, h1, h2⟩ | ⟨t, h1, h2⟩
      · exfalso
        have := congrArg List.length h1
        simp at this
        omega
      · exact ⟨t, h1, h2⟩
    cases t with
    | nil => rw [ht] at hlt; simp at hlt
    | cons d t =>
      simp at ht2
      exact hn ⟨t, m', by simpa using ht2.2⟩
  obtain ⟨e, hn⟩ := h
  obtain ⟨e', hn'⟩ := h'
  have hl := Nat.le_antisymm (key (e'.symm.trans e) hn') (key (e.symm.trans e') hn)
  have e3 : p ++ (c!"::" ++ m) = p' ++ (c!"::" ++ m') := by
    rw [← List.append_assoc, ← List.append_assoc, ← e, ← e']
  have := List.append_inj e3 hl
  refine ⟨this.1, by simpa using this.2⟩

theorem rsplitSep_iff {s p m} : rsplitSep s = some (p, m) ↔ LastSep s p m := by
  constructor
  · exact rsplitSep_some
  · intro h
    cases e : rsplitSep s with
    | none => exact absurd ⟨p, m, h.1⟩ (rsplitSep_none.1 e)
    | some x =>
      obtain ⟨p', m'⟩ := x
      obtain ⟨rfl, rfl⟩ := lastSep_unique h (rsplitSep_some e)
      rfl

theorem splitSep_none {s} : splitSep s = none ↔ ¬ HasSep s := by
  induction s using splitSep.induct with
  | case1 r => simp [splitSep, hasSep_cons]
  | case2 => simp [splitSep, not_hasSep_nil]
  | case3 c cs h ih =>
    rw [hasSep_cons, splitSep]
    · simp only [Option.map_eq_none_iff, ih]
      constructor
      · rintro h1 (⟨rfl, r, rfl⟩ | h2)
        · exact h r rfl rfl
        · exact h1 h2
      · exact fun h1 h2 => h1 (.inr h2)
    · exact h

theorem splitSep_some {s a r} (h : splitSep s = some (a, r)) :
    s = a ++ c!"::" ++ r ∧ ¬ HasSep (a ++ [':']) := by
  induction s using splitSep.induct generalizing a r with
  | case1 r' =>
    simp [splitSep] at h
    obtain ⟨rfl, rfl⟩ := h
    exact ⟨rfl, by rintro ⟨p, q, e⟩; rcases p with _ | ⟨_, _ | _⟩ <;> simp at e⟩
  | case2 => simp [splitSep] at h
  | case3 c cs hc ih =>
    rw [splitSep] at h
    · simp only [Option.map_eq_some_iff] at h
      obtain ⟨⟨a', r'⟩, h1, h2⟩ := h
      simp at h2
      obtain ⟨rfl, rfl⟩ := h2
      obtain ⟨h3, h4⟩ := ih h1
      refine ⟨by rw [h3]; simp, ?_⟩
      rw [List.cons_append, hasSep_cons]
      rintro (⟨rfl, x, e⟩ | h5)
      · cases a' with
        | nil => rw [h3] at hc; exact hc _ rfl rfl
        | cons d a' =>
          simp at e
          rw [h3] at hc
          exact hc _ rfl (by rw [e.1]; rfl)
      · exact h4 h5
    · exact hc

theorem splitAll_components (f : Nat) (s : Str) (h : s.length ≤ f) : Components s (splitAll f s) := by
  induction f generalizing s with
  | zero =>
    have : s = [] := List.length_eq_zero_iff.1 (by omega)
    subst this
    exact .last not_hasSep_nil
  | succ f ih =>
    simp only [splitAll]
    cases e : splitSep s with
    | none => exact .last (splitSep_none.1 e)
    | some x =>
      obtain ⟨a, r⟩ := x
      obtain ⟨h1, h2⟩ := splitSep_some e
      subst h1
      exact .cons h2 (ih r (by simp at h; omega))

theorem components_ne_nil {s cs} (h : Components s cs) : cs ≠ [] := by cases h <;> simp

theorem components_join {s cs} (h : Components s cs) : joinSep cs = s := by
  induction h with
  | last => rfl
  | @cons a s cs _ h2 ih =>
    cases cs with
    | nil => exact absurd rfl (components_ne_nil h2)
    | cons c cs => simp only [joinSep, ih]

theorem foldl_join (cs : List Str) (a : Str) :
    cs.foldl (fun acc x => acc ++ c!"::" ++ x) a = joinSep (a :: cs) := by
  induction cs generalizing a with
  | nil => rfl
  | cons c cs ih =>
    rw [List.foldl_cons, ih]
    cases cs with
    | nil => simp [joinSep]
    | cons d cs => simp [joinSep]

theorem className_eq (m : MemberOffset) : m.className = joinSep m.cls := by
  unfold MemberOffset.className
  split
  · rename_i e; rw [e]; rfl
  · rename_i e; rw [e, foldl_join]

theorem splitClass_join (s : Str) : joinSep (splitClass s) = s := by
  unfold splitClass
  split
  · rename_i h; rw [h]; rfl
  · exact components_join (splitAll_components _ _ (Nat.le_refl _))

theorem hasSep_prefix {a b : Str} (h : HasSep a) : HasSep (a ++ b) := by
  obtain ⟨p, q, rfl⟩ := h
  exact ⟨p, q ++ b, by simp⟩

theorem components_unique {s cs} (h : Components s cs) : ∀ cs', Components s cs' → cs = cs' := by
  induction h with
  | @last s hs =>
    intro cs' h'
    cases h' with
    | last => rfl
    | cons _ _ => exact absurd ⟨_, _, rfl⟩ hs
  | @cons a s cs ha hs ih =>
    intro cs' h'
    generalize e : a ++ c!"::" ++ s = t at h'
    cases h' with
    | last ht => rw [← e] at ht; exact absurd ⟨_, _, rfl⟩ ht
    | @cons a' s' cs' ha' hs' =>
      have key : ∀ {a s a' s' : Str}, a ++ c!"::" ++ s = a' ++ c!"::" ++ s' → ¬ HasSep (a' ++ [':']) →
          a'.length ≤ a.length := by
        intro a s a' s' e hn
        apply Decidable.byContradiction
        intro hlt
        have e2 : a' ++ (c!"::" ++ s') = a ++ (c!"::" ++ s) := by
          rw [← List.append_assoc, ← List.append_assoc]; exact e.symm
        obtain ⟨t, ht, ht2⟩ : ∃ t, a' = a ++ t ∧ c!"::" ++ s = t ++ (c!"::" ++ s') := by
          rcases List.append_eq_append_iff.1 e2 with ⟨t, h1, h2⟩ | ⟨t, h1, h2⟩
          · exfalso
            have := congrArg List.length h1
            simp at this
            omega
          · exact ⟨t, h1, h2⟩
        cases t with
        | nil => rw [ht] at hlt; simp at hlt
        | cons d t =>
          cases t with
          | nil =>
            simp at ht2
            apply hn
            exact ⟨a, [], by rw [ht, ← ht2.1]; simp⟩
          | cons d' t =>
            simp at ht2
            apply hn
            exact ⟨a, t ++ [':'], by rw [ht, ← ht2.1, ← ht2.2.1]; simp⟩
      have hl := Nat.le_antisymm (key e.symm ha) (key e ha')
      have e3 : a ++ (c!"::" ++ s) = a' ++ (c!"::" ++ s') := by
        rw [← List.append_assoc, ← List.append_assoc]; exact e
      obtain ⟨h1, h2⟩ := List.append_inj e3 hl
      have h2 : s = s' := by simpa using h2
      subst h1 h2
      rw [ih _ hs']

end Verif

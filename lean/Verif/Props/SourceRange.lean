import Verif.Source.Lemmas
/-!
# Properties C14, C15, C48: source locations, member offsets, narrowing
-/

namespace Verif.Props
open Spec

/-! ## C14 -/

/-- `==` on locations is equality of both numbers. -/
theorem C14_location_eq (a b : Loc) : a.eq b = true ↔ a = b := by
  cases a; cases b; simp [Loc.eq]

/-- `<` is a strict total order on locations. -/
theorem C14_location_order :
    (∀ a : Loc, a.lt a = false) ∧
    (∀ a b c : Loc, a.lt b = true → b.lt c = true → a.lt c = true) ∧
    (∀ a b : Loc, a.lt b = true ∨ a.eq b = true ∨ b.lt a = true) ∧
    (∀ a b : Loc, a.lt b = true → a.eq b = false ∧ b.lt a = false) ∧
    (∀ a b : Loc, a.gt b = b.lt a) := by
  refine ⟨?_, ?_, ?_, ?_, fun _ _ => rfl⟩
  · intro a; simp [Loc.lt]
  · intro a b c h1 h2
    simp only [Loc.lt, Bool.or_eq_true, Bool.and_eq_true, decide_eq_true_eq, beq_iff_eq] at *
    omega
  · intro a b
    simp only [Loc.lt, Loc.eq, Bool.or_eq_true, Bool.and_eq_true, decide_eq_true_eq, beq_iff_eq]
    omega
  · intro a b h
    simp only [Loc.lt, Loc.eq, Bool.or_eq_true, Bool.and_eq_true, decide_eq_true_eq, beq_iff_eq,
      Bool.eq_false_iff, ne_eq] at *
    omega

/-- The order is the reading order: by line, then by column. -/
theorem C14_location_lt (a b : Loc) :
    a.lt b = true ↔ a.line < b.line ∨ (a.line = b.line ∧ a.column < b.column) := by
  simp [Loc.lt]

theorem optEq_iff {α} (eq : α → α → Bool) (h : ∀ a b, eq a b = true ↔ a = b) (x y : Option α) :
    optEq eq x y = true ↔ x = y := by
  cases x <;> cases y <;> simp [optEq, h]

theorem memberOffset_eq (a b : MemberOffset) : a.eq b = true ↔ a = b := by
  cases a; cases b; simp [MemberOffset.eq, and_comm]

/-- Ranges compare by everything except the revision range. -/
theorem C14_range_eq_partial (a b : Range) :
    a.eq b = true ↔ a.path = b.path ∧ a.start = b.start ∧ a.stop = b.stop ∧
      a.category = b.category ∧ a.member = b.member := by
  simp only [Range.eq, Bool.and_eq_true, decide_eq_true_eq, optEq_iff Loc.eq C14_location_eq,
    optEq_iff MemberOffset.eq memberOffset_eq]
  constructor
  · rintro ⟨⟨⟨⟨h1, h2⟩, h3⟩, h4⟩, h5⟩; exact ⟨h2, h3, h4, h1, h5⟩
  · rintro ⟨h2, h3, h4, h1, h5⟩; exact ⟨⟨⟨⟨h1, h2⟩, h3⟩, h4⟩, h5⟩

/-- The claim including revision ranges is false. -/
theorem C14_revision_range_ignored :
    ∃ a b : Range, a.eq b = true ∧ a.revision ≠ b.revision :=
  ⟨⟨[c!"f"], none, none, .necessary, none, some ⟨c!"1", none⟩⟩,
   ⟨[c!"f"], none, none, .necessary, none, some ⟨c!"2", none⟩⟩, by decide, by decide⟩

/-- In general: ranges that differ in the revision range only are equal, so each of them has an equal one with
    another revision range. -/
theorem C14_every_revision_range (a : Range) :
    (∀ r, a.eq { a with revision := r } = true) ∧ ∃ b : Range, a.eq b = true ∧ a.revision ≠ b.revision := by
  have h : ∀ r, a.eq { a with revision := r } = true := fun r => (C14_range_eq_partial a _).2 ⟨rfl, rfl, rfl, rfl, rfl⟩
  refine ⟨h, ?_⟩
  cases hr : a.revision with
  | none => exact ⟨{ a with revision := some ⟨c!"1", none⟩ }, h _, by simp⟩
  | some x => exact ⟨{ a with revision := none }, h _, by simp⟩

/-! ## C15 -/

/-- Which texts are member offsets and what they denote: `p::m` cut at the last separator, `m`
    not empty, `p` cut into its components at the leftmost separators. -/
theorem C15_create (s : Str) (o : MemberOffset) :
    createMemberOffset s = some o ↔ ∃ p, LastSep s p o.member ∧ o.member ≠ [] ∧
      ((p = [] ∧ o.cls = []) ∨ (p ≠ [] ∧ Components p o.cls)) := by
  have hcls : ∀ p cs, splitClass p = cs ↔ (p = [] ∧ cs = []) ∨ (p ≠ [] ∧ Components p cs) := by
    intro p cs
    unfold splitClass
    by_cases h : p = []
    · rw [if_pos h]; simp [h, eq_comm]
    · rw [if_neg h]
      simp only [h, false_and, false_or, ne_eq, not_false_eq_true, true_and]
      constructor
      · rintro rfl; exact splitAll_components _ _ (Nat.le_refl _)
      · exact fun hc => components_unique (splitAll_components _ _ (Nat.le_refl _)) _ hc
  unfold createMemberOffset
  constructor
  · intro h
    split at h
    · cases h
    · rename_i c m e
      split at h
      · cases h
      · rename_i hm
        cases h
        exact ⟨c, rsplitSep_iff.1 e, hm, (hcls _ _).1 rfl⟩
  · rintro ⟨p, h1, h2, h3⟩
    rw [rsplitSep_iff.2 h1]
    simp only
    rw [if_neg h2, (hcls _ _).2 h3]

/-- It succeeds exactly when the text contains `::` and what follows the last one is not empty. -/
theorem C15_succeeds_iff (s : Str) :
    (createMemberOffset s).isSome ↔ ∃ p m, LastSep s p m ∧ m ≠ [] := by
  unfold createMemberOffset
  constructor
  · intro h
    split at h
    · cases h
    · rename_i c m e
      split at h
      · cases h
      · rename_i hm; exact ⟨c, m, rsplitSep_iff.1 e, hm⟩
  · rintro ⟨p, m, h, hm⟩
    rw [rsplitSep_iff.2 h]
    simp [hm]

/-- A text with a separator has exactly one last one. -/
theorem C15_last_separator (s : Str) (h : HasSep s) : ∃ p m, LastSep s p m := by
  cases e : rsplitSep s with
  | none => exact absurd h (rsplitSep_none.1 e)
  | some x => exact ⟨x.1, x.2, rsplitSep_iff.1 e⟩

theorem C15_format_test (s : Str) : isMemberOffsetFormat s = (createMemberOffset s).isSome := by
  unfold isMemberOffsetFormat createMemberOffset
  split
  · rfl
  · split <;> simp_all

/-- The result prints as the text again, and the parts are free of separators. -/
theorem C15_roundtrip {s : Str} {o : MemberOffset} (h : createMemberOffset s = some o) :
    o.toString = s ∧ ¬ HasSep o.member ∧ o.className ++ c!"::" ++ o.member = s ∧
    o.className = joinSep o.cls ∧ ∀ c ∈ o.cls, ¬ HasSep c := by
  obtain ⟨p, h1, _, h3⟩ := (C15_create s o).1 h
  have hj : joinSep o.cls = p := by
    rcases h3 with ⟨rfl, e⟩ | ⟨_, hc⟩
    · rw [e]; rfl
    · exact components_join hc
  have hs : o.className ++ c!"::" ++ o.member = s := by rw [className_eq, hj]; exact h1.1.symm
  refine ⟨hs, fun hm => h1.2 ((hasSep_cons).2 (.inr hm)), hs, className_eq o, ?_⟩
  rcases h3 with ⟨_, e⟩ | ⟨hp, hc⟩
  · rw [e]; simp
  · clear h h1 hj hs hp
    generalize o.cls = cs at hc
    induction hc with
    | last h => intro c hc; simp at hc; subst hc; exact h
    | cons h _ ih =>
      intro c hc
      rcases List.mem_cons.1 hc with rfl | hc
      · exact fun hh => h (hasSep_prefix hh)
      · exact ih c hc

/-- Two texts denote equal offsets only if they are equal. -/
theorem C15_injective {s s' : Str} {o o' : MemberOffset} (h : createMemberOffset s = some o)
    (h' : createMemberOffset s' = some o') : o.eq o' = true ↔ s = s' := by
  rw [memberOffset_eq]
  constructor
  · rintro rfl; rw [← (C15_roundtrip h).1, ← (C15_roundtrip h').1]
  · rintro rfl; rw [h] at h'; exact Option.some.inj h'

/-- Nested names count from the innermost class outwards. -/
theorem C15_nested (o : MemberOffset) (n : Nat) (h : n < o.cls.length) :
    o.nested n = o.cls.reverse[n]? ∧ (o.nested n).isSome := by
  unfold MemberOffset.nested
  rw [if_pos h]
  rw [List.getElem?_reverse h]
  have : o.cls.length - n - 1 = o.cls.length - 1 - n := by omega
  rw [this]
  exact ⟨rfl, by simp; omega⟩

example : createMemberOffset c!"A::B::m" = some ⟨[c!"A", c!"B"], c!"m"⟩ := by decide
example : createMemberOffset c!"a:::b" = some ⟨[c!"a:"], c!"b"⟩ := by decide
example : createMemberOffset c!"A::" = none := by decide

/-! ## C48 -/

/-- With or without assertions: values that fit are kept. -/
theorem C48_fits (asserts : Bool) (v : Nat) (h : v ≤ 2147483647) : narrow asserts v = some (v : Int) := by
  unfold narrow
  have : v % 4294967296 = v := Nat.mod_eq_of_lt (by omega)
  simp only [this]
  rw [if_neg (by simp; omega), if_neg (by omega)]

/-- Without assertions a 32-bit value that does not fit becomes the largest `int`. -/
theorem C48_saturates_partial (v : Nat) (h : 2147483647 < v) (h' : v < 4294967296) :
    narrow false v = some 2147483647 ∧ narrow true v = none := by
  unfold narrow
  have : v % 4294967296 = v := Nat.mod_eq_of_lt h'
  simp only [this]
  constructor
  · rw [if_neg (by simp), if_pos (by omega)]
  · rw [if_pos (by simp; omega)]

/-- The result is never negative and, below 2^32, monotone. -/
theorem C48_sign (asserts : Bool) (v : Nat) (r : Int) (h : narrow asserts v = some r) :
    0 ≤ r ∧ r ≤ 2147483647 := by
  unfold narrow at h
  simp only at h
  split at h
  · cases h
  · split at h
    · cases h; decide
    · cases h; omega

theorem C48_monotone_partial (v w : Nat) (hvw : v ≤ w) (hw : w < 4294967296) :
    ∃ r r', narrow false v = some r ∧ narrow false w = some r' ∧ r ≤ r' := by
  by_cases h1 : w ≤ 2147483647
  · exact ⟨_, _, C48_fits false v (by omega), C48_fits false w h1, by omega⟩
  · by_cases h2 : v ≤ 2147483647
    · exact ⟨_, _, C48_fits false v h2, (C48_saturates_partial w (by omega) hw).1, by omega⟩
    · exact ⟨_, _, (C48_saturates_partial v (by omega) (by omega)).1,
        (C48_saturates_partial w (by omega) hw).1, by omega⟩

/-- For 64-bit counters, as the callers pass them, the claim is false: the argument wraps first. -/
theorem C48_wide_values_wrap : narrow true 4294967301 = some 5 ∧ narrow false 4294967301 = some 5 := by
  decide

/-- In general: only the value modulo 2^32 matters, so every number that fits is the result of infinitely many. -/
theorem C48_wraps (asserts : Bool) (v k : Nat) : narrow asserts (v + 4294967296 * k) = narrow asserts v ∧
    (v ≤ 2147483647 → narrow asserts (v + 4294967296 * k) = some (v : Int)) := by
  have h : narrow asserts (v + 4294967296 * k) = narrow asserts v := by
    unfold narrow
    rw [Nat.add_mul_mod_self_left]
  exact ⟨h, fun hv => by rw [h]; exact C48_fits asserts v hv⟩

example : narrow true (7 + 4294967296 * 3) = some 7 := (C48_wraps true 7 3).2 (by decide)

end Verif.Props

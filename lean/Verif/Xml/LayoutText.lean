import Verif.Xml.LayoutSpec
import Verif.Xml.Read
import Verif.Constraint.Double
/-! # Reading texts that say the same -/

namespace Verif.Xml
open Verif Verif.Spec Verif.Sxfm

theorem blank_space {s : Str} (h : blank s) : ∀ c ∈ s, isSpaceC c = true := by
  intro c hc
  rcases h c hc with rfl | rfl | rfl | rfl <;> decide

theorem dropWhile_blank {a s : Str} (h : blank a) : (a ++ s).dropWhile isSpaceC = s.dropWhile isSpaceC := by
  induction a with
  | nil => rfl
  | cons c a ih =>
    rw [List.cons_append, List.dropWhile_cons_of_pos (blank_space h c (by simp))]
    exact ih fun d hd => h d (by simp [hd])

theorem takeWhile_then {ds r : Str} (h : ∀ c ∈ ds, isDigit c = true) (hr : ∀ c, r.head? = some c → isDigit c = false) :
    (ds ++ r).takeWhile isDigit = ds := by
  induction ds with
  | nil =>
    cases r with
    | nil => rfl
    | cons c cs => simp [hr c rfl]
  | cons d ds ih => simp [h d (by simp), ih (fun x hx => h x (by simp [hx]))]

theorem atoi_lineText {t : Str} {v : Int} (h : LineText t v) (hv : -2147483648 ≤ v ∧ v ≤ 2147483647) : atoi t = some v := by
  have : signedValue (t.dropWhile isSpaceC) = v := by
    cases h with
    | @plain ds r h1 h2 h3 =>
      cases ds with
      | nil => exact absurd rfl h1
      | cons c cs =>
        have hc := h2 c (by simp)
        have hm : c ≠ '-' := by rintro rfl; revert hc; decide
        have hp : c ≠ '+' := by rintro rfl; revert hc; decide
        rw [List.cons_append, List.dropWhile_cons_of_neg (by simp [digit_visible hc]), ← List.cons_append]
        unfold signedValue
        split
        · rename_i heq; cases heq; exact absurd rfl hm
        · rename_i heq; cases heq; exact absurd rfl hp
        · rw [takeWhile_then h2 h3]
    | @plus ds r h1 h2 h3 =>
      rw [List.dropWhile_cons_of_neg (by decide)]
      show ((decValue ((ds ++ r).takeWhile isDigit) : Nat) : Int) = _
      rw [takeWhile_then h2 h3]
    | @minus ds r h1 h2 h3 =>
      rw [List.dropWhile_cons_of_neg (by decide)]
      show -((decValue ((ds ++ r).takeWhile isDigit) : Nat) : Int) = _
      rw [takeWhile_then h2 h3]
  unfold atoi asInt
  rw [this, if_pos hv]


theorem atoi_blank {a s : Str} (h : blank a) : atoi (a ++ s) = atoi s := by
  unfold atoi
  rw [dropWhile_blank h]

theorem lineText_visible {t : Str} {v : Int} (h : LineText t v) : ∃ c ∈ t, isSpaceC c = false := by
  cases h with
  | @plain ds r h1 h2 _ =>
    cases ds with
    | nil => exact absurd rfl h1
    | cons c cs => exact ⟨c, by simp, digit_visible (h2 c (by simp))⟩
  | plus => exact ⟨'+', by simp, by decide⟩
  | minus => exact ⟨'-', by simp, by decide⟩

/-! ## Bounds -/

/-- What fits into 64 bits. -/
def clamp64 (v : Int) : Int := if v ≤ int64Max then (if int64Min ≤ v then v else int64Min) else int64Max

theorem numeral_solid {t : Str} {v : Int} (h : Numeral t v) : Solid t := by
  have key : ∀ {ds : Str}, Digits ds → Solid ds := fun {ds} h =>
    ⟨h.1, fun c hc => digit_visible (h.2 c (List.mem_of_head? hc)), fun c hc => digit_visible (h.2 c (List.mem_of_getLast? hc))⟩
  cases h with
  | plain h => exact key h
  | @minus ds h =>
    refine ⟨by simp, fun c hc => by cases hc; decide, fun c hc => ?_⟩
    rw [List.getLast?_cons] at hc
    cases hl : ds.getLast? with
    | none => exact absurd (List.getLast?_eq_none_iff.1 hl) h.1
    | some d => rw [hl] at hc; cases hc; exact (key h).last d hl

theorem parseInteger_numeral (sci : Str → Option Str) {t : Str} {v : Int} (h : Numeral t v) : parseInteger sci t = clamp64 v := by
  cases h with
  | plain h =>
    rw [parseInteger, if_neg (by simp [digits_not_e h.2]), parsePlainInteger_digits h.2 h.1, clamp64]
    split
    · rw [if_pos (by unfold int64Min; omega)]
    · rfl
  | @minus ds h =>
    rw [parseInteger, if_neg (by simp [digits_not_e h.2]), parsePlainInteger, getAsInt64_neg_dec _ h.2 h.1]
    have h1 : -(decValue ds : Int) ≤ int64Max := by unfold int64Max; omega
    by_cases hle : decValue ds ≤ 9223372036854775808
    · have h2 : int64Min ≤ -(decValue ds : Int) := by unfold int64Min; omega
      rw [if_pos hle, clamp64, if_pos h1, if_pos h2]
    · have h2 : ¬ int64Min ≤ -(decValue ds : Int) := by unfold int64Min; omega
      rw [if_neg hle, clamp64, if_pos h1, if_neg h2]
      rfl

/-! ## Lists of values -/

theorem intTokens_gap {sep r : Str} (hs : ∀ c ∈ sep, isDigit c = false) (b : Bool) :
    intTokens none b (sep ++ r) = intTokens none (match sep.getLast? with | some c => c == '-' | none => b) r := by
  induction sep generalizing b with
  | nil => rfl
  | cons c sep ih =>
    rw [List.cons_append]
    simp only [intTokens, hs c (by simp), Bool.false_eq_true, if_false]
    rw [ih (fun d hd => hs d (by simp [hd]))]
    rw [List.getLast?_cons]
    cases sep.getLast? <;> rfl

theorem intTokens_end {t r : Str} (hr : NoDigitNext r) (b b' : Bool) : intTokens (some t) b r = t :: intTokens none b' r := by
  cases r with
  | nil => rfl
  | cons c cs => simp [intTokens, hr c rfl]

theorem intTokens_run {t ds r : Str} (hd : ∀ c ∈ ds, isDigit c = true) (hr : NoDigitNext r) (b b' : Bool) :
    intTokens (some t) b (ds ++ r) = (t ++ ds) :: intTokens none b' r := by
  induction ds generalizing t b with
  | nil => simpa using intTokens_end hr b b'
  | cons c ds ih =>
    rw [List.cons_append]
    simp only [intTokens, hd c (by simp), if_true]
    rw [ih (fun d h => hd d (by simp [h]))]
    simp

theorem intTokens_number {ds r : Str} (hd : Digits ds) (hr : NoDigitNext r) (b : Bool) :
    intTokens none b (ds ++ r) = (if b then '-' :: ds else ds) :: intTokens none false r := by
  obtain ⟨hne, hd⟩ := hd
  cases ds with
  | nil => exact absurd rfl hne
  | cons c ds =>
    rw [List.cons_append]
    simp only [intTokens, hd c (by simp), if_true]
    rw [intTokens_run (fun d h => hd d (by simp [h])) hr _ false]
    cases b <;> simp

theorem numbers_read (sci : Str → Option Str) {s : Str} {vs : List Int} (h : Numbers s vs) :
    (intTokens none false s).map (parseInteger sci) = vs.map clamp64 := by
  induction h with
  | @nil s h =>
    have := intTokens_gap (r := []) h false
    rw [List.append_nil] at this
    rw [this]
    rfl
  | @plain sep ds r vs h1 h2 h3 h4 _ ih =>
    have hb : (match sep.getLast? with | some c => c == '-' | none => false) = false := by
      cases hl : sep.getLast? with
      | none => rfl
      | some c =>
        have : c ≠ '-' := by rintro rfl; exact h2 hl
        simp [this]
    rw [intTokens_gap h1, hb, intTokens_number h3 h4]
    simp only [Bool.false_eq_true, if_false, List.map_cons, ih, parseInteger_numeral sci (.plain h3)]
  | @minus sep ds r vs h1 h3 h4 _ ih =>
    rw [show sep ++ '-' :: (ds ++ r) = (sep ++ ['-']) ++ (ds ++ r) by simp, intTokens_gap (by
      intro c hc
      rcases List.mem_append.1 hc with hc | hc
      · exact h1 c hc
      · rw [List.mem_singleton.1 hc]; decide)]
    simp only [List.getLast?_append, List.getLast?_singleton, Option.some_or, beq_self_eq_true]
    rw [intTokens_number h3 h4]
    simp only [if_true, List.map_cons, ih, parseInteger_numeral sci (.minus h3)]

theorem mem_takeWhile_holds (p : Char → Bool) (s : Str) : ∀ c ∈ s.takeWhile p, p c = true := by
  induction s with
  | nil => intro c hc; cases hc
  | cons x xs ih =>
    intro c hc
    rw [List.takeWhile_cons] at hc
    by_cases hx : p x = true
    · rw [if_pos hx] at hc
      rcases List.mem_cons.1 hc with rfl | hc
      · exact hx
      · exact ih c hc
    · rw [if_neg hx] at hc; cases hc

theorem space_no_digit {c : Char} (h : isSpaceC c = true) : isDigit c = false := by
  cases hd : isDigit c with
  | false => rfl
  | true => rw [digit_visible hd] at h; cases h

theorem intTokens_dropSpace (s : Str) : intTokens none false (s.dropWhile isSpaceC) = intTokens none false s := by
  induction s with
  | nil => rfl
  | cons c s ih =>
    by_cases hc : isSpaceC c = true
    · rw [List.dropWhile_cons_of_pos hc, ih]
      have : (c == '-') = false := by
        rw [beq_eq_false_iff_ne]
        rintro rfl
        revert hc; decide
      simp [intTokens, space_no_digit hc, this]
    · rw [List.dropWhile_cons_of_neg hc]

theorem intTokens_append_space {b : Str} (hb : ∀ c ∈ b, isSpaceC c = true) : ∀ (s : Str) (o : Option Str) (neg : Bool),
    intTokens o neg (s ++ b) = intTokens o neg s
  | [], o, neg => by
    have := intTokens_gap (sep := b) (r := []) (fun c hc => space_no_digit (hb c hc))
    rw [List.append_nil] at this
    have e : ∀ x, intTokens none x b = [] := fun x => by rw [this]; rfl
    cases o with
    | none => rw [List.nil_append, e]; rfl
    | some t =>
      rw [List.nil_append, intTokens_end (b' := false) (fun c hc => space_no_digit (hb c (List.mem_of_head? hc))), e]
      rfl
  | c :: s, o, neg => by
    rw [List.cons_append]
    cases o <;> simp only [intTokens, intTokens_append_space hb s]

theorem intTokens_trim (s : Str) : intTokens none false (trimC s) = intTokens none false s := by
  have h : ∃ b, s.dropWhile isSpaceC = trimC s ++ b ∧ ∀ c ∈ b, isSpaceC c = true := by
    refine ⟨((s.dropWhile isSpaceC).reverse.takeWhile isSpaceC).reverse, ?_, fun c hc => ?_⟩
    · unfold trimC
      rw [← List.reverse_append, List.takeWhile_append_dropWhile, List.reverse_reverse]
    · rw [List.mem_reverse] at hc
      exact mem_takeWhile_holds _ _ c hc
  obtain ⟨b, e, hb⟩ := h
  rw [← intTokens_dropSpace s, e, intTokens_append_space hb]

theorem numbers_visible {s : Str} {vs : List Int} (h : Numbers s vs) (hne : vs ≠ []) : ∃ c ∈ s, isSpaceC c = false := by
  cases h with
  | nil => exact absurd rfl hne
  | @plain sep ds r vs _ _ h3 _ _ =>
    cases ds with
    | nil => exact absurd rfl h3.1
    | cons c ds => exact ⟨c, by simp, digit_visible (h3.2 c (by simp))⟩
  | minus => exact ⟨'-', by simp, by decide⟩

theorem says_trim {a u b : Str} (ha : blank a) (hb : blank b) (hu : Solid u) : trimC (a ++ u ++ b) = u :=
  trimC_text (blank_space ha) (blank_space hb) hu.head hu.last hu.nonempty

/-- What says the same can be seen. -/
theorem sameValue_visible {n s t : Str} (h : SameValue n s t) : trimC s ≠ [] ∧ trimC t ≠ [] := by
  have app : ∀ {a u : Str}, (∃ c ∈ u, isSpaceC c = false) → ∃ c ∈ a ++ u, isSpaceC c = false := by
    rintro a u ⟨c, hc, h⟩
    exact ⟨c, List.mem_append_right _ hc, h⟩
  cases h with
  | position _ _ _ h1 h2 _ => exact ⟨trimC_ne_nil (app (lineText_visible h1)), trimC_ne_nil (app (lineText_visible h2))⟩
  | bound _ ha hb ha' hb' h1 h2 =>
    rw [says_trim ha hb (numeral_solid h1), says_trim ha' hb' (numeral_solid h2)]
    exact ⟨(numeral_solid h1).nonempty, (numeral_solid h2).nonempty⟩
  | values hne h1 h2 => exact ⟨trimC_ne_nil (numbers_visible h1 hne), trimC_ne_nil (numbers_visible h2 hne)⟩
  | optional h1 h2 =>
    cases h1 with
    | mk ha hb hu _ =>
    cases h2 with
    | mk ha' hb' hu' _ =>
      rw [says_trim ha hb hu, says_trim ha' hb' hu']
      exact ⟨hu.nonempty, hu'.nonempty⟩

theorem sameValue_atoi {n s t : Str} (h : SameValue n s t) (hn : n = c!"line" ∨ n = c!"column") : atoi s = atoi t := by
  cases h with
  | position _ ha hb h1 h2 hv => rw [atoi_blank ha, atoi_blank hb, atoi_lineText h1 hv, atoi_lineText h2 hv]
  | bound h => rcases hn with rfl | rfl <;> exact absurd h (by decide)
  | values => exact absurd hn (by decide)
  | optional => exact absurd hn (by decide)

theorem sameValue_optional {s t : Str} (h : SameValue c!"optional" s t) : trimC s ≠ c!"True" ∧ trimC t ≠ c!"True" := by
  generalize hn : c!"optional" = n at h
  cases h with
  | position h => subst hn; exact absurd h (by decide)
  | bound h => subst hn; exact absurd h (by decide)
  | values => exact absurd hn (by decide)
  | optional h1 h2 =>
    cases h1 with
    | mk ha hb hu hne =>
    cases h2 with
    | mk ha' hb' hu' hne' =>
      rw [says_trim ha hb hu, says_trim ha' hb' hu']
      exact ⟨hne, hne'⟩

theorem sameValue_num (sci : Str → Option Str) {n s t : Str} (h : SameValue n s t) (x : OptSt) :
    numElem sci x (trimC s) n = numElem sci x (trimC t) n := by
  have other : n ≠ c!"minValue" → n ≠ c!"maxValue" → n ≠ c!"values" → n ≠ c!"stepFunction" →
      ∀ u, numElem sci x u n = .ok x := by
    intro h1 h2 h3 h4 u
    unfold numElem
    rw [if_neg h1, if_neg h2, if_neg h3, if_neg h4]
  cases h with
  | position h => rcases h with rfl | rfl <;> rw [other (by decide) (by decide) (by decide) (by decide), other (by decide) (by decide) (by decide) (by decide)]
  | optional => rw [other (by decide) (by decide) (by decide) (by decide), other (by decide) (by decide) (by decide) (by decide)]
  | bound h ha hb ha' hb' h1 h2 =>
    rw [says_trim ha hb (numeral_solid h1), says_trim ha' hb' (numeral_solid h2)]
    unfold numElem
    rw [parseInteger_numeral sci h1, parseInteger_numeral sci h2]
    rcases h with rfl | rfl <;> rfl
  | values hne h1 h2 =>
    unfold numElem
    rw [intTokens_trim, intTokens_trim, numbers_read sci h1, numbers_read sci h2]
    rfl

end Verif.Xml

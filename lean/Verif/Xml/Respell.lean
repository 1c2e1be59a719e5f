import Verif.Xml.Layout
import Verif.Constraint.Double
/-!
# Bounds in scientific notation, value lists without values

Documents in which bounds of numeric options are written in different ways, including scientific notation with fractions
(`parseInteger`, /repo/include/vara/Feature/ConstraintParser.h:278-305), and in which lists of values may have no values.
-/

namespace Verif.Spec
open Verif Verif.Xml

/-- The digits behind the point, if there is one. -/
inductive Fraction : Str → Str → Prop
  | none : Fraction [] []
  | point {f} : (∀ c ∈ f, isDigit c = true) → Fraction ('.' :: f) f

/-- An exponent, perhaps with a sign. -/
inductive Exponent : Str → Int → Prop
  | plain {x} : (∀ c ∈ x, isDigit c = true) → decValue x < 24000 → Exponent x (decValue x)
  | plus {x} : (∀ c ∈ x, isDigit c = true) → decValue x < 24000 → Exponent ('+' :: x) (decValue x)
  | minus {x} : (∀ c ∈ x, isDigit c = true) → decValue x < 24000 → Exponent ('-' :: x) (-(decValue x : Int))

/-- The text stands for `m * 10 ^ k`. -/
inductive SciNotation : Str → Nat → Int → Prop
  | mk {i fr f r : Str} {e : Char} {x : Int} : (∀ c ∈ i, isDigit c = true) → Fraction fr f → i ++ f ≠ [] → (e = 'e' ∨ e = 'E') →
      Exponent r x → SciNotation (i ++ fr ++ e :: r) (decValue (i ++ f)) (x - f.length)

/-- `m * 10 ^ k` is the number `v`. -/
def Whole (m : Nat) (k : Int) (v : Nat) : Prop := (0 ≤ k ∧ v = m * 10 ^ k.toNat) ∨ (k < 0 ∧ m = v * 10 ^ (-k).toNat)

/-- The ways to write an integer. -/
inductive Integral : Str → Int → Prop
  | numeral {t v} : Numeral t v → Integral t v
  | exponent {t m k v} : SciNotation t m k → Whole m k v → v ≤ 2 ^ 53 → Integral t v
  | negative {t m k v} : SciNotation t m k → Whole m k v → v ≤ 2 ^ 53 → Integral ('-' :: t) (-(v : Int))

/-- Elements of an option that say the same. -/
inductive SameBound : Xml → Xml → Prop
  | same {k} : SameBound k k
  | bound {n as a b a' b' s t v} : n = c!"minValue" ∨ n = c!"maxValue" → blank a → blank b → blank a' → blank b' →
      Integral s v → Integral t v → SameBound (.node n as (a ++ s ++ b) []) (.node n as (a' ++ t ++ b') [])

/-- A list of values without values. -/
def NoValues (k : Xml) : Prop := k.name = c!"values" ∧ ∀ c ∈ k.content, isDigit c = false

/-- The elements of two options. -/
inductive SameBounds : List Xml → List Xml → Prop
  | nil : SameBounds [] []
  | cons {k k' ks ks'} : SameBound k k' → SameBounds ks ks' → SameBounds (k :: ks) (k' :: ks')
  | left {k ks ks'} : NoValues k → SameBounds ks ks' → SameBounds (k :: ks) ks'
  | right {k ks ks'} : NoValues k → SameBounds ks ks' → SameBounds ks (k :: ks')

inductive RespelledEntries : List Xml → List Xml → Prop
  | nil : RespelledEntries [] []
  | same {k ks ks'} : RespelledEntries ks ks' → RespelledEntries (k :: ks) (k :: ks')
  | option {as s s' os os' ks ks'} : SameBounds os os' → RespelledEntries ks ks' →
      RespelledEntries (.node c!"configurationOption" as s os :: ks) (.node c!"configurationOption" as s' os' :: ks')

inductive RespelledSections : List Xml → List Xml → Prop
  | nil : RespelledSections [] []
  | cons {n as s s' ks ks' hs hs'} : RespelledEntries ks ks' → RespelledSections hs hs' →
      RespelledSections (.node n as s ks :: hs) (.node n as s' ks' :: hs')

/-- Documents that differ in how bounds are written and in lists of values without values. -/
inductive Respelled : Xml → Xml → Prop
  | mk {n as s s' ks ks'} : RespelledSections ks ks' → Respelled (.node n as s ks) (.node n as s' ks')

end Verif.Spec

namespace Verif.Xml
open Verif Verif.Spec Verif.Sxfm

/-! ## Numbers -/

theorem takeDrop_digits {i r : Str} (h : ∀ c ∈ i, isDigit c = true) (hr : NoDigitNext r) :
    (i ++ r).takeWhile isDigit = i ∧ (i ++ r).dropWhile isDigit = r := by
  induction i with
  | nil =>
    cases r with
    | nil => exact ⟨rfl, rfl⟩
    | cons c r => simp [hr c rfl]
  | cons c i ih =>
    obtain ⟨a, b⟩ := ih fun d hd => h d (List.mem_cons_of_mem _ hd)
    simp [h c (List.mem_cons_self ..), a, b]

theorem exponent_read {r : Str} {x : Int} (h : Exponent r x) : readExponent r = some x := by
  cases h with
  | plain h hl => exact readExponent_digits h hl
  | plus h hl => exact readExponent_plus h hl
  | minus h hl => exact readExponent_minus h hl

theorem decimal_parts {t : Str} {m : Nat} {k : Int} (h : SciNotation t m k) : decimalParts t = some (m, k) := by
  cases h with
  | @mk i fr f r e x hi hf hne he hx =>
    have hee : isDigit e = false := by rcases he with rfl | rfl <;> decide
    have h1 : NoDigitNext (fr ++ e :: r) := by
      cases hf with
      | none => intro c hc; cases hc; exact hee
      | point => intro c hc; cases hc; decide
    obtain ⟨a, b⟩ := takeDrop_digits hi h1
    rw [List.append_assoc]
    unfold decimalParts
    rw [a, b]
    have h2 : fractionPart (fr ++ e :: r) = (f, e :: r) := by
      cases hf with
      | none => rcases he with rfl | rfl <;> rfl
      | @point f hf =>
        have : NoDigitNext (e :: r) := by intro c hc; cases hc; exact hee
        obtain ⟨a, b⟩ := takeDrop_digits hf this
        show ((f ++ e :: r).takeWhile isDigit, (f ++ e :: r).dropWhile isDigit) = _
        rw [a, b]
    simp only [h2]
    rw [if_neg hne, if_pos he, exponent_read hx]
    rfl

theorem decimal_chars {t : Str} {m : Nat} {k : Int} (h : SciNotation t m k) :
    (∀ c ∈ t, isNumChar c = true ∨ c = '.') ∧ t.any (fun c => c == 'e' || c == 'E') = true ∧
    (∃ c cs, t = c :: cs ∧ c ≠ '-' ∧ c ≠ '+') := by
  cases h with
  | @mk i fr f r e x hi hf hne he hx =>
    have num : ∀ {x : Str}, (∀ c ∈ x, isDigit c = true) → ∀ c ∈ x, isNumChar c = true := by
      intro x h c hc
      simp [isNumChar, h c hc]
    have hr : ∀ c ∈ r, isNumChar c = true := by
      cases hx with
      | plain h => exact num h
      | plus h => intro c hc; rcases List.mem_cons.1 hc with rfl | hc; · decide
                  · exact num h c hc
      | minus h => intro c hc; rcases List.mem_cons.1 hc with rfl | hc; · decide
                   · exact num h c hc
    refine ⟨?_, ?_, ?_⟩
    · intro c hc
      rcases List.mem_append.1 hc with hc | hc
      · rcases List.mem_append.1 hc with hc | hc
        · exact .inl (num hi c hc)
        · cases hf with
          | none => cases hc
          | point hf => rcases List.mem_cons.1 hc with rfl | hc; · exact .inr rfl
                        · exact .inl (num hf c hc)
      · rcases List.mem_cons.1 hc with rfl | hc
        · rcases he with rfl | rfl <;> exact .inl (by decide)
        · exact .inl (hr c hc)
    · rw [List.any_eq_true]
      exact ⟨e, by simp, by rcases he with rfl | rfl <;> rfl⟩
    · cases i with
      | cons c i =>
        have := hi c (List.mem_cons_self ..)
        exact ⟨c, i ++ fr ++ e :: r, rfl, by rintro rfl; exact absurd this (by decide), by rintro rfl; exact absurd this (by decide)⟩
      | nil =>
        cases hf with
        | none => exact absurd rfl hne
        | @point f hf => exact ⟨'.', f ++ e :: r, rfl, by decide, by decide⟩

theorem decimal_read (other : Str → Option Str) {t : Str} {m v : Nat} {k : Int} (h : SciNotation t m k) (hw : Whole m k v) (hv : v ≤ 2 ^ 53) :
    parseInteger (sciDouble other) t = v ∧ parseInteger (sciDouble other) ('-' :: t) = -(v : Int) := by
  obtain ⟨h1, h2, c, cs, e, hc1, hc2⟩ := decimal_chars h
  have hall : t.all (fun c => isNumChar c || c == '.') = true := by
    rw [List.all_eq_true]
    intro c hc
    rcases h1 c hc with h | rfl
    · simp [h]
    · decide
  obtain ⟨d, hd, ha⟩ : ∃ d, 0 < d ∧ asFraction m k = (v * d, d) := by
    unfold asFraction
    rcases hw with ⟨h0, rfl⟩ | ⟨h0, rfl⟩
    · exact ⟨1, Nat.one_pos, by rw [if_pos h0, Nat.mul_one]⟩
    · exact ⟨10 ^ (-k).toNat, Nat.pow_pos (by decide), by rw [if_neg (by omega)]⟩
  have hu : sciUnsigned t = some (formatDouble (nearestDouble (v * d) d)) := by
    unfold sciUnsigned
    rw [decimal_parts h]
    simp only [Option.map_some, ha]
  have hr : roundEven (nearestDouble (v * d) d) onesUnits = v :=
    NearestDouble.exact hd (nearestDouble_nearest (v * d) hd) hv (roundEven_nearest _ onesUnits_pos)
  have hs : sciDouble other t = some (formatDouble (nearestDouble (v * d) d)) := by
    rw [← hu]
    unfold sciDouble
    rw [if_pos hall]
    split
    · injection e with e; exact absurd e.symm hc1
    · injection e with e; exact absurd e.symm hc2
    · rfl
  have hm : sciDouble other ('-' :: t) = some ('-' :: formatDouble (nearestDouble (v * d) d)) := by
    rw [sciDouble, if_pos (by rw [List.all_cons, hall]; decide)]
    simp only [hu, Option.map_some]
  have hf : formatDouble (nearestDouble (v * d) d) = natText v := by
    unfold formatDouble
    by_cases hb : 2 ^ 1024 * onesUnits ≤ nearestDouble (v * d) d
    · exfalso
      have h1 : 2 ^ 1024 ≤ nearestDouble (v * d) d / onesUnits := (Nat.le_div_iff_mul_le onesUnits_pos).mpr hb
      have h2 := roundEven_ge (nearestDouble (v * d) d) onesUnits
      have h3 := large_int
      unfold int64Max at h3
      generalize 2 ^ 1024 = B at *
      omega
    · rw [if_neg hb, hr]
  constructor
  · rw [parseInteger, if_pos h2, hs]
    simp only
    rw [hf, parsePlainInteger_digits (natText_digits _) (natText_ne_nil _), natText_value, if_pos (by unfold int64Max; omega)]
  · rw [parseInteger, if_pos (by rw [List.any_cons, h2]; simp), hm]
    simp only
    rw [hf, parsePlainInteger, getAsInt64_neg_dec _ (natText_digits _) (natText_ne_nil _), natText_value, if_pos (by omega)]

theorem numChar_visible {c : Char} (h : isNumChar c = true ∨ c = '.') : isSpaceC c = false := by
  rcases h with h | rfl
  · unfold isNumChar at h
    simp only [Bool.or_eq_true, beq_iff_eq] at h
    rcases h with (((h | h) | h) | h) | h
    all_goals first | exact digit_visible h | (rcases h with rfl | rfl <;> decide) | (subst h; decide)
  · decide

theorem integral_solid {t : Str} {v : Int} (h : Integral t v) : Solid t := by
  have key : ∀ {t : Str} {m k}, SciNotation t m k → t ≠ [] ∧ ∀ c ∈ t, isSpaceC c = false := by
    intro t m k h
    obtain ⟨h1, _, c, cs, e, _⟩ := decimal_chars h
    exact ⟨by rw [e]; simp, fun c hc => numChar_visible (h1 c hc)⟩
  cases h with
  | numeral h => exact numeral_solid h
  | exponent h => exact ⟨(key h).1, fun c hc => (key h).2 c (List.mem_of_head? hc), fun c hc => (key h).2 c (List.mem_of_getLast? hc)⟩
  | @negative t m k v h =>
    have : ∀ c ∈ '-' :: t, isSpaceC c = false := by
      intro c hc
      rcases List.mem_cons.1 hc with rfl | hc
      · decide
      · exact (key h).2 c hc
    exact ⟨by simp, fun c hc => this c (List.mem_of_head? hc), fun c hc => this c (List.mem_of_getLast? hc)⟩

theorem parseInteger_integral (other : Str → Option Str) {t : Str} {v : Int} (h : Integral t v) :
    parseInteger (sciDouble other) t = clamp64 v := by
  have cl : ∀ {v : Int}, -9007199254740992 ≤ v → v ≤ 9007199254740992 → clamp64 v = v := by
    intro v a b
    unfold clamp64 int64Max int64Min
    rw [if_pos (by omega), if_pos (by omega)]
  cases h with
  | numeral h => exact parseInteger_numeral _ h
  | exponent h hw hv => rw [(decimal_read other h hw hv).1, cl (by omega) (by omega)]
  | negative h hw hv => rw [(decimal_read other h hw hv).2, cl (by omega) (by omega)]

/-! ## Documents -/

theorem optElem_bound (other : Str → Option Str) {k k' : Xml} (h : SameBound k k') (num : Bool) (s : OptSt) :
    optElem (sciDouble other) num s k = optElem (sciDouble other) num s k' := by
  cases h with
  | same => rfl
  | @bound n as a b a' b' u t v hn ha hb ha' hb' h1 h2 =>
    have e1 : trimC (Xml.content (.node n as (a ++ u ++ b) [])) = u := by
      rw [Xml.content, Xml.contents, List.append_nil]; exact says_trim ha hb (integral_solid h1)
    have e2 : trimC (Xml.content (.node n as (a' ++ t ++ b') [])) = t := by
      rw [Xml.content, Xml.contents, List.append_nil]; exact says_trim ha' hb' (integral_solid h2)
    have n1 := (integral_solid h1).nonempty
    have n2 := (integral_solid h2).nonempty
    have p1 := parseInteger_integral other h1
    have p2 := parseInteger_integral other h2
    unfold optElem
    rw [e1, e2, if_neg n1, if_neg n2]
    rcases hn with rfl | rfl <;> cases num <;> simp only [Xml.name, numElem, p1, p2] <;> rfl

theorem optElem_noValues (sci : Str → Option Str) {k : Xml} (h : NoValues k) (num : Bool) (s : OptSt) : optElem sci num s k = .ok s := by
  unfold optElem
  by_cases h0 : trimC k.content = []
  · rw [if_pos h0]
  · rw [if_neg h0, h.1]
    cases num
    · rfl
    · have : intTokens none false (trimC k.content) = [] := by
        rw [intTokens_trim]
        have := intTokens_gap (r := []) h.2 false
        rw [List.append_nil] at this
        rw [this]
        rfl
      show numElem sci s (trimC k.content) c!"values" = _
      unfold numElem
      rw [this]
      simp

theorem optElems_bounds (other : Str → Option Str) {ks ks' : List Xml} (h : SameBounds ks ks') (num : Bool) :
    ∀ s, optElems (sciDouble other) num s ks = optElems (sciDouble other) num s ks' := by
  induction h with
  | nil => intro s; rfl
  | cons h _ ih => intro s; simp only [optElems, optElem_bound other h, ih]
  | left h _ ih => intro s; simp only [optElems, optElem_noValues _ h, SOut.bind, ih]
  | right h _ ih => intro s; simp only [optElems, optElem_noValues _ h, SOut.bind, ih]

theorem parseOptions_respelled (other : Str → Option Str) {ks ks' : List Xml} (h : RespelledEntries ks ks') (num : Bool) :
    ∀ calls, parseOptions (sciDouble other) num calls ks = parseOptions (sciDouble other) num calls ks' := by
  induction h with
  | nil => intro c; rfl
  | same _ ih => intro c; simp only [parseOptions, ih]
  | option h _ ih => intro c; simp only [parseOptions, parseOption, Xml.name, Xml.kids, optElems_bounds other h, ih]

theorem parseConstraints_respelled (sci : Str → Option Str) {ks ks' : List Xml} (h : RespelledEntries ks ks') (cl : CClass) :
    ∀ calls, parseConstraints sci cl calls ks = parseConstraints sci cl calls ks' := by
  induction h with
  | nil => intro c; rfl
  | same _ ih => intro c; simp only [parseConstraints, ih]
  | option h _ ih =>
    intro c
    have e : ∀ as s os ks, parseConstraints sci cl c (.node c!"configurationOption" as s os :: ks) = parseConstraints sci cl c ks :=
      fun _ _ _ _ => rfl
    rw [e, e, ih]

theorem vmElems_respelled (other : Str → Option Str) {ks ks' : List Xml} (h : RespelledSections ks ks') :
    ∀ calls, vmElems (sciDouble other) calls ks = vmElems (sciDouble other) calls ks' := by
  induction h with
  | nil => intro c; rfl
  | @cons n as s s' ks ks' hs hs' h _ ih =>
    intro c
    have e : vmElem (sciDouble other) c (.node n as s ks) = vmElem (sciDouble other) c (.node n as s' ks') := by
      unfold vmElem
      rw [show Xml.kids (.node n as s ks) = ks from rfl, parseOptions_respelled other h, parseOptions_respelled other h,
        parseConstraints_respelled _ h, parseConstraints_respelled _ h, parseConstraints_respelled _ h]
      rfl
    simp only [vmElems, e, ih]

theorem load_respelled (other : Str → Option Str) {E : Env} {world : FModel} {cwd : Str} {x y : Xml} (h : Respelled x y) :
    load (sciDouble other) E world cwd x = load (sciDouble other) E world cwd y := by
  cases h with
  | mk h =>
    unfold load parseVm
    rw [show ∀ c n as s ks, vmElems (sciDouble other) c (Xml.kids (.node n as s ks)) = vmElems (sciDouble other) c ks from fun _ _ _ _ _ => rfl,
      vmElems_respelled other h]
    rfl

end Verif.Xml

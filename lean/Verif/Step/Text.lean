import Verif.Step.IeeeLemmas
import Verif.Step.Parse
/-!
# Step functions as text

Models `StepFunction::toString` (`/repo/include/vara/Feature/StepFunction.h:59-86`).  `llvm::formatv("{0}", x)`
writes a `double` with two digits after the point (`FloatStyle::Fixed`, default precision 2), correctly rounded,
an infinity as `INF` and what is not a number as `nan`.  As in `Step/Ieee.lean` the sign of zero is left out.
-/

namespace Verif

/-- `OperandVariantType` (StepFunction.h:21). -/
inductive DOperand
  | var (s : Str)
  | num (d : Dbl)
  deriving DecidableEq

/-- `StepFunction` with the constant as it is stored (StepFunction.h:89-91). -/
structure DStepFn where
  lhs : DOperand
  op : StepOp
  rhs : DOperand
  deriving DecidableEq

/-- The stored operand; `none`: the constant is indeterminate. -/
def Operand.stored : Operand → Option DOperand
  | .var s => some (.var s)
  | .num d => d.map (fun d => .num (Dbl.ofDecimal d))

/-- What the parser stores (StepFunctionParser.h:202-203, 313). -/
def StepFn.stored (f : StepFn) : Option DStepFn :=
  f.lhs.stored.bind fun l => f.rhs.stored.map fun r => ⟨l, f.op, r⟩

/-- A number of hundredths with two digits after the point. -/
def hundredths (m : Nat) : Str := natText (m / 100) ++ '.' :: [digitChar (m / 10 % 10), digitChar (m % 10)]

/-- `formatv("{0}", d)`. -/
def fixedText : Dbl → Str
  | .nan => c!"nan"
  | .inf _ => c!"INF"
  | .fin u => (if u < 0 then ['-'] else []) ++ hundredths (roundEven (u.natAbs * 100) onesUnits)

/-- The operators in the format strings (StepFunction.h:64, 67, 70). -/
def StepOp.char : StepOp → Char
  | .addition => '+'
  | .multiplication => '*'
  | .exponentiation => '^'

/-- `StepFunction::toString` (StepFunction.h:59-86); `none`: an assertion fails. -/
def DStepFn.text (f : DStepFn) : Option Str :=
  match f.lhs, f.rhs with
  | .var a, .num k => some (a ++ [' ', f.op.char, ' '] ++ fixedText k)
  | .num k, .var b => some (fixedText k ++ [' ', f.op.char, ' '] ++ b)
  | _, _ => none

open Spec

/-- The text is read as the function. -/
def Spec.TextOf (t : Str) (f : DStepFn) : Prop := ∃ g, parseStepText t = .ok g ∧ g.stored = some f

theorem hundredths_decimal (m : Nat) : DecimalText (hundredths m) ⟨m, 2⟩ := by
  have hd : ∀ n, n < 10 → isDigit (digitChar n) = true ∧ digitVal (digitChar n) = n := by decide
  have h1 := hd (m / 10 % 10) (Nat.mod_lt _ (by decide))
  have h2 := hd (m % 10) (Nat.mod_lt _ (by decide))
  have h := DecimalText.point (is := natText (m / 100)) (fs := [digitChar (m / 10 % 10), digitChar (m % 10)])
    (by simp) (natText_digits _) (by simp [h1.1, h2.1])
  have e : (natText (m / 100) ++ [digitChar (m / 10 % 10), digitChar (m % 10)]).foldl
      (fun a c => a * 10 + digitVal c) 0 = m := by
    rw [List.foldl_append]
    have := natText_value (m / 100)
    unfold decValue at this
    rw [this]
    simp only [List.foldl_cons, List.foldl_nil, h1.2, h2.2]
    omega
  rw [e] at h
  exact h

theorem hundredths_numeric (m : Nat) : Numeric (hundredths m) := by
  refine ⟨by simp [hundredths], fun x hx => ?_⟩
  have hd : ∀ n, n < 10 → isDigit (digitChar n) = true := by decide
  simp only [hundredths, List.mem_append, List.mem_cons, List.not_mem_nil, or_false] at hx
  rcases hx with h | rfl | rfl | rfl
  · exact .inl (natText_digits _ x h)
  · exact .inr rfl
  · exact .inl (hd _ (Nat.mod_lt _ (by decide)))
  · exact .inl (hd _ (Nat.mod_lt _ (by decide)))

theorem opChar_char (op : StepOp) : OpChar op.char op := by cases op <;> constructor

theorem stepText_char (a b : Str) (op : StepOp) : StepText (a ++ [' ', op.char, ' '] ++ b) a op b :=
  ⟨[], [' '], [' '], [], op.char, [], by simp, by simp [Blank], by simp [Blank], by simp [Blank], by simp [Blank],
    opChar_char op, .inl rfl⟩

/-- A text with two identifiers is not read. -/
theorem parse_two_idents {t a b : Str} {op : StepOp} (h : StepText t a op b) (ha : StepIdent a) (hb : StepIdent b) :
    parseStepText t = .null := by
  obtain ⟨w0, w1, w2, w3, hne, hs⟩ := text_spelled h (.inl ⟨rfl, ha⟩) (.inl ⟨rfl, hb⟩)
  unfold parseStepText
  rw [stepTokenize_spelled hs hne]
  simp only [stepParse, operand_wsToks, operand_tok (.inl ⟨rfl, ha⟩), operator_wsToks, operator_tok,
    operand_tok (.inl ⟨rfl, hb⟩), eof_wsToks]
  rfl

/-- A text with a sign `-` and no end-of-text byte is not read. -/
theorem parse_minus {t : Str} (hm : '-' ∈ t) (h0 : Char.ofNat 0 ∉ t) (h1 : Char.ofNat 255 ∉ t) :
    parseStepText t = .null := by
  have hne : t ≠ [] := by intro e; subst e; cases hm
  obtain ⟨ts, e, hr⟩ := stepTokenize_spec hne
  have hid : ∀ {a}, StepIdent a → '-' ∉ a := by
    rintro _ ⟨c, cs, rfl, hc, hcs⟩ hx
    rcases List.mem_cons.1 hx with h | h
    · subst h; revert hc; decide
    · rcases hcs _ h with h | h
      · revert h; decide
      · revert h; decide
  have hnu : ∀ {a}, Numeric a → '-' ∉ a := by
    rintro a ⟨_, h⟩ hx
    rcases h _ hx with h | h <;> revert h <;> decide
  have no : ∀ {a b : Str} {op : StepOp}, StepText t a op b → '-' ∉ a → '-' ∉ b → False := by
    rintro a b op ⟨w0, w1, w2, w3, c, rest, ht, b0, b1, b2, b3, hc, hi⟩ na nb
    have hb : ∀ {w}, Blank w → '-' ∉ w := by
      intro w hw hx
      rcases hw _ hx with h | h | h | h <;> revert h <;> decide
    have hrest : rest = [] := by
      rcases hi with h | ⟨c', cs', rfl, hc'⟩
      · exact h
      · have : c' ∈ t := by rw [ht]; simp
        rcases hc' with rfl | rfl
        · exact absurd this h0
        · exact absurd this h1
    have hcc : '-' ≠ c := by cases hc <;> decide
    subst hrest
    rw [ht] at hm
    simp only [List.mem_append, List.mem_singleton, List.not_mem_nil, or_false] at hm
    rcases hm with (((((h | h) | h) | h) | h) | h) | h
    · exact hb b0 h
    · exact na h
    · exact hb b1 h
    · exact hcc h
    · exact hb b2 h
    · exact nb h
    · exact hb b3 h
  simp only [parseStepText, e]
  split
  · rfl
  · rename_i f e'
    cases parse_sound hr e' with
    | varNum ht ha hb _ => exact (no ht (hid ha) (hnu hb)).elim
    | numVar ht ha hb _ => exact (no ht (hnu ha) (hid hb)).elim

/-! ## Rounding to hundredths -/

/-- Of two numbers that are nearest double to a fraction, both are the same. -/
theorem nearestDouble_eq {n d x : Nat} (hd : 0 < d) (hx : IsDouble x)
    (h : ∀ y, IsDouble y → y ≠ x → dist (x * d) (n * onesUnits) < dist (y * d) (n * onesUnits)) :
    nearestDouble n d = x := by
  have hn := nearestDouble_nearest n hd
  by_cases e : nearestDouble n d = x
  · exact e
  · have h1 := h _ hn.double e
    have h2 := hn.near x hx
    omega

set_option exponentiation.threshold 2100 in
theorem onesUnits_128 : ∃ v : Nat, onesUnits = 128 * 2 ^ v := ⟨1067, by unfold onesUnits; rfl⟩

theorem roundEven_half (n : Nat) {d : Nat} (hd : 0 < d) : 2 * dist (roundEven n d * d) n ≤ d := by
  have hn : n / d * d + n % d = n := by rw [Nat.mul_comm]; exact Nat.div_add_mod n d
  have hr : n % d < d := Nat.mod_lt _ hd
  have e1 : (n / d + 1) * d = n / d * d + d := by rw [Nat.add_mul, Nat.one_mul]
  unfold roundEven dist
  split
  · omega
  · split
    · omega
    · split <;> omega

theorem roundEven_unique {n d m : Nat} (h : 2 * dist n (m * d) < d) : roundEven n d = m := by
  have hd : 0 < d := by omega
  have h1 := roundEven_half n hd
  rcases Nat.lt_trichotomy (roundEven n d) m with h2 | h2 | h2
  · have := Nat.mul_le_mul_right d h2
    rw [Nat.succ_mul] at this
    unfold dist at h h1
    omega
  · exact h2
  · have := Nat.mul_le_mul_right d h2
    rw [Nat.succ_mul] at this
    unfold dist at h h1
    omega

/-- From `2 ^ 53` units on, doubles are multiples of two units. -/
theorem double_large {y v : Nat} (hy : IsDouble y) (h : 2 ^ 53 * 2 ^ v ≤ y) : ∃ q, y = q * (2 * 2 ^ v) := by
  obtain ⟨q, k, hq, rfl⟩ := hy
  have hk : v < k := by
    rcases Nat.lt_or_ge v k with h' | h'
    · exact h'
    · have h1 : 2 ^ k ≤ 2 ^ v := Nat.pow_le_pow_right (by decide) h'
      have h2 : q * 2 ^ k ≤ q * 2 ^ v := Nat.mul_le_mul_left _ h1
      have h3 : q * 2 ^ v < 2 ^ 53 * 2 ^ v := Nat.mul_lt_mul_of_pos_right hq (Nat.pow_pos (by decide))
      omega
  obtain ⟨j, rfl⟩ : ∃ j, k = v + 1 + j := ⟨k - (v + 1), by omega⟩
  exact ⟨q * 2 ^ j, by rw [Nat.pow_add, Nat.pow_succ]; ac_rfl⟩

/-- A double of at least `2 ^ 46` is the one nearest to its own hundredths. -/
theorem nearest_large {x : Nat} (hx : IsDouble x) (h : 2 ^ 46 * onesUnits ≤ x) :
    nearestDouble (roundEven (x * 100) onesUnits) 100 = x := by
  obtain ⟨v, hv⟩ := onesUnits_128
  have ho := onesUnits_pos
  have hr := roundEven_half (x * 100) ho
  have hb : (2 ^ 46 : Nat) * onesUnits = 2 ^ 53 * 2 ^ v := by rw [hv]; omega
  rw [hb] at h
  obtain ⟨q, hq⟩ := double_large hx h
  apply nearestDouble_eq (by decide) hx
  intro y hy hne
  have gap : (x = 2 ^ 53 * 2 ^ v) ∨ 2 * 2 ^ v ≤ dist x y := by
    generalize hG : (2 : Nat) ^ v = G at *
    rcases Nat.lt_or_ge y (2 ^ 53 * G) with h1 | h1
    · rcases Nat.lt_or_ge q (2 ^ 52 + 1) with h2 | h2
      · left
        have : q * (2 * G) ≤ 2 ^ 52 * (2 * G) := Nat.mul_le_mul_right _ (by omega)
        omega
      · right
        have : (2 ^ 52 + 1) * (2 * G) ≤ q * (2 * G) := Nat.mul_le_mul_right _ h2
        unfold dist
        omega
    · right
      obtain ⟨p, hp⟩ := double_large hy (by rw [hG]; exact h1)
      rw [hG] at hp
      have hpq : p ≠ q := by rintro rfl; exact hne (by rw [hp, hq])
      unfold dist
      rcases Nat.lt_or_gt_of_ne hpq with h2 | h2
      · have := Nat.mul_le_mul_right (2 * G) h2
        rw [Nat.succ_mul] at this
        omega
      · have := Nat.mul_le_mul_right (2 * G) h2
        rw [Nat.succ_mul] at this
        omega
  generalize hm : roundEven (x * 100) onesUnits = m at *
  rcases gap with e | gap
  · have : roundEven (x * 100) onesUnits = 2 ^ 46 * 100 := by
      apply roundEven_unique
      have : x * 100 = 2 ^ 46 * 100 * onesUnits := by omega
      rw [this]
      unfold dist
      omega
    rw [this] at hm
    subst hm
    unfold dist
    omega
  · unfold dist at *
    omega

/-- A hundredth whose nearest double is below `2 ^ 46` is recovered from it. -/
theorem hundredth_small {m : Nat} (h : nearestDouble m 100 < 2 ^ 46 * onesUnits) :
    roundEven (nearestDouble m 100 * 100) onesUnits = m := by
  obtain ⟨v, hv⟩ := onesUnits_128
  have hn := nearestDouble_nearest m (d := 100) (by decide)
  generalize nearestDouble m 100 = x at *
  have hb : (2 ^ 46 : Nat) * onesUnits = 2 ^ 53 * 2 ^ v := by rw [hv]; omega
  have hbig : IsDouble (2 ^ 53 * 2 ^ v) := ⟨1, 53 + v, by decide, by rw [Nat.pow_add, Nat.one_mul]⟩
  have hm : m * onesUnits < 2 ^ 53 * 2 ^ v * 100 := by
    rcases Nat.lt_or_ge (m * onesUnits) (2 ^ 53 * 2 ^ v * 100) with h' | h'
    · exact h'
    · have := hn.ge (by decide) hbig h'
      omega
  have hG : 0 < 2 ^ v := Nat.pow_pos (by decide)
  have hm' : 128 * m < 100 * 2 ^ 53 := by
    rw [hv] at hm
    rcases Nat.lt_or_ge (128 * m) (100 * 2 ^ 53) with h' | h'
    · exact h'
    · have := Nat.mul_le_mul_right (2 ^ v) h'
      rw [Nat.mul_assoc, Nat.mul_comm m (128 * 2 ^ v), Nat.mul_assoc] at *
      have e : 128 * (2 ^ v * m) = 128 * (m * 2 ^ v) := by rw [Nat.mul_comm m]
      omega
  have hq : (128 * m + 50) / 100 ≤ 2 ^ 53 := by omega
  have hy : IsDouble ((128 * m + 50) / 100 * 2 ^ v) := by
    rcases Nat.lt_or_ge ((128 * m + 50) / 100) (2 ^ 53) with h' | h'
    · exact ⟨_, v, h', rfl⟩
    · have : (128 * m + 50) / 100 = 2 ^ 53 := by omega
      rw [this]
      exact hbig
  have h1 := hn.near _ hy
  apply roundEven_unique
  have h2 : 100 * ((128 * m + 50) / 100) ≤ 128 * m + 50 ∧ 128 * m ≤ 100 * ((128 * m + 50) / 100) + 50 := by omega
  have h3 := Nat.mul_le_mul_right (2 ^ v) h2.1
  have h4 := Nat.mul_le_mul_right (2 ^ v) h2.2
  have e1 : m * onesUnits = 128 * m * 2 ^ v := by rw [hv]; ac_rfl
  have e2 : (128 * m + 50) / 100 * 2 ^ v * 100 = 100 * ((128 * m + 50) / 100) * 2 ^ v := by ac_rfl
  rw [e1, e2] at h1
  rw [e1, hv]
  rw [Nat.add_mul] at h3 h4
  unfold dist at *
  omega

/-- The nearest double of some hundredth is that of its own hundredths. -/
theorem hundredth_again {m x : Nat} (h : nearestDouble m 100 = x) :
    nearestDouble (roundEven (x * 100) onesUnits) 100 = x := by
  rcases Nat.lt_or_ge x (2 ^ 46 * onesUnits) with h' | h'
  · subst h
    rw [hundredth_small h']
  · exact nearest_large (h ▸ (nearestDouble_nearest m (by decide)).double) h'

theorem roundEven_scale (n d c : Nat) (hc : 0 < c) : roundEven (n * c) (d * c) = roundEven n d := by
  unfold roundEven
  rw [Nat.mul_mod_mul_right, Nat.mul_div_mul_right _ _ hc]
  have e : ∀ a b : Nat, (2 * (a * c) < b * c) ↔ 2 * a < b := fun a b => by
    rw [← Nat.mul_assoc]; exact Nat.mul_lt_mul_right hc
  have e' : ∀ a b : Nat, (b * c < 2 * (a * c)) ↔ b < 2 * a := fun a b => by
    rw [← Nat.mul_assoc]; exact Nat.mul_lt_mul_right hc
  simp only [e, e']

theorem nearestDouble_scale (n d c : Nat) (hc : 0 < c) : nearestDouble (n * c) (d * c) = nearestDouble n d := by
  have hl : lastPlace (n * c) (d * c) = lastPlace n d := by
    unfold lastPlace
    rw [show n * c * onesUnits = n * onesUnits * c by ac_rfl, Nat.mul_div_mul_right _ _ hc]
  unfold nearestDouble
  rw [hl, show n * c * onesUnits = n * onesUnits * c by ac_rfl,
    show d * c * 2 ^ lastPlace n d = d * 2 ^ lastPlace n d * c by ac_rfl, roundEven_scale _ _ _ hc]

/-- Constants with up to two digits after the point are hundredths. -/
theorem ofDecimal_hundredth {d : Decimal} (h : d.scale ≤ 2) : ∃ m, Dbl.ofDecimal d = Dbl.ofDecimal ⟨m, 2⟩ := by
  refine ⟨d.mantissa * 10 ^ (2 - d.scale), ?_⟩
  unfold Dbl.ofDecimal Dbl.rounded
  have e : (10 : Nat) ^ 2 = 10 ^ d.scale * 10 ^ (2 - d.scale) := by rw [← Nat.pow_add]; congr 1; omega
  simp only [e, nearestDouble_scale _ _ _ (Nat.pow_pos (by decide : 0 < 10))]

/-- A decimal constant is finite exactly below `2 ^ 1024`. -/
theorem ofDecimal_fin {d : Decimal} {u : Int} (h : Dbl.ofDecimal d = .fin u) :
    u = nearestDouble d.mantissa (10 ^ d.scale) ∧ nearestDouble d.mantissa (10 ^ d.scale) < 2 ^ 1024 * onesUnits := by
  unfold Dbl.ofDecimal Dbl.rounded at h
  split at h
  · cases h
  · rename_i h'
    cases h
    exact ⟨rfl, Nat.lt_of_not_le h'⟩

theorem ofDecimal_of {d : Decimal} {x : Nat} (h : nearestDouble d.mantissa (10 ^ d.scale) = x)
    (hx : x < 2 ^ 1024 * onesUnits) : Dbl.ofDecimal d = .fin x := by
  unfold Dbl.ofDecimal Dbl.rounded
  rw [h, if_neg (Nat.not_le.2 hx)]
  rfl

/-- Doubles below `2 ^ 46` are at most the one before it. -/
theorem double_below {y v : Nat} (hy : IsDouble y) (h : y < 2 ^ 53 * 2 ^ v) : y ≤ (2 ^ 53 - 1) * 2 ^ v := by
  obtain ⟨q, k, hq, rfl⟩ := hy
  rcases Nat.lt_or_ge k v with hk | hk
  · obtain ⟨j, rfl⟩ : ∃ j, v = k + 1 + j := ⟨v - (k + 1), by omega⟩
    have h1 : 2 ^ k * 2 ≤ 2 ^ (k + 1 + j) := by
      rw [← Nat.pow_succ]; exact Nat.pow_le_pow_right (by decide) (by omega)
    have h2 : q * 2 ^ k ≤ 2 ^ 53 * 2 ^ k := Nat.mul_le_mul_right _ (by omega)
    generalize (2 : Nat) ^ k = A at *
    generalize (2 : Nat) ^ (k + 1 + j) = B at *
    omega
  · obtain ⟨j, rfl⟩ : ∃ j, k = v + j := ⟨k - v, by omega⟩
    have e : q * 2 ^ (v + j) = q * 2 ^ j * 2 ^ v := by rw [Nat.pow_add]; ac_rfl
    rw [e] at h ⊢
    have := Nat.lt_of_mul_lt_mul_right h
    exact Nat.mul_le_mul_right _ (by omega)

/-- The hundredths of the double nearest to the hundredths of a double are the same. -/
theorem hundredths_again {x : Nat} (hx : IsDouble x) :
    roundEven (nearestDouble (roundEven (x * 100) onesUnits) 100 * 100) onesUnits = roundEven (x * 100) onesUnits ∧
    (x < 2 ^ 46 * onesUnits → nearestDouble (roundEven (x * 100) onesUnits) 100 < 2 ^ 46 * onesUnits) := by
  have key : x < 2 ^ 46 * onesUnits → nearestDouble (roundEven (x * 100) onesUnits) 100 < 2 ^ 46 * onesUnits := by
    intro h
    obtain ⟨v, hv⟩ := onesUnits_128
    have hb : (2 ^ 46 : Nat) * onesUnits = 2 ^ 53 * 2 ^ v := by rw [hv]; omega
    have hG : 0 < 2 ^ v := Nat.pow_pos (by decide)
    rw [hb] at h ⊢
    have h1 := double_below hx h
    have hr := roundEven_half (x * 100) onesUnits_pos
    have hm : roundEven (x * 100) onesUnits ≤ 2 ^ 46 * 100 - 1 := by
      rcases Nat.lt_or_ge (roundEven (x * 100) onesUnits) (2 ^ 46 * 100) with h' | h'
      · omega
      · have := Nat.mul_le_mul_right onesUnits h'
        generalize roundEven (x * 100) onesUnits * onesUnits = z at *
        unfold dist at hr
        omega
    have hd : IsDouble ((2 ^ 53 - 1) * 2 ^ v) := ⟨_, v, by decide, rfl⟩
    have := (nearestDouble_nearest (roundEven (x * 100) onesUnits) (d := 100) (by decide)).le (by decide) hd (by
      have := Nat.mul_le_mul_right onesUnits hm
      generalize roundEven (x * 100) onesUnits * onesUnits = z at *
      omega)
    omega
  refine ⟨?_, key⟩
  rcases Nat.lt_or_ge x (2 ^ 46 * onesUnits) with h | h
  · exact hundredth_small (key h)
  · rw [nearest_large hx h]

end Verif

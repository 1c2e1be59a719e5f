import Verif.Constraint.Print
/-!
# Literals in scientific notation

`parseInteger` (`/repo/include/vara/Feature/ConstraintParser.h:281-285`) reads a text that contains
`e` with `llvm::StringRef::getAsDouble` and then reads what `llvm::formatv("{0:0}", …)` writes for
the double.  Both are library functions; they are modelled here from their documented behaviour: a
decimal text is rounded to the nearest IEEE binary64 number, and a double is written rounded to the
nearest integer.  Signs of zero are kept in the text.  Texts with characters other than digits, `e`,
`E`, `+`, `-` and `.` (hexadecimal floating point, `nan`, `inf`) are left to `other`.
-/

namespace Verif

/-- Digits of an exponent in `getAsDouble`: exponents of 24000 and more are cut off. -/
def expDigits : Nat → Str → Option Nat
  | a, [] => some a
  | a, c :: cs =>
    if isDigit c then
      if 24000 ≤ a * 10 + digitVal c then some 24000 else expDigits (a * 10 + digitVal c) cs
    else none

/-- Exponent in `getAsDouble`; a missing exponent is 0. -/
def readExponent : Str → Option Int
  | [] => some 0
  | '-' :: cs => (expDigits 0 cs).map (fun n => -(n : Int))
  | '+' :: cs => (expDigits 0 cs).map (fun n => (n : Int))
  | cs => (expDigits 0 cs).map (fun n => (n : Int))

/-- Fraction digits of a decimal text and what is behind them. -/
def fractionPart : Str → Str × Str
  | '.' :: r => (r.takeWhile isDigit, r.dropWhile isDigit)
  | r => ([], r)

/-- Significand `m` and exponent `x` of an unsigned decimal text that stands for `m * 10 ^ x`. -/
def decimalParts (s : Str) : Option (Nat × Int) :=
  let ip := s.takeWhile isDigit
  let f := fractionPart (s.dropWhile isDigit)
  if ip ++ f.1 = [] then none
  else
    match f.2 with
    | [] => some (decValue (ip ++ f.1), -(f.1.length : Int))
    | c :: r =>
      if c = 'e' ∨ c = 'E' then
        (readExponent r).map (fun x => (decValue (ip ++ f.1), x - (f.1.length : Int)))
      else none

/-- Numerator and denominator of `m * 10 ^ x`. -/
def asFraction (m : Nat) (x : Int) : Nat × Nat :=
  if 0 ≤ x then (m * 10 ^ x.toNat, 1) else (m, 10 ^ (-x).toNat)

/-- `n / d` rounded to the nearest integer, ties to even. -/
def roundEven (n d : Nat) : Nat :=
  if 2 * (n % d) < d then n / d
  else if d < 2 * (n % d) then n / d + 1
  else if n / d % 2 = 0 then n / d
  else n / d + 1

/-- The number 1 in units of `2 ^ -1074`, the least positive double. -/
@[irreducible] def onesUnits : Nat := 2 ^ 1074

/-- Exponent of the last place of the double next to `n / d`, counted from `2 ^ -1074`. -/
def lastPlace (n d : Nat) : Nat := Nat.log2 (n * onesUnits / d) - 52

/-- The double nearest to `n / d`, ties to even, in units of `2 ^ -1074`.  The largest exponent is not
    limited here. -/
def nearestDouble (n d : Nat) : Nat :=
  roundEven (n * onesUnits) (d * 2 ^ lastPlace n d) * 2 ^ lastPlace n d

/-- `formatv("{0:0}", …)` of a non-negative double: no fraction digits; values from `2 ^ 1024` are
    infinite. -/
def formatDouble (x : Nat) : Str :=
  if 2 ^ 1024 * onesUnits ≤ x then c!"INF" else natText (roundEven x (onesUnits))

/-- `getAsDouble` followed by `formatv("{0:0}", …)` (ConstraintParser.h:283-284) on an unsigned
    text. -/
def sciUnsigned (s : Str) : Option Str :=
  (decimalParts s).map fun mx =>
    formatDouble (nearestDouble (asFraction mx.1 mx.2).1 (asFraction mx.1 mx.2).2)

/-- `getAsDouble` followed by `formatv("{0:0}", …)` (ConstraintParser.h:283-284). -/
def sciDouble (other : Str → Option Str) (s : Str) : Option Str :=
  if s.all (fun c => isNumChar c || c == '.') then
    match s with
    | '-' :: r => (sciUnsigned r).map (fun t => '-' :: t)
    | '+' :: r => sciUnsigned r
    | r => sciUnsigned r
  else other s

namespace Spec

/-- Distance of two numbers. -/
def dist (a b : Nat) : Nat := (a - b) + (b - a)

/-- `v` is the integer nearest to `n / d`; of two such the even one. -/
structure NearestInt (n d v : Nat) : Prop where
  near : ∀ w, dist (v * d) n ≤ dist (w * d) n
  even : ∀ w, w ≠ v → dist (w * d) n = dist (v * d) n → v % 2 = 0

/-- `x` units of `2 ^ -1074` are a double, the largest exponent not limited. -/
def IsDouble (x : Nat) : Prop := ∃ q k, q < 2 ^ 53 ∧ x = q * 2 ^ k

/-- `x` units of `2 ^ -1074` are the double nearest to `n / d`; of two such the one with an even
    significand. -/
structure NearestDouble (n d x : Nat) : Prop where
  double : IsDouble x
  near : ∀ y, IsDouble y → dist (x * d) (n * onesUnits) ≤ dist (y * d) (n * onesUnits)
  even : ∀ y, IsDouble y → y ≠ x → dist (y * d) (n * onesUnits) = dist (x * d) (n * onesUnits) →
    ∃ q k, x = q * 2 ^ k ∧ q % 2 = 0 ∧ q ≤ 2 ^ 53 ∧ (k = 0 ∨ 2 ^ 52 ≤ q)

/-- A literal in scientific notation: digits, `e` or `E`, perhaps a sign, digits; its value is
    `n / d`. -/
inductive Scientific : Str → Nat → Nat → Prop where
  | up {m x : Str} {e : Char} : (∀ c ∈ m, isDigit c = true) → m ≠ [] → (∀ c ∈ x, isDigit c = true) →
      (e = 'e' ∨ e = 'E') → decValue x < 24000 →
      Scientific (m ++ e :: x) (decValue m * 10 ^ decValue x) 1
  | plus {m x : Str} {e : Char} : (∀ c ∈ m, isDigit c = true) → m ≠ [] → (∀ c ∈ x, isDigit c = true) →
      (e = 'e' ∨ e = 'E') → decValue x < 24000 →
      Scientific (m ++ e :: '+' :: x) (decValue m * 10 ^ decValue x) 1
  | minus {m x : Str} {e : Char} : (∀ c ∈ m, isDigit c = true) → m ≠ [] → (∀ c ∈ x, isDigit c = true) →
      (e = 'e' ∨ e = 'E') → decValue x < 24000 →
      Scientific (m ++ e :: '-' :: x) (decValue m) (10 ^ decValue x)

end Spec

open Spec

theorem roundEven_nearest (n : Nat) {d : Nat} (hd : 0 < d) : NearestInt n d (roundEven n d) := by
  have hn : n / d * d + n % d = n := by rw [Nat.mul_comm]; exact Nat.div_add_mod n d
  have hr : n % d < d := Nat.mod_lt _ hd
  have lo : ∀ w, w ≤ n / d → w * d ≤ n / d * d := fun w h => Nat.mul_le_mul_right d h
  have hi : ∀ w, n / d + 1 ≤ w → n / d * d + d ≤ w * d := fun w h => by
    have := Nat.mul_le_mul_right d h
    rw [Nat.add_mul, Nat.one_mul] at this
    exact this
  have e1 : (n / d + 1) * d = n / d * d + d := by rw [Nat.add_mul, Nat.one_mul]
  have lo' : ∀ w, w < n / d → w * d + d ≤ n / d * d := fun w h => by
    have := Nat.mul_le_mul_right d h
    rw [Nat.succ_mul] at this
    exact this
  have hi' : ∀ w, n / d + 1 < w → n / d * d + d + d ≤ w * d := fun w h => by
    have := Nat.mul_le_mul_right d h
    rw [Nat.succ_mul, e1] at this
    exact this
  unfold roundEven
  constructor
  · intro w
    unfold dist
    have l := lo w
    have h := hi w
    split
    · rcases Nat.lt_or_ge (n / d) w with hw | hw
      · have := h hw; omega
      · have := l hw; omega
    · split
      · rw [e1]
        rcases Nat.lt_or_ge (n / d) w with hw | hw
        · have := h hw; omega
        · have := l hw; omega
      · split
        · rcases Nat.lt_or_ge (n / d) w with hw | hw
          · have := h hw; omega
          · have := l hw; omega
        · rw [e1]
          rcases Nat.lt_or_ge (n / d) w with hw | hw
          · have := h hw; omega
          · have := l hw; omega
  · intro w hne
    unfold dist
    split
    · rename_i hlt
      intro he
      rcases Nat.lt_trichotomy w (n / d) with hw | hw | hw
      · have := lo' w hw; omega
      · rw [if_pos hlt] at hne; exact absurd hw hne
      · have := hi w hw; omega
    · rename_i hge
      split
      · rename_i hgt
        intro he
        rw [if_neg hge, if_pos hgt] at hne
        rw [e1] at he
        rcases Nat.lt_trichotomy w (n / d + 1) with hw | hw | hw
        · have := lo w (by omega); omega
        · exact absurd hw hne
        · have := hi' w hw; omega
      · split
        · intros; assumption
        · intros; omega

theorem lastPlace_hi {n d : Nat} (hd : 0 < d) : n * onesUnits < 2 ^ (53 + lastPlace n d) * d := by
  rw [← Nat.div_lt_iff_lt_mul hd]
  refine Nat.lt_of_lt_of_le (Nat.lt_log2_self) ?_
  apply Nat.pow_le_pow_right (by decide)
  unfold lastPlace
  omega

theorem lastPlace_lo {n d : Nat} (hd : 0 < d) (h : 0 < lastPlace n d) :
    2 ^ (52 + lastPlace n d) * d ≤ n * onesUnits := by
  rw [← Nat.le_div_iff_mul_le hd]
  unfold lastPlace at *
  have h0 : n * onesUnits / d ≠ 0 := by
    intro e
    rw [e] at h
    exact absurd h (by decide)
  refine Nat.le_trans ?_ (Nat.log2_self_le h0)
  apply Nat.pow_le_pow_right (by decide)
  omega

theorem dist_zero {a b : Nat} (h : dist a b = 0) : a = b := by unfold dist at h; omega

theorem nearestDouble_nearest (n : Nat) {d : Nat} (hd : 0 < d) :
    NearestDouble n d (nearestDouble n d) := by
  have hk := Nat.two_pow_pos (lastPlace n d)
  have hhi := lastPlace_hi (n := n) hd
  have hlo := lastPlace_lo (n := n) hd
  unfold nearestDouble
  generalize lastPlace n d = k at *
  generalize hV : n * onesUnits = V at *
  have hR := roundEven_nearest V (Nat.mul_pos hd hk)
  generalize roundEven V (d * 2 ^ k) = q at *
  have mv : ∀ w, w * 2 ^ k * d = w * (d * 2 ^ k) := fun w => by
    rw [Nat.mul_assoc, Nat.mul_comm (2 ^ k) d]
  -- the bounds of the significand
  have hq : q ≤ 2 ^ 53 := by
    have := hR.near (2 ^ 53)
    rcases Nat.lt_or_ge (2 ^ 53) q with h | h
    · have h1 : 2 ^ (53 + k) * d = 2 ^ 53 * (d * 2 ^ k) := by
        rw [Nat.pow_add, Nat.mul_assoc, Nat.mul_comm (2 ^ k) d]
      have h2 : (2 ^ 53 + 1) * (d * 2 ^ k) ≤ q * (d * 2 ^ k) := Nat.mul_le_mul_right _ h
      rw [Nat.succ_mul] at h2
      have h3 := Nat.mul_pos hd hk
      unfold dist at this
      omega
    · exact h
  have hql : 0 < k → 2 ^ 52 ≤ q := by
    intro h0
    have hl := hlo h0
    have := hR.near (2 ^ 52)
    rcases Nat.lt_or_ge q (2 ^ 52) with h | h
    · have h1 : 2 ^ (52 + k) * d = 2 ^ 52 * (d * 2 ^ k) := by
        rw [Nat.pow_add, Nat.mul_assoc, Nat.mul_comm (2 ^ k) d]
      have h2 : (q + 1) * (d * 2 ^ k) ≤ 2 ^ 52 * (d * 2 ^ k) := Nat.mul_le_mul_right _ h
      rw [Nat.succ_mul] at h2
      have h3 := Nat.mul_pos hd hk
      unfold dist at this
      omega
    · exact h
  -- a double is a multiple of the last place or lies below
  have hy : ∀ y, IsDouble y → (∃ w, y = w * 2 ^ k) ∨ (0 < k ∧ y < 2 ^ 52 * 2 ^ k) := by
    rintro y ⟨q', k', h1, rfl⟩
    rcases Nat.lt_or_ge k' k with h | h
    · refine Or.inr ⟨by omega, ?_⟩
      have e : 2 ^ 52 * 2 ^ k = 2 ^ 53 * 2 ^ (k - 1) := by
        rw [← Nat.pow_add, ← Nat.pow_add]
        congr 1
        omega
      rw [e]
      exact Nat.lt_of_lt_of_le (Nat.mul_lt_mul_of_pos_right h1 (Nat.two_pow_pos k'))
        (Nat.mul_le_mul_left _ (Nat.pow_le_pow_right (by decide) (by omega)))
    · refine Or.inl ⟨q' * 2 ^ (k' - k), ?_⟩
      rw [Nat.mul_assoc, ← Nat.pow_add]
      congr 2
      omega
  have below : ∀ y, 0 < k → y < 2 ^ 52 * 2 ^ k →
      dist (q * 2 ^ k * d) V < dist (y * d) V := by
    intro y h0 hlt
    have hl := hlo h0
    have h1 : 2 ^ (52 + k) * d = 2 ^ 52 * (d * 2 ^ k) := by
      rw [Nat.pow_add, Nat.mul_assoc, Nat.mul_comm (2 ^ k) d]
    have h2 := hR.near (2 ^ 52)
    have h3 : y * d < 2 ^ 52 * 2 ^ k * d := Nat.mul_lt_mul_of_pos_right hlt hd
    rw [mv] at h3
    rw [mv]
    unfold dist at *
    omega
  refine ⟨?_, ?_, ?_⟩
  · rcases Nat.lt_or_ge q (2 ^ 53) with h | h
    · exact ⟨q, k, h, rfl⟩
    · have : q = 2 ^ 53 := by omega
      refine ⟨1, 53 + k, by decide, ?_⟩
      rw [this, Nat.one_mul, Nat.pow_add]
  · intro y h
    rw [hV]
    rcases hy y h with ⟨w, rfl⟩ | ⟨h0, hlt⟩
    · rw [mv, mv]
      exact hR.near w
    · exact Nat.le_of_lt (below y h0 hlt)
  · intro y h hne he
    rw [hV] at he
    refine ⟨q, k, rfl, ?_, hq, ?_⟩
    · rcases hy y h with ⟨w, rfl⟩ | ⟨h0, hlt⟩
      · rw [mv, mv] at he
        exact hR.even w (fun e => hne (by rw [e])) he
      · have := below y h0 hlt
        omega
    · rcases Nat.eq_zero_or_pos k with h0 | h0
      · exact Or.inl h0
      · exact Or.inr (hql h0)

set_option exponentiation.threshold 2100 in
theorem onesUnits_pow : ∃ u : Nat, onesUnits = 2 ^ u := ⟨1074, by unfold onesUnits; rfl⟩

theorem onesUnits_pos : 0 < onesUnits := by
  obtain ⟨u, e⟩ := onesUnits_pow
  rw [e]
  exact Nat.two_pow_pos u

/-- An integer up to `2 ^ 53` is a double and stays. -/
theorem NearestDouble.exact {n d x v : Nat} (hd : 0 < d) (h : NearestDouble (n * d) d x) (hn : n ≤ 2 ^ 53)
    (hv : NearestInt x (onesUnits) v) : v = n := by
  have hdb : IsDouble (n * onesUnits) := by
    obtain ⟨u, hu⟩ := onesUnits_pow
    rw [hu]
    rcases Nat.lt_or_ge n (2 ^ 53) with h | h
    · exact ⟨n, u, h, rfl⟩
    · have : n = 2 ^ 53 := by omega
      refine ⟨1, 53 + u, by decide, ?_⟩
      rw [this, Nat.one_mul, Nat.pow_add]
  have h1 := h.near _ hdb
  have e : n * onesUnits * d = n * d * onesUnits := by
    rw [Nat.mul_assoc, Nat.mul_assoc, Nat.mul_comm d]
  rw [e] at h1
  have h2 : x * d = n * onesUnits * d := by
    rw [e]
    apply dist_zero
    have : dist (n * d * onesUnits) (n * d * onesUnits) = 0 := by unfold dist; omega
    omega
  have h3 : x = n * onesUnits := Nat.eq_of_mul_eq_mul_right hd h2
  have h4 := hv.near n
  rw [h3] at h4
  have h5 : v * onesUnits = n * onesUnits := by
    apply dist_zero
    have : dist (n * onesUnits) (n * onesUnits) = 0 := by unfold dist; omega
    omega
  exact Nat.eq_of_mul_eq_mul_right onesUnits_pos h5

theorem fold_digits_le : ∀ (s : Str) (a : Nat), a ≤ s.foldl (fun a c => a * 10 + digitVal c) a
  | [], a => Nat.le_refl a
  | c :: cs, a => by
    have := fold_digits_le cs (a * 10 + digitVal c)
    simp only [List.foldl_cons]
    omega

theorem expDigits_eq : ∀ (s : Str) (a : Nat), (∀ c ∈ s, isDigit c = true) →
    s.foldl (fun a c => a * 10 + digitVal c) a < 24000 →
    expDigits a s = some (s.foldl (fun a c => a * 10 + digitVal c) a)
  | [], a, _, _ => rfl
  | c :: cs, a, h, hl => by
    have hle := fold_digits_le cs (a * 10 + digitVal c)
    simp only [List.foldl_cons] at hl ⊢
    rw [expDigits, if_pos (h c (by simp)), if_neg (by omega)]
    exact expDigits_eq cs _ (fun x hx => h x (by simp [hx])) hl

theorem readExponent_digits {x : Str} (h : ∀ c ∈ x, isDigit c = true) (hl : decValue x < 24000) :
    readExponent x = some (decValue x : Int) := by
  have he := expDigits_eq x 0 h hl
  cases x with
  | nil => rfl
  | cons c cs =>
    have h1 : c ≠ '-' := by rintro rfl; exact absurd (h '-' (by simp)) (by decide)
    have h2 : c ≠ '+' := by rintro rfl; exact absurd (h '+' (by simp)) (by decide)
    unfold readExponent
    split
    · simp_all
    · simp_all
    · simp_all
    · rw [he]; rfl

theorem readExponent_plus {x : Str} (h : ∀ c ∈ x, isDigit c = true) (hl : decValue x < 24000) :
    readExponent ('+' :: x) = some (decValue x : Int) := by
  show (expDigits 0 x).map (fun n => (n : Int)) = _
  rw [expDigits_eq x 0 h hl]
  rfl

theorem readExponent_minus {x : Str} (h : ∀ c ∈ x, isDigit c = true) (hl : decValue x < 24000) :
    readExponent ('-' :: x) = some (-(decValue x : Int)) := by
  show (expDigits 0 x).map (fun n => -(n : Int)) = _
  rw [expDigits_eq x 0 h hl]
  rfl

theorem takeWhile_digits_e {m : Str} (r : Str) (h : ∀ c ∈ m, isDigit c = true) :
    (m ++ 'e' :: r).takeWhile isDigit = m ∧ (m ++ 'e' :: r).dropWhile isDigit = 'e' :: r := by
  induction m with
  | nil => exact ⟨rfl, rfl⟩
  | cons c cs ih =>
    have := ih (fun x hx => h x (by simp [hx]))
    simp [h c (by simp), this]

theorem decimalParts_e {m r : Str} (h : ∀ c ∈ m, isDigit c = true) (hne : m ≠ []) :
    decimalParts (m ++ 'e' :: r) = (readExponent r).map (fun x => (decValue m, x)) := by
  obtain ⟨h1, h2⟩ := takeWhile_digits_e r h
  unfold decimalParts
  rw [h1, h2]
  show (if m ++ [] = [] then none else
    if 'e' = 'e' ∨ 'e' = 'E' then
      (readExponent r).map (fun x => (decValue (m ++ []), x - ((0 : Nat) : Int))) else none) = _
  rw [List.append_nil, if_neg hne, if_pos (Or.inl rfl)]
  congr 1
  funext x
  simp

/-- What is written for a literal in scientific notation, in the form the lexer passes it on. -/
theorem sciDouble_scientific (other : Str → Option Str) {s : Str} {n d : Nat} (h : Scientific s n d) :
    sciDouble other (lower s) = some (formatDouble (nearestDouble n d)) := by
  have low : ∀ {m : Str} {r : Str} {e : Char}, (∀ c ∈ m, isDigit c = true) →
      (e = 'e' ∨ e = 'E') → lower r = r → lower (m ++ e :: r) = m ++ 'e' :: r := by
    intro m r e hm he hr
    have h1 : lower m = m := lower_digits hm
    unfold lower at *
    rw [List.map_append, h1, List.map_cons, hr]
    rcases he with rfl | rfl <;> rfl
  have key : ∀ {m r : Str} {x : Int}, (∀ c ∈ m, isDigit c = true) → m ≠ [] →
      (∀ c ∈ r, isNumChar c = true) → readExponent r = some x →
      sciDouble other (m ++ 'e' :: r) =
        some (formatDouble (nearestDouble (asFraction (decValue m) x).1 (asFraction (decValue m) x).2)) := by
    intro m r x hm hne hr hx
    have hall : (m ++ 'e' :: r).all (fun c => isNumChar c || c == '.') = true := by
      rw [List.all_eq_true]
      intro c hc
      rw [List.mem_append, List.mem_cons] at hc
      rcases hc with hc | rfl | hc
      · simp [isNumChar, hm c hc]
      · decide
      · simp [hr c hc]
    unfold sciDouble
    rw [if_pos hall]
    have hu : sciUnsigned (m ++ 'e' :: r) = some (formatDouble (nearestDouble
        (asFraction (decValue m) x).1 (asFraction (decValue m) x).2)) := by
      unfold sciUnsigned
      rw [decimalParts_e hm hne, hx]
      rfl
    cases m with
    | nil => exact absurd rfl hne
    | cons c cs =>
      have h1 : c ≠ '-' := by rintro rfl; exact absurd (hm '-' (by simp)) (by decide)
      have h2 : c ≠ '+' := by rintro rfl; exact absurd (hm '+' (by simp)) (by decide)
      split
      · rename_i he
        simp at he
        exact absurd he.1 h1
      · rename_i he
        simp at he
        exact absurd he.1 h2
      · exact hu
  have num : ∀ {x : Str}, (∀ c ∈ x, isDigit c = true) → ∀ c ∈ x, isNumChar c = true := by
    intro x h c hc
    simp [isNumChar, h c hc]
  cases h with
  | @up m x e hm hne hx he hl =>
    rw [low hm he (lower_digits hx), key hm hne (num hx) (readExponent_digits hx hl)]
    unfold asFraction
    rw [if_pos (by omega)]
    rfl
  | @plus m x e hm hne hx he hl =>
    rw [low hm he (by show lower ('+' :: x) = _; unfold lower; rw [List.map_cons]; exact congrArg _ (lower_digits hx)),
      key hm hne (by
        intro c hc
        rw [List.mem_cons] at hc
        rcases hc with rfl | hc
        · decide
        · exact num hx c hc) (readExponent_plus hx hl)]
    unfold asFraction
    rw [if_pos (by omega)]
    rfl
  | @minus m x e hm hne hx he hl =>
    rw [low hm he (by show lower ('-' :: x) = _; unfold lower; rw [List.map_cons]; exact congrArg _ (lower_digits hx)),
      key hm hne (by
        intro c hc
        rw [List.mem_cons] at hc
        rcases hc with rfl | hc
        · decide
        · exact num hx c hc) (readExponent_minus hx hl)]
    unfold asFraction
    split
    · rename_i h0
      have : decValue x = 0 := by omega
      rw [this]
      simp
    · simp

theorem roundEven_ge (n d : Nat) : n / d ≤ roundEven n d := by
  unfold roundEven
  split
  · exact Nat.le_refl _
  · split
    · omega
    · split <;> omega

theorem parsePlainInteger_digits {s : Str} (hs : ∀ c ∈ s, isDigit c = true) (hne : s ≠ []) :
    parsePlainInteger s = if (decValue s : Int) ≤ int64Max then (decValue s : Int) else int64Max := by
  rw [parsePlainInteger, getAsInt64_dec _ hs hne]
  have hh : s.head? ≠ some '-' := by
    intro e
    cases s with
    | nil => simp at e
    | cons c cs =>
      simp at e
      subst e
      exact absurd (hs '-' (by simp)) (by decide)
  by_cases hle : decValue s ≤ 9223372036854775807
  · have h' : (decValue s : Int) ≤ int64Max := by unfold int64Max; omega
    rw [if_pos hle, if_pos h']
  · have h' : ¬ (decValue s : Int) ≤ int64Max := by unfold int64Max; omega
    rw [if_neg hle, if_neg h']
    simp only [hh, if_false]

set_option exponentiation.threshold 2100 in
theorem large_int : int64Max < ((2 ^ 1024 : Nat) : Int) := by decide

/-- Reading what is written for a double. -/
theorem parsePlainInteger_format (x : Nat) :
    parsePlainInteger (formatDouble x) =
      if (roundEven x onesUnits : Int) ≤ int64Max then (roundEven x onesUnits : Int) else int64Max := by
  unfold formatDouble
  split
  · rename_i h
    have h1 : 2 ^ 1024 ≤ x / onesUnits := (Nat.le_div_iff_mul_le onesUnits_pos).mpr h
    have h2 := roundEven_ge x onesUnits
    have h3 := large_int
    generalize 2 ^ 1024 = B at *
    rw [if_neg (by omega)]
    rfl
  · rw [parsePlainInteger_digits (natText_digits _) (natText_ne_nil _), natText_value]

end Verif

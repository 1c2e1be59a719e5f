import Verif.Props.StepFunction
import Verif.Props.Solver
import Verif.Step.IeeeLemmas
/-!
# Property C84: the values of a numeric feature with a range and a step function

The arithmetic is that of doubles (`Verif/Step/Ieee.lean`), not an arbitrary one as in C44.
-/

namespace Verif.Props
open Spec

variable {pow : Dbl → Dbl → Dbl}

/-- One operand is a name and the other the number `d`, in this order or the other. -/
def OneNumber (a b : Str) (d : Decimal) : Prop :=
  (StepIdent a ∧ DecimalText b d) ∨ (DecimalText a d ∧ StepIdent b)

/-- The loop of the solver over a range ends, and the values are those that satisfy `P`. -/
structure RangeIs (pow : Dbl → Dbl → Dbl) (f : StepFn) (lo hi : Int) (P : Int → Prop) : Prop where
  allowed : ∀ v, Allowed (ieee pow) (.range lo hi) (some f) v ↔ P v ∧ v ≤ hi
  loop : ∃ vs k, (∀ v, v ∈ vs ↔ P v ∧ v ≤ hi) ∧
    ∀ fuel, k ≤ fuel → rangeLoop (ieee pow) (some f) hi fuel lo [] = .values vs

theorem range_of_steps {f : StepFn} {g : Int → Int} {lo hi : Int} {P : Int → Prop}
    (hg : ∀ x, lo ≤ x → x < g x) (h : ∀ x, lo ≤ x → x ≤ hi → f.nextInt (ieee pow) x = some (g x))
    (hP : ∀ v, P v ↔ ∃ i, v = iterOf g i lo) : RangeIs pow f lo hi P := by
  have h1 : ∀ x, lo ≤ x → x ≤ hi → stepOf (ieee pow) (some f) x = some (g x) := h
  have ha : ∀ v, Orbit (stepOf (ieee pow) (some f)) lo hi v ↔ P v ∧ v ≤ hi := by
    intro v
    rw [orbit_iter hg h1 v, hP]
    constructor
    · rintro ⟨i, h1, h2⟩; exact ⟨⟨i, h1⟩, h2⟩
    · rintro ⟨⟨i, h1⟩, h2⟩; exact ⟨i, h1, h2⟩
  obtain ⟨vs, k, h2, h3⟩ := C44_increasing_terminates (F := ieee pow) (st := some f) (lo := lo) (hi := hi)
    (fun x hx hx' => ⟨g x, h1 x hx hx', hg x hx⟩)
  exact ⟨ha, vs, k, fun v => (h2 v).trans (ha v), h3⟩

/-- The integer step of a text. -/
theorem nextInt_of_text {s a b : Str} {op : StepOp} {d : Decimal} (h : StepText s a op b) (ho : OneNumber a b d) :
    ∃ f, parseStepText s = .ok f ∧
      ((StepIdent a ∧ DecimalText b d) ∧ (∀ x, f.nextInt (ieee pow) x =
        Dbl.toInt (stepWritten (ieee pow).toFloats (Dbl.ofInt x) op (Dbl.ofDecimal d))) ∨
      (DecimalText a d ∧ StepIdent b) ∧ (∀ x, f.nextInt (ieee pow) x =
        Dbl.toInt (stepWritten (ieee pow).toFloats (Dbl.ofDecimal d) op (Dbl.ofInt x)))) := by
  rcases ho with ho | ho
  · obtain ⟨f, h1, h2⟩ := C10_next_right (ieee pow).toFloats h ho.1 ho.2
    exact ⟨f, h1, .inl ⟨ho, fun x => by unfold StepFn.nextInt; rw [h2]; rfl⟩⟩
  · obtain ⟨f, h1, h2⟩ := C10_next_left (ieee pow).toFloats h ho.1 ho.2
    exact ⟨f, h1, .inr ⟨ho, fun x => by unfold StepFn.nextInt; rw [h2]; rfl⟩⟩

theorem add_comm_dbl (x y : Dbl) : Dbl.add x y = Dbl.add y x := by
  cases x <;> cases y <;> simp only [Dbl.add]
  · rw [Int.add_comm]
  · rename_i s t
    by_cases h : s = t
    · subst h; rfl
    · rw [if_neg h, if_neg (fun e => h e.symm)]

theorem mul_comm_dbl (x y : Dbl) : Dbl.mul x y = Dbl.mul y x := by
  cases x <;> cases y <;> simp only [Dbl.mul]
  · rw [Int.mul_comm]
  · rename_i a t
    by_cases h : a = 0
    · rw [if_pos h, if_pos h]
    · rw [if_neg h, if_neg h, bne_comm]
  · rename_i a t
    by_cases h : t = 0
    · rw [if_pos h, if_pos h]
    · rw [if_neg h, if_neg h, bne_comm]
  · rename_i s t
    rw [bne_comm]

theorem written_add (x y : Dbl) : stepWritten (ieee pow).toFloats x .addition y = Dbl.add x y := rfl
theorem written_mul (x y : Dbl) : stepWritten (ieee pow).toFloats x .multiplication y = Dbl.mul x y := rfl
theorem written_pow (x y : Dbl) : stepWritten (ieee pow).toFloats x .exponentiation y = pow x y := rfl

/-- Both orders of a sum are the same step. -/
theorem next_sum {s a b : Str} {d : Decimal} (h : StepText s a .addition b) (ho : OneNumber a b d) :
    ∃ f, parseStepText s = .ok f ∧ ∀ x, f.nextInt (ieee pow) x = Dbl.toInt (Dbl.add (Dbl.ofInt x) (Dbl.ofDecimal d)) := by
  obtain ⟨f, h1, ⟨_, h2⟩ | ⟨_, h2⟩⟩ := nextInt_of_text (pow := pow) h ho
  · exact ⟨f, h1, fun x => by rw [h2, written_add]⟩
  · exact ⟨f, h1, fun x => by rw [h2, written_add, add_comm_dbl]⟩

theorem next_product {s a b : Str} {d : Decimal} (h : StepText s a .multiplication b) (ho : OneNumber a b d) :
    ∃ f, parseStepText s = .ok f ∧ ∀ x, f.nextInt (ieee pow) x = Dbl.toInt (Dbl.mul (Dbl.ofInt x) (Dbl.ofDecimal d)) := by
  obtain ⟨f, h1, ⟨_, h2⟩ | ⟨_, h2⟩⟩ := nextInt_of_text (pow := pow) h ho
  · exact ⟨f, h1, fun x => by rw [h2, written_mul]⟩
  · exact ⟨f, h1, fun x => by rw [h2, written_mul, mul_comm_dbl]⟩

theorem iter_sum (k lo : Int) (i : Nat) : iterOf (fun x => x + k) i lo = lo + i * k := by
  induction i with
  | zero => simp [iterOf]
  | succ i ih =>
    rw [iterOf, ih]
    push_cast
    rw [Int.add_mul]
    omega

theorem iter_product (k lo : Int) (i : Nat) : iterOf (fun x => x * k) i lo = lo * k ^ i := by
  induction i with
  | zero => simp [iterOf]
  | succ i ih =>
    rw [iterOf, ih, Int.pow_succ, Int.mul_assoc]

/-- With the step `x + k` or `k + x` for an integer `k`, the values of a range are the minimum plus the
    multiples of `k`, up to the maximum, as long as the numbers are not beyond `2 ^ 53`. -/
theorem C84_sum_partial {s a b : Str} {d : Decimal} {k : Nat} {lo hi : Int} (h : StepText s a .addition b)
    (ho : OneNumber a b d) (hd : d.mantissa = k * 10 ^ d.scale) (hk : 0 < k) (hk' : k ≤ 2 ^ 53)
    (hlo : -(2 ^ 53) ≤ lo) (hhi : hi + k ≤ 2 ^ 53) :
    ∃ f, parseStepText s = .ok f ∧ RangeIs pow f lo hi (fun v => ∃ i : Nat, v = lo + i * k) := by
  obtain ⟨f, h1, h2⟩ := next_sum (pow := pow) h ho
  refine ⟨f, h1, range_of_steps (g := fun x => x + k) (fun x _ => by omega) (fun x hx hx' => ?_)
    (fun v => by simp only [iter_sum])⟩
  rw [h2, ofInt_whole (whole_small (by omega)) (by omega), ofDecimal_whole (whole_small hk') (by omega) hd,
    add_whole (whole_small (by omega)) (by omega), toInt_whole (by unfold int64Min int64Max; omega)]

/-- With the step `x * k` or `k * x` for an integer `k` from 2, the values of a range that begins with a
    positive number are the minimum times the powers of `k`, up to the maximum. -/
theorem C84_product_partial {s a b : Str} {d : Decimal} {k : Nat} {lo hi : Int} (h : StepText s a .multiplication b)
    (ho : OneNumber a b d) (hd : d.mantissa = k * 10 ^ d.scale) (hk : 2 ≤ k) (hk' : k ≤ 2 ^ 53)
    (hlo : 0 < lo) (hhi : hi * k ≤ 2 ^ 53) :
    ∃ f, parseStepText s = .ok f ∧ RangeIs pow f lo hi (fun v => ∃ i : Nat, v = lo * (k : Int) ^ i) := by
  obtain ⟨f, h1, h2⟩ := next_product (pow := pow) h ho
  have hgrow : ∀ x : Int, lo ≤ x → x < x * k := by
    intro x hx
    have : x * 2 ≤ x * k := Int.mul_le_mul_of_nonneg_left (by omega) (by omega)
    omega
  refine ⟨f, h1, range_of_steps (g := fun x => x * k) hgrow (fun x hx hx' => ?_)
    (fun v => by simp only [iter_product])⟩
  have hb : x * k ≤ 2 ^ 53 := Int.le_trans (Int.mul_le_mul_of_nonneg_right hx' (by omega)) hhi
  have := hgrow x hx
  rw [h2, ofInt_whole (whole_small (by omega)) (by omega), ofDecimal_whole (whole_small hk') (by omega) hd,
    mul_whole (whole_small (by omega)) (by omega), toInt_whole (by unfold int64Min int64Max; omega)]

/-- `std::pow` is exact for natural numbers as long as the result is not beyond `2 ^ 53`. -/
def PowExact (pow : Dbl → Dbl → Dbl) : Prop := ∀ x n : Nat, x ^ n ≤ 2 ^ 53 →
  pow (.fin ((x : Int) * onesUnits)) (.fin ((n : Int) * onesUnits)) = .fin (((x ^ n : Nat) : Int) * onesUnits)

/-- A power function that is exact in this sense. -/
def somePow : Dbl → Dbl → Dbl
  | .fin a, .fin b => Dbl.rounded false ((a / onesUnits).toNat ^ (b / onesUnits).toNat) 1
  | _, _ => .nan

theorem somePow_exact : PowExact somePow := by
  intro x n h
  have e : ∀ y : Nat, ((y : Int) * onesUnits / onesUnits).toNat = y := by
    intro y
    rw [Int.mul_ediv_cancel _ (by have := onesUnits_pos; omega)]
    rfl
  show Dbl.rounded false (((x : Int) * onesUnits / onesUnits).toNat ^ ((n : Int) * onesUnits / onesUnits).toNat) 1 = _
  rw [e, e]
  have := signed_rounded (z := ((x ^ n : Nat) : Int)) (n := x ^ n) (d := 1) Nat.one_pos (whole_small h)
    (small_lt (Nat.le_trans h (by decide))) (by simp)
  rw [show decide (((x ^ n : Nat) : Int) < 0) = false from decide_eq_false (by omega)] at this
  exact this

theorem iter_power (k : Nat) (lo : Int) (i : Nat) : iterOf (fun x => x ^ k) i lo = lo ^ (k ^ i) := by
  induction i with
  | zero => simp [iterOf, Int.pow_succ]
  | succ i ih => rw [iterOf, ih, ← Int.pow_mul, Nat.pow_succ]

theorem lt_own_power {x k : Nat} (hx : 2 ≤ x) (hk : 2 ≤ k) : x < x ^ k := by
  have h1 : x ^ 2 ≤ x ^ k := Nat.pow_le_pow_right (by omega) hk
  have h2 : x * 2 ≤ x * x := Nat.mul_le_mul_left _ hx
  rw [Nat.pow_two] at h1
  omega

/-- With the step `x ^ k` for an integer `k` from 2, the values of a range that begins with 2 or more are
    the powers of the minimum to the powers of `k`, up to the maximum. -/
theorem C84_power_partial (hp : PowExact pow) {s a b : Str} {d : Decimal} {k lo hi : Nat}
    (h : StepText s a .exponentiation b) (ha : StepIdent a) (hb : DecimalText b d) (hd : d.mantissa = k * 10 ^ d.scale)
    (hk : 2 ≤ k) (hk' : k ≤ 2 ^ 53) (hlo : 2 ≤ lo) (hhi : hi ^ k ≤ 2 ^ 53) :
    ∃ f, parseStepText s = .ok f ∧ RangeIs pow f lo hi (fun v => ∃ i : Nat, v = (lo : Int) ^ (k ^ i)) := by
  obtain ⟨f, h1, h2⟩ := C10_next_right (ieee pow).toFloats h ha hb
  have hgrow : ∀ x : Int, lo ≤ x → x < x ^ k := by
    intro x hx
    obtain ⟨n, rfl⟩ := Int.eq_ofNat_of_zero_le (show 0 ≤ x by omega)
    have := lt_own_power (x := n) (by omega) hk
    rw [← Int.natCast_pow]
    omega
  refine ⟨f, h1, range_of_steps (g := fun x => x ^ k) hgrow (fun x hx hx' => ?_) (fun v => by simp only [iter_power])⟩
  have hg := hgrow x hx
  obtain ⟨n, rfl⟩ := Int.eq_ofNat_of_zero_le (show 0 ≤ x by omega)
  have hb : n ^ k ≤ 2 ^ 53 := Nat.le_trans (Nat.pow_le_pow_left (by omega) k) hhi
  rw [← Int.natCast_pow] at hg
  have e : f.nextInt (ieee pow) n = Dbl.toInt (stepWritten (ieee pow).toFloats (Dbl.ofInt n) .exponentiation (Dbl.ofDecimal d)) := by
    unfold StepFn.nextInt
    rw [h2]
    rfl
  rw [e, written_pow, ofInt_whole (whole_small (by omega)) (by omega), ofDecimal_whole (whole_small hk') (by omega) hd,
    hp n k hb, toInt_whole (by unfold int64Min int64Max; omega), Int.natCast_pow]

/-- Reached from `lo` by taking powers of `k`. -/
inductive Tower (k : Nat) (lo : Nat) : Int → Prop
  | base : Tower k lo lo
  | next {n : Nat} : Tower k lo n → Tower k lo ((k : Int) ^ n)

theorem tower_iter {k lo : Nat} (v : Int) : Tower k lo v ↔ ∃ i, v = iterOf (fun x => (k : Int) ^ x.toNat) i lo := by
  constructor
  · intro h
    induction h with
    | base => exact ⟨0, rfl⟩
    | @next n _ ih =>
      obtain ⟨i, hi⟩ := ih
      exact ⟨i + 1, by rw [iterOf, ← hi]; rfl⟩
  · rintro ⟨i, rfl⟩
    induction i with
    | zero => exact .base
    | succ i ih =>
      rw [iterOf]
      refine .next ?_
      have : 0 ≤ iterOf (fun x => (k : Int) ^ x.toNat) i lo := by
        cases i with
        | zero => exact Int.natCast_nonneg lo
        | succ i => rw [iterOf, ← Int.natCast_pow]; exact Int.natCast_nonneg _
      rw [Int.toNat_of_nonneg this]
      exact ih

/-- With the step `k ^ x` for an integer `k` from 2, the values of a range that begins with 0 or more are
    the minimum, `k` to the minimum and so on, up to the maximum. -/
theorem C84_exponential_partial (hp : PowExact pow) {s a b : Str} {d : Decimal} {k lo hi : Nat}
    (h : StepText s a .exponentiation b) (ha : DecimalText a d) (hb : StepIdent b) (hd : d.mantissa = k * 10 ^ d.scale)
    (hk : 2 ≤ k) (hk' : k ≤ 2 ^ 53) (hhi : k ^ hi ≤ 2 ^ 53) :
    ∃ f, parseStepText s = .ok f ∧ RangeIs pow f lo hi (Tower k lo) := by
  obtain ⟨f, h1, h2⟩ := C10_next_left (ieee pow).toFloats h ha hb
  have hlt : ∀ n : Nat, n < k ^ n := fun n => Nat.lt_pow_self (by omega)
  refine ⟨f, h1, range_of_steps (g := fun x => (k : Int) ^ x.toNat) (fun x hx => ?_) (fun x hx hx' => ?_) tower_iter⟩
  · have := hlt x.toNat
    rw [← Int.natCast_pow]
    omega
  · obtain ⟨n, rfl⟩ := Int.eq_ofNat_of_zero_le (show 0 ≤ x by omega)
    have hb : k ^ n ≤ 2 ^ 53 := Nat.le_trans (Nat.pow_le_pow_right (by omega) (by omega)) hhi
    have := hlt n
    have e : f.nextInt (ieee pow) n = Dbl.toInt (stepWritten (ieee pow).toFloats (Dbl.ofDecimal d) .exponentiation (Dbl.ofInt n)) := by
      unfold StepFn.nextInt
      rw [h2]
      rfl
    rw [e, written_pow, ofInt_whole (whole_small (by omega)) (by omega), ofDecimal_whole (whole_small hk') (by omega) hd,
      hp k n hb, toInt_whole (by unfold int64Min int64Max; omega), Int.natCast_pow, Int.toNat_natCast]

/-! ## Steps that are not as written -/

theorem next_fraction {s a b : Str} {d : Decimal} {k : Nat} (h : StepText s a .addition b) (ho : OneNumber a b d)
    (h1 : k * 10 ^ d.scale ≤ d.mantissa) (h2 : 2 * d.mantissa ≤ (2 * k + 1) * 10 ^ d.scale) (hk : k < 2 ^ 52) :
    ∃ f, parseStepText s = .ok f ∧ ∀ x : Int, 0 ≤ x → x + k < 2 ^ 52 → f.nextInt (ieee pow) x = some (x + k) := by
  obtain ⟨f, e1, e2⟩ := next_sum (pow := pow) h ho
  refine ⟨f, e1, fun x hx hx' => ?_⟩
  obtain ⟨n, rfl⟩ := Int.eq_ofNat_of_zero_le hx
  obtain ⟨u, hu, hu1, hu2⟩ := ofDecimal_between hk h1 h2
  rw [e2, hu, ofInt_whole (whole_small (by omega)) (by omega), add_between (by omega) hu1 hu2]

/-- The claim is false for steps that are no integers: the fraction is dropped after each step.  With a
    step from `k` to `k + 1/2` the values are those with the step `k`. -/
theorem C84_fraction_is_dropped {s a b : Str} {d : Decimal} {k : Nat} {lo hi : Int} (h : StepText s a .addition b)
    (ho : OneNumber a b d) (h1 : k * 10 ^ d.scale ≤ d.mantissa) (h2 : 2 * d.mantissa ≤ (2 * k + 1) * 10 ^ d.scale)
    (hk : 0 < k) (hk' : k < 2 ^ 52) (hlo : 0 ≤ lo) (hhi : hi + k < 2 ^ 52) :
    ∃ f, parseStepText s = .ok f ∧ RangeIs pow f lo hi (fun v => ∃ i : Nat, v = lo + i * k) := by
  obtain ⟨f, e1, e2⟩ := next_fraction (pow := pow) h ho h1 h2 hk'
  exact ⟨f, e1, range_of_steps (g := fun x => x + k) (fun x _ => by omega)
    (fun x hx hx' => e2 x (by omega) (by omega)) (fun v => by simp only [iter_sum])⟩

/-- With a step up to `1/2` the loop over a range does not end. -/
theorem C84_small_step_never_ends {s a b : Str} {d : Decimal} {lo hi : Int} (h : StepText s a .addition b)
    (ho : OneNumber a b d) (h1 : 2 * d.mantissa ≤ 10 ^ d.scale) (hlo : 0 ≤ lo) (hlo' : lo < 2 ^ 52) (hhi : lo ≤ hi) :
    ∃ f, parseStepText s = .ok f ∧ ∀ fuel, rangeLoop (ieee pow) (some f) hi fuel lo [] = .endless := by
  obtain ⟨f, e1, e2⟩ := next_fraction (pow := pow) (k := 0) h ho (by omega) (by omega) (by decide)
  exact ⟨f, e1, C44_fixed_point_never_ends hhi (by show f.nextInt _ _ = _; rw [e2 lo hlo (by omega)]; simp)⟩

theorem large_sum : Dbl.add (.fin (9007199254740992 * onesUnits)) (.fin (1 * onesUnits)) = .fin (9007199254740992 * onesUnits) := by
  show Dbl.rounded (decide ((9007199254740992 : Int) * onesUnits + 1 * onesUnits < 0))
    ((9007199254740992 : Int) * onesUnits + 1 * onesUnits).natAbs onesUnits = _
  unfold Dbl.rounded nearestDouble lastPlace onesUnits
  decide +kernel

/-- With the step `x + 1` the loop over a range from `2 ^ 53` does not end. -/
theorem C84_large_range_never_ends : ∃ f, parseStepText c!"x + 1" = .ok f ∧
    ∀ hi fuel, 9007199254740992 ≤ hi → rangeLoop (ieee pow) (some f) hi fuel 9007199254740992 [] = .endless := by
  obtain ⟨f, e1, e2⟩ := next_sum (pow := pow) (s := c!"x + 1") (a := c!"x") (b := c!"1") (d := ⟨1, 0⟩)
    ⟨[], [' '], [' '], [], '+', [], by decide, by simp [Blank], by simp [Blank], by simp [Blank], by simp [Blank], .add, .inl rfl⟩
    (.inl ⟨⟨'x', [], rfl, by decide, by simp⟩, .int (by simp) (by decide)⟩)
  refine ⟨f, e1, fun hi fuel hh => C44_fixed_point_never_ends hh ?_ fuel⟩
  show f.nextInt _ _ = _
  rw [e2, ofInt_whole (whole_small (by decide)) (by decide), ofDecimal_whole (k := 1) (whole_small (by decide)) (by decide) rfl]
  have := large_sum
  rw [show ((1 : Nat) : Int) = 1 from rfl, this]
  exact toInt_whole (by decide)

/-- The loop over a range ends with undefined behaviour if a step does. -/
theorem crash_after {F : IntFloats} {f : StepFn} {hi : Int} {x : Nat → Int} {J : Nat}
    (h : ∀ j, j < J → f.nextInt F (x j) = some (x (j + 1))) (hJ : f.nextInt F (x J) = none) (hle : ∀ j, j ≤ J → x j ≤ hi) :
    ∀ fuel, J < fuel → rangeLoop F (some f) hi fuel (x 0) [] = .crash := by
  have key : ∀ r j acc fuel, j + r = J → r < fuel → rangeLoop F (some f) hi fuel (x j) acc = .crash := by
    intro r
    induction r with
    | zero =>
      intro j acc fuel hj hf
      cases fuel with
      | zero => omega
      | succ fuel =>
        have : j = J := by omega
        subst this
        simp [rangeLoop, hle j (Nat.le_refl _), hJ]
    | succ r ih =>
      intro j acc fuel hj hf
      cases fuel with
      | zero => omega
      | succ fuel =>
        simp only [rangeLoop, if_pos (hle j (by omega)), h j (by omega)]
        exact ih (j + 1) _ fuel (by omega) (by omega)
  exact fun fuel hf => key J 0 [] fuel (by omega) hf

theorem next_double : ∃ f, parseStepText c!"x * 2" = .ok f ∧ ∀ x : Int, Whole x.natAbs → x.natAbs ≤ 2 ^ 63 →
    f.nextInt (ieee pow) x = if int64Min ≤ x * 2 ∧ x * 2 ≤ int64Max then some (x * 2) else none := by
  obtain ⟨f, e1, e2⟩ := next_product (pow := pow) (s := c!"x * 2") (a := c!"x") (b := c!"2") (d := ⟨2, 0⟩)
    ⟨[], [' '], [' '], [], '*', [], by decide, by simp [Blank], by simp [Blank], by simp [Blank], by simp [Blank], .mul, .inl rfl⟩
    (.inl ⟨⟨'x', [], rfl, by decide, by simp⟩, .int (by simp) (by decide)⟩)
  refine ⟨f, e1, fun x hx hs => ?_⟩
  have hw : Whole (x * ((2 : Nat) : Int)).natAbs := by
    have := whole_shift hx 1
    rw [Int.natAbs_mul]
    exact this
  rw [e2, ofInt_whole hx (by omega), ofDecimal_whole (k := 2) (whole_small (by decide)) (by decide) rfl,
    mul_whole hw (by omega)]
  show _ = if int64Min ≤ x * ((2 : Nat) : Int) ∧ x * ((2 : Nat) : Int) ≤ int64Max then some (x * ((2 : Nat) : Int)) else none
  split
  · rename_i h; exact toInt_whole h
  · rename_i h; exact toInt_out h

theorem whole_two_pow (j : Nat) : Whole (2 ^ j) := ⟨1, j, by decide, by simp⟩

/-- With the step `x * 2` the loop over a range up to `2 ^ 62` or more ends with undefined behaviour, a
    conversion that does not fit. -/
theorem C84_doubling_overflows : ∃ f, parseStepText c!"x * 2" = .ok f ∧
    ∀ hi fuel, 2 ^ 62 ≤ hi → 62 < fuel → rangeLoop (ieee pow) (some f) hi fuel 1 [] = .crash := by
  obtain ⟨f, e1, e2⟩ := next_double (pow := pow)
  have hp : ∀ j, j ≤ 62 → 2 ^ j ≤ 2 ^ 62 := fun j hj => Nat.pow_le_pow_right (by decide) hj
  refine ⟨f, e1, fun hi fuel hh hf => crash_after (x := fun j => ((2 ^ j : Nat) : Int)) (J := 62) ?_ ?_ ?_ fuel hf⟩
  · intro j hj
    have := hp (j + 1) (by omega)
    rw [Nat.pow_succ] at this
    rw [e2 _ (by rw [Int.natAbs_natCast]; exact whole_two_pow j) (by rw [Int.natAbs_natCast]; omega), if_pos]
    · rw [Nat.pow_succ]; push_cast; rfl
    · unfold int64Min int64Max; omega
  · rw [e2 _ (by rw [Int.natAbs_natCast]; exact whole_two_pow 62) (by decide)]
    decide
  · intro j hj
    have := hp j hj
    show ((2 ^ j : Nat) : Int) ≤ hi
    omega

/-- The same from -1 on, whatever the maximum is: the values never come to it. -/
theorem C84_negative_doubling_overflows : ∃ f, parseStepText c!"x * 2" = .ok f ∧
    ∀ hi fuel, -1 ≤ hi → 63 < fuel → rangeLoop (ieee pow) (some f) hi fuel (-1) [] = .crash := by
  obtain ⟨f, e1, e2⟩ := next_double (pow := pow)
  have hp : ∀ j, j ≤ 63 → 2 ^ j ≤ 2 ^ 63 := fun j hj => Nat.pow_le_pow_right (by decide) hj
  refine ⟨f, e1, fun hi fuel hh hf => crash_after (x := fun j => -((2 ^ j : Nat) : Int)) (J := 63) ?_ ?_ ?_ fuel hf⟩
  · intro j hj
    have := hp (j + 1) (by omega)
    rw [Nat.pow_succ] at this
    rw [e2 _ (by rw [Int.natAbs_neg, Int.natAbs_natCast]; exact whole_two_pow j)
      (by rw [Int.natAbs_neg, Int.natAbs_natCast]; omega), if_pos]
    · rw [Nat.pow_succ]; push_cast; congr 1; omega
    · unfold int64Min int64Max; omega
  · rw [e2 _ (by rw [Int.natAbs_neg, Int.natAbs_natCast]; exact whole_two_pow 63) (by decide)]
    decide
  · intro j hj
    have := Nat.two_pow_pos j
    show -((2 ^ j : Nat) : Int) ≤ hi
    omega

/-! ## The hypotheses are met -/

theorem step_text_of {s a b : Str} {c : Char} {op : StepOp} (h : s = a ++ [' '] ++ [c] ++ [' '] ++ b) (ho : OpChar c op) :
    StepText s a op b :=
  ⟨[], [' '], [' '], [], c, [], by simp [h], by simp [Blank], by simp [Blank], by simp [Blank], by simp [Blank], ho, .inl rfl⟩

example : ∃ f, parseStepText c!"10 + x" = .ok f ∧ RangeIs somePow f (-5) 27 (fun v => ∃ i : Nat, v = -5 + i * (10 : Nat)) :=
  C84_sum_partial (step_text_of (by decide) .add)
    (.inr ⟨.int (ds := c!"10") (by simp) (by decide), ⟨'x', [], rfl, by decide, by simp⟩⟩) (k := 10) (by decide) (by decide) (by decide)
    (by decide) (by decide)

example : ∃ f, parseStepText c!"n * 2.0" = .ok f ∧ RangeIs somePow f 3 100 (fun v => ∃ i : Nat, v = 3 * ((2 : Nat) : Int) ^ i) :=
  C84_product_partial (step_text_of (by decide) .mul)
    (.inl ⟨⟨'n', [], rfl, by decide, by simp⟩, .point (is := c!"2") (fs := c!"0") (by simp) (by decide) (by decide)⟩) (k := 2)
    (by decide) (by decide) (by decide) (by decide) (by decide)

example : ∃ f, parseStepText c!"x ^ 2" = .ok f ∧ RangeIs somePow f (2 : Nat) (1000 : Nat) (fun v => ∃ i : Nat, v = ((2 : Nat) : Int) ^ (2 ^ i)) :=
  C84_power_partial somePow_exact (step_text_of (by decide) .pow) ⟨'x', [], rfl, by decide, by simp⟩
    (.int (ds := c!"2") (by simp) (by decide)) (k := 2) (by decide) (by decide) (by decide) (by decide) (by decide)

example : ∃ f, parseStepText c!"2 ^ x" = .ok f ∧ RangeIs somePow f (0 : Nat) (20 : Nat) (Tower 2 0) :=
  C84_exponential_partial somePow_exact (step_text_of (by decide) .pow) (.int (ds := c!"2") (by simp) (by decide))
    ⟨'x', [], rfl, by decide, by simp⟩ (k := 2) (by decide) (by decide) (by decide) (by decide)

/-- `x + 1.5` steps by 1, and `x + 0.5` does not step at all. -/
theorem C84_one_and_a_half :
    (∃ f, parseStepText c!"x + 1.5" = .ok f ∧ RangeIs pow f 0 9 (fun v => ∃ i : Nat, v = 0 + i * ((1 : Nat) : Int))) ∧
    ∃ f, parseStepText c!"x + 0.5" = .ok f ∧ ∀ fuel, rangeLoop (ieee pow) (some f) 9 fuel 0 [] = .endless :=
  ⟨C84_fraction_is_dropped (step_text_of (by decide) .add)
    (.inl ⟨⟨'x', [], rfl, by decide, by simp⟩, .point (is := c!"1") (fs := c!"5") (by simp) (by decide) (by decide)⟩)
    (by decide) (by decide) (by decide) (by decide) (by decide) (by decide),
   C84_small_step_never_ends (step_text_of (by decide) .add)
    (.inl ⟨⟨'x', [], rfl, by decide, by simp⟩, .point (is := c!"0") (fs := c!"5") (by simp) (by decide) (by decide)⟩)
    (by decide) (by decide) (by decide) (by decide)⟩

end Verif.Props

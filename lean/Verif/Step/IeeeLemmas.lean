import Verif.Step.Ieee
import Verif.Step.Spec
import Verif.Solver.Spec
/-! # Steps computed with doubles: lemmas -/

namespace Verif
open Spec

/-- Rounding does not leave bounds that are doubles. -/
theorem Spec.NearestDouble.le {n d x y : Nat} (hd : 0 < d) (h : NearestDouble n d x) (hy : IsDouble y)
    (hle : n * onesUnits ≤ y * d) : x ≤ y := by
  rcases Nat.lt_or_ge y x with hlt | hge
  · have h1 := h.near y hy
    have h2 : y * d < x * d := Nat.mul_lt_mul_of_pos_right hlt hd
    unfold dist at h1
    omega
  · exact hge

theorem Spec.NearestDouble.ge {n d x y : Nat} (hd : 0 < d) (h : NearestDouble n d x) (hy : IsDouble y)
    (hle : y * d ≤ n * onesUnits) : y ≤ x := by
  rcases Nat.lt_or_ge x y with hlt | hge
  · have h1 := h.near y hy
    have h2 : x * d < y * d := Nat.mul_lt_mul_of_pos_right hlt hd
    unfold dist at h1
    omega
  · exact hge

theorem nearestDouble_exact {n d y : Nat} (hd : 0 < d) (hy : IsDouble y) (h : n * onesUnits = y * d) :
    nearestDouble n d = y :=
  Nat.le_antisymm ((nearestDouble_nearest n hd).le hd hy (Nat.le_of_eq h))
    ((nearestDouble_nearest n hd).ge hd hy (Nat.le_of_eq h.symm))

/-- Integers that are doubles. -/
def Whole (n : Nat) : Prop := ∃ q k, q < 2 ^ 53 ∧ n = q * 2 ^ k

theorem Whole.double {n : Nat} (h : Whole n) : IsDouble (n * onesUnits) := by
  obtain ⟨u, hu⟩ := onesUnits_pow
  obtain ⟨q, k, h1, rfl⟩ := h
  exact ⟨q, k + u, h1, by rw [hu, Nat.mul_assoc, ← Nat.pow_add]⟩

theorem whole_small {n : Nat} (h : n ≤ 2 ^ 53) : Whole n := by
  rcases Nat.lt_or_ge n (2 ^ 53) with h' | h'
  · exact ⟨n, 0, h', by simp⟩
  · exact ⟨1, 53, by decide, by rw [Nat.one_mul]; omega⟩

theorem whole_shift {n : Nat} (h : Whole n) (j : Nat) : Whole (n * 2 ^ j) := by
  obtain ⟨q, k, h1, rfl⟩ := h
  exact ⟨q, k + j, h1, by rw [Nat.mul_assoc, ← Nat.pow_add]⟩

set_option exponentiation.threshold 2100 in
theorem onesUnits_even : ∃ u : Nat, onesUnits = 2 ^ (u + 1) := ⟨1073, by unfold onesUnits; rfl⟩

/-- Half a unit beside an integer below `2 ^ 52` is a double. -/
theorem half_double {n : Nat} (h : n < 2 ^ 52) : ∃ y, IsDouble y ∧ 2 * y = (2 * n + 1) * onesUnits := by
  obtain ⟨u, hu⟩ := onesUnits_even
  refine ⟨(2 * n + 1) * 2 ^ u, ⟨2 * n + 1, u, by omega, rfl⟩, ?_⟩
  rw [hu, Nat.pow_succ]
  ac_rfl

theorem signed_rounded {z : Int} {n d : Nat} (hd : 0 < d) (hz : Whole z.natAbs) (hs : z.natAbs < 2 ^ 1024)
    (h : n = z.natAbs * d) : Dbl.rounded (decide (z < 0)) n d = .fin (z * onesUnits) := by
  have e : nearestDouble n d = z.natAbs * onesUnits :=
    nearestDouble_exact hd hz.double (by rw [h, Nat.mul_assoc, Nat.mul_assoc, Nat.mul_comm d])
  unfold Dbl.rounded
  rw [e, if_neg (Nat.not_le.2 (Nat.mul_lt_mul_of_pos_right hs onesUnits_pos))]
  congr 1
  by_cases h0 : z < 0
  · simp only [h0, decide_true, if_true]
    rw [Int.natCast_mul, ← Int.neg_mul]
    congr 1
    omega
  · simp only [h0, decide_false, Bool.false_eq_true, if_false]
    rw [Int.natCast_mul]
    congr 1
    omega

set_option exponentiation.threshold 2100 in
theorem small_lt {n : Nat} (h : n ≤ 2 ^ 64) : n < 2 ^ 1024 :=
  Nat.lt_of_le_of_lt h (Nat.pow_lt_pow_right (by decide) (by decide))

theorem ofInt_whole {z : Int} (hz : Whole z.natAbs) (hs : z.natAbs ≤ 2 ^ 64) : Dbl.ofInt z = .fin (z * onesUnits) :=
  signed_rounded Nat.one_pos hz (small_lt hs) (Nat.mul_one _).symm

theorem ofDecimal_whole {d : Decimal} {k : Nat} (hk : Whole k) (hs : k ≤ 2 ^ 64) (h : d.mantissa = k * 10 ^ d.scale) :
    Dbl.ofDecimal d = .fin ((k : Int) * onesUnits) := by
  have := signed_rounded (z := (k : Int)) (n := d.mantissa) (d := 10 ^ d.scale) (Nat.pow_pos (by decide)) hk (small_lt hs) h
  have h0 : decide ((k : Int) < 0) = false := by simp
  rw [h0] at this
  exact this

theorem units_neg {z : Int} : (z * (onesUnits : Int) < 0) ↔ z < 0 := by
  have := onesUnits_pos
  constructor
  · intro h
    rcases Int.lt_or_le z 0 with h' | h'
    · exact h'
    · have := Int.mul_nonneg h' (Int.natCast_nonneg onesUnits)
      omega
  · intro h
    exact Int.mul_neg_of_neg_of_pos h (by omega)

theorem add_whole {x y : Int} (hz : Whole (x + y).natAbs) (hs : (x + y).natAbs ≤ 2 ^ 64) :
    Dbl.add (.fin (x * onesUnits)) (.fin (y * onesUnits)) = .fin ((x + y) * onesUnits) := by
  show Dbl.rounded (decide (x * onesUnits + y * onesUnits < 0)) (x * onesUnits + y * onesUnits).natAbs onesUnits = _
  rw [← Int.add_mul, decide_eq_decide.2 units_neg]
  exact signed_rounded onesUnits_pos hz (small_lt hs) (by rw [Int.natAbs_mul, Int.natAbs_natCast])

theorem mul_whole {x y : Int} (hz : Whole (x * y).natAbs) (hs : (x * y).natAbs ≤ 2 ^ 64) :
    Dbl.mul (.fin (x * onesUnits)) (.fin (y * onesUnits)) = .fin ((x * y) * onesUnits) := by
  show Dbl.rounded (decide (x * onesUnits * (y * onesUnits) < 0)) (x * onesUnits * (y * onesUnits)).natAbs (onesUnits * onesUnits) = _
  have e : x * (onesUnits : Int) * (y * onesUnits) = x * y * onesUnits * onesUnits := by ac_rfl
  rw [e, decide_eq_decide.2 (units_neg.trans units_neg)]
  exact signed_rounded (Nat.mul_pos onesUnits_pos onesUnits_pos) hz (small_lt hs)
    (by rw [Int.natAbs_mul, Int.natAbs_mul, Int.natAbs_natCast, Nat.mul_assoc])

theorem toInt_whole {z : Int} (h : int64Min ≤ z ∧ z ≤ int64Max) : Dbl.toInt (.fin (z * onesUnits)) = some z := by
  have e : (z * (onesUnits : Int)).tdiv onesUnits = z := Int.mul_tdiv_cancel _ (by have := onesUnits_pos; omega)
  show (if _ then _ else _) = _
  rw [e, if_pos h]

theorem toInt_out {z : Int} (h : ¬ (int64Min ≤ z ∧ z ≤ int64Max)) : Dbl.toInt (.fin (z * onesUnits)) = none := by
  have e : (z * (onesUnits : Int)).tdiv onesUnits = z := Int.mul_tdiv_cancel _ (by have := onesUnits_pos; omega)
  show (if _ then _ else _) = _
  rw [e, if_neg h]

/-! ## Fractions -/

theorem tdiv_between {u : Nat} {n : Nat} (h1 : n * onesUnits ≤ u) (h2 : u < (n + 1) * onesUnits) :
    (u : Int).tdiv onesUnits = n := by
  have : u / onesUnits = n := by
    apply Nat.div_eq_of_lt_le
    · exact h1
    · exact h2
  rw [← Int.ofNat_tdiv, this]

set_option exponentiation.threshold 2100 in
/-- A constant between `k` and `k + 1/2` stays there. -/
theorem ofDecimal_between {d : Decimal} {k : Nat} (hk : k < 2 ^ 52) (h1 : k * 10 ^ d.scale ≤ d.mantissa)
    (h2 : 2 * d.mantissa ≤ (2 * k + 1) * 10 ^ d.scale) :
    ∃ u : Nat, Dbl.ofDecimal d = .fin u ∧ k * onesUnits ≤ u ∧ 2 * u ≤ (2 * k + 1) * onesUnits := by
  have hp : 0 < 10 ^ d.scale := Nat.pow_pos (by decide)
  have hn := nearestDouble_nearest d.mantissa hp
  obtain ⟨y, hy, ey⟩ := half_double hk
  have hge := hn.ge hp (whole_small (n := k) (by omega)).double (by
    calc k * onesUnits * 10 ^ d.scale = (k * 10 ^ d.scale) * onesUnits := by ac_rfl
      _ ≤ _ := Nat.mul_le_mul_right _ h1)
  have hle := hn.le hp hy (by
    have : 2 * (d.mantissa * onesUnits) ≤ 2 * (y * 10 ^ d.scale) := by
      calc 2 * (d.mantissa * onesUnits) = 2 * d.mantissa * onesUnits := by ac_rfl
        _ ≤ (2 * k + 1) * 10 ^ d.scale * onesUnits := Nat.mul_le_mul_right _ h2
        _ = (2 * k + 1) * onesUnits * 10 ^ d.scale := by ac_rfl
        _ = 2 * (y * 10 ^ d.scale) := by rw [← ey]; ac_rfl
    omega)
  refine ⟨nearestDouble d.mantissa (10 ^ d.scale), ?_, hge, by omega⟩
  unfold Dbl.ofDecimal Dbl.rounded
  rw [if_neg]
  · rfl
  · have hb : 2 * k + 1 < 2 ^ 1024 := Nat.lt_of_lt_of_le (show 2 * k + 1 < 2 ^ 54 by omega) (Nat.pow_le_pow_right (by decide) (by decide))
    have : (2 * k + 1) * onesUnits < 2 ^ 1024 * onesUnits := Nat.mul_lt_mul_of_pos_right hb onesUnits_pos
    omega

set_option exponentiation.threshold 2100 in
theorem add_between {x k u : Nat} (hx : x + k < 2 ^ 52) (h1 : k * onesUnits ≤ u) (h2 : 2 * u ≤ (2 * k + 1) * onesUnits) :
    Dbl.toInt (Dbl.add (.fin ((x : Int) * onesUnits)) (.fin u)) = some ((x : Int) + k) := by
  have hn := nearestDouble_nearest (x * onesUnits + u) onesUnits_pos
  obtain ⟨y, hy, ey⟩ := half_double hx
  have hge := hn.ge onesUnits_pos (whole_small (n := x + k) (by omega)).double
    (Nat.mul_le_mul_right _ (by rw [Nat.add_mul]; omega))
  have hle := hn.le onesUnits_pos hy (Nat.mul_le_mul_right _ (by
    have e1 : (2 * (x + k) + 1) * onesUnits = 2 * (x * onesUnits) + (2 * k + 1) * onesUnits := by
      rw [← Nat.mul_assoc, ← Nat.add_mul]; congr 1; omega
    omega))
  have e : Dbl.add (.fin ((x : Int) * onesUnits)) (.fin u) = .fin (nearestDouble (x * onesUnits + u) onesUnits : Nat) := by
    show Dbl.rounded (decide ((x : Int) * onesUnits + u < 0)) ((x : Int) * onesUnits + u).natAbs onesUnits = _
    have e1 : (x : Int) * onesUnits + u = ((x * onesUnits + u : Nat) : Int) := by push_cast; rfl
    rw [e1, Int.natAbs_natCast]
    have h0 : decide (((x * onesUnits + u : Nat) : Int) < 0) = false := by simp; omega
    rw [h0]
    unfold Dbl.rounded
    rw [if_neg]
    · rfl
    · have hb : 2 * (x + k) + 1 < 2 ^ 1024 :=
        Nat.lt_of_lt_of_le (show 2 * (x + k) + 1 < 2 ^ 54 by omega) (Nat.pow_le_pow_right (by decide) (by decide))
      have : (2 * (x + k) + 1) * onesUnits < 2 ^ 1024 * onesUnits := Nat.mul_lt_mul_of_pos_right hb onesUnits_pos
      omega
  rw [e]
  have ht := tdiv_between hge (u := nearestDouble (x * onesUnits + u) onesUnits) (by
    have e1 : 2 * ((x + k + 1) * onesUnits) = (2 * (x + k) + 1) * onesUnits + onesUnits := by
      rw [← Nat.succ_mul, ← Nat.mul_assoc]; congr 1
    have := onesUnits_pos
    omega)
  show (if _ then _ else _) = _
  rw [ht, if_pos]
  · push_cast; rfl
  · unfold int64Min int64Max
    omega

/-! ## Orbits of increasing steps -/

/-- `g` applied `n` times. -/
def iterOf (g : Int → Int) : Nat → Int → Int
  | 0, x => x
  | n + 1, x => g (iterOf g n x)

theorem iter_ge {g : Int → Int} {lo : Int} (h : ∀ x, lo ≤ x → x < g x) (i : Nat) : lo ≤ iterOf g i lo := by
  induction i with
  | zero => exact Int.le_refl _
  | succ i ih => have := h _ ih; rw [iterOf]; omega

theorem orbit_iter {s : Int → Option Int} {g : Int → Int} {lo hi : Int} (hg : ∀ x, lo ≤ x → x < g x)
    (h : ∀ x, lo ≤ x → x ≤ hi → s x = some (g x)) (v : Int) :
    Orbit s lo hi v ↔ ∃ i, v = iterOf g i lo ∧ v ≤ hi := by
  constructor
  · intro ho
    have : (∃ i, v = iterOf g i lo ∧ v ≤ hi) ∧ lo ≤ v := by
      induction ho with
      | start hle => exact ⟨⟨0, rfl, hle⟩, Int.le_refl _⟩
      | @step x y hx hs hy ih =>
        obtain ⟨⟨i, hi1, hi2⟩, hlo⟩ := ih
        rw [h x hlo hi2] at hs
        cases hs
        have := hg x hlo
        exact ⟨⟨i + 1, by rw [iterOf, ← hi1], hy⟩, by omega⟩
    exact this.1
  · rintro ⟨i, rfl, hv⟩
    induction i with
    | zero => exact .start hv
    | succ i ih =>
      have h1 := iter_ge hg i
      have h2 := hg _ h1
      rw [iterOf] at hv
      exact .step (ih (by omega)) (h _ h1 (by omega)) hv

end Verif

import Verif.Step.Text
/-!
# Property C86: step functions printed and read back
-/

namespace Verif.Props
open Spec

/-- A step function of a variable and a constant, on either side of the operator. -/
inductive StepOf (a : Str) (op : StepOp) (k : Dbl) : DStepFn → Prop
  | right : StepOf a op k ⟨.var a, op, .num k⟩
  | left : StepOf a op k ⟨.num k, op, .var a⟩

/-- A step function whose constant is printed as a number of hundredths is read as the one with that constant. -/
theorem stepOf_reads {a : Str} {op : StepOp} {k : Dbl} {f : DStepFn} (ha : StepIdent a) (h : StepOf a op k f) (m : Nat)
    (hk : fixedText k = hundredths m) :
    ∃ t f', f.text = some t ∧ TextOf t f' ∧ (∀ f'', TextOf t f'' → f'' = f') ∧
      (f = ⟨.var a, op, .num k⟩ → f' = ⟨.var a, op, .num (.ofDecimal ⟨m, 2⟩)⟩) ∧
      (f = ⟨.num k, op, .var a⟩ → f' = ⟨.num (.ofDecimal ⟨m, 2⟩), op, .var a⟩) := by
  have hc : Constant (hundredths m) (some ⟨m, 2⟩) := hundredths_decimal m
  cases h with
  | right =>
    have hp : parseStepText (a ++ [' ', op.char, ' '] ++ hundredths m) = .ok ⟨.var a, op, .num (some ⟨m, 2⟩)⟩ :=
      parse_complete (.varNum (stepText_char a _ op) ha (hundredths_numeric m) hc)
    refine ⟨_, ⟨.var a, op, .num (.ofDecimal ⟨m, 2⟩)⟩, by simp only [DStepFn.text, hk], ⟨_, hp, rfl⟩, ?_,
      (fun _ => rfl), (fun e => by cases e)⟩
    rintro f'' ⟨g, hg, hs⟩
    rw [hp] at hg
    cases hg
    cases hs
    rfl
  | left =>
    have hp : parseStepText (hundredths m ++ [' ', op.char, ' '] ++ a) = .ok ⟨.num (some ⟨m, 2⟩), op, .var a⟩ :=
      parse_complete (.numVar (stepText_char _ a op) (hundredths_numeric m) ha hc)
    refine ⟨_, ⟨.num (.ofDecimal ⟨m, 2⟩), op, .var a⟩, by simp only [DStepFn.text, hk], ⟨_, hp, rfl⟩, ?_,
      (fun e => by cases e), (fun _ => rfl)⟩
    rintro f'' ⟨g, hg, hs⟩
    rw [hp] at hg
    cases hg
    cases hs
    rfl

/-- The text of a step function with a non-negative constant: the variable, the operator and the constant in the
    order of the operands, the constant as the nearest number with two digits after the point. -/
theorem C86_text {a : Str} {op : StepOp} {u : Nat} :
    ∃ m s, NearestInt (u * 100) onesUnits m ∧ DecimalText s ⟨m, 2⟩ ∧
      (∃ is fs, s = is ++ '.' :: fs ∧ is ≠ [] ∧ fs.length = 2) ∧
      ∃ c, OpChar c op ∧ DStepFn.text ⟨.var a, op, .num (.fin u)⟩ = some (a ++ [' ', c, ' '] ++ s) ∧
        DStepFn.text ⟨.num (.fin u), op, .var a⟩ = some (s ++ [' ', c, ' '] ++ a) := by
  have e : fixedText (.fin u) = hundredths (roundEven (u * 100) onesUnits) := by
    have : ¬ ((u : Int) < 0) := by omega
    simp [fixedText, this]
  exact ⟨_, hundredths _, roundEven_nearest _ onesUnits_pos, hundredths_decimal _,
    ⟨_, _, rfl, natText_ne_nil _, rfl⟩, op.char, opChar_char op, by simp only [DStepFn.text, e],
    by simp only [DStepFn.text, e]⟩

/-- Printed and read back a step function is the same exactly if its constant is the double nearest to some number with
    two digits after the point. -/
theorem C86_read_back_iff {a : Str} {op : StepOp} {k : Dbl} {f : DStepFn} (ha : StepIdent a) (h : StepOf a op k f) :
    (∃ t, f.text = some t ∧ TextOf t f) ↔ ∃ m u, k = .ofDecimal ⟨m, 2⟩ ∧ k = .fin u := by
  have neg : ∀ {w : Str}, fixedText k = w → parseStepText (a ++ [' ', op.char, ' '] ++ w) = .null →
      parseStepText (w ++ [' ', op.char, ' '] ++ a) = .null → ¬ ∃ t, f.text = some t ∧ TextOf t f := by
    rintro w hw h1 h2 ⟨t, ht, g, hg, _⟩
    cases h with
    | right => simp only [DStepFn.text, hw, Option.some.injEq] at ht; subst ht; rw [h1] at hg; cases hg
    | left => simp only [DStepFn.text, hw, Option.some.injEq] at ht; subst ht; rw [h2] at hg; cases hg
  cases k with
  | nan =>
    have hi : StepIdent c!"nan" := ⟨'n', ['a', 'n'], rfl, by decide, by simp; decide⟩
    refine iff_of_false (neg rfl (parse_two_idents (stepText_char _ _ _) ha hi)
      (parse_two_idents (stepText_char _ _ _) hi ha)) ?_
    rintro ⟨_, _, _, e⟩
    cases e
  | inf s =>
    have hi : StepIdent c!"INF" := ⟨'I', ['N', 'F'], rfl, by decide, by simp; decide⟩
    refine iff_of_false (neg rfl (parse_two_idents (stepText_char _ _ _) ha hi)
      (parse_two_idents (stepText_char _ _ _) hi ha)) ?_
    rintro ⟨_, _, _, e⟩
    cases e
  | fin u =>
    rcases Int.lt_or_le u 0 with hu | hu
    · refine iff_of_false ?_ ?_
      · have e : fixedText (.fin u) = '-' :: hundredths (roundEven (u.natAbs * 100) onesUnits) := by
          simp [fixedText, hu]
        have hch : ∀ c, (c = Char.ofNat 0 ∨ c = Char.ofNat 255) → c ∉ a ∧ c ≠ ' ' ∧ c ≠ op.char ∧ c ≠ '-' ∧
            c ∉ hundredths (roundEven (u.natAbs * 100) onesUnits) := by
          intro c hc
          refine ⟨?_, ?_, ?_, ?_, ?_⟩
          · intro hx
            obtain ⟨x, xs, rfl, h1, h2⟩ := ha
            rcases List.mem_cons.1 hx with rfl | hx
            · rcases hc with rfl | rfl <;> revert h1 <;> decide
            · rcases h2 _ hx with h2 | h2 <;> rcases hc with rfl | rfl <;> revert h2 <;> decide
          · rcases hc with rfl | rfl <;> decide
          · rcases hc with rfl | rfl <;> cases op <;> decide
          · rcases hc with rfl | rfl <;> decide
          · intro hx
            rcases (hundredths_numeric _).2 _ hx with h2 | h2 <;> rcases hc with rfl | rfl <;> revert h2 <;> decide
        refine neg e (parse_minus (by simp) ?_ ?_) (parse_minus (by simp) ?_ ?_)
        · have := hch _ (.inl rfl); simp only [List.mem_append, List.mem_cons, List.not_mem_nil, or_false]
          simp [this]
        · have := hch _ (.inr rfl); simp only [List.mem_append, List.mem_cons, List.not_mem_nil, or_false]
          simp [this]
        · have := hch _ (.inl rfl); simp only [List.mem_append, List.mem_cons, List.not_mem_nil, or_false]
          simp [this]
        · have := hch _ (.inr rfl); simp only [List.mem_append, List.mem_cons, List.not_mem_nil, or_false]
          simp [this]
      · rintro ⟨m, v, e, _⟩
        have := (ofDecimal_fin e.symm).1
        omega
    · obtain ⟨x, rfl⟩ : ∃ x : Nat, u = x := ⟨u.toNat, by omega⟩
      have e : fixedText (.fin x) = hundredths (roundEven (x * 100) onesUnits) := by
        have : ¬ ((x : Int) < 0) := by omega
        simp [fixedText, this]
      obtain ⟨t, f', ht, hf', huniq, h1, h2⟩ := stepOf_reads ha h _ e
      constructor
      · rintro ⟨t', ht', hf⟩
        rw [ht] at ht'
        cases ht'
        have hff := huniq _ hf
        cases h with
        | right => rw [h1 rfl] at hff; simp only [DStepFn.mk.injEq, DOperand.num.injEq] at hff; exact ⟨_, _, hff.2.2, rfl⟩
        | left => rw [h2 rfl] at hff; simp only [DStepFn.mk.injEq, DOperand.num.injEq] at hff; exact ⟨_, _, hff.1, rfl⟩
      · rintro ⟨m, v, hm, _⟩
        obtain ⟨hx, hlt⟩ := ofDecimal_fin hm.symm
        have hx' : nearestDouble m 100 = x := by
          have : (x : Int) = (nearestDouble m 100 : Nat) := hx
          omega
        have hlt' : x < 2 ^ 1024 * onesUnits := by rw [← hx']; exact hlt
        have hb : Dbl.ofDecimal ⟨roundEven (x * 100) onesUnits, 2⟩ = .fin x :=
          ofDecimal_of (hundredth_again hx') hlt'
        refine ⟨t, ht, ?_⟩
        cases h with
        | right => rw [h1 rfl, hb] at hf'; exact hf'
        | left => rw [h2 rfl, hb] at hf'; exact hf'

/-- So it is for every text that was read whose constant has at most two digits after the point, if it does not
    overflow: reading, printing and reading again gives the same function. -/
theorem C86_read_print_read_partial {s a : Str} {op : StepOp} {d : Decimal} {u : Int} (ha : StepIdent a)
    (hd : d.scale ≤ 2) (hu : Dbl.ofDecimal d = .fin u) {g : StepFn} (hs : parseStepText s = .ok g)
    (hg : g = ⟨.var a, op, .num (some d)⟩ ∨ g = ⟨.num (some d), op, .var a⟩) :
    ∃ f t, g.stored = some f ∧ TextOf s f ∧ f.text = some t ∧ TextOf t f := by
  obtain ⟨m, hm⟩ := ofDecimal_hundredth hd
  have key : ∀ f, StepOf a op (.ofDecimal d) f → ∃ t, f.text = some t ∧ TextOf t f := fun f hf =>
    (C86_read_back_iff ha hf).2 ⟨m, u, hm, hu⟩
  rcases hg with rfl | rfl
  · obtain ⟨t, h1, h2⟩ := key _ .right
    exact ⟨_, t, rfl, ⟨_, hs, rfl⟩, h1, h2⟩
  · obtain ⟨t, h1, h2⟩ := key _ .left
    exact ⟨_, t, rfl, ⟨_, hs, rfl⟩, h1, h2⟩

example : parseStepText c!"x + 0.25" = .ok ⟨.var c!"x", .addition, .num (some ⟨25, 2⟩)⟩ := by decide

/-- From `2 ^ 46` on every double is kept. -/
theorem C86_large {a : Str} {op : StepOp} {u : Nat} {f : DStepFn} (ha : StepIdent a) (hu : IsDouble u)
    (hl : 2 ^ 46 * onesUnits ≤ u) (hf : u < 2 ^ 1024 * onesUnits) (h : StepOf a op (.fin u) f) :
    ∃ t, f.text = some t ∧ TextOf t f :=
  (C86_read_back_iff ha h).2 ⟨_, u, (ofDecimal_of (d := ⟨_, 2⟩) (nearest_large hu hl) hf).symm, rfl⟩

set_option exponentiation.threshold 2100 in
/-- For every non-negative finite constant the printed text can be read, and printing and reading once more changes
    nothing. -/
theorem C86_second_time {a : Str} {op : StepOp} {u : Nat} {f : DStepFn} (ha : StepIdent a) (hu : IsDouble u)
    (hf : u < 2 ^ 1024 * onesUnits) (h : StepOf a op (.fin u) f) :
    ∃ t f', f.text = some t ∧ TextOf t f' ∧ f'.text = some t := by
  have e : ∀ x : Nat, fixedText (.fin x) = hundredths (roundEven (x * 100) onesUnits) := fun x => by
    have : ¬ ((x : Int) < 0) := by omega
    simp [fixedText, this]
  obtain ⟨t, f', ht, hf', -, h1, h2⟩ := stepOf_reads ha h _ (e u)
  have hfin : nearestDouble (roundEven (u * 100) onesUnits) 100 < 2 ^ 1024 * onesUnits := by
    rcases Nat.lt_or_ge u (2 ^ 46 * onesUnits) with hs | hs
    · exact Nat.lt_of_lt_of_le ((hundredths_again hu).2 hs)
        (Nat.mul_le_mul_right _ (Nat.pow_le_pow_right (by decide) (by decide)))
    · rw [nearest_large hu hs]; exact hf
  have hb : fixedText (.ofDecimal ⟨roundEven (u * 100) onesUnits, 2⟩) = hundredths (roundEven (u * 100) onesUnits) := by
    rw [ofDecimal_of (d := ⟨roundEven (u * 100) onesUnits, 2⟩) rfl hfin, e]
    exact congrArg hundredths (hundredths_again hu).1
  refine ⟨t, f', ht, hf', ?_⟩
  cases h with
  | right =>
    rw [h1 rfl]
    rw [← ht]
    simp only [DStepFn.text, hb, e]
  | left =>
    rw [h2 rfl]
    rw [← ht]
    simp only [DStepFn.text, hb, e]

set_option exponentiation.threshold 2100 in
/-- The claim is false: every positive constant below `1 / 200` is printed as `0.00` and read back as zero. -/
theorem C86_small_constant_is_lost {a : Str} {op : StepOp} {u : Nat} (ha : StepIdent a)
    (hs : 200 * u < onesUnits) :
    ∃ t, DStepFn.text ⟨.var a, op, .num (.fin u)⟩ = some t ∧ t = a ++ [' ', op.char, ' '] ++ c!"0.00" ∧
      TextOf t ⟨.var a, op, .num (.fin 0)⟩ := by
  have h0 : roundEven (u * 100) onesUnits = 0 := by
    apply roundEven_unique
    unfold dist
    omega
  have e : fixedText (.fin u) = hundredths 0 := by
    have : ¬ ((u : Int) < 0) := by omega
    simp [fixedText, this, h0]
  obtain ⟨t, f', ht, hf', -, h1, -⟩ := stepOf_reads ha (.right (op := op) (k := .fin u)) _ e
  have hz : nearestDouble 0 100 = 0 := nearestDouble_exact (by decide) ⟨0, 0, by decide, rfl⟩ (by omega)
  have hb : Dbl.ofDecimal ⟨0, 2⟩ = .fin 0 :=
    ofDecimal_of (d := ⟨0, 2⟩) (x := 0) hz (Nat.mul_pos (Nat.pow_pos (by decide)) onesUnits_pos)
  rw [h1 rfl, hb] at hf'
  refine ⟨t, ht, ?_, hf'⟩
  simp only [DStepFn.text, e, Option.some.injEq] at ht
  rw [← ht, show hundredths 0 = c!"0.00" by rw [hundredths, natText]; decide]

set_option exponentiation.threshold 2100 in
/-- Such a constant: the one of `x + 0.001`. -/
example : ∃ u : Nat, Dbl.ofDecimal ⟨1, 3⟩ = .fin u ∧ 0 < u ∧ 200 * u < onesUnits := by
  have hn := nearestDouble_nearest 1 (d := 1000) (by decide)
  obtain ⟨v, hv⟩ := onesUnits_128
  obtain ⟨w, hw⟩ : ∃ w, v = w + 10 := by
    refine ⟨v - 10, ?_⟩
    rcases Nat.lt_or_ge v 10 with h | h
    · exfalso
      have h1 : (2 : Nat) ^ v < 2 ^ 10 := Nat.pow_lt_pow_right (by decide) h
      have h2 : onesUnits < 2 ^ 17 := by omega
      have h3 : 2 ^ 17 ≤ onesUnits := by
        obtain ⟨z, hz⟩ : ∃ z : Nat, onesUnits = 2 ^ (17 + z) := ⟨1057, by unfold onesUnits; rfl⟩
        rw [hz]; exact Nat.pow_le_pow_right (by decide) (by omega)
      omega
    · omega
  have hG : 0 < 2 ^ w := Nat.pow_pos (by decide)
  have hv' : onesUnits = 131072 * 2 ^ w := by rw [hv, hw, Nat.pow_add]; omega
  have lo := hn.ge (y := 131 * 2 ^ w) (by decide) ⟨131, w, by decide, rfl⟩ (by rw [hv']; omega)
  have hi := hn.le (y := 132 * 2 ^ w) (by decide) ⟨132, w, by decide, rfl⟩ (by rw [hv']; omega)
  refine ⟨nearestDouble 1 1000, ofDecimal_of (d := ⟨1, 3⟩) rfl ?_, by omega, by omega⟩
  refine Nat.lt_of_lt_of_le (m := 1 * onesUnits) (by show nearestDouble 1 1000 < _; omega) (Nat.mul_le_mul_right _ (Nat.pow_pos (by decide)))

/-- Negative, infinite and undefined constants, which `StepFunction` accepts, cannot be read back. -/
theorem C86_not_a_number {a : Str} {op : StepOp} {k : Dbl} {f : DStepFn} (ha : StepIdent a) (h : StepOf a op k f)
    (hk : ∀ u : Nat, k ≠ .fin u) : ¬ ∃ t, f.text = some t ∧ TextOf t f := by
  rw [C86_read_back_iff ha h]
  rintro ⟨m, u, h1, h2⟩
  have := (ofDecimal_fin (h1 ▸ h2)).1
  exact hk _ (h2.trans (congrArg _ this))

example : ∀ u : Nat, Dbl.fin (-5) ≠ .fin u := fun u e => by cases e

end Verif.Props

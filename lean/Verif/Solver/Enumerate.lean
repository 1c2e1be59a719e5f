import Verif.Solver.Apply
import Verif.Props.Configuration
/-!
# Enumerating configurations
-/

namespace Verif
open Verif.Spec Verif.FModel Verif.Z3Solver

/-! ### Lists -/

theorem length_le_of_nodup_subset {α} [DecidableEq α] {l l' : List α} (h : l.Nodup) (hs : ∀ x ∈ l, x ∈ l') : l.length ≤ l'.length := by
  induction l generalizing l' with
  | nil => simp
  | cons x xs ih =>
    have hn := List.nodup_cons.1 h
    have hx := hs x (List.mem_cons_self ..)
    have : xs.length ≤ (l'.erase x).length := by
      refine ih hn.2 ?_
      intro y hy
      refine (List.mem_erase_of_ne ?_).2 (hs y (List.mem_cons_of_mem _ hy))
      rintro rfl
      exact hn.1 hy
    have h2 := List.length_erase_of_mem hx
    have h3 := List.length_pos_of_mem hx
    simp only [List.length_cons]
    omega

theorem filter_length_lt {α} {p : α → Bool} {l : List α} {x : α} (hx : x ∈ l) (hp : p x = false) :
    (l.filter p).length < l.length := by
  induction l with
  | nil => cases hx
  | cons y ys ih =>
    rcases List.mem_cons.1 hx with rfl | hx
    · rw [List.filter_cons_of_neg (by simp [hp])]
      have := List.length_filter_le p ys
      simp only [List.length_cons]; omega
    · have := ih hx
      by_cases hy : p y = true
      · rw [List.filter_cons_of_pos hy]; simp only [List.length_cons]; omega
      · rw [List.filter_cons_of_neg hy]; simp only [List.length_cons]; omega

/-! ### Projections on the options -/

/-- The values of the options. -/
def proj (options : List (Str × ZTerm)) (a : Assign) : List ZVal := options.map (fun e => e.2.eval a)

/-- The options are constants. -/
def ConstOptions (options : List (Str × ZTerm)) : Prop := ∀ e ∈ options, ∃ n, e.2 = .boolConst n ∨ e.2 = .intConst n

theorem otherValue_eval {x : ZTerm} (h : ∃ n, x = .boolConst n ∨ x = .intConst n) (a b : Assign) :
    ∃ y, (otherValue a x).eval b = .bool y ∧ (y = true ↔ x.eval b ≠ x.eval a) := by
  obtain ⟨n, rfl | rfl⟩ := h
  · cases ha : a.bool n with
    | true =>
      refine ⟨!b.bool n, by simp [otherValue, ZTerm.eval, ha], ?_⟩
      simp only [ZTerm.eval, ha]
      cases b.bool n <;> simp
    | false =>
      refine ⟨b.bool n, by simp [otherValue, ZTerm.eval, ha], ?_⟩
      simp only [ZTerm.eval, ha]
      cases b.bool n <;> simp
  · refine ⟨decide (b.int n ≠ a.int n), by simp [otherValue, ZTerm.eval, ZOp.apply], ?_⟩
    simp [ZTerm.eval]

theorem excluding_eval {options : List (Str × ZTerm)} (h : ConstOptions options) (a b : Assign) :
    ∃ y, (excluding options a).eval b = .bool y ∧ (y = true ↔ proj options b ≠ proj options a) := by
  have key : ∀ (l : List (Str × ZTerm)), ConstOptions l → ∀ (t : ZTerm) (x : Bool), t.eval b = .bool x →
      ∃ y, (l.foldl (fun t e => ZTerm.bin .or t (otherValue a e.2)) t).eval b = .bool y ∧
        (y = true ↔ x = true ∨ proj l b ≠ proj l a) := by
    intro l
    induction l with
    | nil => intro _ t x h; exact ⟨x, h, by simp [proj]⟩
    | cons e es ih =>
      intro hl t x ht
      have hes : ConstOptions es := fun e he => hl e (List.mem_cons_of_mem _ he)
      obtain ⟨z, hz, hz'⟩ := otherValue_eval (hl e (List.mem_cons_self ..)) a b
      rw [List.foldl_cons]
      obtain ⟨y, hy, hy'⟩ := ih hes (.bin .or t (otherValue a e.2)) (x || z) (by simp [ZTerm.eval, ht, hz, ZOp.apply])
      refine ⟨y, hy, ?_⟩
      rw [hy', Bool.or_eq_true, hz', or_assoc]
      refine or_congr_right ?_
      simp only [proj, List.map_cons, ne_eq, List.cons.injEq, not_and]
      constructor
      · rintro (h | h) h1
        · exact absurd h1 h
        · exact h
      · intro h
        by_cases h1 : e.2.eval b = e.2.eval a
        · exact .inr (h h1)
        · exact .inl h1
  obtain ⟨y, h1, h2⟩ := key options h (.boolVal false) false rfl
  exact ⟨y, h1, by simpa using h2⟩

theorem sat_excluding {options : List (Str × ZTerm)} (h : ConstOptions options) (ts : List ZTerm) (a b : Assign) :
    Sat b (ts ++ [excluding options a]) ↔ Sat b ts ∧ proj options b ≠ proj options a := by
  rw [sat_append]
  refine and_congr_right (fun _ => ?_)
  obtain ⟨y, h1, h2⟩ := excluding_eval h a b
  rw [← h2]
  constructor
  · intro hs
    have := hs _ (List.mem_singleton.2 rfl)
    rw [h1] at this
    simpa using this
  · intro hs t ht
    rw [List.mem_singleton.1 ht, h1, hs]

/-! ### The loops -/

/-- New assignments found from a state: models of what is asserted, differing in the options. -/
structure Found (options : List (Str × ZTerm)) (ts : List ZTerm) (new : List Assign) : Prop where
  sat : ∀ b ∈ new, Sat b ts
  differ : new.Pairwise (fun x y => proj options x ≠ proj options y)

theorem Found.nil {options : List (Str × ZTerm)} {ts : List ZTerm} : Found options ts [] := by
  refine ⟨?_, List.Pairwise.nil⟩
  intro b hb
  cases hb

/-- … and all of them. -/
def FoundAll (options : List (Str × ZTerm)) (ts : List ZTerm) (new : List Assign) : Prop :=
  ∀ b, Sat b ts → ∃ x ∈ new, proj options b = proj options x

theorem Found.cons {options : List (Str × ZTerm)} (hc : ConstOptions options) {ts : List ZTerm} {a : Assign} {new : List Assign}
    (ha : Sat a ts) (h : Found options (ts ++ [excluding options a]) new) : Found options ts (a :: new) := by
  refine ⟨?_, ?_⟩
  · intro b hb
    rcases List.mem_cons.1 hb with rfl | hb
    · exact ha
    · exact ((sat_excluding hc ts a b).1 (h.sat b hb)).1
  · rw [List.pairwise_cons]
    exact ⟨fun b hb => fun e => ((sat_excluding hc ts a b).1 (h.sat b hb)).2 e.symm, h.differ⟩

theorem FoundAll.cons {options : List (Str × ZTerm)} (hc : ConstOptions options) {ts : List ZTerm} {a : Assign} {new : List Assign}
    (h : FoundAll options (ts ++ [excluding options a]) new) : FoundAll options ts (a :: new) := by
  intro b hb
  by_cases e : proj options b = proj options a
  · exact ⟨a, List.mem_cons_self .., e⟩
  · obtain ⟨x, hx, hx'⟩ := h b ((sat_excluding hc ts a b).2 ⟨hb, e⟩)
    exact ⟨x, List.mem_cons_of_mem _ hx, hx'⟩

theorem rest_smaller {options : List (Str × ZTerm)} (hc : ConstOptions options) {ts : List ZTerm} {a : Assign} (ha : Sat a ts)
    {rest : List (List ZVal)} (hr : ∀ b, Sat b ts → proj options b ∈ rest) :
    ∃ rest' : List (List ZVal), rest'.length < rest.length ∧ ∀ b, Sat b (ts ++ [excluding options a]) → proj options b ∈ rest' := by
  classical
  refine ⟨rest.filter (fun v => decide (v ≠ proj options a)), filter_length_lt (hr a ha) (by simp), ?_⟩
  intro b hb
  obtain ⟨h1, h2⟩ := (sat_excluding hc ts a b).1 hb
  exact List.mem_filter.2 ⟨hr b h1, by simpa using h2⟩

theorem allLoop_spec {O : Oracle} (hO : ∀ k ts, O.check k ts ≠ .unknown) (fuel : Nat) {s : Z3Solver} (hc : ConstOptions s.options)
    {a : Assign} (ha : s.current = some a) {rest : List (List ZVal)} (hr : ∀ b, Sat b s.asserted → proj s.options b ∈ rest)
    (hf : rest.length < fuel) (acc : List Config) :
    ∃ new, allLoop O fuel s acc = .ok (acc ++ (a :: new).map (configOf s.options)) ∧
      Found s.options s.asserted new ∧ FoundAll s.options s.asserted new := by
  induction fuel generalizing s a rest acc with
  | zero => omega
  | succ fuel ih =>
    simp only [allLoop, getCurrent, ha, getNext]
    cases hk : O.check s.checks s.asserted with
    | unknown => exact absurd hk (hO _ _)
    | unsat =>
      refine ⟨[], by simp, Found.nil, ?_⟩
      intro b hb
      exact absurd hb (O.complete _ _ hk b)
    | sat a' =>
      have hs := O.sound _ _ _ hk
      obtain ⟨rest', hl, hr'⟩ := rest_smaller hc hs hr
      obtain ⟨new, h1, h2, h3⟩ := ih (s := { s with current := some a', asserted := s.asserted ++ [excluding s.options a'], checks := s.checks + 1 })
        hc rfl hr' (by omega) (acc ++ [configOf s.options a])
      refine ⟨a' :: new, ?_, h2.cons hc hs, h3.cons hc⟩
      simp only [h1]
      simp

theorem someLoop_spec {O : Oracle} (hO : ∀ k ts, O.check k ts ≠ .unknown) {n : Nat} (fuel : Nat) {s : Z3Solver} (hc : ConstOptions s.options)
    {a : Assign} (ha : s.current = some a) {rest : List (List ZVal)} (hr : ∀ b, Sat b s.asserted → proj s.options b ∈ rest)
    (hf : rest.length < fuel) (acc : List Config) (hn : acc.length < n) :
    ∃ new, someLoop O n fuel s acc = .ok (((a :: new).map (configOf s.options)).reverse ++ acc) ∧
      Found s.options s.asserted new ∧ acc.length + 1 + new.length ≤ n ∧
      (acc.length + 1 + new.length = n ∨ FoundAll s.options s.asserted new) := by
  induction fuel generalizing s a rest acc with
  | zero => omega
  | succ fuel ih =>
    simp only [someLoop, getCurrent, ha, List.length_cons]
    by_cases he : acc.length + 1 = n
    · rw [if_pos he]
      exact ⟨[], by simp, Found.nil, by simp; omega, .inl (by simpa using he)⟩
    · rw [if_neg he]
      simp only [getNext]
      cases hk : O.check s.checks s.asserted with
      | unknown => exact absurd hk (hO _ _)
      | unsat =>
        refine ⟨[], by simp, Found.nil, by simp; omega, .inr ?_⟩
        intro b hb
        exact absurd hb (O.complete _ _ hk b)
      | sat a' =>
        have hs := O.sound _ _ _ hk
        obtain ⟨rest', hl, hr'⟩ := rest_smaller hc hs hr
        obtain ⟨new, h1, h2, h3, h4⟩ := ih (s := { s with current := some a', asserted := s.asserted ++ [excluding s.options a'], checks := s.checks + 1 })
          hc rfl hr' (by omega) (configOf s.options a :: acc) (by simp only [List.length_cons]; omega)
        refine ⟨a' :: new, ?_, h2.cons hc hs, ?_, ?_⟩
        · simp only [h1]
          simp
        · simp only [List.length_cons] at h3 ⊢; omega
        · rcases h4 with h4 | h4
          · left; simp only [List.length_cons] at h4 ⊢; omega
          · right; exact h4.cons hc

/-- From a fresh solver. -/
theorem allLoop_fresh {O : Oracle} (hO : ∀ k ts, O.check k ts ≠ .unknown) (fuel : Nat) {s : Z3Solver} (hc : ConstOptions s.options)
    (ha : s.current = none) {rest : List (List ZVal)} (hr : ∀ b, Sat b s.asserted → proj s.options b ∈ rest)
    (hf : rest.length + 1 < fuel) :
    (allLoop O fuel s [] = .err .unsat ∧ ∀ b, ¬ Sat b s.asserted) ∨
    ∃ new, new ≠ [] ∧ allLoop O fuel s [] = .ok (new.map (configOf s.options)) ∧
      Found s.options s.asserted new ∧ FoundAll s.options s.asserted new := by
  cases fuel with
  | zero => omega
  | succ fuel =>
  cases hk : O.check s.checks s.asserted with
  | unknown => exact absurd hk (hO _ _)
  | unsat =>
    left
    refine ⟨?_, O.complete _ _ hk⟩
    simp only [allLoop, getCurrent, ha, getNext, hk]
  | sat a =>
    right
    have hs := O.sound _ _ _ hk
    obtain ⟨rest', hl, hr'⟩ := rest_smaller hc hs hr
    obtain ⟨new, h1, h2, h3⟩ := allLoop_spec hO (fuel + 1)
      (s := { s with current := some a, asserted := s.asserted ++ [excluding s.options a], checks := s.checks + 1 })
      hc rfl hr' (by omega) []
    refine ⟨a :: new, by simp, ?_, h2.cons hc hs, h3.cons hc⟩
    rw [List.nil_append] at h1
    rw [← h1]
    simp only [allLoop, getCurrent, ha, getNext, hk]

theorem someLoop_fresh {O : Oracle} (hO : ∀ k ts, O.check k ts ≠ .unknown) {n : Nat} (hn : 0 < n) (fuel : Nat) {s : Z3Solver}
    (hc : ConstOptions s.options)
    (ha : s.current = none) {rest : List (List ZVal)} (hr : ∀ b, Sat b s.asserted → proj s.options b ∈ rest)
    (hf : rest.length + 1 < fuel) :
    ∃ new, someLoop O n fuel s [] = .ok ((new.map (configOf s.options)).reverse) ∧
      Found s.options s.asserted new ∧ new.length ≤ n ∧ (new.length = n ∨ FoundAll s.options s.asserted new) := by
  cases fuel with
  | zero => omega
  | succ fuel =>
  cases hk : O.check s.checks s.asserted with
  | unknown => exact absurd hk (hO _ _)
  | unsat =>
    have hu := O.complete _ _ hk
    refine ⟨[], ?_, Found.nil, by simp, .inr (fun b hb => absurd hb (hu b))⟩
    simp only [someLoop, getCurrent, ha, getNext, hk]
    rw [if_neg (by simp; omega)]
    cases hk2 : O.check (s.checks + 1) s.asserted with
    | unknown => exact absurd hk2 (hO _ _)
    | unsat => rfl
    | sat b => exact absurd (O.sound _ _ _ hk2) (hu b)
  | sat a =>
    have hs := O.sound _ _ _ hk
    obtain ⟨rest', hl, hr'⟩ := rest_smaller hc hs hr
    obtain ⟨new, h1, h2, h3, h4⟩ := someLoop_spec hO (n := n) (fuel + 1)
      (s := { s with current := some a, asserted := s.asserted ++ [excluding s.options a], checks := s.checks + 1 })
      hc rfl hr' (by omega) [] (by simpa using hn)
    rw [List.append_nil] at h1
    refine ⟨a :: new, ?_, h2.cons hc hs, ?_, ?_⟩
    · rw [← h1]
      simp only [someLoop, getCurrent, ha, getNext, hk]
    · simp only [List.length_cons, List.length_nil] at h3 ⊢; omega
    · rcases h4 with h4 | h4
      · left; simp only [List.length_cons, List.length_nil] at h4 ⊢; omega
      · right; exact h4.cons hc

/-! ### Texts of values -/

theorem natText_inj {a b : Nat} (h : natText a = natText b) : a = b := by
  rw [← natText_value a, ← natText_value b, h]

theorem natText_head_digit (n : Nat) : ∃ c cs, natText n = c :: cs ∧ isDigit c = true := by
  have h1 := natText_digits n
  have h2 := natText_ne_nil n
  generalize natText n = t at *
  cases t with
  | nil => exact absurd rfl h2
  | cons c cs => exact ⟨c, cs, rfl, h1 c (by simp)⟩

theorem written_text (v : ZVal) : v.text = written v := by
  cases v with
  | bool b => cases b <;> rfl
  | int v =>
    cases v with
    | ofNat n =>
      simp only [ZVal.text, written]
      rw [if_neg (by have := Int.natCast_nonneg n; exact Int.not_lt.2 this)]
      rfl
    | negSucc n =>
      simp only [ZVal.text, written]
      rw [if_pos (Int.negSucc_lt_zero n)]
      rfl

theorem written_inj {v w : ZVal} (hs : v.sort = w.sort) (h : written v = written w) : v = w := by
  cases v with
  | bool x =>
    cases w with
    | int _ => cases hs
    | bool y => cases x <;> cases y <;> first | rfl | exact absurd h (by decide)
  | int x =>
    cases w with
    | bool _ => cases hs
    | int y =>
      cases x with
      | ofNat a =>
        cases y with
        | ofNat b => rw [natText_inj (show natText a = natText b from h)]
        | negSucc b =>
          exfalso
          obtain ⟨c, cs, e, hc⟩ := natText_head_digit a
          simp only [written, e] at h
          have : c = '(' := (List.cons.inj h).1
          rw [this] at hc
          exact absurd hc (by decide)
      | negSucc a =>
        cases y with
        | ofNat b =>
          exfalso
          obtain ⟨c, cs, e, hc⟩ := natText_head_digit b
          simp only [written, e] at h
          have : '(' = c := (List.cons.inj h).1
          rw [← this] at hc
          exact absurd hc (by decide)
        | negSucc b =>
          simp only [written] at h
          have := List.append_cancel_right h
          have := natText_inj (List.append_cancel_left this)
          rw [show a = b by omega]

/-- A decimal text is not another integer. -/
theorem unsigned_natText_unique {n k : Nat} (h : UnsignedText (natText n) k) : k = n := by
  have hd := natText_digits n
  have h0 : ∀ c cs, natText n ≠ '0' :: c :: cs := by
    intro c cs e
    by_cases hn : 1 ≤ n
    · obtain ⟨c', cs', e', h'⟩ := natText_head n hn
      rw [e] at e'
      exact h' (List.cons.inj e').1.symm
    · have : n = 0 := by omega
      subst this
      rw [natText, if_pos (by decide)] at e
      simp at e
  generalize ht : natText n = t at h h0 hd
  cases h with
  | dec h1 h2 h3 => rw [radixValue_dec hd, ← ht, natText_value]
  | hex h1 h2 h3 => exact absurd rfl (h0 _ _)
  | bin h1 h2 h3 => exact absurd rfl (h0 _ _)
  | oct h1 h2 => exact absurd rfl (h0 _ _)
  | @octZero ds h1 h2 =>
    cases ds with
    | nil => exact absurd rfl h1
    | cons c cs => exact absurd rfl (h0 _ _)

/-- Negative numbers are not read as numbers. -/
theorem convert_negative (n : Nat) : convert (written (.int (.negSucc n))) = .str (written (.int (.negSucc n))) := by
  show convert (c!"(- " ++ natText (n + 1) ++ c!")") = .str (c!"(- " ++ natText (n + 1) ++ c!")")
  unfold convert
  rw [if_neg (by
    simp only [lower, List.cons_append, List.map_cons, Bool.or_eq_true, decide_eq_true_eq, not_or]
    rw [show lowerChar '(' = '(' by decide]
    exact ⟨fun h => absurd (List.cons.inj h).1 (by decide), fun h => absurd (List.cons.inj h).1 (by decide)⟩)]
  cases hg : getAsInt64 0 (c!"(- " ++ natText (n + 1) ++ c!")") with
  | none => rfl
  | some k =>
    obtain ⟨h1, _⟩ := (getAsInt64_auto _ _).1 hg
    exfalso
    have hno : ∀ cs v, ¬ UnsignedText ('(' :: cs) v := by
      intro cs v h
      cases h with
      | dec _ had _ =>
        obtain ⟨d, e, _⟩ := had '(' (by simp)
        rw [show radixDigit '(' = none by decide] at e
        cases e
    cases h1 with
    | pos h => exact hno _ _ h

/-- Options keep the text of a value. -/
theorem convert_written (v : ZVal) : (convert (written v)).asString = written v := by
  cases v with
  | bool b => cases b <;> decide
  | int v =>
    cases v with
    | ofNat n =>
      have hb := intText_not_bool (.ofNat n)
      simp only [intText] at hb
      show (convert (natText n)).asString = natText n
      unfold convert
      rw [if_neg (by simp [hb.1, hb.2])]
      cases hg : getAsInt64 0 (natText n) with
      | none => rfl
      | some k =>
        obtain ⟨h1, _⟩ := (getAsInt64_auto _ _).1 hg
        have : k = .ofNat n := by
          obtain ⟨c, cs, e, hc⟩ := natText_head_digit n
          generalize ht : natText n = t at h1
          cases h1 with
          | pos h =>
            rw [← ht] at h
            rw [unsigned_natText_unique h]; rfl
          | neg h =>
            rw [e] at ht
            rw [(List.cons.inj ht).1] at hc
            exact absurd hc (by decide)
        rw [this]; rfl
    | negSucc n =>
      rw [convert_negative]; rfl

/-! ### Configurations of a loaded model -/

theorem optEntry_valueOf {m : FModel} {i : Id} {f : Feat} (h : data m i = some (.feat f)) (a : Assign) :
    (optEntry m i).2.eval a = valueOf f a := by
  rw [optEntry_data h]
  simp only [optTerm, valueOf]
  cases f.attr.kind <;> rfl

theorem valueOf_sort (f : Feat) (a b : Assign) : (valueOf f a).sort = (valueOf f b).sort := by
  simp only [valueOf]
  split <;> rfl

theorem constOptions_loaded {m : FModel} (w : WF m) {l : List Id} (h : ∀ i ∈ l, Known m i) : ConstOptions (l.map (optEntry m)) := by
  intro e he
  obtain ⟨i, hi, rfl⟩ := List.mem_map.1 he
  obtain ⟨f, hf⟩ := w.known_data (h i hi)
  rw [optEntry_data hf]
  simp only [optTerm]
  split
  · exact ⟨_, .inr rfl⟩
  · exact ⟨_, .inl rfl⟩

theorem proj_eq_iff {m : FModel} (w : WF m) {l : List Id} (hl : ∀ i, i ∈ l ↔ Known m i) (a b : Assign) :
    proj (l.map (optEntry m)) a = proj (l.map (optEntry m)) b ↔
      ∀ i f, Known m i → data m i = some (.feat f) → valueOf f a = valueOf f b := by
  simp only [proj, List.map_map]
  rw [List.map_inj_left]
  constructor
  · intro h i f hi hf
    have := h i ((hl i).2 hi)
    simpa [Function.comp, optEntry_valueOf hf] using this
  · intro h i hi
    obtain ⟨f, hf⟩ := w.known_data ((hl i).1 hi)
    simpa [Function.comp, optEntry_valueOf hf] using h i f ((hl i).1 hi) hf

theorem configOf_shows {m : FModel} (w : WF m) {l : List Id} (hnd : l.Nodup) (hl : ∀ i, i ∈ l ↔ Known m i) (a : Assign) :
    Shows m a (configOf (l.map (optEntry m)) a) := by
  have hkeys : KeysNodup ((l.map (optEntry m)).map (fun e => (e.1, (e.1, e.2.eval a)))) := by
    simp only [KeysNodup, List.map_map]
    refine (List.nodup_iff_pairwise_ne.1 ?_ : _)
    rw [List.nodup_iff_pairwise_ne, List.pairwise_map]
    refine hnd.imp_of_mem ?_
    intro i j hi hj hne e
    obtain ⟨f, hf⟩ := w.known_data ((hl i).1 hi)
    obtain ⟨g, hg⟩ := w.known_data ((hl j).1 hj)
    simp only [Function.comp, optEntry_data hf, optEntry_data hg] at e
    exact hne (w.name_inj ((hl i).1 hi) ((hl j).1 hj) hf hg e)
  have hfold : configOf (l.map (optEntry m)) a =
      ((l.map (optEntry m)).map (fun e => (e.1, (e.1, e.2.eval a)))).foldl
        (fun (o : Config) e => mapSet e.1 ((fun (x : Str × ZVal) => mkOption x.1 x.2.text) e.2) o) [] := by
    rw [List.foldl_map]; rfl
  have hfind := fun n => mapFind_foldl (fun (x : Str × ZVal) => mkOption x.1 x.2.text) _ hkeys [] n
  rw [← hfold] at hfind
  constructor
  · intro i f hi hf
    have hmem : (f.attr.name, (f.attr.name, valueOf f a)) ∈ (l.map (optEntry m)).map (fun e => (e.1, (e.1, e.2.eval a))) := by
      refine List.mem_map.2 ⟨optEntry m i, List.mem_map.2 ⟨i, (hl i).2 hi, rfl⟩, ?_⟩
      rw [optEntry_valueOf hf, optEntry_data hf]
    have h1 := hfind f.attr.name
    rw [(mapFind_mem hkeys).2 hmem] at h1
    simp only [Config.value, h1, Option.map_some, mkOption, written_text, convert_written]
  · intro n hn
    have h1 := hfind n
    cases hm : mapFind n ((l.map (optEntry m)).map (fun e => (e.1, (e.1, e.2.eval a)))) with
    | none =>
      rw [hm] at h1
      simp only [Config.value, h1, mapFind, Option.map_none] at hn
      exact absurd rfl hn
    | some v =>
      have := (mapFind_mem hkeys).1 hm
      obtain ⟨e, he, heq⟩ := List.mem_map.1 this
      obtain ⟨i, hi, rfl⟩ := List.mem_map.1 he
      obtain ⟨f, hf⟩ := w.known_data ((hl i).1 hi)
      refine ⟨i, f, (hl i).1 hi, hf, ?_⟩
      rw [optEntry_data hf] at heq
      exact (Prod.mk.inj heq).1

/-- The values of the options. -/
theorem configOf_values {m : FModel} (w : WF m) {l : List Id} (hnd : l.Nodup) (hl : ∀ i, i ∈ l ↔ Known m i) (a : Assign)
    {i : Id} {f : Feat} (hi : Known m i) (hf : data m i = some (.feat f)) :
    (mapFind f.attr.name (configOf (l.map (optEntry m)) a)).map (·.value) = some (convert (written (valueOf f a))) := by
  have hkeys : KeysNodup ((l.map (optEntry m)).map (fun e => (e.1, (e.1, e.2.eval a)))) := by
    simp only [KeysNodup, List.map_map]
    rw [List.nodup_iff_pairwise_ne, List.pairwise_map]
    refine hnd.imp_of_mem ?_
    intro i j hi hj hne e
    obtain ⟨f, hf⟩ := w.known_data ((hl i).1 hi)
    obtain ⟨g, hg⟩ := w.known_data ((hl j).1 hj)
    simp only [Function.comp, optEntry_data hf, optEntry_data hg] at e
    exact hne (w.name_inj ((hl i).1 hi) ((hl j).1 hj) hf hg e)
  have hfold : configOf (l.map (optEntry m)) a =
      ((l.map (optEntry m)).map (fun e => (e.1, (e.1, e.2.eval a)))).foldl
        (fun (o : Config) e => mapSet e.1 ((fun (x : Str × ZVal) => mkOption x.1 x.2.text) e.2) o) [] := by
    rw [List.foldl_map]; rfl
  have hmem : (f.attr.name, (f.attr.name, valueOf f a)) ∈ (l.map (optEntry m)).map (fun e => (e.1, (e.1, e.2.eval a))) := by
    refine List.mem_map.2 ⟨optEntry m i, List.mem_map.2 ⟨i, (hl i).2 hi, rfl⟩, ?_⟩
    rw [optEntry_valueOf hf, optEntry_data hf]
  rw [hfold, mapFind_foldl (fun (x : Str × ZVal) => mkOption x.1 x.2.text) _ hkeys, (mapFind_mem hkeys).2 hmem]
  simp only [Option.map_some, mkOption, written_text]

theorem shows_unique {m : FModel} {a b : Assign} {c c' : Config} (ha : Shows m a c) (hb : Shows m b c')
    (h : ∀ n, c.value n = c'.value n) : ∀ i f, Known m i → data m i = some (.feat f) → valueOf f a = valueOf f b := by
  intro i f hi hf
  have := ha.has i f hi hf
  rw [h, hb.has i f hi hf] at this
  exact (written_inj (valueOf_sort f b a) (Option.some.inj this)).symm

theorem shows_congr {m : FModel} {a b : Assign} {c : Config} (ha : Shows m a c)
    (h : ∀ i f, Known m i → data m i = some (.feat f) → valueOf f a = valueOf f b) : Shows m b c := by
  refine ⟨fun i f hi hf => ?_, ha.only⟩
  rw [← h i f hi hf]
  exact ha.has i f hi hf

/-! ### Finitely many -/

/-- All lists with these heads and tails. -/
theorem finite_lists (doms : List (List ZVal)) : ∃ rest : List (List ZVal), ∀ v : List ZVal, v.length = doms.length →
    (∀ (k : Nat) x d, v[k]? = some x → doms[k]? = some d → x ∈ d) → v ∈ rest := by
  induction doms with
  | nil => exact ⟨[[]], fun v hv _ => by simp [List.length_eq_zero_iff.1 hv]⟩
  | cons d ds ih =>
    obtain ⟨rest, h⟩ := ih
    refine ⟨d.flatMap (fun x => rest.map (x :: ·)), fun v hv hx => ?_⟩
    cases v with
    | nil => simp at hv
    | cons x xs =>
      refine List.mem_flatMap.2 ⟨x, hx 0 x d rfl rfl, List.mem_map.2 ⟨xs, ?_, rfl⟩⟩
      exact h xs (by simpa using hv) (fun k y e h1 h2 => hx (k + 1) y e (by simpa using h1) (by simpa using h2))

theorem allowed_finite {F : IntFloats} {vs : Values} {st : Option StepFn}
    (h : ∀ lo hi, vs = .range lo hi → Ends (stepOf F st) hi lo) : ∃ l : List Int, ∀ v, Allowed F vs st v → v ∈ l := by
  cases vs with
  | list l => exact ⟨l, fun v hv => hv⟩
  | range lo hi =>
    obtain ⟨l, hl, _⟩ := rangeLoop_ends (h lo hi rfl)
    exact ⟨l, fun v hv => (hl v).2 hv⟩

theorem valid_finite {F : IntFloats} {m : FModel} (w : WF m) (L : Clear F m) {l : List Id} (hl : ∀ i, i ∈ l ↔ Known m i) :
    ∃ rest : List (List ZVal), ∀ a, Valid F m a → proj (l.map (optEntry m)) a ∈ rest := by
  have hdom : ∀ i ∈ l, ∃ d : List ZVal, ∀ a, Valid F m a → (optEntry m i).2.eval a ∈ d := by
    intro i hi
    obtain ⟨f, hf⟩ := w.known_data ((hl i).1 hi)
    cases hk : f.attr.kind with
    | numeric vs st =>
      obtain ⟨d, hd⟩ := allowed_finite (F := F) (vs := vs) (st := st)
        (fun lo hi' e => L.ranges i f lo hi' st ((hl i).1 hi) hf (by rw [hk, e]))
      refine ⟨d.map .int, fun a v => ?_⟩
      rw [optEntry_valueOf hf]
      simp only [valueOf, hk]
      exact List.mem_map.2 ⟨_, hd _ (v.numeric i f vs st ((hl i).1 hi) hf hk), rfl⟩
    | _ =>
      refine ⟨[.bool true, .bool false], fun a _ => ?_⟩
      rw [optEntry_valueOf hf]
      simp only [valueOf, hk]
      cases a.bool f.attr.name <;> simp
  have hdoms : ∀ l' : List Id, (∀ i ∈ l', i ∈ l) → ∃ doms : List (List ZVal), doms.length = l'.length ∧
      ∀ a, Valid F m a → ∀ (k : Nat) x d, (proj (l'.map (optEntry m)) a)[k]? = some x → doms[k]? = some d → x ∈ d := by
    intro l'
    induction l' with
    | nil => intro _; exact ⟨[], rfl, fun a _ k x d h => by simp [proj] at h⟩
    | cons i is ih =>
      intro hsub
      obtain ⟨d, hd⟩ := hdom i (hsub i (List.mem_cons_self ..))
      obtain ⟨doms, h1, h2⟩ := ih (fun j hj => hsub j (List.mem_cons_of_mem _ hj))
      refine ⟨d :: doms, by simp [h1], fun a v k x e hx he => ?_⟩
      cases k with
      | zero =>
        simp only [proj, List.map_cons, List.getElem?_cons_zero, Option.some.injEq] at hx he
        subst hx he
        exact hd a v
      | succ k =>
        simp only [proj, List.map_cons, List.getElem?_cons_succ] at hx he
        exact h2 a v k x e hx he
  obtain ⟨doms, h1, h2⟩ := hdoms l (fun _ h => h)
  obtain ⟨rest, h3⟩ := finite_lists doms
  refine ⟨rest, fun a v => h3 _ (by simp [proj, h1]) (h2 a v)⟩

/-! ### Lists of assignments and of configurations -/

theorem enumerates_of_found {F : IntFloats} {m : FModel} (w : WF m) {l : List Id} (hnd : l.Nodup) (hl : ∀ i, i ∈ l ↔ Known m i)
    {ts : List ZTerm} (hts : ∀ a, Sat a ts ↔ Valid F m a) {new : List Assign} (h : Found (l.map (optEntry m)) ts new) :
    (∀ c ∈ new.map (configOf (l.map (optEntry m))), ValidConfig F m c) ∧
    (new.map (configOf (l.map (optEntry m)))).Pairwise Differ := by
  constructor
  · intro c hc
    obtain ⟨a, ha, rfl⟩ := List.mem_map.1 hc
    exact ⟨a, (hts a).1 (h.sat a ha), configOf_shows w hnd hl a⟩
  · rw [List.pairwise_map]
    refine h.differ.imp ?_
    intro a b hne
    refine Classical.byContradiction fun hd => hne ?_
    rw [proj_eq_iff w hl]
    refine shows_unique (configOf_shows w hnd hl a) (configOf_shows w hnd hl b) ?_
    intro n
    exact Classical.byContradiction fun h => hd ⟨n, h⟩

theorem all_of_found {F : IntFloats} {m : FModel} (w : WF m) {l : List Id} (hnd : l.Nodup) (hl : ∀ i, i ∈ l ↔ Known m i)
    {ts : List ZTerm} (hts : ∀ a, Sat a ts ↔ Valid F m a) {new : List Assign} (h : FoundAll (l.map (optEntry m)) ts new) :
    ∀ a, Valid F m a → ∃ c ∈ new.map (configOf (l.map (optEntry m))), Shows m a c := by
  intro a ha
  obtain ⟨b, hb, e⟩ := h a ((hts a).2 ha)
  refine ⟨_, List.mem_map.2 ⟨b, hb, rfl⟩, shows_congr (configOf_shows w hnd hl b) ?_⟩
  exact (proj_eq_iff w hl b a).1 e.symm

/-- Different valid configurations are no more than an enumeration has. -/
theorem count_le {F : IntFloats} {m : FModel} (w : WF m) {cs all : List Config} (hv : ∀ c ∈ cs, ValidConfig F m c) (hd : cs.Pairwise Differ)
    (he : Enumerates F m all) : cs.length ≤ all.length := by
  obtain ⟨_, l, _, _, _, hnd, hl, _⟩ := Props.C25_preorder w ⟨id, fun _ => .refl _, id, fun _ => .refl _, false⟩
  classical
  have hpick : ∀ cs : List Config, (∀ c ∈ cs, ValidConfig F m c) → cs.Pairwise Differ →
      ∃ as : List Assign, as.length = cs.length ∧ (∀ a ∈ as, Valid F m a) ∧ (∀ a ∈ as, ∃ c ∈ cs, Shows m a c) ∧
        (∀ c ∈ cs, ∃ a ∈ as, Shows m a c) ∧ (as.map (proj (l.map (optEntry m)))).Nodup := by
    intro cs
    induction cs with
    | nil => intro _ _; exact ⟨[], rfl, by simp, by simp, by simp, by simp⟩
    | cons c cs ih =>
      intro hv hd
      obtain ⟨as, h1, h2, h3, h3', h4⟩ := ih (fun x hx => hv x (List.mem_cons_of_mem _ hx)) (List.pairwise_cons.1 hd).2
      obtain ⟨a, ha, hs⟩ := hv c (List.mem_cons_self ..)
      refine ⟨a :: as, by simp [h1], ?_, ?_, ?_, ?_⟩
      · intro b hb
        rcases List.mem_cons.1 hb with rfl | hb
        · exact ha
        · exact h2 b hb
      · intro b hb
        rcases List.mem_cons.1 hb with rfl | hb
        · exact ⟨c, List.mem_cons_self .., hs⟩
        · obtain ⟨c', hc', hs'⟩ := h3 b hb
          exact ⟨c', List.mem_cons_of_mem _ hc', hs'⟩
      · intro c' hc'
        rcases List.mem_cons.1 hc' with rfl | hc'
        · exact ⟨a, List.mem_cons_self .., hs⟩
        · obtain ⟨b, hb, hs'⟩ := h3' c' hc'
          exact ⟨b, List.mem_cons_of_mem _ hb, hs'⟩
      · rw [List.map_cons, List.nodup_cons]
        refine ⟨?_, h4⟩
        intro hm
        obtain ⟨b, hb, e⟩ := List.mem_map.1 hm
        obtain ⟨c', hc', hs'⟩ := h3 b hb
        obtain ⟨n, hn⟩ := (List.pairwise_cons.1 hd).1 c' hc'
        have hsb : Shows m b c := shows_congr hs ((proj_eq_iff w hl a b).1 e.symm)
        refine hn ?_
        -- both show `b`
        cases h5 : c.value n with
        | some x =>
          obtain ⟨i, f, hi, hf, rfl⟩ := hsb.only n (by rw [h5]; simp)
          rw [← h5, hsb.has i f hi hf, hs'.has i f hi hf]
        | none =>
          cases h6 : c'.value n with
          | none => rfl
          | some x =>
            obtain ⟨i, f, hi, hf, rfl⟩ := hs'.only n (by rw [h6]; simp)
            rw [hsb.has i f hi hf] at h5; cases h5
  obtain ⟨as, h1, h2, _, _, h4⟩ := hpick cs hv hd
  obtain ⟨bs, g1, _, _, g3, _⟩ := hpick all he.valid he.differ
  have := length_le_of_nodup_subset h4 (l' := bs.map (proj (l.map (optEntry m)))) ?_
  · simp only [List.length_map] at this
    omega
  · intro v hv'
    obtain ⟨a, ha, rfl⟩ := List.mem_map.1 hv'
    obtain ⟨c, hc, hs⟩ := he.all a (h2 a ha)
    obtain ⟨b, hb, hs'⟩ := g3 c hc
    refine List.mem_map.2 ⟨b, hb, ?_⟩
    rw [proj_eq_iff w hl]
    exact shows_unique hs' hs (fun _ => rfl)

end Verif

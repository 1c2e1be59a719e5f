import Verif.Solver.Spec
import Verif.FM.Add
/-!
# Terms of constraints
-/

namespace Verif
open Verif.Spec

/-- The sort of a value. -/
def ZVal.sort : ZVal → ZSort
  | .bool _ => .bool
  | .int _ => .int

theorem ZVal.of_bool {v : ZVal} (h : v.sort = .bool) : ∃ b, v = .bool b := by
  cases v with
  | bool b => exact ⟨b, rfl⟩
  | int _ => cases h

theorem ZVal.of_int {v : ZVal} (h : v.sort = .int) : ∃ x, v = .int x := by
  cases v with
  | bool _ => cases h
  | int x => exact ⟨x, rfl⟩

/-- The term has a value of its sort. -/
def Fits (t : ZTerm) (a : Assign) : Prop := (t.eval a).sort = t.sort

theorem mk_some {op : ZOp} {l r : ZTerm} (h : op.accepts l.sort r.sort = true) : ZTerm.mk op l r = some (.bin op l r) := by
  simp [ZTerm.mk, h]

theorem mkNot_some {t : ZTerm} (h : t.sort = .bool) : t.mkNot = some (.not t) := by simp [ZTerm.mkNot, h]

theorem mkNeg_some {t : ZTerm} (h : t.sort = .int) : t.mkNeg = some (.neg t) := by simp [ZTerm.mkNeg, h]

theorem visitBin_ok {op : BinOp} {l r : ZTerm} {σ : ZSort} (hx : op ≠ .xor) (h : opSort op l.sort r.sort = some σ) :
    ∃ t, Z3Solver.visitBin op l r = some t ∧ t.sort = σ ∧ ∀ a, Fits l a → Fits r a →
      opMeaning a.div0 op (l.eval a) (r.eval a) = some (t.eval a) ∧ Fits t a := by
  unfold Fits
  cases hl : l.sort <;> cases hr : r.sort <;> rw [hl, hr] at h <;> cases op <;>
    simp only [opSort, reduceCtorEq, Option.some.injEq] at h <;> subst h <;>
    first
    | exact absurd rfl hx
    | (simp only [Z3Solver.visitBin, ZTerm.mk, ZTerm.mkNot, hl, hr, ZOp.accepts, ZTerm.sort, ZOp.result, if_true,
          Option.bind_some, decide_true, reduceCtorEq]
       refine ⟨_, rfl, rfl, ?_⟩
       intro a h1 h2
       first
       | (obtain ⟨x, hx⟩ := ZVal.of_bool h1
          obtain ⟨y, hy⟩ := ZVal.of_bool h2
          cases x <;> cases y <;> simp [ZTerm.eval, hx, hy, opMeaning, ZOp.apply, ZVal.sort, ZTerm.sort, ZOp.result])
       | (obtain ⟨x, hx⟩ := ZVal.of_int h1
          obtain ⟨y, hy⟩ := ZVal.of_int h2
          simp [ZTerm.eval, hx, hy, opMeaning, ZOp.apply, ZVal.sort, ZTerm.sort, ZOp.result]))

/-- What the solver's term for an exclusive or means: not both. -/
theorem visitBin_xor {l r : ZTerm} (hl : l.sort = .bool) (hr : r.sort = .bool) :
    ∃ t, Z3Solver.visitBin .xor l r = some t ∧ t.sort = .bool ∧ ∀ a x y, l.eval a = .bool x → r.eval a = .bool y →
      t.eval a = .bool (!(x && y)) := by
  simp only [Z3Solver.visitBin, ZTerm.mk, ZTerm.mkNot, hl, hr, ZOp.accepts, ZTerm.sort, ZOp.result, if_true,
    Option.bind_some]
  refine ⟨_, rfl, rfl, ?_⟩
  intro a x y hx hy
  cases x <;> cases y <;> simp [ZTerm.eval, hx, hy, ZOp.apply]

theorem notBothOp_ne {op : BinOp} (h : op ≠ .xor) : notBothOp op = op := by
  cases op <;> first | rfl | exact absurd rfl h

theorem opSort_notBoth (op : BinOp) (s t : ZSort) : opSort (notBothOp op) s t = opSort op s t := by
  cases op <;> cases s <;> cases t <;> rfl

theorem sortOf_notBoth (κ : Str → ZSort) : ∀ c, sortOf κ (notBoth c) = sortOf κ c
  | .int _ | .feature _ => rfl
  | .un .not c => by simp only [notBoth, sortOf, sortOf_notBoth κ c]
  | .un .neg c => by simp only [notBoth, sortOf, sortOf_notBoth κ c]
  | .bin op l r => by
    simp only [notBoth, sortOf, sortOf_notBoth κ l, sortOf_notBoth κ r, opSort_notBoth]

theorem features_notBoth : ∀ c, (notBoth c).features = c.features
  | .int _ | .feature _ => rfl
  | .un _ c => by simp only [notBoth, Constraint.features, features_notBoth c]
  | .bin _ l r => by simp only [notBoth, Constraint.features, features_notBoth l, features_notBoth r]

theorem noXor_notBoth : ∀ c, NoXor (notBoth c)
  | .int _ | .feature _ => trivial
  | .un _ c => noXor_notBoth c
  | .bin op l r => ⟨by cases op <;> simp [notBothOp], noXor_notBoth l, noXor_notBoth r⟩

theorem notBoth_id : ∀ {c}, NoXor c → notBoth c = c
  | .int _, _ | .feature _, _ => rfl
  | .un _ c, h => by simp only [notBoth, notBoth_id (c := c) h]
  | .bin _ l r, h => by simp only [notBoth, notBothOp_ne h.1, notBoth_id h.2.1, notBoth_id h.2.2]

/-- Exclusive or implies "not both". -/
theorem xorOnTop_weaker {ρ : Str → ZVal} {q : Int → Int} {c : Constraint} (h : XorOnTop c) :
    (meaning ρ q c = some (.bool true) → meaning ρ q (notBoth c) = some (.bool true)) ∧
    ∀ b, meaning ρ q c = some (.bool b) → ∃ b', meaning ρ q (notBoth c) = some (.bool b') := by
  induction h with
  | none h => rw [notBoth_id h]; exact ⟨id, fun b hb => ⟨b, hb⟩⟩
  | @xor l r hl hr =>
    simp only [notBoth, notBothOp, meaning, notBoth_id hl, notBoth_id hr]
    cases meaning ρ q l with
    | none => simp
    | some x =>
      cases meaning ρ q r with
      | none => simp
      | some y =>
        cases x with
        | int => simp [opMeaning]
        | bool x =>
          cases y with
          | int => simp [opMeaning]
          | bool y => cases x <;> cases y <;> simp [opMeaning]
  | @and l r _ _ ihl ihr =>
    simp only [notBoth, notBothOp, meaning]
    cases hl : meaning ρ q l with
    | none => simp
    | some x =>
      cases hr : meaning ρ q r with
      | none => simp
      | some y =>
        cases x with
        | int => simp [opMeaning]
        | bool x =>
          cases y with
          | int => simp [opMeaning]
          | bool y =>
            rw [hl] at ihl
            rw [hr] at ihr
            obtain ⟨x', hx'⟩ := ihl.2 x rfl
            obtain ⟨y', hy'⟩ := ihr.2 y rfl
            rw [hx'] at ihl ⊢
            rw [hy'] at ihr ⊢
            cases x <;> cases y <;> simp [opMeaning] at ihl ihr ⊢ <;> simp_all
  | @or l r _ _ ihl ihr =>
    simp only [notBoth, notBothOp, meaning]
    cases hl : meaning ρ q l with
    | none => simp
    | some x =>
      cases hr : meaning ρ q r with
      | none => simp
      | some y =>
        cases x with
        | int => simp [opMeaning]
        | bool x =>
          cases y with
          | int => simp [opMeaning]
          | bool y =>
            rw [hl] at ihl
            rw [hr] at ihr
            obtain ⟨x', hx'⟩ := ihl.2 x rfl
            obtain ⟨y', hy'⟩ := ihr.2 y rfl
            rw [hx'] at ihl ⊢
            rw [hy'] at ihr ⊢
            cases x <;> cases y <;> simp [opMeaning] at ihl ihr ⊢ <;> simp_all

/-- What every binary term means. -/
theorem visitBin_coded {op : BinOp} {l r : ZTerm} {σ : ZSort} (h : opSort op l.sort r.sort = some σ) :
    ∃ t, Z3Solver.visitBin op l r = some t ∧ t.sort = σ ∧ ∀ a, Fits l a → Fits r a →
      opMeaning a.div0 (notBothOp op) (l.eval a) (r.eval a) = some (t.eval a) ∧ Fits t a := by
  by_cases hx : op = .xor
  · subst hx
    cases hl : l.sort <;> cases hr : r.sort <;> rw [hl, hr] at h <;> cases h
    obtain ⟨t, h1, h2, h3⟩ := visitBin_xor hl hr
    refine ⟨t, h1, h2, fun a f1 f2 => ?_⟩
    rw [Fits, hl] at f1
    rw [Fits, hr] at f2
    obtain ⟨x, hx⟩ := ZVal.of_bool f1
    obtain ⟨y, hy⟩ := ZVal.of_bool f2
    have e := h3 a x y hx hy
    exact ⟨by simp [notBothOp, opMeaning, hx, hy, e], by simp [Fits, h2, e, ZVal.sort]⟩
  · rw [notBothOp_ne hx]
    exact visitBin_ok hx h

theorem cstr_id {n : Str} (h : Char.ofNat 0 ∉ n) : cstr n = n := by
  unfold cstr
  induction n with
  | nil => rfl
  | cons c cs ih =>
    have hc : c ≠ Char.ofNat 0 := fun e => h (e ▸ List.mem_cons_self ..)
    rw [List.takeWhile_cons_of_pos (by simpa using hc), ih (fun hm => h (List.mem_cons_of_mem _ hm))]

/-- A leaf, without and with 0/1. -/
theorem visitFeature_ok {m : FModel} (w : WF m) {n : Str} {b : Option Id} (hn : Char.ofNat 0 ∉ n)
    (hb : match b with | some i => (n, i) ∈ m.features | none => ¬ IsNum m n) (vars : ZTerm) (hv : vars.sort = .bool) :
    (∃ t, Z3Solver.visitFeature m false n b vars = some (t, vars) ∧ t.sort = sortIn m n ∧
      ∀ a, t.eval a = value m a n) ∧
    (∃ t vars', Z3Solver.visitFeature m true n b vars = some (t, vars') ∧ t.sort = .int ∧ vars'.sort = .bool ∧
      (∀ a, t.eval a = value01 m a n) ∧
      ∀ a x, vars.eval a = .bool x → ∃ y, vars'.eval a = .bool y ∧ (y = true ↔ x = true ∨ ¬ (¬ IsNum m n → a.bool n = true))) := by
  have boolean : ¬ IsNum m n → ∀ b : Option Id, (b = none ∨ ∃ i f, b = some i ∧ m.feat? i = some f ∧ f.attr.name = n ∧ ∀ vs st, f.attr.kind ≠ .numeric vs st) →
      Z3Solver.visitFeature m false n b vars = some (.boolConst n, vars) ∧
      Z3Solver.visitFeature m true n b vars =
        some (.ite (.boolConst n) (.intVal 1) (.intVal 0), .bin .or vars (.not (.boolConst n))) := by
    rintro _ b (rfl | ⟨i, f, rfl, hf, rfl, hk⟩)
    · simp [Z3Solver.visitFeature, cstr_id hn, ZTerm.mkNot, ZTerm.sort, mk_some (op := .or) (l := vars) (r := .not (.boolConst n)) (by simp [hv, ZTerm.sort, ZOp.accepts])]
    · have hk' : ∀ vs st, f.attr.kind = .numeric vs st → False := fun vs st h => hk vs st h
      simp only [Z3Solver.visitFeature, hf]
      have e := mk_some (op := .or) (l := vars) (r := .not (.boolConst f.attr.name)) (by simp [hv, ZTerm.sort, ZOp.accepts])
      cases hkk : f.attr.kind with
      | numeric vs st => exact absurd hkk (hk vs st)
      | binary => simp [cstr_id hn, ZTerm.mkNot, ZTerm.sort, e]
      | root => simp [cstr_id hn, ZTerm.mkNot, ZTerm.sort, e]
      | unknown => simp [cstr_id hn, ZTerm.mkNot, ZTerm.sort, e]
  have fin (h1 : ¬ IsNum m n) (h2 : Z3Solver.visitFeature m false n b vars = some (.boolConst n, vars) ∧
      Z3Solver.visitFeature m true n b vars =
        some (.ite (.boolConst n) (.intVal 1) (.intVal 0), .bin .or vars (.not (.boolConst n)))) :
      (∃ t, Z3Solver.visitFeature m false n b vars = some (t, vars) ∧ t.sort = sortIn m n ∧
        ∀ a, t.eval a = value m a n) ∧
      (∃ t vars', Z3Solver.visitFeature m true n b vars = some (t, vars') ∧ t.sort = .int ∧ vars'.sort = .bool ∧
        (∀ a, t.eval a = value01 m a n) ∧
        ∀ a x, vars.eval a = .bool x → ∃ y, vars'.eval a = .bool y ∧
          (y = true ↔ x = true ∨ ¬ (¬ IsNum m n → a.bool n = true))) := by
    refine ⟨⟨_, h2.1, ?_, ?_⟩, _, _, h2.2, rfl, rfl, ?_, ?_⟩
    · simp [sortIn, h1, ZTerm.sort]
    · intro a; simp [ZTerm.eval, value, h1]
    · intro a; simp only [ZTerm.eval, value01, h1, if_false, ZVal.bool.injEq]; split <;> rfl
    · intro a x hx
      refine ⟨x || !a.bool n, by simp [ZTerm.eval, hx, ZOp.apply], ?_⟩
      simp [h1]
  cases b with
  | none => exact fin hb (boolean hb none (.inl rfl))
  | some i =>
    obtain ⟨f, hd, hname⟩ := w.feat_ok _ hb
    simp only at hname
    have hf : m.feat? i = some f := by
      have := heap_of_data hd
      simp only [FModel.feat?, this]
    have huniq : ∀ j, (n, j) ∈ m.features → j = i := by
      intro j hj
      have h1 := (getFeature_mem w.names hj)
      have h2 := (getFeature_mem w.names hb)
      rw [h1] at h2; exact Option.some.inj h2
    by_cases hk : ∃ vs st, f.attr.kind = .numeric vs st
    · obtain ⟨vs, st, hk⟩ := hk
      have hnum : IsNum m n := ⟨i, f, vs, st, hb, hd, hk⟩
      refine ⟨⟨.intConst n, ?_, ?_, ?_⟩, .intConst n, vars, ?_, rfl, hv, ?_, ?_⟩
      · simp [Z3Solver.visitFeature, hf, hk, hname, cstr_id hn]
      · simp [sortIn, hnum, ZTerm.sort]
      · intro a; simp [ZTerm.eval, value, hnum]
      · simp [Z3Solver.visitFeature, hf, hk, hname, cstr_id hn]
      · intro a; simp [ZTerm.eval, value01, hnum]
      · intro a x hx; exact ⟨x, hx, by simp [hnum]⟩
    · have hnn : ¬ IsNum m n := by
        rintro ⟨j, f', vs, st, hj, hd', hk'⟩
        rw [huniq j hj, hd] at hd'
        cases hd'
        exact hk ⟨vs, st, hk'⟩
      exact fin hnn (boolean hnn (some i) (.inr ⟨i, f, rfl, hf, hname, fun vs st h => hk ⟨vs, st, h⟩⟩))

theorem bindsOk_split {m : FModel} {l1 l2 : List Str} {bs : List (Option Id)} (h : BindsOk m (l1 ++ l2) bs) :
    ∃ b1 b2, bs = b1 ++ b2 ∧ BindsOk m l1 b1 ∧ BindsOk m l2 b2 := by
  induction l1 generalizing bs with
  | nil => exact ⟨[], bs, rfl, trivial, h⟩
  | cons n ns ih =>
    cases bs with
    | nil => exact h.elim
    | cons b bs =>
      obtain ⟨b1, b2, rfl, h1, h2⟩ := ih h.2
      exact ⟨b :: b1, b2, rfl, ⟨h.1, h1⟩, h2⟩

/-- The term of a constraint means what the constraint means with "not both" for exclusive or. -/
theorem visit_coded {m : FModel} (w : WF m) (c : Constraint) {σ : ZSort} (hs : sortOf (sortIn m) c = some σ)
    (hn : ∀ n ∈ c.features, Char.ofNat 0 ∉ n) (bs rest : List (Option Id)) (hb : BindsOk m c.features bs) (vars : ZTerm)
    (hv : vars.sort = .bool) :
    ∃ t, Z3Solver.visit m false c (bs ++ rest) vars = some (t, rest, vars) ∧ t.sort = σ ∧
      ∀ a, meaning (value m a) a.div0 (notBoth c) = some (t.eval a) ∧ Fits t a := by
  induction c generalizing σ bs rest with
  | int v =>
    cases bs with
    | cons _ _ => exact hb.elim
    | nil =>
      cases hs
      exact ⟨_, rfl, rfl, fun a => ⟨rfl, rfl⟩⟩
  | feature n =>
    cases hs
    cases bs with
    | nil => exact hb.elim
    | cons b bs =>
      cases bs with
      | cons _ _ => exact hb.2.elim
      | nil =>
        obtain ⟨⟨t, h1, h2, h3⟩, _⟩ := visitFeature_ok w (hn n (by simp [Constraint.features])) hb.1 vars hv
        refine ⟨t, by simp [Z3Solver.visit, h1], h2, ?_⟩
        intro a
        refine ⟨by simp [notBoth, meaning, h3], ?_⟩
        unfold Fits
        rw [h2, h3]
        unfold value sortIn
        split <;> rfl
  | un op c ih =>
    cases op with
    | not =>
      simp only [sortOf] at hs
      split at hs
      · rename_i hc
        cases hs
        obtain ⟨t, h1, h2, h3⟩ := ih hc hn bs rest hb
        refine ⟨.not t, by simp [Z3Solver.visit, h1, mkNot_some h2], rfl, ?_⟩
        intro a
        obtain ⟨e1, e2⟩ := h3 a
        rw [Fits, h2] at e2
        obtain ⟨b, hb⟩ := ZVal.of_bool e2
        exact ⟨by simp [notBoth, meaning, e1, hb, ZTerm.eval], by simp [Fits, ZTerm.eval, hb, ZVal.sort, ZTerm.sort]⟩
      · cases hs
    | neg =>
      simp only [sortOf] at hs
      split at hs
      · rename_i hc
        cases hs
        obtain ⟨t, h1, h2, h3⟩ := ih hc hn bs rest hb
        refine ⟨.neg t, by simp [Z3Solver.visit, h1, mkNeg_some h2], rfl, ?_⟩
        intro a
        obtain ⟨e1, e2⟩ := h3 a
        rw [Fits, h2] at e2
        obtain ⟨b, hb⟩ := ZVal.of_int e2
        exact ⟨by simp [notBoth, meaning, e1, hb, ZTerm.eval], by simp [Fits, ZTerm.eval, hb, ZVal.sort, ZTerm.sort]⟩
      · cases hs
  | bin op l r ihl ihr =>
    simp only [sortOf] at hs
    split at hs
    · rename_i s1 s2 hl hr
      obtain ⟨b1, b2, rfl, hb1, hb2⟩ := bindsOk_split hb
      obtain ⟨tl, l1, l2, l3⟩ := ihl hl (fun n h => hn n (List.mem_append_left _ h)) b1 (b2 ++ rest) hb1
      obtain ⟨tr, r1, r2, r3⟩ := ihr hr (fun n h => hn n (List.mem_append_right _ h)) b2 rest hb2
      rw [← l2, ← r2] at hs
      obtain ⟨t, t1, t2, t3⟩ := visitBin_coded hs
      refine ⟨t, by simp [Z3Solver.visit, l1, r1, t1], t2, ?_⟩
      intro a
      obtain ⟨e1, e2⟩ := t3 a (l3 a).2 (r3 a).2
      exact ⟨by simp [notBoth, meaning, (l3 a).1, (r3 a).1, e1], e2⟩
    · cases hs

theorem visit_ok {m : FModel} (w : WF m) (c : Constraint) {σ : ZSort} (hx : NoXor c) (hs : sortOf (sortIn m) c = some σ)
    (hn : ∀ n ∈ c.features, Char.ofNat 0 ∉ n) (bs rest : List (Option Id)) (hb : BindsOk m c.features bs) (vars : ZTerm)
    (hv : vars.sort = .bool) :
    ∃ t, Z3Solver.visit m false c (bs ++ rest) vars = some (t, rest, vars) ∧ t.sort = σ ∧
      ∀ a, meaning (value m a) a.div0 c = some (t.eval a) ∧ Fits t a := by
  have h := visit_coded w c hs hn bs rest hb vars hv
  rwa [notBoth_id hx] at h

/-- The same for mixed constraints; the second term says that some Boolean feature is not selected. -/
theorem visit_mixed_coded {m : FModel} (w : WF m) (c : Constraint) {σ : ZSort} (hs : sortOf (fun _ => .int) c = some σ)
    (hn : ∀ n ∈ c.features, Char.ofNat 0 ∉ n) (bs rest : List (Option Id)) (hb : BindsOk m c.features bs) (vars : ZTerm)
    (hv : vars.sort = .bool) :
    ∃ t vars', Z3Solver.visit m true c (bs ++ rest) vars = some (t, rest, vars') ∧ t.sort = σ ∧ vars'.sort = .bool ∧
      (∀ a, meaning (value01 m a) a.div0 (notBoth c) = some (t.eval a) ∧ Fits t a) ∧
      ∀ a x, vars.eval a = .bool x → ∃ y, vars'.eval a = .bool y ∧
        (y = true ↔ x = true ∨ ¬ (∀ n ∈ c.features, ¬ IsNum m n → a.bool n = true)) := by
  induction c generalizing σ bs rest vars with
  | int v =>
    cases bs with
    | cons _ _ => exact hb.elim
    | nil =>
      cases hs
      exact ⟨_, _, rfl, rfl, hv, fun a => ⟨rfl, rfl⟩, fun a x hx => ⟨x, hx, by simp [Constraint.features]⟩⟩
  | feature n =>
    cases hs
    cases bs with
    | nil => exact hb.elim
    | cons b bs =>
      cases bs with
      | cons _ _ => exact hb.2.elim
      | nil =>
        obtain ⟨_, t, vars', h1, h2, h3, h4, h5⟩ := visitFeature_ok w (hn n (by simp [Constraint.features])) hb.1 vars hv
        refine ⟨t, vars', by simp [Z3Solver.visit, h1], h2, h3, ?_, ?_⟩
        · intro a
          refine ⟨by simp [notBoth, meaning, h4], ?_⟩
          unfold Fits
          rw [h2, h4]
          unfold value01
          split <;> rfl
        · intro a x hx
          obtain ⟨y, y1, y2⟩ := h5 a x hx
          exact ⟨y, y1, by simpa [Constraint.features] using y2⟩
  | un op c ih =>
    cases op with
    | not =>
      simp only [sortOf] at hs
      split at hs
      · rename_i hc
        cases hs
        obtain ⟨t, vars', h1, h2, h4, h3, h5⟩ := ih hc hn bs rest hb vars hv
        refine ⟨.not t, vars', by simp [Z3Solver.visit, h1, mkNot_some h2], rfl, h4, ?_, h5⟩
        intro a
        obtain ⟨e1, e2⟩ := h3 a
        rw [Fits, h2] at e2
        obtain ⟨b, hb⟩ := ZVal.of_bool e2
        exact ⟨by simp [notBoth, meaning, e1, hb, ZTerm.eval], by simp [Fits, ZTerm.eval, hb, ZVal.sort, ZTerm.sort]⟩
      · cases hs
    | neg =>
      simp only [sortOf] at hs
      split at hs
      · rename_i hc
        cases hs
        obtain ⟨t, vars', h1, h2, h4, h3, h5⟩ := ih hc hn bs rest hb vars hv
        refine ⟨.neg t, vars', by simp [Z3Solver.visit, h1, mkNeg_some h2], rfl, h4, ?_, h5⟩
        intro a
        obtain ⟨e1, e2⟩ := h3 a
        rw [Fits, h2] at e2
        obtain ⟨b, hb⟩ := ZVal.of_int e2
        exact ⟨by simp [notBoth, meaning, e1, hb, ZTerm.eval], by simp [Fits, ZTerm.eval, hb, ZVal.sort, ZTerm.sort]⟩
      · cases hs
  | bin op l r ihl ihr =>
    simp only [sortOf] at hs
    split at hs
    · rename_i s1 s2 hl hr
      obtain ⟨b1, b2, rfl, hb1, hb2⟩ := bindsOk_split hb
      obtain ⟨tl, v1, l1, l2, l4, l3, l5⟩ := ihl hl (fun n h => hn n (List.mem_append_left _ h)) b1 (b2 ++ rest) hb1 vars hv
      obtain ⟨tr, v2, r1, r2, r4, r3, r5⟩ := ihr hr (fun n h => hn n (List.mem_append_right _ h)) b2 rest hb2 v1 l4
      rw [← l2, ← r2] at hs
      obtain ⟨t, t1, t2, t3⟩ := visitBin_coded hs
      refine ⟨t, v2, by simp [Z3Solver.visit, l1, r1, t1], t2, r4, ?_, ?_⟩
      · intro a
        obtain ⟨e1, e2⟩ := t3 a (l3 a).2 (r3 a).2
        exact ⟨by simp [notBoth, meaning, (l3 a).1, (r3 a).1, e1], e2⟩
      · intro a x hx
        obtain ⟨y, y1, y2⟩ := l5 a x hx
        obtain ⟨z, z1, z2⟩ := r5 a y y1
        refine ⟨z, z1, ?_⟩
        rw [z2, y2]
        simp only [Constraint.features, List.mem_append]
        constructor
        · rintro ((h | h) | h)
          · exact .inl h
          · exact .inr (fun h' => h (fun n hn => h' n (.inl hn)))
          · exact .inr (fun h' => h (fun n hn => h' n (.inr hn)))
        · rintro (h | h)
          · exact .inl (.inl h)
          · by_cases hL : ∀ n ∈ l.features, ¬ IsNum m n → a.bool n = true
            · refine .inr (fun hR => h ?_)
              rintro n (hn | hn)
              · exact hL n hn
              · exact hR n hn
            · exact .inl (.inr hL)
    · cases hs

theorem visit_mixed {m : FModel} (w : WF m) (c : Constraint) {σ : ZSort} (hx : NoXor c) (hs : sortOf (fun _ => .int) c = some σ)
    (hn : ∀ n ∈ c.features, Char.ofNat 0 ∉ n) (bs rest : List (Option Id)) (hb : BindsOk m c.features bs) (vars : ZTerm)
    (hv : vars.sort = .bool) :
    ∃ t vars', Z3Solver.visit m true c (bs ++ rest) vars = some (t, rest, vars') ∧ t.sort = σ ∧ vars'.sort = .bool ∧
      (∀ a, meaning (value01 m a) a.div0 c = some (t.eval a) ∧ Fits t a) ∧
      ∀ a x, vars.eval a = .bool x → ∃ y, vars'.eval a = .bool y ∧
        (y = true ↔ x = true ∨ ¬ (∀ n ∈ c.features, ¬ IsNum m n → a.bool n = true)) := by
  have h := visit_mixed_coded w c hs hn bs rest hb vars hv
  rwa [notBoth_id hx] at h

end Verif

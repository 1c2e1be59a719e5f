import Verif.Constraint.BuilderSpec
/-! # The builder refines a shift-reduce machine, which implements the expression grammar -/

namespace Verif
open Spec

/-! ## The abstract machine -/

/-- Pending contexts, innermost first. -/
inductive Ctx
  | par
  | un (op : UnOp)
  | bin (op : BinOp) (a : Constraint)

def Ctx.prec : Ctx → Nat
  | .par => 9
  | .un _ => 0
  | .bin op _ => op.buildPrec

/-- The abstract state: an error, or contexts and the operand that just ended, if any. -/
inductive AState
  | err
  | run (stk : List Ctx) (cur : Option Constraint)

/-- Applies the contexts that bind at least as tightly as `p`. -/
def reduce (p : Nat) : List Ctx → Constraint → List Ctx × Constraint
  | [], c => ([], c)
  | .par :: s, c => (.par :: s, c)
  | .un op :: s, c => reduce p s (.un op c)
  | .bin op a :: s, c => if op.buildPrec ≤ p then reduce p s (.bin op a c) else (.bin op a :: s, c)

def astep : AState → Call → AState
  | .run s none, .constant v => .run s (some (.int v))
  | .run s none, .feature n => .run s (some (.feature n))
  | .run s none, .un op => .run (.un op :: s) none
  | .run s none, .openPar => .run (.par :: s) none
  | .run s (some c), .bin op => .run (.bin op (reduce op.buildPrec s c).2 :: (reduce op.buildPrec s c).1) none
  | .run s (some c), .closePar =>
    match reduce 8 s c with
    | (.par :: s', c') => .run s' (some c')
    | _ => .err
  | .run s (some c), .parens =>
    match reduce 8 s c with
    | ([], c') => .run [] (some c')
    | _ => .err
  | _, _ => .err

def arun (a : AState) (cs : List Call) : AState := cs.foldl astep a

/-! ## Refinement -/

def toB : Constraint → BTree
  | .bin op l r => .bin op (toB l) (toB r)
  | .un op c => .un op (toB c)
  | .int v => .int v
  | .feature n => .feature (some n)

theorem toB_ne_hole (c : Constraint) : toB c ≠ .hole := by cases c <;> simp [toB]

theorem toB_build (c : Constraint) : (toB c).build = some (some c) := by
  induction c with
  | bin op l r ihl ihr => simp [toB, BTree.build, ihl, ihr]
  | un op c ih => simp [toB, BTree.build, ih]
  | int v => rfl
  | feature n => rfl

def plug : List Ctx → BTree → BTree
  | [], t => t
  | .par :: s, t => plug s t
  | .un op :: s, t => plug s (.un op t)
  | .bin op a :: s, t => plug s (.bin op (toB a) t)

def pathOf : List Ctx → Path
  | [] => []
  | .par :: s => pathOf s
  | .un _ :: s => pathOf s ++ [.operand]
  | .bin _ _ :: s => pathOf s ++ [.right]

def framesOf : List Ctx → List (Nat × Path)
  | [] => []
  | x :: s => (x.prec, pathOf s) :: framesOf s

theorem get_append (t : BTree) (p q : Path) : t.get? (p ++ q) = (t.get? p).bind (·.get? q) := by
  induction p generalizing t with
  | nil => simp [BTree.get?]
  | cons d p ih =>
    cases t <;> cases d <;> simp [BTree.get?, ih]

theorem set_append (t : BTree) (p q : Path) (u x : BTree) (h : t.get? p = some u) :
    t.set (p ++ q) x = t.set p (u.set q x) := by
  induction p generalizing t with
  | nil => simp [BTree.get?] at h; subst h; simp [BTree.set]
  | cons d p ih =>
    cases t <;> cases d <;> simp_all [BTree.get?, BTree.set]

theorem get_plug (s : List Ctx) (t : BTree) : (plug s t).get? (pathOf s) = some t := by
  induction s generalizing t with
  | nil => simp [plug, pathOf, BTree.get?]
  | cons x s ih =>
    cases x with
    | par => exact ih t
    | un op => simp [plug, pathOf, get_append, ih, BTree.get?]
    | bin op a => simp [plug, pathOf, get_append, ih, BTree.get?]

theorem set_plug (s : List Ctx) (t x : BTree) : (plug s t).set (pathOf s) x = plug s x := by
  induction s generalizing t x with
  | nil => simp [plug, pathOf, BTree.set]
  | cons y s ih =>
    cases y with
    | par => exact ih t x
    | un op =>
      simp only [plug, pathOf]
      rw [set_append _ _ _ _ _ (get_plug s _), ih]; simp [BTree.set]
    | bin op a =>
      simp only [plug, pathOf]
      rw [set_append _ _ _ _ _ (get_plug s _), ih]; simp [BTree.set]

theorem plug_ne_hole (s : List Ctx) {t : BTree} (h : t ≠ .hole) : plug s t ≠ .hole := by
  induction s generalizing t with
  | nil => exact h
  | cons x s ih => cases x <;> exact ih (by simp_all)

theorem buildPrec_le (op : BinOp) : 1 ≤ op.buildPrec ∧ op.buildPrec ≤ 8 := by cases op <;> decide

theorem reduce_plug (p : Nat) (s : List Ctx) (c : Constraint) :
    plug (reduce p s c).1 (toB (reduce p s c).2) = plug s (toB c) := by
  induction s generalizing c with
  | nil => rfl
  | cons x s ih =>
    cases x with
    | par => rfl
    | un op => simp only [reduce, ih]; rfl
    | bin op a =>
      simp only [reduce]
      by_cases h : op.buildPrec ≤ p
      · rw [if_pos h, ih]; rfl
      · rw [if_neg h]

theorem popTo_frames (p : Nat) (hp : p ≤ 8) (s : List Ctx) (c : Constraint) :
    popTo p (pathOf s) (framesOf s) = (pathOf (reduce p s c).1, framesOf (reduce p s c).1) := by
  induction s generalizing c with
  | nil => rfl
  | cons x s ih =>
    cases x with
    | par =>
      simp only [framesOf, popTo, Ctx.prec, reduce, pathOf]
      rw [if_neg (by omega)]
    | un op =>
      simp only [framesOf, popTo, Ctx.prec, reduce]
      rw [if_pos (Nat.zero_le _)]
      exact ih _
    | bin op a =>
      simp only [framesOf, popTo, Ctx.prec, reduce]
      by_cases h : op.buildPrec ≤ p
      · rw [if_pos h, if_pos h]; exact ih _
      · rw [if_neg h, if_neg h]; rfl

theorem popBelowMax_frames (s : List Ctx) (c : Constraint) :
    popBelowMax (framesOf s) = framesOf (reduce 8 s c).1 := by
  induction s generalizing c with
  | nil => rfl
  | cons x s ih =>
    cases x with
    | par => rfl
    | un op =>
      simp only [framesOf, popBelowMax, Ctx.prec, reduce]
      rw [if_pos (by decide)]
      exact ih _
    | bin op a =>
      have := buildPrec_le op
      simp only [framesOf, popBelowMax, Ctx.prec, reduce]
      rw [if_pos (by unfold builderMax; omega), if_pos this.2]
      exact ih _

theorem frames_prefix (s : List Ctx) : ∀ f ∈ framesOf s, f.2.length ≤ (pathOf s).length := by
  induction s with
  | nil => simp [framesOf]
  | cons x s ih =>
    have hl : (pathOf s).length ≤ (pathOf (x :: s)).length := by cases x <;> simp [pathOf]
    intro f hf
    simp only [framesOf, List.mem_cons] at hf
    rcases hf with rfl | hf
    · exact hl
    · exact Nat.le_trans (ih f hf) hl

theorem rename_frames (s : List Ctx) :
    (framesOf s).map (fun f => (f.1, renamePath (pathOf s) f.2)) = framesOf s := by
  have : ∀ f ∈ framesOf s, (f.1, renamePath (pathOf s) f.2) = f := by
    intro f hf
    have hl := frames_prefix s f hf
    unfold renamePath
    by_cases h : ((pathOf s).isPrefixOf f.2 && decide (f.2.length ≠ (pathOf s).length)) = true
    · simp only [Bool.and_eq_true, List.isPrefixOf_iff_prefix, decide_eq_true_eq] at h
      have := h.1.length_le
      omega
    · rw [if_neg h]
  conv => rhs; rw [← List.map_id (framesOf s)]
  apply List.map_congr_left
  intro f hf
  exact this f hf

def curTree : Option Constraint → BTree
  | none => .hole
  | some c => toB c

/-- The refinement relation. -/
def Rel (s : BState) : AState → Prop
  | .err => s.head = none
  | .run stk cur => s.root = plug stk (curTree cur) ∧ s.head = some (pathOf stk) ∧
      (s.frames = framesOf stk ∨ (cur.isSome ∧ s.frames = (0, pathOf stk) :: framesOf stk))

theorem rel_init : Rel .init (.run [] none) := ⟨rfl, rfl, .inl rfl⟩

theorem rel_pop {s : BState} {stk c} (h : Rel s (.run stk (some c))) :
    popBelowMax s.frames = framesOf (reduce 8 stk c).1 := by
  obtain ⟨_, _, h | ⟨_, h⟩⟩ := h
  · rw [h, popBelowMax_frames _ c]
  · rw [h, popBelowMax, if_pos (by decide), popBelowMax_frames _ c]

theorem rel_popTo {s : BState} {stk c} (h : Rel s (.run stk (some c))) {p} (hp : p ≤ 8) :
    popTo p (pathOf stk) s.frames = (pathOf (reduce p stk c).1, framesOf (reduce p stk c).1) := by
  obtain ⟨_, _, h | ⟨_, h⟩⟩ := h
  · rw [h, popTo_frames _ hp]
  · rw [h, popTo, if_pos (Nat.zero_le _), popTo_frames _ hp]

theorem step_rel {s : BState} {a : AState} (h : Rel s a) (c : Call) :
    ∃ s', s.step c = some s' ∧ Rel s' (astep a c) := by
  cases a with
  | err =>
    have hh : s.head = none := h
    cases c <;> simp [BState.step, hh, astep, Rel]
  | run stk cur =>
    have hr : s.root = plug stk (curTree cur) := h.1
    have hh : s.head = some (pathOf stk) := h.2.1
    have hg : s.root.get? (pathOf stk) = some (curTree cur) := by rw [hr, get_plug]
    cases cur with
    | none =>
      have hf : s.frames = framesOf stk := by
        rcases h.2.2 with h | ⟨h, _⟩
        · exact h
        · simp at h
      simp only [BState.step, hh, hg]
      cases c with
      | constant v =>
        dsimp only
        rw [if_neg (by simp [curTree])]
        refine ⟨_, rfl, ?_⟩
        exact ⟨by simp only [hr, set_plug]; rfl, rfl, .inr ⟨rfl, by simp [hf, builderMin]⟩⟩
      | feature n =>
        dsimp only
        rw [if_neg (by simp [curTree])]
        refine ⟨_, rfl, ?_⟩
        exact ⟨by simp only [hr, set_plug]; rfl, rfl, .inr ⟨rfl, by simp [hf, builderMin]⟩⟩
      | un op =>
        dsimp only
        rw [if_neg (by simp [curTree])]
        refine ⟨_, rfl, ?_⟩
        exact ⟨by simp only [hr, set_plug]; rfl, rfl, .inl (by simp [hf, builderMin, framesOf, Ctx.prec])⟩
      | bin op =>
        dsimp only
        rw [if_pos (show curTree none = .hole from rfl)]
        exact ⟨_, rfl, rfl⟩
      | openPar =>
        dsimp only
        rw [if_neg (by simp [curTree])]
        refine ⟨_, rfl, ?_⟩
        exact ⟨hr, rfl, .inl (by simp [hf, builderMax, framesOf, Ctx.prec])⟩
      | closePar =>
        dsimp only
        cases hp : popBelowMax s.frames with
        | nil => exact ⟨_, rfl, rfl⟩
        | cons f fs => simp only [curTree, if_true]; exact ⟨_, rfl, rfl⟩
      | parens =>
        dsimp only
        rw [if_pos (show curTree none = .hole from rfl)]
        exact ⟨_, rfl, rfl⟩
    | some x =>
      have hne : curTree (some x) ≠ .hole := toB_ne_hole x
      simp only [BState.step, hh, hg]
      cases c with
      | constant v =>
        dsimp only
        rw [if_pos hne]
        exact ⟨_, rfl, rfl⟩
      | feature n =>
        dsimp only
        rw [if_pos hne]
        exact ⟨_, rfl, rfl⟩
      | un op =>
        dsimp only
        rw [if_pos hne]
        exact ⟨_, rfl, rfl⟩
      | openPar =>
        dsimp only
        rw [if_pos hne]
        exact ⟨_, rfl, rfl⟩
      | bin op =>
        dsimp only
        rw [if_neg hne]
        simp only [rel_popTo h (buildPrec_le op).2]
        have hp : s.root = plug (reduce op.buildPrec stk x).1 (toB (reduce op.buildPrec stk x).2) := by
          rw [reduce_plug, hr]; rfl
        rw [hp, get_plug]
        have hne' := toB_ne_hole (reduce op.buildPrec stk x).2
        generalize hu : toB (reduce op.buildPrec stk x).2 = u at *
        cases u with
        | hole => exact absurd rfl hne'
        | _ =>
          refine ⟨_, rfl, ?_⟩
          refine ⟨?_, rfl, .inl ?_⟩
          · simp only [set_plug, curTree, plug, hu]
          · simp only [rename_frames, framesOf, Ctx.prec]
      | closePar =>
        dsimp only
        simp only [rel_pop h, astep]
        have hp := reduce_plug 8 stk x
        generalize hq : reduce 8 stk x = q at *
        obtain ⟨stk', x'⟩ := q
        cases stk' with
        | nil => exact ⟨_, rfl, rfl⟩
        | cons y stk' =>
          simp only [framesOf]
          rw [if_neg hne]
          have hy : y = .par := by
            have key : ∀ (s : List Ctx) (x : Constraint) y stk' x', reduce 8 s x = (y :: stk', x') → y = .par := by
              intro s
              induction s with
              | nil => intro x y stk' x' e; simp [reduce] at e
              | cons z s ih =>
                intro x y stk' x' e
                cases z with
                | par => simp [reduce] at e; exact e.1.1.symm
                | un op => simp only [reduce] at e; exact ih _ _ _ _ e
                | bin op a =>
                  simp only [reduce] at e
                  rw [if_pos (buildPrec_le op).2] at e
                  exact ih _ _ _ _ e
            exact key _ _ _ _ _ hq
          subst hy
          simp only [plug] at hp
          have e2 : s.root = plug stk' (toB x') := by rw [hr]; exact hp.symm
          have hg2 : s.root.get? (pathOf stk') = some (toB x') := by rw [e2, get_plug]
          have hne' := toB_ne_hole x'
          simp only [hg2]
          generalize hu : toB x' = u at *
          cases u with
          | hole => exact absurd rfl hne'
          | _ => exact ⟨_, rfl, by show s.root = plug stk' (toB x'); rw [e2, hu], rfl, .inl rfl⟩
      | parens =>
        dsimp only
        rw [if_neg hne]
        simp only [rel_pop h, astep]
        have hp := reduce_plug 8 stk x
        generalize hq : reduce 8 stk x = q at *
        obtain ⟨stk', x'⟩ := q
        cases stk' with
        | nil =>
          simp only [framesOf, ne_eq, not_true_eq_false, if_false]
          have e2 : s.root = toB x' := by rw [hr]; exact hp.symm
          rw [if_neg (by rw [e2]; exact toB_ne_hole x')]
          exact ⟨_, rfl, e2, rfl, .inl rfl⟩
        | cons y stk' =>
          have hc : framesOf (y :: stk', x').1 ≠ [] := List.cons_ne_nil _ _
          rw [if_pos hc]
          exact ⟨_, rfl, rfl⟩

theorem run_rel {s : BState} {a : AState} (h : Rel s a) (cs : List Call) :
    ∃ s', s.run cs = some s' ∧ Rel s' (arun a cs) := by
  induction cs generalizing s a with
  | nil => exact ⟨s, rfl, h⟩
  | cons c cs ih =>
    obtain ⟨s1, h1, r1⟩ := step_rel h c
    obtain ⟨s2, h2, r2⟩ := ih r1
    exact ⟨s2, by simp [BState.run, h1, h2], r2⟩

/-- The result of `build` in terms of the abstract state. -/
def abuild : AState → Option Constraint
  | .run s (some c) => match reduce 8 s c with
    | ([], c') => some c'
    | _ => none
  | _ => none

theorem build_rel {s : BState} {a : AState} (h : Rel s a) :
    s.build.1 = match abuild a with
      | none => .null
      | some c => .ok c := by
  cases a with
  | err =>
    have hh : s.head = none := h
    simp [BState.build, hh, abuild]
  | run stk cur =>
    have hr : s.root = plug stk (curTree cur) := h.1
    have hh : s.head = some (pathOf stk) := h.2.1
    have hg : s.root.get? (pathOf stk) = some (curTree cur) := by rw [hr, get_plug]
    cases cur with
    | none => simp [BState.build, hh, hg, abuild, curTree]
    | some x =>
      have hne : curTree (some x) ≠ .hole := toB_ne_hole x
      have hroot : s.root ≠ .hole := by rw [hr]; exact plug_ne_hole _ hne
      simp only [BState.build, hh, hg, rel_pop h, abuild]
      have hp := reduce_plug 8 stk x
      generalize hu : curTree (some x) = u at *
      cases u with
      | hole => exact absurd rfl hne
      | _ =>
        simp only [hroot, if_false]
        generalize hq : reduce 8 stk x = q at *
        obtain ⟨stk', x'⟩ := q
        cases stk' with
        | nil =>
          simp only [framesOf, ne_eq, not_true_eq_false, if_false]
          have e2 : s.root = toB x' := by rw [hr, ← hu]; exact hp.symm
          rw [e2, toB_build]
        | cons y stk' => simp [framesOf]

theorem buildCalls_eq (cs : List Call) :
    buildCalls cs = match abuild (arun (.run [] none) cs) with
      | none => .null
      | some c => .ok c := by
  obtain ⟨s, h1, h2⟩ := run_rel rel_init cs
  simp only [buildCalls, h1, build_rel h2]

/-! ## The abstract machine implements the grammar -/

theorem level_eq (op : BinOp) : op.buildPrec = level op := by cases op <;> rfl

/-- Running symbols. -/
def sstep : AState → Sym → AState
  | .run s none, .operand c => .run s (some c)
  | .run s none, .un op => .run (.un op :: s) none
  | .run s none, .lpar => .run (.par :: s) none
  | .run s (some c), .bin op => .run (.bin op (reduce op.buildPrec s c).2 :: (reduce op.buildPrec s c).1) none
  | .run s (some c), .rpar =>
    match reduce 8 s c with
    | (.par :: s', c') => .run s' (some c')
    | _ => .err
  | _, _ => .err

def srun (a : AState) (ss : List Sym) : AState := ss.foldl sstep a

theorem srun_append (a : AState) (u v : List Sym) : srun a (u ++ v) = srun (srun a u) v := by
  simp [srun]

theorem srun_cons (a : AState) (x : Sym) (v : List Sym) : srun a (x :: v) = srun (sstep a x) v := rfl

theorem astep_symbol {c : Call} {x : Sym} (h : symbol c = some x) (a : AState) :
    astep a c = sstep a x := by
  cases c <;> simp [symbol] at h <;> subst h <;> (cases a with
    | err => rfl
    | run s cur => cases cur <;> rfl)

theorem arun_symbols {cs : List Call} {ss : List Sym} (h : symbols cs = some ss) (a : AState) :
    arun a cs = srun a ss := by
  induction cs generalizing ss a with
  | nil => simp [symbols] at h; subst h; rfl
  | cons c cs ih =>
    simp only [symbols] at h
    split at h
    · rename_i x xs h1 h2
      cases h
      show arun (astep a c) cs = srun (sstep a x) xs
      rw [astep_symbol h1, ih h2]
    · cases h

/-- Contexts that are applied when an operator of level `p` comes, turning `c'` into `c`. -/
def Folds (p : Nat) : List Ctx → Constraint → Constraint → Prop
  | [], c', c => c' = c
  | .par :: _, _, _ => False
  | .un op :: s, c', c => Folds p s (.un op c') c
  | .bin op a :: s, c', c => op.buildPrec ≤ p ∧ Folds p s (.bin op a c') c

theorem Folds.mono {p q s c' c} (h : Folds p s c' c) (hpq : p ≤ q) : Folds q s c' c := by
  induction s generalizing c' with
  | nil => exact h
  | cons x s ih =>
    cases x with
    | par => exact h
    | un op => exact ih h
    | bin op a => exact ⟨Nat.le_trans h.1 hpq, ih h.2⟩

theorem Folds.reduce {p s c' c} (h : Folds p s c' c) (s0 : List Ctx) :
    reduce p (s ++ s0) c' = Verif.reduce p s0 c := by
  induction s generalizing c' with
  | nil => rw [List.nil_append, show c' = c from h]
  | cons x s ih =>
    cases x with
    | par => exact h.elim
    | un op => exact ih h
    | bin op a =>
      simp only [List.cons_append, Verif.reduce]
      rw [if_pos h.1]
      exact ih h.2

theorem Folds.append_un {p s c' c} (op : UnOp) (h : Folds p s c' c) :
    Folds p (s ++ [.un op]) c' (.un op c) := by
  induction s generalizing c' with
  | nil => simp only [List.nil_append]; show Constraint.un op c' = .un op c; rw [show c' = c from h]
  | cons x s ih =>
    cases x with
    | par => exact h.elim
    | un op => exact ih h
    | bin op a => exact ⟨h.1, ih h.2⟩

theorem Folds.append_bin {p s c' c} (op : BinOp) (a : Constraint) (hop : op.buildPrec ≤ p)
    (h : Folds p s c' c) : Folds p (s ++ [.bin op a]) c' (.bin op a c) := by
  induction s generalizing c' with
  | nil =>
    simp only [List.nil_append]
    exact ⟨hop, by show Constraint.bin op a c' = .bin op a c; rw [show c' = c from h]⟩
  | cons x s ih =>
    cases x with
    | par => exact h.elim
    | un op => exact ih h
    | bin op a => exact ⟨h.1, ih h.2⟩

/-- The contexts do not bind as tightly as `p`. -/
def TopAbove (p : Nat) : List Ctx → Prop
  | [] => True
  | x :: _ => p < x.prec

theorem reduce_above {p s} (h : TopAbove p s) (c : Constraint) : reduce p s c = (s, c) := by
  cases s with
  | nil => rfl
  | cons x s =>
    cases x with
    | par => rfl
    | un op => simp [TopAbove, Ctx.prec] at h
    | bin op a =>
      simp only [TopAbove, Ctx.prec] at h
      simp only [reduce]
      rw [if_neg (by omega)]

theorem expr_complete {p ss c} (h : Expr p ss c) :
    p ≤ 8 → ∀ s, (p = 0 ∨ TopAbove p s) →
      ∃ s' c', srun (.run s none) ss = .run (s' ++ s) (some c') ∧ Folds p s' c' c := by
  induction h with
  | operand c => intro _ s _; exact ⟨[], c, rfl, rfl⟩
  | un op _ ih =>
    intro _ s _
    obtain ⟨s', c', h1, h2⟩ := ih (by omega) (.un op :: s) (.inl rfl)
    refine ⟨s' ++ [.un op], c', ?_, h2.append_un op⟩
    rw [srun_cons]
    simpa [sstep] using h1
  | @paren ts c _ ih =>
    intro _ s _
    obtain ⟨s', c', h1, h2⟩ := ih (by omega) (.par :: s) (.inr (by simp [TopAbove, Ctx.prec]))
    refine ⟨[], c, ?_, rfl⟩
    rw [List.cons_append, srun_cons, srun_append]
    simp only [sstep, h1]
    simp only [srun, List.foldl_cons, List.foldl_nil, sstep, h2.reduce, reduce, List.nil_append]
  | @looser p ts c _ ih =>
    intro hp s hs
    obtain ⟨s', c', h1, h2⟩ := ih (by omega) s (by
      rcases hs with hs | hs
      · omega
      · right; cases s <;> simp_all [TopAbove]; omega)
    exact ⟨s', c', h1, h2.mono (by omega)⟩
  | @«infix» p op l r a c hop _ _ ih1 ih2 =>
    intro hp s hs
    have hs' : TopAbove (p + 1) s := by
      rcases hs with hs | hs
      · omega
      · exact hs
    obtain ⟨s1, c1, h1, h2⟩ := ih1 hp s (.inr hs')
    have hlev : op.buildPrec = p + 1 := by rw [level_eq, hop]
    obtain ⟨s2, c2, h3, h4⟩ := ih2 (by omega) (.bin op a :: s) (.inr (by
      simp [TopAbove, Ctx.prec, hlev]))
    refine ⟨s2 ++ [.bin op a], c2, ?_, (h4.mono (by omega)).append_bin op a (by omega)⟩
    rw [srun_append, h1, srun_cons]
    simp only [sstep, hlev, h2.reduce, reduce_above hs']
    simpa using h3

/-- The symbols consumed to reach a stack. -/
inductive StackOk : List Ctx → List Sym → Prop
  | nil : StackOk [] []
  | par {s w} : StackOk s w → StackOk (.par :: s) (w ++ [.lpar])
  | un {s w op} : StackOk s w → StackOk (.un op :: s) (w ++ [.un op])
  | bin {s w u op a} : StackOk s w → Expr (level op) u a → TopAbove (level op) s →
      StackOk (.bin op a :: s) (w ++ u ++ [.bin op])

theorem Spec.Expr.lift {p q ts c} (h : Expr p ts c) (hpq : p ≤ q) : Expr q ts c := by
  induction hpq with
  | refl => exact h
  | step _ ih => exact .looser ih

theorem level_pos (op : BinOp) : 1 ≤ level op ∧ level op ≤ 8 := by cases op <;> decide

theorem reduce_sound {p : Nat} (hp : p ≤ 8) {s w} (hs : StackOk s w) :
    ∀ {q u c}, Expr q u c → q ≤ p → (q = 0 ∨ TopAbove q s) →
      ∃ w' u', w ++ u = w' ++ u' ∧ StackOk (reduce p s c).1 w' ∧ Expr p u' (reduce p s c).2 ∧
        TopAbove p (reduce p s c).1 := by
  induction hs with
  | nil => intro q u c hu hq _; exact ⟨[], u, rfl, .nil, hu.lift hq, trivial⟩
  | @par s w hs ih =>
    intro q u c hu hq _
    exact ⟨_, u, rfl, .par hs, hu.lift hq, by simp [reduce, TopAbove, Ctx.prec]; omega⟩
  | @un s w op hs ih =>
    intro q u c hu hq hq'
    have h0 : q = 0 := by
      rcases hq' with h | h
      · exact h
      · simp [TopAbove, Ctx.prec] at h
    subst h0
    obtain ⟨w', u', h1, h2, h3, h4⟩ := ih (Expr.un op hu) (Nat.zero_le _) (.inl rfl)
    exact ⟨w', u', by rw [← h1]; simp, h2, h3, h4⟩
  | @bin s w v op a hs hv htop ih =>
    intro q u c hu hq hq'
    have hpos := level_pos op
    have hlt : q < level op := by
      rcases hq' with h | h
      · omega
      · simpa [TopAbove, Ctx.prec, level_eq] using h
    simp only [reduce, level_eq]
    by_cases hle : level op ≤ p
    · rw [if_pos hle]
      obtain ⟨k, hk⟩ : ∃ k, level op = k + 1 := ⟨level op - 1, by omega⟩
      have he : Expr (level op) (v ++ .bin op :: u) (.bin op a c) := by
        rw [hk] at hv ⊢
        exact .infix hk hv (hu.lift (by omega))
      obtain ⟨w', u', h1, h2, h3, h4⟩ := ih he hle (.inr htop)
      exact ⟨w', u', by rw [← h1]; simp, h2, h3, h4⟩
    · rw [if_neg hle]
      exact ⟨_, u, rfl, .bin hs hv htop, hu.lift hq, by simp [TopAbove, Ctx.prec, level_eq]; omega⟩

/-- What the abstract state says about the symbols consumed. -/
def Sound (w : List Sym) : AState → Prop
  | .err => True
  | .run s none => StackOk s w
  | .run s (some c) => ∃ w' u, w = w' ++ u ∧ StackOk s w' ∧ Expr 0 u c

theorem sstep_sound {w a} (h : Sound w a) (x : Sym) : Sound (w ++ [x]) (sstep a x) := by
  cases a with
  | err => exact trivial
  | run s cur =>
    cases cur with
    | none =>
      have h : StackOk s w := h
      cases x with
      | operand c => exact ⟨w, [.operand c], rfl, h, .operand c⟩
      | un op => exact .un h
      | bin op => exact trivial
      | lpar => exact .par h
      | rpar => exact trivial
    | some c =>
      obtain ⟨w', u, rfl, hs, hu⟩ := h
      cases x with
      | operand c => exact trivial
      | un op => exact trivial
      | lpar => exact trivial
      | bin op =>
        obtain ⟨w2, u2, h1, h2, h3, h4⟩ := reduce_sound (buildPrec_le op).2 hs hu (Nat.zero_le _) (.inl rfl)
        show StackOk _ _
        rw [h1]
        refine .bin h2 ?_ ?_
        · rw [← level_eq]; exact h3
        · rw [← level_eq]; exact h4
      | rpar =>
        obtain ⟨w2, u2, h1, h2, h3, h4⟩ := reduce_sound (Nat.le_refl 8) hs hu (Nat.zero_le _) (.inl rfl)
        simp only [sstep]
        split
        · rename_i s' c' e
          rw [e] at h2 h3
          cases h2 with
          | @par _ w3 h2 =>
            refine ⟨w3, .lpar :: u2 ++ [.rpar], by rw [h1]; simp, h2, .paren h3⟩
        · exact trivial

theorem srun_sound {w a} (h : Sound w a) (ss : List Sym) : Sound (w ++ ss) (srun a ss) := by
  induction ss generalizing w a with
  | nil => simpa [srun] using h
  | cons x ss ih =>
    have := ih (sstep_sound h x)
    simpa [srun_cons] using this

theorem abuild_sound {w a c} (h : Sound w a) (hb : abuild a = some c) : Expr 8 w c := by
  cases a with
  | err => simp [abuild] at hb
  | run s cur =>
    cases cur with
    | none => simp [abuild] at hb
    | some x =>
      obtain ⟨w', u, rfl, hs, hu⟩ := h
      obtain ⟨w2, u2, h1, h2, h3, h4⟩ := reduce_sound (Nat.le_refl 8) hs hu (Nat.zero_le _) (.inl rfl)
      simp only [abuild] at hb
      split at hb
      · rename_i c' e
        rw [e] at h2 h3
        cases hb
        cases h2
        rw [h1]
        simpa using h3
      · cases hb

theorem expr_abuild {ss c} (h : Expr 8 ss c) : abuild (srun (.run [] none) ss) = some c := by
  obtain ⟨s', c', h1, h2⟩ := expr_complete h (Nat.le_refl _) [] (.inr trivial)
  rw [h1]
  simp only [abuild, h2.reduce, reduce]

theorem abuild_iff (ss : List Sym) (c : Constraint) :
    abuild (srun (.run [] none) ss) = some c ↔ Expr 8 ss c := by
  constructor
  · intro h
    have hs : Sound [] (AState.run [] none) := StackOk.nil
    have := srun_sound hs ss
    exact abuild_sound (by simpa using this) h
  · exact expr_abuild

/-- After `operator()()`. -/
theorem parens_state (a : AState) :
    astep a .parens = match abuild a with
      | some c => .run [] (some c)
      | none => .err := by
  cases a with
  | err => rfl
  | run s cur =>
    cases cur with
    | none => rfl
    | some c =>
      simp only [astep, abuild]
      split <;> split <;> simp_all

theorem arun_append (a : AState) (u v : List Call) : arun a (u ++ v) = arun (arun a u) v := by
  simp [arun]

theorem arun_err (cs : List Call) : arun .err cs = .err := by
  induction cs with
  | nil => rfl
  | cons c cs ih => exact ih

theorem builds_iff (cs : List Call) (c : Constraint) :
    abuild (arun (.run [] none) cs) = some c ↔ Builds cs c := by
  constructor
  · -- split at the last `operator()()`
    have key : ∀ (n : Nat) (cs : List Call), cs.length ≤ n → ∀ c,
        abuild (arun (.run [] none) cs) = some c → Builds cs c := by
      intro n
      induction n with
      | zero =>
        intro cs hn c h
        have : cs = [] := by simpa using hn
        subst this
        simp [arun, abuild] at h
      | succ n ih =>
        intro cs hn c h
        have hsplit : (∃ ss, symbols cs = some ss) ∨
            ∃ w0 w ss, cs = w0 ++ .parens :: w ∧ symbols w = some ss := by
          clear hn h ih
          induction cs with
          | nil => exact .inl ⟨[], rfl⟩
          | cons x cs ih =>
            rcases ih with ⟨ss, hss⟩ | ⟨w0, w, ss, rfl, hss⟩
            · cases hx : symbol x with
              | some y => exact .inl ⟨y :: ss, by simp [symbols, hx, hss]⟩
              | none =>
                have : x = .parens := by cases x <;> simp [symbol] at hx <;> rfl
                subst this
                exact .inr ⟨[], cs, ss, rfl, hss⟩
            · exact .inr ⟨x :: w0, w, ss, rfl, hss⟩
        rcases hsplit with ⟨ss, hss⟩ | ⟨w0, w, ss, rfl, hss⟩
        · rw [arun_symbols hss] at h
          exact .plain hss ((abuild_iff ss c).1 h)
        · rw [arun_append] at h
          have e : arun (arun (.run [] none) w0) (.parens :: w) =
              arun (astep (arun (.run [] none) w0) .parens) w := rfl
          rw [e, parens_state] at h
          cases hb : abuild (arun (.run [] none) w0) with
          | none => rw [hb] at h; simp only [arun_err] at h; cases h
          | some c0 =>
            rw [hb] at h
            simp only at h
            rw [arun_symbols hss] at h
            have h0 := ih w0 (by simp at hn; omega) c0 hb
            refine .parens h0 hss ((abuild_iff _ c).1 ?_)
            exact h
    exact key cs.length cs (Nat.le_refl _) c
  · intro h
    induction h with
    | plain hss he => rw [arun_symbols hss, (abuild_iff _ _).2 he]
    | @parens w0 c0 w ss c _ hss he ih =>
      rw [arun_append]
      show abuild (arun (astep (arun (.run [] none) w0) .parens) w) = some c
      rw [parens_state, ih]
      simp only
      rw [arun_symbols hss]
      exact (abuild_iff _ _).2 he

/-! ## Legality -/

def parCount : List Ctx → Nat
  | [] => 0
  | .par :: s => parCount s + 1
  | _ :: s => parCount s

def Tracks : AState → Option (Bool × Nat) → Prop
  | .err, none => True
  | .run s cur, some (b, d) => b = cur.isSome ∧ d = parCount s
  | _, _ => False

theorem reduce_parCount (p : Nat) (s : List Ctx) (c : Constraint) :
    parCount (reduce p s c).1 = parCount s := by
  induction s generalizing c with
  | nil => rfl
  | cons x s ih =>
    cases x with
    | par => rfl
    | un op => exact ih _
    | bin op a =>
      simp only [reduce]
      by_cases h : op.buildPrec ≤ p
      · rw [if_pos h]; exact ih _
      · rw [if_neg h]

theorem reduce8_shape (s : List Ctx) (c : Constraint) :
    (parCount s = 0 ∧ (reduce 8 s c).1 = []) ∨
      ∃ s', (reduce 8 s c).1 = .par :: s' ∧ parCount s = parCount s' + 1 := by
  induction s generalizing c with
  | nil => exact .inl ⟨rfl, rfl⟩
  | cons x s ih =>
    cases x with
    | par => exact .inr ⟨s, rfl, rfl⟩
    | un op => exact ih _
    | bin op a =>
      simp only [reduce]
      rw [if_pos (buildPrec_le op).2]
      exact ih _

theorem track_arun (cs : List Call) : ∀ (s : List Ctx) (cur : Option Constraint),
    Tracks (arun (.run s cur) cs) (track (cur.isSome, parCount s) cs) := by
  induction cs with
  | nil => intro s cur; exact ⟨rfl, rfl⟩
  | cons c cs ih =>
    intro s cur
    have herr : ∀ cs, Tracks (arun .err cs) none := fun cs => by rw [arun_err]; exact trivial
    show Tracks (arun (astep (.run s cur) c) cs) _
    cases cur with
    | none =>
      cases c with
      | constant v => exact ih s (some (.int v))
      | feature n => exact ih s (some (.feature n))
      | un op => exact ih (.un op :: s) none
      | openPar => exact ih (.par :: s) none
      | bin op => exact herr cs
      | closePar => simp only [Option.isSome, track, astep]; exact herr cs
      | parens => simp only [Option.isSome, track, astep]; exact herr cs
    | some x =>
      cases c with
      | constant v => exact herr cs
      | feature n => exact herr cs
      | un op => exact herr cs
      | openPar => exact herr cs
      | bin op =>
        have := ih (.bin op (reduce op.buildPrec s x).2 :: (reduce op.buildPrec s x).1) none
        simp only [parCount, reduce_parCount] at this
        exact this
      | closePar =>
        have hr := reduce8_shape s x
        generalize hq : reduce 8 s x = q at *
        obtain ⟨s1, x1⟩ := q
        rcases hr with ⟨h0, rfl⟩ | ⟨s', rfl, h1⟩
        · simp only [astep, hq, Option.isSome, h0, track]
          exact herr cs
        · simp only [astep, hq, Option.isSome, h1, track]
          exact ih s' (some x1)
      | parens =>
        have hr := reduce8_shape s x
        generalize hq : reduce 8 s x = q at *
        obtain ⟨s1, x1⟩ := q
        rcases hr with ⟨h0, rfl⟩ | ⟨s', rfl, h1⟩
        · simp only [astep, hq, Option.isSome, h0, track]
          exact ih [] (some x1)
        · simp only [astep, hq, Option.isSome, h1, track]
          exact herr cs

theorem tracks_abuild {a t} (h : Tracks a t) : (abuild a).isSome ↔ t = some (true, 0) := by
  cases a with
  | err =>
    cases t with
    | none => simp [abuild]
    | some t => exact h.elim
  | run s cur =>
    cases t with
    | none => exact h.elim
    | some t =>
      obtain ⟨b, d⟩ := t
      obtain ⟨rfl, rfl⟩ := h
      cases cur with
      | none => simp [abuild]
      | some x =>
        have hr := reduce8_shape s x
        generalize hq : reduce 8 s x = q at *
        obtain ⟨s1, x1⟩ := q
        rcases hr with ⟨h0, rfl⟩ | ⟨s', rfl, h1⟩
        · simp [abuild, hq, h0]
        · simp [abuild, hq, h1]

end Verif

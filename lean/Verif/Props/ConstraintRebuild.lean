import Verif.Props.ConstraintBuild
/-!
# Property C49: what asking for the result does to a builder

General forms of the witnesses `C49_second_build_loses_features` and `C49_build_changes_builder`.
-/

namespace Verif.Props
open Spec

/-- A tree whose features were moved out builds a constraint without its features. -/
theorem moved_build {t : BTree} {c : Constraint} (hb : t.build = some (some c)) :
    t.moved.build = if c.features = [] then some (some c) else some none := by
  induction t generalizing c with
  | hole => simp [BTree.build] at hb
  | int v => simp [BTree.build] at hb; subst hb; rfl
  | feature n =>
    cases n with
    | none => simp [BTree.build] at hb
    | some n => simp [BTree.build] at hb; subst hb; rfl
  | un op t ih =>
    simp only [BTree.build] at hb
    split at hb
    · cases hb
    · rename_i c' e
      cases c' with
      | none => simp at hb
      | some c' =>
        simp at hb
        subst hb
        simp only [BTree.moved, BTree.build, ih e, Constraint.features]
        by_cases h : c'.features = [] <;> simp [h]
  | bin op l r ihl ihr =>
    simp only [BTree.build] at hb
    split at hb
    · rename_i a b ea eb
      cases a with
      | none => simp at hb
      | some a =>
        cases b with
        | none => simp at hb
        | some b =>
          simp at hb
          subst hb
          simp only [BTree.moved, BTree.build, ihl ea, ihr eb, Constraint.features]
          by_cases h1 : a.features = [] <;> by_cases h2 : b.features = [] <;> simp [h1, h2]
    · cases hb

/-- What a successful `build` says about the builder. -/
theorem builder_ok {s : BState} {c : Constraint} (h : s.build.1 = .ok c) :
    s.root.build = some (some c) ∧ popBelowMax s.frames = [] ∧ s.root ≠ .hole ∧
    (∃ p t, s.head = some p ∧ s.root.get? p = some t ∧ t ≠ .hole) ∧
    s.build.2 = ⟨s.root.moved, s.head, []⟩ := by
  unfold BState.build at h ⊢
  cases hh : s.head with
  | none => simp [hh] at h
  | some p =>
    simp only [hh] at h ⊢
    cases hg : s.root.get? p with
    | none => simp [hg] at h
    | some cur =>
      simp only [hg] at h ⊢
      cases cur with
      | hole => simp at h
      | _ =>
        simp only at h ⊢
        by_cases hr : s.root = .hole
        · simp [hr] at h
        · rw [if_neg hr] at h ⊢
          by_cases hf : popBelowMax s.frames ≠ []
          · simp [hf] at h
          · rw [if_neg hf] at h ⊢
            have hf' : popBelowMax s.frames = [] := by simpa using hf
            cases hb : s.root.build with
            | none => simp [hb] at h
            | some o =>
              cases o with
              | none => simp [hb] at h
              | some c' =>
                simp [hb] at h
                subst h
                exact ⟨rfl, hf', hr, ⟨p, _, rfl, hg, by simp⟩, by simp [hf', hh]⟩

theorem moved_get {t : BTree} : ∀ (p : Path), t.moved.get? p = (t.get? p).map BTree.moved := by
  induction t with
  | hole => intro p; cases p <;> simp [BTree.moved, BTree.get?]
  | int v => intro p; cases p <;> simp [BTree.moved, BTree.get?]
  | feature n => intro p; cases p <;> simp [BTree.moved, BTree.get?]
  | un op t ih =>
    intro p
    cases p with
    | nil => simp [BTree.moved, BTree.get?]
    | cons d p => cases d <;> simp [BTree.moved, BTree.get?, ih]
  | bin op l r ihl ihr =>
    intro p
    cases p with
    | nil => simp [BTree.moved, BTree.get?]
    | cons d p => cases d <;> simp [BTree.moved, BTree.get?, ihl, ihr]

theorem moved_hole {t : BTree} (h : t ≠ .hole) : t.moved ≠ .hole := by
  cases t <;> simp_all [BTree.moved]

/-- Whatever was called before: the second of two calls of `build()` in a row returns the constraint
    again if it mentions no feature, and a constraint without its features otherwise. -/
theorem C49_second_build {s : BState} {c : Constraint} (h : s.build.1 = .ok c) :
    s.build.2.build.1 = if c.features = [] then .ok c else .nullFeature := by
  obtain ⟨h1, h2, h3, ⟨p, t, hp, hg, ht⟩, h5⟩ := builder_ok h
  have hmg : s.root.moved.get? p = some t.moved := by rw [moved_get, hg]; rfl
  have hmt := moved_hole ht
  rw [h5]
  unfold BState.build
  simp only [hp, hmg]
  have hb := moved_build h1
  cases hm : t.moved with
  | hole => exact absurd hm hmt
  | _ =>
    simp only [if_neg (moved_hole h3), popBelowMax, ne_eq, not_true_eq_false, if_false, hb]
    by_cases hf : c.features = [] <;> simp [hf]

/-- A second result, if the first mentioned a feature, is never the first one. -/
theorem C49_second_build_differs {w : List Call} {s : BState} {c : Constraint} (_ : BState.init.run w = some s)
    (h : s.build.1 = .ok c) (hf : c.features ≠ []) : s.build.2.build.1 ≠ s.build.1 := by
  rw [C49_second_build h, if_neg hf, h]
  simp

theorem buildPrec_lt (o : BinOp) : o.buildPrec < builderMax := by cases o <;> decide

theorem buildPrec_level (o : BinOp) : o.buildPrec = level o := by cases o <;> rfl

/-- In the middle of an expression `build()` decides how the rest is grouped: what follows is attached
    to the last operand, for any two operators. Without `build()` the binding of the operators decides. -/
theorem C49_build_regroups (o p : BinOp) (a b c : Int) :
    buildCalls [.constant a, .bin o, .constant b, .bin p, .constant c] =
      (if level o ≤ level p then .ok (.bin p (.bin o (.int a) (.int b)) (.int c))
       else .ok (.bin o (.int a) (.bin p (.int b) (.int c)))) ∧
    ∃ s s', BState.init.run [.constant a, .bin o, .constant b] = some s ∧
      s.build.1 = .ok (.bin o (.int a) (.int b)) ∧
      s.build.2.run [.bin p, .constant c] = some s' ∧
      s'.build.1 = .ok (.bin o (.int a) (.bin p (.int b) (.int c))) := by
  have ho := buildPrec_lt o
  have hp := buildPrec_lt p
  refine ⟨?_, ⟨.bin o (.int a) (.int b), some [.right], [(0, [.right]), (o.buildPrec, [])]⟩,
    ⟨.bin o (.int a) (.bin p (.int b) (.int c)), some [.right, .right], [(0, [.right, .right]), (p.buildPrec, [.right])]⟩, ?_, ?_, ?_, ?_⟩
  · rw [← buildPrec_level, ← buildPrec_level]
    by_cases h : o.buildPrec ≤ p.buildPrec
    · simp [buildCalls, BState.run, BState.step, BState.init, BState.build, BTree.get?, BTree.set, BTree.build, popTo, popBelowMax,
        renamePath, builderMin, ho, hp, h, show 0 < builderMax from by decide]
    · simp [buildCalls, BState.run, BState.step, BState.init, BState.build, BTree.get?, BTree.set, BTree.build, popTo, popBelowMax,
        renamePath, builderMin, ho, hp, h, show 0 < builderMax from by decide]
  all_goals simp [BState.run, BState.step, BState.init, BState.build, BTree.get?, BTree.set, BTree.build, BTree.moved, popTo, popBelowMax,
    renamePath, builderMin, ho, hp, show 0 < builderMax from by decide]

/-- A `build()` that returns null because the expression is incomplete does so too, … -/
theorem C49_null_build_regroups (o p : BinOp) (a b c : Int) :
    ∃ s s', BState.init.run [.constant a, .bin o] = some s ∧ s.build.1 = .null ∧
      s.build.2.run [.constant b, .bin p, .constant c] = some s' ∧
      s'.build.1 = .ok (.bin o (.int a) (.bin p (.int b) (.int c))) := by
  have ho := buildPrec_lt o
  have hp := buildPrec_lt p
  refine ⟨⟨.bin o (.int a) .hole, some [.right], [(o.buildPrec, [])]⟩,
    ⟨.bin o (.int a) (.bin p (.int b) (.int c)), some [.right, .right], [(0, [.right, .right]), (p.buildPrec, [.right])]⟩, ?_, ?_, ?_, ?_⟩
  all_goals simp [BState.run, BState.step, BState.init, BState.build, BTree.get?, BTree.set, BTree.build, popTo, popBelowMax,
    renamePath, builderMin, ho, hp, show 0 < builderMax from by decide]

/-- … and so does one that returns null because a parenthesis is open. -/
theorem C49_open_build_regroups (o p : BinOp) (a b c : Int) :
    ∃ s s', BState.init.run [.openPar, .constant a, .bin o, .constant b] = some s ∧ s.build.1 = .null ∧
      s.build.2.run [.bin p, .constant c, .closePar] = some s' ∧
      s'.build.1 = .ok (.bin o (.int a) (.bin p (.int b) (.int c))) := by
  have ho := buildPrec_lt o
  have hp := buildPrec_lt p
  refine ⟨⟨.bin o (.int a) (.int b), some [.right], [(0, [.right]), (o.buildPrec, []), (builderMax, [])]⟩,
    ⟨.bin o (.int a) (.bin p (.int b) (.int c)), some [], []⟩, ?_, ?_, ?_, ?_⟩
  all_goals simp [BState.run, BState.step, BState.init, BState.build, BTree.get?, BTree.set, BTree.build, popTo, popBelowMax,
    renamePath, builderMin, ho, hp, show 0 < builderMax from by decide, Nat.not_le.2 ho, Nat.not_le.2 hp]

/-- What holds: right after the builder was called as a function, `build()` changes nothing if there is
    no feature, so that all later calls give what they give without it. -/
theorem C49_after_parens {w : List Call} {s : BState} {c : Constraint} (hr : BState.init.run (w ++ [.parens]) = some s)
    (h : s.build.1 = .ok c) (hf : c.features = []) : s.build.2 = s := by
  obtain ⟨h1, _, _, ⟨p, t, hp, _, _⟩, h5⟩ := builder_ok h
  have hfr : s.frames = [] := by
    have hsplit : ∀ (w : List Call) (s0 : BState), s0.run (w ++ [.parens]) = (s0.run w).bind fun s1 => s1.step .parens := by
      intro w
      induction w with
      | nil =>
        intro s0
        cases h : s0.step .parens <;> simp [BState.run, h]
      | cons x xs ih =>
        intro s0
        simp only [List.cons_append, BState.run]
        cases s0.step x with
        | none => rfl
        | some s1 => exact ih s1
    rw [hsplit] at hr
    cases hs : BState.init.run w with
    | none => rw [hs] at hr; cases hr
    | some s1 =>
      rw [hs] at hr
      simp only [Option.bind_some, BState.step] at hr
      split at hr
      · cases hr; simp at hp; simp_all
      · split at hr
        · cases hr
        · split at hr
          · cases hr; simp at hp
          · split at hr
            · cases hr; simp at hp
            · split at hr
              · cases hr
              · cases hr; rfl
  rw [h5, moved_of_featureFree s.root c h1 hf]
  cases s
  simp_all

/-- `C49_after_parens` applies: `(1 + 2)() - 3`, asked in between. -/
example : ∃ s, BState.init.run ([.constant 1, .bin .add, .constant 2] ++ [.parens]) = some s ∧ s.build.1 = .ok (.bin .add (.int 1) (.int 2)) ∧
    s.build.2 = s := ⟨_, rfl, rfl, rfl⟩

end Verif.Props

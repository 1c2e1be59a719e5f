import Verif.Utils.Result
/-!
# Property C85: what a result says after it was handed on
-/

namespace Verif.Props
open Verif.Utils

variable {V E : Ty}

/-- A constructor makes the same of every object. -/
def Faithful' {α : Type} (f : α → Option α) : Prop := ∀ x y, f x = some y → y = x

/-- Moving and copying from a constant keep everything: whether there is an error, the value and the code. -/
theorem C85_move_and_const_copy {c : Cat} (hc : c ≠ .lvalue) :
    Faithful' (resFrom V E c) ∧ Faithful' (okFrom V c) ∧ Faithful' (errFrom E c) := by
  cases c with
  | lvalue => exact absurd rfl hc
  | constLvalue =>
    refine ⟨fun x y h => ?_, fun x y h => ?_, fun x y h => ?_⟩ <;>
      · simp only [resFrom, okFrom, errFrom] at h
        split at h
        · cases h; rfl
        · cases h
  | rvalue => exact ⟨fun x y h => by cases h; rfl, fun x y h => by cases h; rfl, fun x y h => by cases h; rfl⟩

/-- Moving is always possible, copying from a constant if the types can be copied. -/
theorem C85_move_possible (r : Res V E) : resFrom V E .rvalue r = some r ∧
    (resFrom V E .constLvalue r = some r ↔ V.copies = true ∧ E.copies = true) := by
  refine ⟨rfl, ?_⟩
  simp only [resFrom, Bool.and_eq_true]
  constructor
  · intro h
    split at h
    · rename_i h'; exact h'
    · cases h
  · intro h; rw [if_pos h]

/-- Copies of variables are faithful for exactly the types that no `bool` converts to: results without value, with
    pointers and error codes. -/
theorem C85_copy_partial (e : E.Val) (v : V.Val) : (∀ r, resFrom V E .lvalue r = some r) ↔
    V.ofBool = none ∧ E.ofBool = none ∧ V.copies = true ∧ E.copies = true := by
  constructor
  · intro h
    have he := h (.err e)
    have hv := h (.ok v)
    simp only [resFrom] at he hv
    split at he
    · cases he
    · cases he
    · rename_i h1 h2; rw [h1, h2] at hv; cases hv
    · rename_i h1 h2
      refine ⟨h1, h2, ?_⟩
      split at he
      · rename_i h3; simpa using h3
      · cases he
  · rintro ⟨h1, h2, h3, h4⟩ r
    simp only [resFrom, h1, h2, h3, h4]
    rfl

/-- The claim is false for the others: the copy of an error is a success. -/
theorem C85_copied_error_is_success {f : Bool → V.Val} (hv : V.ofBool = some f) (he : E.ofBool = none) (e : E.Val) :
    ∃ r, resFrom V E .lvalue (.err e) = some r ∧ r.isOk = true ∧ r.value = some (f false) ∧ r.error = none :=
  ⟨.ok (f false), by simp only [resFrom, hv, he]; rfl, rfl, rfl, rfl⟩

/-- A copied `hasValidConfigurations()` always says yes after a no, and no after an error. -/
theorem C85_validity {ε : Type} (e : ε) :
    resFrom boolTy (codeTy ε) .lvalue (.ok false) = some (.ok true) ∧
    resFrom boolTy (codeTy ε) .lvalue (.err e) = some (.ok false) := ⟨rfl, rfl⟩

/-- A copied `getNumConfigs()` counts 1, or 0 after an error. -/
theorem C85_count {ε : Type} (n : Nat) (e : ε) :
    resFrom countTy (codeTy ε) .lvalue (.ok n) = some (.ok (1 : Nat)) ∧
    resFrom countTy (codeTy ε) .lvalue (.err e) = some (.ok (0 : Nat)) := ⟨rfl, rfl⟩

/-- A copied `getAllConfigs()`, though configurations cannot be copied, has one null pointer, or nothing after an
    error. -/
theorem C85_configurations {ε α : Type} (cs : List (Option α)) (e : ε) :
    resFrom (vectorTy α) (codeTy ε) .lvalue (.ok cs) = some (.ok [none]) ∧
    resFrom (vectorTy α) (codeTy ε) .lvalue (.err e) = some (.ok []) := ⟨rfl, rfl⟩

/-- The results of modifications and of a single configuration are not changed; the latter cannot be copied. -/
theorem C85_modifications {ε α : Type} :
    (∀ r, resFrom voidTy (codeTy ε) .lvalue r = some r) ∧ (∀ r, resFrom (pointerTy α) (codeTy ε) .lvalue r = some r) ∧
    ∀ r, resFrom (uniqueTy α) (codeTy ε) .lvalue r = none := ⟨fun _ => rfl, fun _ => rfl, fun _ => rfl⟩

/-- A result made from a variable that holds an `Ok` has the value made from `true`, not that of the variable. -/
theorem C85_ok_variable {f : Bool → V.Val} (hv : V.ofBool = some f) (hs : V.special = false) (v : V.Val) :
    ∃ r, resFromOk V E .lvalue v = some r ∧ r.value = some (f true) :=
  ⟨.ok (f true), by simp [resFromOk, okFrom, hs, hv], rfl⟩

/-- A result made from a variable that holds an error code of the library has that code; with an error type that a
    `bool` converts to it has the code made from `false`. -/
theorem C85_error_variable (e : E.Val) :
    (E.special = true → E.copies = true → resFromErr V E .lvalue e = some (.err e)) ∧
    ∀ g, E.special = false → E.ofBool = some g → resFromErr V E .lvalue e = some (.err (g false)) := by
  refine ⟨fun h1 h2 => by simp [resFromErr, errFrom, h1, h2], fun g h1 h2 => by simp [resFromErr, errFrom, h1, h2]⟩

/-- Both occur: an error code is kept, a number used as an error becomes zero. -/
example {ε : Type} (e : ε) (n : Nat) : resFromErr voidTy (codeTy ε) .lvalue e = some (.err e) ∧
    resFromErr voidTy countTy .lvalue n = some (.err (0 : Nat)) := ⟨rfl, rfl⟩

/-- Handed on as rvalues or constants any number of times, a result says what it said first. -/
theorem C85_handed_on (r r' : Res V E) (cs : List Cat) (h : ∀ c ∈ cs, c ≠ .lvalue)
    (hr : cs.foldl (fun x c => x.bind (resFrom V E c)) (some r) = some r') : r' = r := by
  induction cs generalizing r with
  | nil => cases hr; rfl
  | cons c cs ih =>
    simp only [List.foldl_cons, Option.bind_some] at hr
    cases hx : resFrom V E c r with
    | none =>
      rw [hx] at hr
      have : ∀ l : List Cat, l.foldl (fun x c => x.bind (resFrom V E c)) none = none := by
        intro l; induction l with
        | nil => rfl
        | cons _ _ ih => exact ih
      rw [this] at hr
      cases hr
    | some y =>
      have e := (C85_move_and_const_copy (V := V) (E := E) (h c (by simp))).1 r y hx
      subst e
      rw [hx] at hr
      exact ih y (fun c hc => h c (by simp [hc])) hr

/-- The hypotheses are met: a count that is moved, copied as a constant and moved again. -/
example : [Cat.rvalue, .constLvalue, .rvalue].foldl (fun x c => x.bind (resFrom countTy (codeTy Unit) c)) (some (.ok (5 : Nat))) =
    some (.ok (5 : Nat)) := rfl

end Verif.Props

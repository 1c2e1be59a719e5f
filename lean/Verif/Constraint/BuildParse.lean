import Verif.Constraint.BuilderLemmas
import Verif.Constraint.Print
/-!
# Builder expressions and textual expressions
-/

namespace Verif
open Spec

/-- A symbol and a token mean the same, for number value `val`. -/
inductive Same (val : Str → Int) : Sym → Tok → Prop
  | ident (n : Str) : Same val (.operand (.feature n)) (.ident n)
  | number (s : Str) : Same val (.operand (.int (val s))) (.number s)
  | not : Same val (.un .not) .not
  | neg : Same val (.un .neg) .neg
  | bin {op b} : Infix (level op) b op → Same val (.bin op) (.bin b)
  | lpar : Same val .lpar .lpar
  | rpar : Same val .rpar .rpar

inductive SameAll (val : Str → Int) : List Sym → List Tok → Prop
  | nil : SameAll val [] []
  | cons {x t xs ts} : Same val x t → SameAll val xs ts → SameAll val (x :: xs) (t :: ts)

theorem SameAll.split_left {val u v ts} (h : SameAll val (u ++ v) ts) :
    ∃ t1 t2, ts = t1 ++ t2 ∧ SameAll val u t1 ∧ SameAll val v t2 := by
  induction u generalizing ts with
  | nil => exact ⟨[], ts, rfl, .nil, h⟩
  | cons x u ih =>
    cases h with
    | cons h1 h2 =>
      obtain ⟨t1, t2, rfl, a, b⟩ := ih h2
      exact ⟨_ :: t1, t2, rfl, .cons h1 a, b⟩

theorem SameAll.split_right {val ss u v} (h : SameAll val ss (u ++ v)) :
    ∃ s1 s2, ss = s1 ++ s2 ∧ SameAll val s1 u ∧ SameAll val s2 v := by
  induction u generalizing ss with
  | nil => exact ⟨[], ss, rfl, .nil, h⟩
  | cons x u ih =>
    cases h with
    | cons h1 h2 =>
      obtain ⟨t1, t2, rfl, a, b⟩ := ih h2
      exact ⟨_ :: t1, t2, rfl, .cons h1 a, b⟩

theorem expr_derives {val p ss c} (h : Expr p ss c) :
    ∀ ts, SameAll val ss ts → Derives val p ts c := by
  induction h with
  | operand c =>
    intro ts h
    cases h with
    | cons h1 h2 =>
      cases h2
      cases h1 with
      | ident n => exact .ident n
      | number s => exact .number s
  | un op _ ih =>
    intro ts h
    cases h with
    | cons h1 h2 =>
      cases h1 with
      | not => exact .not (ih _ h2)
      | neg => exact .neg (ih _ h2)
  | paren _ ih =>
    intro ts h
    cases h with
    | cons h1 h2 =>
      cases h1
      obtain ⟨t1, t2, rfl, a, b⟩ := h2.split_left
      cases b with
      | cons b1 b2 =>
        cases b1
        cases b2
        exact .paren (ih _ a)
  | looser _ ih => intro ts h; exact .looser (ih ts h)
  | «infix» hop _ _ ih1 ih2 =>
    intro ts h
    obtain ⟨t1, t2, rfl, a, b⟩ := h.split_left
    cases b with
    | cons b1 b2 =>
      cases b1 with
      | bin hi => rw [hop] at hi; exact .infix hi (ih1 _ a) (ih2 _ b2)

theorem derives_expr {val p ts c} (h : Derives val p ts c) :
    ∀ ss, SameAll val ss ts → Expr p ss c := by
  induction h with
  | ident s =>
    intro ss h
    cases h with
    | cons h1 h2 => cases h2; cases h1; exact .operand _
  | number s =>
    intro ss h
    cases h with
    | cons h1 h2 => cases h2; cases h1; exact .operand _
  | not _ ih =>
    intro ss h
    cases h with
    | cons h1 h2 => cases h1; exact .un _ (ih _ h2)
  | neg _ ih =>
    intro ss h
    cases h with
    | cons h1 h2 => cases h1; exact .un _ (ih _ h2)
  | paren _ ih =>
    intro ss h
    cases h with
    | cons h1 h2 =>
      cases h1
      obtain ⟨t1, t2, rfl, a, b⟩ := h2.split_right
      cases b with
      | cons b1 b2 =>
        cases b1
        cases b2
        exact .paren (ih _ a)
  | looser _ ih => intro ts h; exact .looser (ih ts h)
  | @«infix» p b op l r a c hi _ _ ih1 ih2 =>
    intro ts h
    obtain ⟨t1, t2, rfl, a', b'⟩ := h.split_right
    cases b' with
    | cons b1 b2 =>
      cases b1 with
      | @bin op' _ hi' =>
        have h1 := prec_spec.1 hi
        have h2 := prec_spec.1 hi'
        have e : op' = op := by rw [← h2.2, h1.2]
        subst e
        exact .infix (by rw [← h2.1, h1.1]) (ih1 _ a') (ih2 _ b2)

theorem parseInteger_natText (sci : Str → Option Str) (n : Nat) (h : (n : Int) ≤ int64Max) :
    parseInteger sci (natText n) = n := by
  have h0 : (0 : Int) ≤ n := Int.natCast_nonneg n
  have hd := derives_printToks sci (.int n) h0 ⟨by unfold int64Min; omega, h⟩
  have key : ∀ val ts c, Derives val 0 ts c → ts = [.number (natText n)] → c = .int (val (natText n)) := by
    intro val ts c hd e
    cases hd with
    | number s => simp at e; rw [e]
    | paren h => simp at e
    | _ => simp at e
  have := key _ _ _ hd rfl
  simp only [readBack] at this
  injection this with this
  exact this.symm

theorem symbols_builds {cs ss c} (h : symbols cs = some ss) : Builds cs c ↔ Expr 8 ss c := by
  constructor
  · intro hb
    cases hb with
    | plain h1 h2 => rw [h] at h1; cases h1; exact h2
    | @parens w0 c0 w ss' c h0 h1 h2 =>
      exfalso
      clear h0 h1 h2
      induction w0 generalizing ss with
      | nil => simp [symbols, symbol] at h
      | cons x w0 ih =>
        simp only [List.cons_append, symbols] at h
        split at h
        · rename_i s1 s2 h1 h2
          exact ih h2
        · cases h
  · exact .plain h

end Verif

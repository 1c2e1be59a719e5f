import Verif.Step.Lemmas
/-! # The step-function parser accepts exactly the specified texts -/

namespace Verif
open Spec

/-- The parsed operand and its spelling. -/
def OperandIs (o : Operand) (a : Str) : Prop :=
  (o = .var a ∧ StepIdent a) ∨ (o = .num (readDecimal a) ∧ Numeric a)

theorem blank_append {u v : Str} (hu : Blank u) (hv : Blank v) : Blank (u ++ v) := by
  intro c hc
  rcases List.mem_append.1 hc with h | h
  · exact hu c h
  · exact hv c h

theorem operand_sound {s ts} (h : Reads s ts) : ∀ {o ts'}, stepOperand ts = some (o, ts') →
    ∃ w a s', s = w ++ a ++ s' ∧ Blank w ∧ Reads s' ts' ∧ OperandIs o a := by
  induction h with
  | done => intro o ts' e; simp [stepOperand] at e
  | eofChar _ => intro o ts' e; simp [stepOperand] at e
  | error => intro o ts' e; simp [stepOperand] at e
  | @token t piece rest ts hs hr ih =>
    intro o ts' e
    cases hs with
    | ident hi =>
      simp [stepOperand] at e
      obtain ⟨rfl, rfl⟩ := e
      exact ⟨[], piece, rest, by simp, by simp [Blank], hr, .inl ⟨rfl, hi⟩⟩
    | number hn =>
      simp [stepOperand] at e
      obtain ⟨rfl, rfl⟩ := e
      exact ⟨[], piece, rest, by simp, by simp [Blank], hr, .inr ⟨rfl, hn⟩⟩
    | ws hb =>
      simp only [stepOperand] at e
      obtain ⟨w, a, s', rfl, hw, hr', ho⟩ := ih e
      exact ⟨_ ++ w, a, s', by simp, blank_append hb hw, hr', ho⟩
    | _ => simp [stepOperand] at e

theorem operator_sound {s ts} (h : Reads s ts) : ∀ {o ts'}, stepOperator ts = some (o, ts') →
    ∃ w c s', s = w ++ [c] ++ s' ∧ Blank w ∧ Reads s' ts' ∧ OpChar c o := by
  induction h with
  | done => intro o ts' e; simp [stepOperator] at e
  | eofChar _ => intro o ts' e; simp [stepOperator] at e
  | error => intro o ts' e; simp [stepOperator] at e
  | @token t piece rest ts hs hr ih =>
    intro o ts' e
    cases hs with
    | ident hi => simp [stepOperator] at e
    | number hn => simp [stepOperator] at e
    | ws hb =>
      simp only [stepOperator] at e
      obtain ⟨w, a, s', rfl, hw, hr', ho⟩ := ih e
      exact ⟨_ ++ w, a, s', by simp, blank_append hb hw, hr', ho⟩
    | plus =>
      simp [stepOperator] at e
      obtain ⟨rfl, rfl⟩ := e
      exact ⟨[], '+', rest, by simp, by simp [Blank], hr, .add⟩
    | star =>
      simp [stepOperator] at e
      obtain ⟨rfl, rfl⟩ := e
      exact ⟨[], '*', rest, by simp, by simp [Blank], hr, .mul⟩
    | caret =>
      simp [stepOperator] at e
      obtain ⟨rfl, rfl⟩ := e
      exact ⟨[], '^', rest, by simp, by simp [Blank], hr, .pow⟩

theorem eof_sound {s ts} (h : Reads s ts) : stepEof ts = true →
    ∃ w rest, s = w ++ rest ∧ Blank w ∧ Ignored rest := by
  induction h with
  | done => exact fun _ => ⟨[], [], rfl, by simp [Blank], .inl rfl⟩
  | @eofChar c cs hc => exact fun _ => ⟨[], c :: cs, rfl, by simp [Blank], .inr ⟨c, cs, rfl, hc⟩⟩
  | error => intro e; simp [stepEof] at e
  | @token t piece rest ts hs hr ih =>
    intro e
    cases hs with
    | ws hb =>
      simp only [stepEof] at e
      obtain ⟨w, r, rfl, hw, hi⟩ := ih e
      exact ⟨_ ++ w, r, by simp, blank_append hb hw, hi⟩
    | _ => simp [stepEof] at e

theorem numeric_chars {s : Str} (h : Numeric s) : ∀ x ∈ s, isDigit x = true ∨ x = '.' := h.2

theorem parse_sound {s ts f} (h : Reads s ts) (hp : stepParse ts = some f) : StepDenotes s f := by
  unfold stepParse at hp
  split at hp
  · cases hp
  rename_i lhs ts1 e1
  split at hp
  · cases hp
  rename_i op ts2 e2
  split at hp
  · cases hp
  rename_i rhs ts3 e3
  split at hp
  case isFalse => cases hp
  rename_i e4
  obtain ⟨w0, a, s1, rfl, hw0, r1, ha⟩ := operand_sound h e1
  obtain ⟨w1, c, s2, rfl, hw1, r2, hc⟩ := operator_sound r1 e2
  obtain ⟨w2, b, s3, rfl, hw2, r3, hb⟩ := operand_sound r2 e3
  obtain ⟨w3, rest, rfl, hw3, hr⟩ := eof_sound r3 e4
  have ht : StepText (w0 ++ a ++ (w1 ++ [c] ++ (w2 ++ b ++ (w3 ++ rest)))) a op b :=
    ⟨w0, w1, w2, w3, c, rest, by simp, hw0, hw1, hw2, hw3, hc, hr⟩
  rcases ha with ⟨rfl, ha⟩ | ⟨rfl, ha⟩ <;> rcases hb with ⟨rfl, hb⟩ | ⟨rfl, hb⟩ <;>
    simp only at hp <;> cases hp
  · exact .varNum ht ha hb ((constant_iff hb.2 _).2 rfl)
  · exact .numVar ht ha hb ((constant_iff ha.2 _).2 rfl)

/-! ## Completeness -/

/-- The whitespace token of a blank, if it is not empty. -/
def wsToks (w : Str) : List STok := if w = [] then [] else [.ws]

theorem spelled_blank {w rest ts} (hw : Blank w) (hr : ∀ x xs, rest = x :: xs → isWs x = false)
    (h : Spelled rest ts) : Spelled (w ++ rest) (wsToks w ++ ts) := by
  cases w with
  | nil => exact h
  | cons c w => exact .token (.ws hw) hr h

/-- The token of an operand. -/
def operandTok : Operand → Str → STok
  | .var _, a => .ident a
  | .num _, a => .number a

theorem operandIs_spell {o a} (h : OperandIs o a) : SSpell (operandTok o a) a := by
  rcases h with ⟨rfl, h⟩ | ⟨rfl, h⟩
  · exact .ident h
  · exact .number h

theorem operandIs_ne_nil {o a} (h : OperandIs o a) : a ≠ [] := sspell_ne_nil (operandIs_spell h)

theorem operandIs_head {o a c cs} (h : OperandIs o a) (e : a = c :: cs) : isWs c = false := by
  rcases h with ⟨_, c', cs', rfl, ha, _⟩ | ⟨_, _, h⟩
  · cases e
    cases hw : isWs c with
    | false => rfl
    | true => rw [ws_not_alpha hw] at ha; cases ha
  · subst e
    have hn := (isStepNumChar_iff c).2 (h c (by simp))
    cases hw : isWs c with
    | false => rfl
    | true => rw [ws_not_stepNum hw] at hn; cases hn

theorem operand_wsToks (w : Str) (ts : List STok) : stepOperand (wsToks w ++ ts) = stepOperand ts := by
  unfold wsToks; split <;> rfl
theorem operator_wsToks (w : Str) (ts : List STok) : stepOperator (wsToks w ++ ts) = stepOperator ts := by
  unfold wsToks; split <;> rfl
theorem eof_wsToks (w : Str) (ts : List STok) : stepEof (wsToks w ++ ts) = stepEof ts := by
  unfold wsToks; split <;> rfl

theorem operand_tok {o a} (h : OperandIs o a) (ts : List STok) :
    stepOperand (operandTok o a :: ts) = some (o, ts) := by
  rcases h with ⟨rfl, _⟩ | ⟨rfl, _⟩ <;> rfl

def opTok : StepOp → STok
  | .addition => .plus
  | .multiplication => .star
  | .exponentiation => .caret

theorem operator_tok (op : StepOp) (ts : List STok) : stepOperator (opTok op :: ts) = some (op, ts) := by
  cases op <;> rfl

theorem opTok_spell {c op} (h : OpChar c op) : SSpell (opTok op) [c] := by
  cases h <;> constructor

theorem opChar_stops {c op} (h : OpChar c op) :
    isWs c = false ∧ isStepIdChar c = false ∧ isStepNumChar c = false := by
  cases h <;> decide

theorem ws_stops {c : Char} (h : isWs c = true) : isStepIdChar c = false ∧ isStepNumChar c = false := by
  simp only [isWs, Bool.or_eq_true, beq_iff_eq] at h
  rcases h with ((rfl | rfl) | rfl) | rfl <;> decide

theorem end_stops {c : Char} (h : c = Char.ofNat 0 ∨ c = Char.ofNat 255) :
    isWs c = false ∧ isStepIdChar c = false ∧ isStepNumChar c = false := by
  rcases h with rfl | rfl <;> decide

theorem operandTok_extends {o a} (c : Char) (h1 : isStepIdChar c = false) (h2 : isStepNumChar c = false) :
    (operandTok o a).extends c = false := by cases o <;> assumption

/-- Nothing behind an operand extends it: a blank, an operator or the end follows. -/
theorem stops_append {o a} {w r : Str} (hw : Blank w)
    (hr : ∀ x xs, r = x :: xs → isStepIdChar x = false ∧ isStepNumChar x = false) :
    ∀ x xs, w ++ r = x :: xs → (operandTok o a).extends x = false := by
  intro x xs e
  cases w with
  | nil => exact operandTok_extends x (hr x xs e).1 (hr x xs e).2
  | cons c w =>
    cases e
    have := ws_stops ((isWs_iff x).2 (hw x (by simp)))
    exact operandTok_extends x this.1 this.2

theorem text_spelled {text a b op o1 o2} (h : StepText text a op b) (h1 : OperandIs o1 a)
    (h2 : OperandIs o2 b) : ∃ w0 w1 w2 w3, text ≠ [] ∧
    Spelled text (wsToks w0 ++ operandTok o1 a :: (wsToks w1 ++ opTok op :: (wsToks w2 ++
      operandTok o2 b :: (wsToks w3 ++ [.eof])))) := by
  obtain ⟨w0, w1, w2, w3, c, rest, rfl, hw0, hw1, hw2, hw3, hc, hr⟩ := h
  refine ⟨w0, w1, w2, w3, ?_, ?_⟩
  · intro e
    simp at e
  have hrest : ∀ x xs, rest = x :: xs →
      isWs x = false ∧ isStepIdChar x = false ∧ isStepNumChar x = false := by
    intro x xs e
    rcases hr with rfl | ⟨c', cs', rfl, hc'⟩
    · cases e
    · cases e; exact end_stops hc'
  have s3 : Spelled (w3 ++ rest) (wsToks w3 ++ [.eof]) :=
    spelled_blank hw3 (fun x xs e => (hrest x xs e).1) (.done hr)
  have s2 : Spelled (b ++ (w3 ++ rest)) (operandTok o2 b :: (wsToks w3 ++ [.eof])) :=
    .token (operandIs_spell h2) (stops_append hw3 fun x xs e => (hrest x xs e).2) s3
  have s2' : Spelled (w2 ++ (b ++ (w3 ++ rest))) (wsToks w2 ++ operandTok o2 b :: (wsToks w3 ++ [.eof])) := by
    refine spelled_blank hw2 ?_ s2
    intro x xs e
    cases b with
    | nil => exact absurd rfl (operandIs_ne_nil h2)
    | cons d b => cases e; exact operandIs_head h2 rfl
  have s1 : Spelled ([c] ++ (w2 ++ (b ++ (w3 ++ rest))))
      (opTok op :: (wsToks w2 ++ operandTok o2 b :: (wsToks w3 ++ [.eof]))) := by
    refine .token (opTok_spell hc) ?_ s2'
    intro x xs _
    cases op <;> rfl
  have s1' := spelled_blank hw1 (rest := [c] ++ (w2 ++ (b ++ (w3 ++ rest)))) (by
    intro x xs e; cases e; exact (opChar_stops hc).1) s1
  have s0 : Spelled (a ++ (w1 ++ ([c] ++ (w2 ++ (b ++ (w3 ++ rest))))))
      (operandTok o1 a :: (wsToks w1 ++ opTok op :: (wsToks w2 ++ operandTok o2 b :: (wsToks w3 ++ [.eof])))) :=
    .token (operandIs_spell h1) (stops_append hw1 fun x xs e => by
      cases e; exact (opChar_stops hc).2) s1'
  have s0' := spelled_blank hw0 (by
    intro x xs e
    cases a with
    | nil => exact absurd rfl (operandIs_ne_nil h1)
    | cons d a => cases e; exact operandIs_head h1 rfl) s0
  simpa using s0'

theorem parse_complete {s f} (h : StepDenotes s f) : parseStepText s = .ok f := by
  have go : ∀ {a b op o1 o2}, StepText s a op b → OperandIs o1 a → OperandIs o2 b →
      ((∃ x d, o1 = .var x ∧ o2 = .num d) ∨ (∃ x d, o2 = .var x ∧ o1 = .num d)) →
      parseStepText s = .ok ⟨o1, op, o2⟩ := by
    intro a b op o1 o2 ht h1 h2 hd
    obtain ⟨w0, w1, w2, w3, hne, hs⟩ := text_spelled ht h1 h2
    unfold parseStepText
    rw [stepTokenize_spelled hs hne]
    simp only [stepParse, operand_wsToks, operand_tok h1, operator_wsToks, operator_tok,
      operand_tok h2, eof_wsToks]
    rcases hd with ⟨x, d, rfl, rfl⟩ | ⟨x, d, rfl, rfl⟩ <;> rfl
  cases h with
  | varNum ht ha hb hc =>
    have := (constant_iff hb.2 _).1 hc
    exact go ht (.inl ⟨rfl, ha⟩) (.inr ⟨by rw [this], hb⟩) (.inl ⟨_, _, rfl, rfl⟩)
  | numVar ht ha hb hc =>
    have := (constant_iff ha.2 _).1 hc
    exact go ht (.inr ⟨by rw [this], ha⟩) (.inl ⟨rfl, hb⟩) (.inr ⟨_, _, rfl, rfl⟩)

end Verif

import Verif.Graph.Spec
import Verif.Base.StrLemmas
/-! Lemmas: escaping and character data. -/

namespace Verif
open Verif.Spec

namespace Spec

/-- Characters that mean something in labels. -/
def special (c : Char) : Bool :=
  c == '&' || c == '<' || c == '>' || c == '{' || c == '}' || c == '|' || c == '"' || c == '\\' || c == '\n' || c == '\t'

/-- Text without such characters. -/
def PlainText (s : Str) : Prop := ∀ c ∈ s, special c = false

/-- All feature names in the constraint are plain. -/
def PlainNames : Constraint → Prop
  | .bin _ l r => PlainNames l ∧ PlainNames r
  | .un _ c => PlainNames c
  | .int _ => True
  | .feature n => PlainText n

/-- Some operator of the constraint is in the list. -/
def Uses (ops : List BinOp) : Constraint → Prop
  | .bin op l r => op ∈ ops ∨ Uses ops l ∨ Uses ops r
  | .un _ c => Uses ops c
  | _ => False

/-- Some operator below the outermost one is in the list. -/
def UsesInside (ops : List BinOp) : Constraint → Prop
  | .bin _ l r => Uses ops l ∨ Uses ops r
  | .un _ c => Uses ops c
  | _ => False

end Spec

instance decUses (ops : List BinOp) : (c : Constraint) → Decidable (Uses ops c)
  | .bin op l r => by
    have := decUses ops l; have := decUses ops r
    unfold Uses; infer_instance
  | .un _ c => by
    have := decUses ops c
    unfold Uses; infer_instance
  | .int _ => by unfold Uses; infer_instance
  | .feature _ => by unfold Uses; infer_instance

theorem quotable_escape (s : Str) : Quotable (escapeDot s) := by
  fun_induction escapeDot s <;> simp_all [Quotable]

theorem escape_plain {c : Char} (h : special c = false) (s : Str) : escapeDot (c :: s) = c :: escapeDot s := by
  simp only [special, Bool.or_eq_false_iff, beq_eq_false_iff_ne, ne_eq] at h
  conv => lhs; unfold escapeDot
  split <;> simp_all

theorem charData_plain {c : Char} (h : special c = false) (s : Str) : charData (c :: s) = (charData s).map (c :: ·) := by
  simp only [special, Bool.or_eq_false_iff, beq_eq_false_iff_ne, ne_eq] at h
  conv => lhs; unfold charData
  split <;> simp_all

theorem escape_text {s : Str} (h : PlainText s) (t : Str) : escapeDot (s ++ t) = s ++ escapeDot t := by
  induction s with
  | nil => rfl
  | cons c s ih =>
    rw [List.cons_append, escape_plain (h c (List.mem_cons_self ..)), ih (fun x hx => h x (List.mem_cons_of_mem _ hx))]
    rfl

theorem charData_text {s : Str} (h : PlainText s) (t : Str) : charData (s ++ t) = (charData t).map (s ++ ·) := by
  induction s with
  | nil => simp
  | cons c s ih =>
    rw [List.cons_append, charData_plain (h c (List.mem_cons_self ..)), ih (fun x hx => h x (List.mem_cons_of_mem _ hx))]
    cases charData t <;> rfl

theorem special_digit {c : Char} (h : isDigit c = true) : special c = false := by
  have h' : '0' ≤ c ∧ c ≤ '9' := by simpa [isDigit] using h
  have hb : 48 ≤ c.toNat ∧ c.toNat ≤ 57 := ⟨h'.1, h'.2⟩
  simp only [special, Bool.or_eq_false_iff, beq_eq_false_iff_ne, ne_eq]
  refine ⟨⟨⟨⟨⟨⟨⟨⟨⟨?_, ?_⟩, ?_⟩, ?_⟩, ?_⟩, ?_⟩, ?_⟩, ?_⟩, ?_⟩, ?_⟩ <;>
    · rintro rfl
      revert hb
      decide

theorem plain_int (v : Int) : PlainText (intText v) := by
  intro c hc
  cases v with
  | ofNat n => exact special_digit (natText_digits n c hc)
  | negSucc n =>
    rcases List.mem_cons.1 hc with rfl | h
    · decide
    · exact special_digit (natText_digits (n + 1) c h)

/-- Operators whose text has a character that cannot stand for itself. -/
def rawOps : List BinOp := [.and, .equivalence, .less, .lessEqual]

/-- Operators whose text is changed by `EscapeString`. -/
def escapedOps : List BinOp := [.or, .implies, .excludes, .greater, .greaterEqual]

theorem charData_cons_none {c : Char} (h : special c = false) {s : Str} (hs : charData s = none) : charData (c :: s) = none := by
  rw [charData_plain h, hs]; rfl

theorem charData_op (op : BinOp) (t : Str) :
    charData (op.text ++ ' ' :: t) = if op ∈ rawOps then none else (charData t).map (op.text ++ ' ' :: ·) := by
  cases op <;> simp [BinOp.text, rawOps, charData] <;> cases charData t <;> rfl

theorem charData_html (op : BinOp) (t : Str) :
    charData (op.html ++ ' ' :: t) = (charData t).map (op.text ++ ' ' :: ·) := by
  cases op <;> simp [BinOp.html, BinOp.text, charData] <;> cases charData t <;> rfl

theorem charData_prefix (op : BinOp) (t : Str) : charData (op.rightPrefix ++ t) = (charData t).map (op.rightPrefix ++ ·) := by
  apply charData_text
  intro c hc
  cases op <;> simp [BinOp.rightPrefix] at hc
  subst hc; decide

theorem charData_toStr : ∀ {c : Constraint}, PlainNames c → ∀ t : Str,
    charData (c.toStr ++ t) = if Uses rawOps c then none else (charData t).map (c.toStr ++ ·)
  | .bin op l r, h, t => by
    have il := charData_toStr h.1
    have ir := charData_toStr h.2
    have e : Constraint.toStr (.bin op l r) ++ t =
        '(' :: (l.toStr ++ (' ' :: (op.text ++ ' ' :: (op.rightPrefix ++ (r.toStr ++ (')' :: t)))))) := by
      simp [Constraint.toStr]
    rw [e, charData_plain (by decide), il]
    by_cases hl : Uses rawOps l
    · rw [if_pos hl, if_pos (by unfold Uses; exact .inr (.inl hl))]; rfl
    rw [if_neg hl, charData_plain (by decide), charData_op]
    by_cases ho : op ∈ rawOps
    · rw [if_pos ho, if_pos (by unfold Uses; exact .inl ho)]; rfl
    rw [if_neg ho, charData_prefix, ir]
    by_cases hr : Uses rawOps r
    · rw [if_pos hr, if_pos (by unfold Uses; exact .inr (.inr hr))]; rfl
    rw [if_neg hr, if_neg (by unfold Uses; rintro (h | h | h) <;> contradiction), charData_plain (by decide)]
    cases charData t <;> simp [Constraint.toStr]
  | .un op c, h, t => by
    have ic := charData_toStr (c := c) h t
    have hop : PlainText op.text := by intro x hx; cases op <;> simp [UnOp.text] at hx <;> subst hx <;> decide
    rw [Constraint.toStr, List.append_assoc, charData_text hop, ic]
    by_cases hc : Uses rawOps c
    · rw [if_pos hc, if_pos (by unfold Uses; exact hc)]; rfl
    · rw [if_neg hc, if_neg (by unfold Uses; exact hc)]
      cases charData t <;> simp
  | .int v, _, t => by
    rw [if_neg (by unfold Uses; exact id)]
    exact charData_text (plain_int v) t
  | .feature n, h, t => by
    rw [if_neg (by unfold Uses; exact id)]
    exact charData_text (s := n) h t

/-! ### After `EscapeString` -/

/-- The text of an operator after `EscapeString`. -/
def escOp (op : BinOp) : Str := escapeDot op.text

/-- The text of a constraint after `EscapeString`. -/
def escStr : Constraint → Str
  | .bin op l r => ['('] ++ escStr l ++ [' '] ++ escOp op ++ [' '] ++ op.rightPrefix ++ escStr r ++ [')']
  | .un op c => op.text ++ escStr c
  | .int v => intText v
  | .feature n => n

theorem escape_op (op : BinOp) (t : Str) : escapeDot (op.text ++ ' ' :: t) = escOp op ++ ' ' :: escapeDot t := by
  cases op <;> simp [BinOp.text, escOp, escapeDot]

theorem escape_html (op : BinOp) (t : Str) :
    escapeDot (op.html ++ ' ' :: t) = escapeDot op.html ++ ' ' :: escapeDot t := by
  cases op <;> simp [BinOp.html, BinOp.text, escapeDot]

theorem escape_prefix (op : BinOp) (t : Str) : escapeDot (op.rightPrefix ++ t) = op.rightPrefix ++ escapeDot t := by
  apply escape_text
  intro c hc
  cases op <;> simp [BinOp.rightPrefix] at hc
  subst hc; decide

theorem plain_un (op : UnOp) : PlainText op.text := by
  intro x hx; cases op <;> simp [UnOp.text] at hx <;> subst hx <;> decide

theorem escape_toStr : ∀ {c : Constraint}, PlainNames c → ∀ t : Str, escapeDot (c.toStr ++ t) = escStr c ++ escapeDot t
  | .bin op l r, h, t => by
    have il := escape_toStr h.1
    have ir := escape_toStr h.2
    have e : Constraint.toStr (.bin op l r) ++ t =
        '(' :: (l.toStr ++ (' ' :: (op.text ++ ' ' :: (op.rightPrefix ++ (r.toStr ++ (')' :: t)))))) := by
      simp [Constraint.toStr]
    rw [e, escape_plain (by decide), il, escape_plain (by decide), escape_op, escape_prefix, ir, escape_plain (by decide)]
    simp [escStr]
  | .un op c, h, t => by
    rw [Constraint.toStr, List.append_assoc, escape_text (plain_un op), escape_toStr (c := c) h t]
    simp [escStr]
  | .int v, _, t => escape_text (plain_int v) t
  | .feature n, h, t => escape_text (s := n) h t

theorem charData_escOp (op : BinOp) (t : Str) :
    charData (escOp op ++ ' ' :: t) = if op ∈ rawOps then none else (charData t).map (escOp op ++ ' ' :: ·) := by
  cases op <;> simp [BinOp.text, escOp, escapeDot, rawOps, charData] <;> cases charData t <;> rfl

theorem charData_escStr : ∀ {c : Constraint}, PlainNames c → ∀ t : Str,
    charData (escStr c ++ t) = if Uses rawOps c then none else (charData t).map (escStr c ++ ·)
  | .bin op l r, h, t => by
    have il := charData_escStr h.1
    have ir := charData_escStr h.2
    have e : escStr (.bin op l r) ++ t =
        '(' :: (escStr l ++ (' ' :: (escOp op ++ ' ' :: (op.rightPrefix ++ (escStr r ++ (')' :: t)))))) := by
      simp [escStr]
    rw [e, charData_plain (by decide), il]
    by_cases hl : Uses rawOps l
    · rw [if_pos hl, if_pos (by unfold Uses; exact .inr (.inl hl))]; rfl
    rw [if_neg hl, charData_plain (by decide), charData_escOp]
    by_cases ho : op ∈ rawOps
    · rw [if_pos ho, if_pos (by unfold Uses; exact .inl ho)]; rfl
    rw [if_neg ho, charData_prefix, ir]
    by_cases hr : Uses rawOps r
    · rw [if_pos hr, if_pos (by unfold Uses; exact .inr (.inr hr))]; rfl
    rw [if_neg hr, if_neg (by unfold Uses; rintro (h | h | h) <;> contradiction), charData_plain (by decide)]
    cases charData t <;> simp [escStr]
  | .un op c, h, t => by
    rw [escStr, List.append_assoc, charData_text (plain_un op), charData_escStr (c := c) h t]
    by_cases hc : Uses rawOps c
    · rw [if_pos hc, if_pos (by unfold Uses; exact hc)]; rfl
    · rw [if_neg hc, if_neg (by unfold Uses; exact hc)]
      cases charData t <;> simp
  | .int v, _, t => by
    rw [if_neg (by unfold Uses; exact id)]
    exact charData_text (plain_int v) t
  | .feature n, h, t => by
    rw [if_neg (by unfold Uses; exact id)]
    exact charData_text (s := n) h t

theorem escOp_length (op : BinOp) : op.text.length ≤ (escOp op).length ∧
    (op ∉ rawOps → op ∈ escapedOps → op.text.length < (escOp op).length) ∧
    (op ∉ rawOps → op ∉ escapedOps → escOp op = op.text) := by
  cases op <;> simp [BinOp.text, escOp, escapeDot, rawOps, escapedOps]

theorem escStr_length : ∀ c : Constraint, c.toStr.length ≤ (escStr c).length ∧
    (¬ Uses rawOps c → Uses escapedOps c → c.toStr.length < (escStr c).length) ∧
    (¬ Uses rawOps c → ¬ Uses escapedOps c → escStr c = c.toStr)
  | .bin op l r => by
    obtain ⟨l1, l2, l3⟩ := escStr_length l
    obtain ⟨r1, r2, r3⟩ := escStr_length r
    obtain ⟨o1, o2, o3⟩ := escOp_length op
    simp only [Uses, not_or, Constraint.toStr, escStr, List.length_append]
    refine ⟨by omega, ?_, ?_⟩
    · rintro ⟨h1, h2, h3⟩ (h | h | h)
      · have := o2 h1 h; omega
      · have := l2 h2 h; omega
      · have := r2 h3 h; omega
    · rintro ⟨h1, h2, h3⟩ ⟨h4, h5, h6⟩
      rw [o3 h1 h4, l3 h2 h5, r3 h3 h6]
  | .un op c => by
    obtain ⟨l1, l2, l3⟩ := escStr_length c
    simp only [Uses, Constraint.toStr, escStr, List.length_append]
    refine ⟨by omega, ?_, ?_⟩
    · intro h1 h2
      have := l2 h1 h2; omega
    · intro h1 h2
      rw [l3 h1 h2]
  | .int v => by simp [Uses, Constraint.toStr, escStr]
  | .feature n => by simp [Uses, Constraint.toStr, escStr]

/-- `toHTML` of a binary constraint after `EscapeString`. -/
theorem charData_escHtml (op : BinOp) (t : Str) :
    charData (escapeDot op.html ++ ' ' :: t) =
      (charData t).map ((if op = .or then c!"\\|" else op.text) ++ ' ' :: ·) := by
  cases op <;> simp [BinOp.html, BinOp.text, escapeDot, charData] <;> cases charData t <;> rfl

theorem charData_escBin {op : BinOp} {l r : Constraint} (hl : PlainNames l) (hr : PlainNames r) :
    charData (escapeDot (Constraint.toHtml (.bin op l r))) =
      if Uses rawOps l ∨ Uses rawOps r then none
      else some (['('] ++ escStr l ++ [' '] ++ (if op = .or then c!"\\|" else op.text) ++ [' '] ++ op.rightPrefix ++ escStr r ++ [')']) := by
  have e : Constraint.toHtml (.bin op l r) =
      '(' :: (l.toStr ++ (' ' :: (op.html ++ ' ' :: (op.rightPrefix ++ (r.toStr ++ [')']))))) := by
    simp [Constraint.toHtml]
  rw [e, escape_plain (by decide), escape_toStr hl, escape_plain (by decide), escape_html, escape_prefix, escape_toStr hr,
    escape_plain (by decide), charData_plain (by decide), charData_escStr hl]
  by_cases h1 : Uses rawOps l
  · rw [if_pos h1, if_pos (show Uses rawOps l ∨ Uses rawOps r from .inl h1)]; rfl
  rw [if_neg h1, charData_plain (by decide), charData_escHtml, charData_prefix, charData_escStr hr]
  by_cases h2 : Uses rawOps r
  · rw [if_pos h2, if_pos (show Uses rawOps l ∨ Uses rawOps r from .inr h2)]; rfl
  rw [if_neg h2, if_neg (show ¬ (Uses rawOps l ∨ Uses rawOps r) by rintro (h | h) <;> contradiction)]
  simp [escapeDot, charData]

theorem charData_bin {op : BinOp} {l r : Constraint} (hl : PlainNames l) (hr : PlainNames r) :
    charData (Constraint.toHtml (.bin op l r)) =
      if Uses rawOps l ∨ Uses rawOps r then none else some (Constraint.toStr (.bin op l r)) := by
  have e : Constraint.toHtml (.bin op l r) =
      '(' :: (l.toStr ++ (' ' :: (op.html ++ ' ' :: (op.rightPrefix ++ (r.toStr ++ [')']))))) := by
    simp [Constraint.toHtml]
  rw [e, charData_plain (by decide), charData_toStr hl]
  by_cases h1 : Uses rawOps l
  · rw [if_pos h1, if_pos (show Uses rawOps l ∨ Uses rawOps r from .inl h1)]; rfl
  rw [if_neg h1, charData_plain (by decide), charData_html, charData_prefix, charData_toStr hr]
  by_cases h2 : Uses rawOps r
  · rw [if_pos h2, if_pos (show Uses rawOps l ∨ Uses rawOps r from .inr h2)]; rfl
  rw [if_neg h2, if_neg (show ¬ (Uses rawOps l ∨ Uses rawOps r) by rintro (h | h) <;> contradiction)]
  simp [charData, Constraint.toStr]

/-! ### Raw characters -/

theorem mem_escape {s : Str} (h : '<' ∈ s) : '<' ∈ escapeDot s := by
  fun_induction escapeDot s <;> simp_all
  all_goals
    rcases h with h | h
    · exact .inl h
    · rename_i ih
      exact .inr (ih h)

theorem charData_lt {s : Str} (h : '<' ∈ s) : charData s = none := by
  fun_induction charData s <;> simp_all
  rename_i h1 h2 ih
  rcases h with h | h
  · exact absurd h.symm h2
  · exact ih h

end Verif

import Verif.Constraint.Whitespace
import Verif.Constraint.PrintSpec
/-! # The tokens of a printed constraint -/

namespace Verif
open Spec

/-- The token of a printed operator, for the operators the lexer knows. -/
def BinOp.tok : BinOp → Option BinTok
  | .or => some .or | .xor => none | .and => some .and | .equal => some .equal
  | .notEqual => some .notEqual | .implies => some .implies | .excludes => some .implies
  | .equivalence => some .equivalent | .add => some .plus | .sub => some .minus
  | .mul => some .star | .div => none | .less => some .less | .greater => some .greater
  | .lessEqual => some .lessEqual | .greaterEqual => some .greaterEqual

def prefixToks : BinOp → List Tok
  | .excludes => [.not]
  | _ => []

def UnOp.tok : UnOp → Tok
  | .not => .not | .neg => .neg

/-- The token list of the printed constraint, up to the first unreadable operator. -/
def printToks : Constraint → List Tok
  | .bin op l r =>
    .lpar :: andThen (printToks l)
      (match op.tok with
        | none => [.error op.text]
        | some b => .bin b :: (prefixToks op ++ andThen (printToks r) [.rpar]))
  | .un op c => op.tok :: printToks c
  | .int (.ofNat n) => [.number (natText n)]
  | .int (.negSucc n) => [.bin .minus, .number (natText (n + 1))]
  | .feature n => [.ident n]

theorem takeWhile_self {p : Char → Bool} {s : Str} (h : ∀ x ∈ s, p x = true) : s.takeWhile p = s := by
  have := List.takeWhile_append_of_pos (l₂ := []) h
  simpa using this

theorem eLex_natText (n : Nat) : eLex (natText n) = [.number (natText n)] := by
  have hd := natText_digits n
  have hne := natText_ne_nil n
  generalize natText n = s at *
  cases s with
  | nil => exact absurd rfl hne
  | cons c cs =>
    have hc := hd c (by simp)
    have hws : isWs c = false := by
      cases h : isWs c with
      | false => rfl
      | true => simp [ws_not_digit h] at hc
    have htw : (c :: cs).takeWhile isNumChar = c :: cs := by
      apply takeWhile_self
      intro x hx
      simp [isNumChar, hd x hx]
    rw [eLex_cons hws]
    have hm : munch c (c :: cs) = (.number (c :: cs), (c :: cs).length) := by
      simp only [munch, digit_not_alpha hc, hc, munchNumber, htw, lower_digits hd]
      rfl
    rw [hm]
    simp [Tok.isEnd, eLex_nil]

theorem eLex_ident {n : Str} (h : IsIdent n) : eLex n = [.ident n] := by
  cases n with
  | nil => exact h.elim
  | cons c cs =>
    obtain ⟨h1, h2, h3⟩ := h
    have hws : isWs c = false := by
      cases h : isWs c with
      | false => rfl
      | true => simp [ws_not_alpha h] at h1
    have htw : (c :: cs).takeWhile isIdChar = c :: cs := by
      apply takeWhile_self
      intro x hx
      rw [isIdChar_iff]
      simp at hx
      rcases hx with rfl | hx
      · simp [isAlnum, h1]
      · exact h2 x hx
    have hm : munch c (c :: cs) = (.ident (c :: cs), (c :: cs).length) := by
      simp only [munch, h1, munchIdentifier, htw, h3]
      rfl
    rw [eLex_cons hws, hm]
    simp [Tok.isEnd, eLex_nil]

theorem eLex_minus_digits (n : Nat) : eLex ('-' :: natText n) = .bin .minus :: eLex (natText n) := by
  have hd := natText_digits n
  rw [eLex_cons (by decide)]
  have hm : munch '-' ('-' :: natText n) = (.bin .minus, 1) := by
    show munchOperator ('-' :: natText n) = _
    generalize natText n = s at *
    cases s with
    | nil => rfl
    | cons c cs =>
      have : c ≠ '>' := by
        rintro rfl
        exact absurd (hd '>' (by simp)) (by decide)
      simp [munchOperator, this]
  rw [hm]
  rfl

/-- Printed constraints do not start with `=`. -/
theorem toStr_head {c : Constraint} (h : IdentNames c) : ∃ x xs, c.toStr = x :: xs ∧ x ≠ '=' := by
  cases c with
  | bin op l r => exact ⟨'(', _, rfl, by decide⟩
  | un op c => cases op <;> exact ⟨_, _, rfl, by decide⟩
  | int v =>
    cases v with
    | negSucc n => exact ⟨'-', _, rfl, by decide⟩
    | ofNat n =>
      have hd := natText_digits n
      have hne := natText_ne_nil n
      simp only [Constraint.toStr, intText]
      generalize natText n = s at *
      cases s with
      | nil => exact absurd rfl hne
      | cons c cs =>
        refine ⟨c, cs, rfl, ?_⟩
        rintro rfl
        exact absurd (hd '=' (by simp)) (by decide)
  | feature n =>
    cases n with
    | nil => exact h.elim
    | cons c cs =>
      refine ⟨c, cs, rfl, ?_⟩
      rintro rfl
      exact absurd h.1 (by decide)

theorem eLex_not {s : Str} (h : ∀ x xs, s = x :: xs → x ≠ '=') :
    eLex ('!' :: s) = .not :: eLex s := by
  rw [eLex_cons (by decide)]
  have hm : munch '!' ('!' :: s) = (.not, 1) := by
    show munchOperator ('!' :: s) = _
    cases s with
    | nil => rfl
    | cons c cs => simp [munchOperator, h c cs rfl]
  rw [hm]
  rfl

theorem eLex_op (op : BinOp) (s : Str) :
    eLex (op.text ++ ' ' :: s) =
      match op.tok with
      | none => [.error op.text]
      | some b => .bin b :: eLex s := by
  have hsp : eLex (' ' :: s) = eLex s := eLex_ws (by decide) s
  cases op <;> simp only [BinOp.text, BinOp.tok, List.cons_append, List.nil_append] <;>
    rw [eLex_cons (by decide)] <;> first | rfl | (rw [← hsp]; rfl)

theorem andThen_nil_right (a : List Tok) : andThen a [] = a := by
  unfold andThen; split <;> simp

theorem hasEnd_append (a b : List Tok) : hasEnd (a ++ b) = (hasEnd a || hasEnd b) := by
  simp [hasEnd]

/-- Lexing a printed constraint gives `printToks`. -/
theorem eLex_toStr (c : Constraint) (h : IdentNames c) : eLex c.toStr = printToks c := by
  induction c with
  | int v =>
    cases v with
    | ofNat n => exact eLex_natText n
    | negSucc n =>
      show eLex ('-' :: natText (n + 1)) = _
      rw [eLex_minus_digits, eLex_natText]; rfl
  | feature n => exact eLex_ident h
  | un op c ih =>
    cases op with
    | not =>
      show eLex ('!' :: c.toStr) = _
      rw [eLex_not, ih h]
      · rfl
      · obtain ⟨x, xs, e, hx⟩ := toStr_head (c := c) h
        intro y ys e'
        rw [e] at e'
        cases e'
        exact hx
    | neg =>
      show eLex ('~' :: c.toStr) = _
      have := eLex_cons (c := '~') (by decide) c.toStr
      rw [this]
      show Tok.neg :: eLex c.toStr = _
      rw [ih h]
      rfl
  | bin op l r ihl ihr =>
    have e : (Constraint.bin op l r).toStr =
        '(' :: (l.toStr ++ ' ' :: (op.text ++ ' ' :: (op.rightPrefix ++ (r.toStr ++ [')'])))) := by
      simp [Constraint.toStr]
    have hp : ∀ s, eLex ('(' :: s) = .lpar :: eLex s := fun s => eLex_cons (by decide) s
    have hr : eLex (r.toStr ++ [')']) = andThen (printToks r) [.rpar] := by
      rw [eLex_at (by decide), ihr h.2]
      congr 1
    have hpre : eLex (op.rightPrefix ++ (r.toStr ++ [')'])) =
        prefixToks op ++ andThen (printToks r) [.rpar] := by
      cases op with
      | excludes =>
        show eLex ('!' :: (r.toStr ++ [')'])) = _
        rw [eLex_not, hr]
        · rfl
        · obtain ⟨x, xs, e, hx⟩ := toStr_head h.2
          intro y ys e'
          rw [e] at e'
          cases e'
          exact hx
      | _ => exact hr
    rw [e, hp, eLex_at (by decide), ihl h.1, eLex_ws (by decide), eLex_op, hpre]
    rfl

theorem printToks_noEnd (c : Constraint) (h : Readable c) : hasEnd (printToks c) = false := by
  induction c with
  | feature n => rfl
  | int v => cases v <;> rfl
  | un op c ih =>
    have := ih h
    simp only [printToks, hasEnd, List.any_cons] at this ⊢
    rw [this]
    cases op <;> rfl
  | bin op l r ihl ihr =>
    obtain ⟨h1, h2, h3, h4⟩ := h
    have hl := ihl h3
    have hr := ihr h4
    have hb : ∃ b, op.tok = some b := by cases op <;> simp_all [BinOp.tok]
    obtain ⟨b, hb⟩ := hb
    simp only [printToks, hb, andThen, hl, hr]
    simp only [hasEnd] at hl hr ⊢
    cases op <;> simp [hl, hr, prefixToks, Tok.isEnd]

theorem derives_printToks (sci : Str → Option Str) (c : Constraint) (hr : Readable c)
    (hf : FitsInt64 c) : Derives (parseInteger sci) 0 (printToks c) (readBack c) := by
  induction c with
  | feature n => exact .ident n
  | int v =>
    cases v with
    | negSucc n => exact absurd hr (by simp only [Readable]; omega)
    | ofNat n =>
      have hd := natText_digits n
      have hv : parseInteger sci (natText n) = n := by
        have hno : (natText n).any (fun c => c == 'e' || c == 'E') = false := by
          rw [Bool.eq_false_iff]
          intro h
          rw [List.any_eq_true] at h
          obtain ⟨x, hx, hx'⟩ := h
          have := hd x hx
          simp at hx'
          rcases hx' with rfl | rfl
          · exact absurd this (by decide)
          · exact absurd this (by decide)
        have hle : n ≤ 9223372036854775807 := by
          have := hf.2
          simp only [int64Max] at this
          have : (n : Int) ≤ 9223372036854775807 := this
          omega
        rw [parseInteger, if_neg (by simp [hno]), parsePlainInteger,
          getAsInt64_dec _ hd (natText_ne_nil n), natText_value, if_pos hle]
      have := Derives.number (val := parseInteger sci) (natText n)
      rw [hv] at this
      exact this
  | un op c ih =>
    cases op with
    | not => exact .not (ih hr hf)
    | neg => exact .neg (ih hr hf)
  | bin op l r ihl ihr =>
    obtain ⟨h1, h2, h3, h4⟩ := hr
    have dl := ihl h3 hf.1
    have dr := ihr h4 hf.2
    have hl := printToks_noEnd l h3
    have hrr := printToks_noEnd r h4
    have key : ∀ p b o (rt : List Tok) rc, Infix (p + 1) b o → p + 1 ≤ 8 →
        Derives (parseInteger sci) 0 rt rc →
        Derives (parseInteger sci) 0 (.lpar :: (printToks l ++ .bin b :: (rt ++ [.rpar])))
          (.bin o (readBack l) rc) := by
      intro p b o rt rc hi hp hd
      have := Derives.paren
        ((Derives.infix hi (dl.lift (Nat.zero_le _)) (hd.lift (Nat.zero_le _))).lift hp)
      simpa using this
    cases op <;> simp only [printToks, andThen, hl, hrr, BinOp.tok, prefixToks, readBack, ne_eq,
      not_true_eq_false] at * <;>
      simp only [Bool.false_eq_true, if_false, List.nil_append, List.cons_append]
    case excludes => exact key 6 _ _ (.not :: printToks r) _ (by constructor) (by decide) (Derives.not dr)
    case or => exact key 5 _ _ (printToks r) _ (by constructor) (by decide) dr
    case and => exact key 4 _ _ (printToks r) _ (by constructor) (by decide) dr
    case equal => exact key 3 _ _ (printToks r) _ (by constructor) (by decide) dr
    case notEqual => exact key 3 _ _ (printToks r) _ (by constructor) (by decide) dr
    case implies => exact key 6 _ _ (printToks r) _ (by constructor) (by decide) dr
    case equivalence => exact key 7 _ _ (printToks r) _ (by constructor) (by decide) dr
    case add => exact key 1 _ _ (printToks r) _ (by constructor) (by decide) dr
    case sub => exact key 1 _ _ (printToks r) _ (by constructor) (by decide) dr
    case mul => exact key 0 _ _ (printToks r) _ (by constructor) (by decide) dr
    case less => exact key 2 _ _ (printToks r) _ (by constructor) (by decide) dr
    case greater => exact key 2 _ _ (printToks r) _ (by constructor) (by decide) dr
    case lessEqual => exact key 2 _ _ (printToks r) _ (by constructor) (by decide) dr
    case greaterEqual => exact key 2 _ _ (printToks r) _ (by constructor) (by decide) dr

/-! ## Unreadable constraints -/

/-- The adjacency automaton of well-formed token lists: `true` = an operand must follow. -/
def adjacent : Bool → List Tok → Bool
  | b, [] => !b
  | true, .ident _ :: ts => adjacent false ts
  | true, .number _ :: ts => adjacent false ts
  | true, .not :: ts => adjacent true ts
  | true, .neg :: ts => adjacent true ts
  | true, .lpar :: ts => adjacent true ts
  | true, _ :: _ => false
  | false, .bin _ :: ts => adjacent true ts
  | false, .rpar :: ts => adjacent false ts
  | false, _ :: _ => false

theorem derives_adjacent {val p w c} (h : Derives val p w c) :
    ∀ ts, adjacent true (w ++ ts) = adjacent false ts := by
  induction h with
  | ident s => intro ts; rfl
  | number s => intro ts; rfl
  | not _ ih => intro ts; simp [adjacent, ih]
  | neg _ ih => intro ts; simp [adjacent, ih]
  | paren _ ih => intro ts; simp [adjacent, ih]
  | looser _ ih => exact ih
  | @«infix» p b op l r a c _ _ _ ih1 ih2 => intro ts; simp [ih1, ih2, adjacent]

/-- No operator unknown to the lexer. -/
def NoErr : Constraint → Prop
  | .bin op l r => op ≠ .xor ∧ op ≠ .div ∧ NoErr l ∧ NoErr r
  | .un _ c => NoErr c
  | .int _ => True
  | .feature _ => True

theorem noErr_noEnd (c : Constraint) (h : NoErr c) : hasEnd (printToks c) = false := by
  induction c with
  | feature n => rfl
  | int v => cases v <;> rfl
  | un op c ih =>
    have := ih h
    simp only [printToks, hasEnd, List.any_cons] at this ⊢
    rw [this]
    cases op <;> rfl
  | bin op l r ihl ihr =>
    obtain ⟨h1, h2, h3, h4⟩ := h
    have hl := ihl h3
    have hr := ihr h4
    have hb : ∃ b, op.tok = some b := by cases op <;> simp_all [BinOp.tok]
    obtain ⟨b, hb⟩ := hb
    simp only [printToks, hb, andThen, hl, hr]
    simp only [hasEnd] at hl hr ⊢
    cases op <;> simp [hl, hr, prefixToks, Tok.isEnd]

theorem err_hasEnd (c : Constraint) (h : ¬ NoErr c) : ∃ e, .error e ∈ printToks c := by
  induction c with
  | feature n => exact absurd trivial h
  | int v => exact absurd trivial h
  | un op c ih =>
    obtain ⟨e, he⟩ := ih h
    exact ⟨e, by simp [printToks, he]⟩
  | bin op l r ihl ihr =>
    by_cases hl : NoErr l
    · have hle := noErr_noEnd l hl
      simp only [printToks, andThen, hle]
      cases hb : op.tok with
      | none => exact ⟨op.text, by simp⟩
      | some b =>
        have : op ≠ .xor ∧ op ≠ .div := by constructor <;> (rintro rfl; simp [BinOp.tok] at hb)
        have hr : ¬ NoErr r := fun hr => h ⟨this.1, this.2, hl, hr⟩
        obtain ⟨e, he⟩ := ihr hr
        refine ⟨e, ?_⟩
        have hend : hasEnd (printToks r) = true := by
          simp only [hasEnd, List.any_eq_true]
          exact ⟨_, he, rfl⟩
        simp [hend, he]
    · obtain ⟨e, he⟩ := ihl hl
      have hend : hasEnd (printToks l) = true := by
        simp only [hasEnd, List.any_eq_true]
        exact ⟨_, he, rfl⟩
      exact ⟨e, by simp [printToks, andThen, hend, he]⟩

theorem adjacent_printToks (c : Constraint) (h : NoErr c) :
    (Readable c → ∀ ts, adjacent true (printToks c ++ ts) = adjacent false ts) ∧
    (¬ Readable c → ∀ ts, adjacent true (printToks c ++ ts) = false) := by
  induction c with
  | feature n => exact ⟨fun _ ts => rfl, fun h => absurd trivial h⟩
  | int v =>
    cases v with
    | ofNat n => exact ⟨fun _ ts => rfl, fun h => absurd (Int.natCast_nonneg n) h⟩
    | negSucc n => exact ⟨fun h => absurd h (by simp only [Readable]; omega), fun _ ts => rfl⟩
  | un op c ih =>
    have := ih h
    constructor
    · intro hr ts
      have := this.1 hr ts
      cases op <;> simpa [printToks, UnOp.tok, adjacent] using this
    · intro hr ts
      have := this.2 hr ts
      cases op <;> simpa [printToks, UnOp.tok, adjacent] using this
  | bin op l r ihl ihr =>
    obtain ⟨h1, h2, h3, h4⟩ := h
    have hl := noErr_noEnd l h3
    have hr := noErr_noEnd r h4
    have hb : ∃ b, op.tok = some b := by cases op <;> simp_all [BinOp.tok]
    obtain ⟨b, hb⟩ := hb
    have il := ihl h3
    have ir := ihr h4
    have hpre : ∀ ts, adjacent true (prefixToks op ++ ts) = adjacent true ts := by
      intro ts; cases op <;> rfl
    have e : ∀ ts, adjacent true (printToks (.bin op l r) ++ ts) =
        adjacent true (printToks l ++ (.bin b :: (prefixToks op ++ (printToks r ++ (.rpar :: ts))))) := by
      intro ts
      simp [printToks, hb, andThen, hl, hr, adjacent]
    constructor
    · rintro ⟨_, _, ra, rb⟩ ts
      rw [e, il.1 ra, adjacent, hpre, ir.1 rb, adjacent]
    · intro hn ts
      rw [e]
      by_cases ra : Readable l
      · have rb : ¬ Readable r := fun rb => hn ⟨h1, h2, ra, rb⟩
        rw [il.1 ra, adjacent, hpre, ir.2 rb]
      · rw [il.2 ra]

theorem Readable.noErr {c : Constraint} (h : Readable c) : NoErr c := by
  induction c with
  | feature n => trivial
  | int v => trivial
  | un op c ih => exact ih h
  | bin op l r ihl ihr => exact ⟨h.1, h.2.1, ihl h.2.2.1, ihr h.2.2.2⟩

end Verif

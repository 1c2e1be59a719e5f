import Verif.Constraint.Print
/-!
# Properties C01-C04, C07: constraint text

Every theorem is for an arbitrary `sci`, the unmodelled floating-point path of `parseInteger`.
-/

namespace Verif.Props
open Spec

variable (sci : Str → Option Str)

/-! ## C03: lexing and parsing terminate and stay inside the token list -/

/-- The lexer terminates on every nonempty text with at most one token per character plus the end
    marker; the token list is the longest-match tokenization; its last token and only its last token
    is an end marker. -/
theorem C03_lexer {s : Str} (h : s ≠ []) :
    ∃ ts, tokenize s = .ok ts ∧ Lexes s ts ∧ ts.length ≤ s.length + 1 ∧
      ∃ front last, ts = front ++ [last] ∧ last.isEnd = true ∧ ∀ t ∈ front, t.isEnd = false := by
  obtain ⟨ts, h1, h2, h3, h4, h5⟩ := tokenize_eq h
  refine ⟨ts, h1, h3, h4, ?_⟩
  clear h1 h3 h4 h5
  induction h2 with
  | last h => exact ⟨[], _, rfl, h, by simp⟩
  | @cons t ts h1 _ ih =>
    obtain ⟨f, l, e, hl, hf⟩ := ih
    refine ⟨t :: f, l, by rw [e]; rfl, hl, ?_⟩
    intro x hx
    simp at hx
    rcases hx with rfl | hx
    · exact h1
    · exact hf x hx

/-- The lexer computes exactly the longest-match tokenization of the specification. -/
theorem C03_lexer_iff {s : Str} (h : s ≠ []) (ts : List Tok) :
    tokenize s = .ok ts ↔ Lexes s ts := by
  obtain ⟨ts', h1, _, h3, _, _⟩ := tokenize_eq h
  constructor
  · intro e
    rw [h1] at e
    cases e
    exact h3
  · intro hl
    rw [h1, lexes_unique h3 _ hl]

/-- Parsing a nonempty text terminates and never looks at an empty token list: the outcome is a
    constraint or null.  `_partial`: the property is claimed for the empty text as well, see
    `C03_empty_text_is_undefined`. -/
theorem C03_parse_safe_partial {s : Str} (h : s ≠ []) :
    parseText sci s = .null ∨ ∃ c, parseText sci s = .ok c :=
  parseText_total sci h

example : parseText (fun _ => none) c!"A & (B => !C)" =
    .ok (.bin .and (.feature ['A']) (.bin .implies (.feature ['B']) (.un .not (.feature ['C'])))) := by
  decide

example : parseText (fun _ => none) c!"A & (B => " = .null := by decide

/-- The empty text: `TokenList.back()` on an empty deque. -/
theorem C03_empty_text_is_undefined : parseText sci [] = .ub := rfl

/-! ## C02: the parser implements the precedence grammar -/

/-- The parser accepts exactly the sentences of the grammar, and returns the tree of the grammar:
    over every token list that the lexer can produce (longest-match tokenization `Lexes`). -/
theorem C02_grammar {s : Str} (h : s ≠ []) {ts : List Tok} (hl : Lexes s ts) (c : Constraint) :
    parseText sci s = .ok c ↔
      ∃ w, ts.filter (fun t => decide (t ≠ .ws)) = w ++ [.eof] ∧
        Sentence (parseInteger sci) w c := by
  obtain ⟨ts', h1, h2, h3, _, _⟩ := tokenize_eq h
  have e := lexes_unique h3 _ hl
  subst e
  simp only [parseText, h1]
  rw [parseTokens_ok_iff sci h2]
  rfl

/-- … and everything else is null. -/
theorem C02_grammar_null {s : Str} (h : s ≠ []) {ts : List Tok} (hl : Lexes s ts) :
    parseText sci s = .null ↔
      ¬ ∃ w c, ts.filter (fun t => decide (t ≠ .ws)) = w ++ [.eof] ∧
        Sentence (parseInteger sci) w c := by
  constructor
  · rintro hn ⟨w, c, hw, hs⟩
    rw [(C02_grammar sci h hl c).2 ⟨w, hw, hs⟩] at hn
    cases hn
  · intro hn
    rcases parseText_total sci h with a | ⟨c, a⟩
    · exact a
    · obtain ⟨w, hw, hs⟩ := (C02_grammar sci h hl c).1 a
      exact absurd ⟨w, c, hw, hs⟩ hn

theorem derives_plain {val p w c} (h : Derives val p w c) :
    ∀ t ∈ w, t ≠ .ws ∧ t.isEnd = false := by
  induction h with
  | ident => simp [Tok.isEnd]
  | number => simp [Tok.isEnd]
  | not _ ih => simpa [Tok.isEnd] using ih
  | neg _ ih => simpa [Tok.isEnd] using ih
  | paren _ ih =>
    intro t ht
    simp at ht
    rcases ht with rfl | ht | rfl
    · exact ⟨by decide, rfl⟩
    · exact ih t ht
    · exact ⟨by decide, rfl⟩
  | looser _ ih => exact ih
  | «infix» _ _ _ ih1 ih2 =>
    intro t ht
    simp at ht
    rcases ht with ht | rfl | ht
    · exact ih1 t ht
    · exact ⟨by simp, rfl⟩
    · exact ih2 t ht

/-- The grammar is unambiguous: a token sequence has at most one tree. -/
theorem C02_unambiguous {w : List Tok} {c c' : Constraint}
    (h : Sentence (parseInteger sci) w c) (h' : Sentence (parseInteger sci) w c') : c = c' := by
  have hp := derives_plain h
  have he : Ended (w ++ [.eof]) := ended_append fun t ht => (hp t ht).2
  have hw : eraseWs (w ++ [.eof]) = w ++ [.eof] := by
    unfold eraseWs
    rw [List.filter_eq_self]
    intro t ht
    simp at ht
    rcases ht with ht | rfl
    · simpa using (hp t ht).1
    · decide
  have a := (parseTokens_ok_iff sci he c).2 ⟨w, hw, h⟩
  have b := (parseTokens_ok_iff sci he c').2 ⟨w, hw, h'⟩
  rw [a] at b
  cases b
  rfl

example : Lexes c!"A" [.ident ['A'], .eof] :=
  (C03_lexer_iff (s := c!"A") (by decide) _).1 (by decide)

example : parseText (fun _ => none) c!"A | B & C - D - E" =
    .ok (.bin .or (.feature ['A']) (.bin .and (.feature ['B'])
      (.bin .sub (.bin .sub (.feature ['C']) (.feature ['D'])) (.feature ['E'])))) := by decide

/-! ## C04: whitespace -/

/-- The amount and kind of whitespace between two parts of a text does not matter. -/
theorem C04_whitespace_amount (s1 s2 : Str) {w w' : Str} (hw : w ≠ []) (hw' : w' ≠ [])
    (h : ∀ c ∈ w, isWs c = true) (h' : ∀ c ∈ w', isWs c = true) :
    parseText sci (s1 ++ w ++ s2) = parseText sci (s1 ++ w' ++ s2) := by
  cases w with
  | nil => exact absurd rfl hw
  | cons a w =>
    cases w' with
    | nil => exact absurd rfl hw'
    | cons b w' =>
      have ba : isBreak a = true := by simp [isBreak, h a (by simp)]
      have bb : isBreak b = true := by simp [isBreak, h' b (by simp)]
      apply parseText_congr sci (by simp) (by simp)
      unfold tokE
      congr 1
      rw [List.append_assoc, List.append_assoc, List.cons_append, List.cons_append,
        eLex_at ba, eLex_at bb, ← List.cons_append, ← List.cons_append, eLex_wss h, eLex_wss h']

/-- Whitespace may be added or removed at either end of a text and next to parentheses, `~`, `*`,
    `&`, `|` and other whitespace. -/
theorem C04_whitespace_insert {s1 s2 w : Str} (hne : s1 ++ s2 ≠ [])
    (h : ∀ c ∈ w, isWs c = true)
    (hb : s1 = [] ∨ s2 = [] ∨ (∃ s d, s1 = s ++ [d] ∧ isBreak d = true) ∨
      (∃ d s, s2 = d :: s ∧ isBreak d = true)) :
    parseText sci (s1 ++ w ++ s2) = parseText sci (s1 ++ s2) := by
  cases w with
  | nil => simp
  | cons a w =>
    have ba : isBreak a = true := by simp [isBreak, h a (by simp)]
    have wa : isWs a = true := h a (by simp)
    apply parseText_congr sci (by simp) hne
    unfold tokE
    congr 1
    rcases hb with rfl | rfl | ⟨s, d, rfl, hd⟩ | ⟨d, s, rfl, hd⟩
    · simp only [List.nil_append]
      exact eLex_wss h s2
    · simp only [List.append_nil]
      rw [eLex_at ba]
      have := eLex_wss h []
      rw [List.append_nil] at this
      rw [this, eLex_nil, andThen_nil_right]
    · simp only [List.append_assoc, List.cons_append, List.nil_append]
      rw [eLex_at hd, eLex_at hd]
      congr 1
      by_cases wd : isWs d = true
      · rw [eLex_ws wd, eLex_ws wd]
        exact eLex_wss h s2
      · obtain ⟨t, _, ht⟩ := eLex_punct hd (by simpa using wd)
        rw [ht, ht, ← List.cons_append, eLex_wss h]
    · rw [List.append_assoc, List.cons_append, eLex_at ba, eLex_at hd, ← List.cons_append,
        eLex_wss h]

example : parseText (fun _ => none) c!"A&\t(B)" = parseText (fun _ => none) c!"A&(B)" :=
  C04_whitespace_insert (fun _ => none) (s1 := c!"A&") (s2 := c!"(B)") (w := ['\t'])
    (by decide) (by decide) (.inr (.inr (.inr ⟨'(', c!"B)", rfl, by decide⟩)))

/-- No character is dropped: the spellings of the tokens, in order, make up the text, up to the
    point where the lexer stops (at an end-of-text byte or in front of an error). -/
theorem C04_nothing_dropped {s : Str} (h : s ≠ []) :
    ∃ (pieces : List (Tok × Str)) (last : Tok) (rest : Str),
      tokenize s = .ok (pieces.map (·.1) ++ [last]) ∧
      s = List.flatten (pieces.map (·.2)) ++ rest ∧
      (∀ p ∈ pieces, Spells p.1 p.2) ∧
      ((rest = [] ∧ last = .eof) ∨
        (∃ c cs, rest = c :: cs ∧ (c = Char.ofNat 0 ∨ c = Char.ofNat 255) ∧ last = .eof) ∨
        (∃ c cs, rest = c :: cs ∧ last = .error [c])) := by
  obtain ⟨ts, h1, h2, h3, h4, h5⟩ := tokenize_eq h
  rw [h1]
  clear h1 h2 h4 h5
  have : ∃ (pieces : List (Tok × Str)) (last : Tok) (rest : Str),
      ts = pieces.map (·.1) ++ [last] ∧ s = List.flatten (pieces.map (·.2)) ++ rest ∧
      (∀ p ∈ pieces, Spells p.1 p.2) ∧
      ((rest = [] ∧ last = .eof) ∨
        (∃ c cs, rest = c :: cs ∧ (c = Char.ofNat 0 ∨ c = Char.ofNat 255) ∧ last = .eof) ∨
        (∃ c cs, rest = c :: cs ∧ last = .error [c])) := by
    clear h
    induction h3 with
    | done => exact ⟨[], _, [], rfl, rfl, by simp, .inl ⟨rfl, rfl⟩⟩
    | eofChar h => exact ⟨[], _, _, rfl, rfl, by simp, .inr (.inl ⟨_, _, rfl, h, rfl⟩)⟩
    | error h h' => exact ⟨[], _, _, rfl, rfl, by simp, .inr (.inr ⟨_, _, rfl, rfl⟩)⟩
    | @token t piece rest ts hl _ ih =>
      obtain ⟨pieces, last, r, e1, e2, e3, e4⟩ := ih
      refine ⟨(t, piece) :: pieces, last, r, by rw [e1]; rfl, by rw [e2]; simp, ?_, e4⟩
      intro p hp
      simp at hp
      rcases hp with rfl | hp
      · exact hl.1
      · exact e3 p hp
  obtain ⟨pieces, last, rest, e1, e2, e3, e4⟩ := this
  exact ⟨pieces, last, rest, by rw [e1], e2, e3, e4⟩

/-- Text behind a NUL byte is ignored: different texts, same constraint. -/
theorem C04_text_after_nul_ignored :
    parseText sci ['A', Char.ofNat 0, '&', '&'] = .ok (.feature ['A']) := rfl

/-! ## C07: integer literals -/

/-- A digit string is read exactly when its value fits `int64_t` and saturates otherwise. -/
theorem C07_literal {s : Str} (hs : ∀ c ∈ s, isDigit c = true) (hne : s ≠ []) :
    parseText sci s = .ok (.int
      (if (decValue s : Int) ≤ int64Max then (decValue s : Int) else int64Max)) := by
  rw [parseText_ok_iff sci hne]
  have hE : eLex s = [.number s] := by
    cases s with
    | nil => exact absurd rfl hne
    | cons c cs =>
      have hc := hs c (by simp)
      have hws : isWs c = false := by
        cases h : isWs c with
        | false => rfl
        | true => simp [ws_not_digit h] at hc
      have htw : (c :: cs).takeWhile isNumChar = c :: cs := by
        apply takeWhile_self
        intro x hx
        simp [isNumChar, hs x hx]
      have hm : munch c (c :: cs) = (.number (c :: cs), (c :: cs).length) := by
        simp only [munch, digit_not_alpha hc, hc, munchNumber, htw, lower_digits hs]
        rfl
      rw [eLex_cons hws, hm]
      simp [Tok.isEnd, eLex_nil]
  refine ⟨[.number s], by rw [tokE, hE]; rfl, ?_⟩
  have hno : s.any (fun c => c == 'e' || c == 'E') = false := by
    rw [Bool.eq_false_iff]
    intro h
    rw [List.any_eq_true] at h
    obtain ⟨x, hx, hx'⟩ := h
    have := hs x hx
    simp at hx'
    rcases hx' with rfl | rfl
    · exact absurd this (by decide)
    · exact absurd this (by decide)
  have hv : parseInteger sci s =
      if (decValue s : Int) ≤ int64Max then (decValue s : Int) else int64Max := by
    rw [parseInteger, if_neg (by simp [hno]), parsePlainInteger, getAsInt64_dec _ hs hne]
    have hh : s.head? ≠ some '-' := by
      intro e
      cases s with
      | nil => simp at e
      | cons c cs =>
        simp at e
        subst e
        exact absurd (hs '-' (by simp)) (by decide)
    by_cases hle : decValue s ≤ 9223372036854775807
    · have h' : (decValue s : Int) ≤ int64Max := by unfold int64Max; omega
      rw [if_pos hle, if_pos h']
    · have h' : ¬ (decValue s : Int) ≤ int64Max := by unfold int64Max; omega
      rw [if_neg hle, if_neg h']
      simp only [hh, if_false]
  have := Derives.number (val := parseInteger sci) s
  rw [hv] at this
  exact this.lift (Nat.zero_le _)

example : parseText (fun _ => none) c!"9223372036854775808" = .ok (.int 9223372036854775807) := by
  decide

/-- Every non-negative 64-bit integer is read back from its own text. -/
theorem C07_print_read (n : Nat) (h : (n : Int) ≤ int64Max) :
    parseText sci (intText n) = .ok (.int n) := by
  have := C07_literal sci (natText_digits n) (natText_ne_nil n)
  rw [natText_value, if_pos h] at this
  exact this

example : ((9223372036854775807 : Nat) : Int) ≤ int64Max := by decide

/-- The claim about two literals separated by a sign is false: `1+2` and `3-2` are single literals
    and, not being numbers, are read as the largest 64-bit integer. -/
theorem C07_sum_of_literals_is_one_literal :
    parseText sci c!"1+2" = .ok (.int int64Max) ∧
    parseText sci c!"3-2" = .ok (.int int64Max) := ⟨rfl, rfl⟩

/-! ## C01: printing then parsing -/

theorem lexes_ident {s ts} (h : Lexes s ts) : ∀ x, .ident x ∈ ts → IsIdent x := by
  induction h with
  | done => simp
  | eofChar => simp
  | error => simp
  | token hl _ ih =>
    intro x hx
    simp at hx
    rcases hx with rfl | hx
    · have := hl.1
      cases this with
      | ident h1 h2 h3 => exact ⟨h1, h2, h3⟩
    · exact ih x hx

theorem derives_ident {val p w c} (h : Derives val p w c)
    (hw : ∀ x, .ident x ∈ w → IsIdent x) : IdentNames c := by
  induction h with
  | ident s => exact hw s (by simp)
  | number s => trivial
  | not _ ih => exact ih fun x hx => hw x (by simp [hx])
  | neg _ ih => exact ih fun x hx => hw x (by simp [hx])
  | paren _ ih => exact ih fun x hx => hw x (by simp [hx])
  | looser _ ih => exact ih hw
  | «infix» _ _ _ ih1 ih2 =>
    exact ⟨ih1 fun x hx => hw x (by simp [hx]), ih2 fun x hx => hw x (by simp [hx])⟩

/-- The parser only ever yields identifier names. -/
theorem C01_parsed_names {s : Str} {c : Constraint} (h : parseText sci s = .ok c) :
    IdentNames c := by
  by_cases hne : s = []
  · subst hne; cases h
  obtain ⟨ts, _, _, h3, _, _⟩ := tokenize_eq hne
  obtain ⟨w, e, hd⟩ := (C02_grammar sci hne h3 c).1 h
  refine derives_ident hd ?_
  intro x hx
  apply lexes_ident h3
  have : .ident x ∈ ts.filter (fun t => decide (t ≠ .ws)) := by rw [e]; simp [hx]
  exact (List.mem_filter.1 this).1

theorem identNames_readBack (c : Constraint) : IdentNames (readBack c) ↔ IdentNames c := by
  induction c with
  | feature n => rfl
  | int v => rfl
  | un op c ih => exact ih
  | bin op l r ihl ihr => cases op <;> simp only [readBack, IdentNames, ihl, ihr]

theorem toStr_ne_nil {c : Constraint} (h : IdentNames c) : c.toStr ≠ [] := by
  obtain ⟨x, xs, e, _⟩ := toStr_head h
  simp [e]

/-- Round trip: a constraint over identifier names, without xor, division and negative literals, is
    read back from its text, an `excludes` becoming the implication it stands for.  `_partial`: the
    property is claimed for every constraint; `C01_roundtrip_iff` shows that these are exactly the
    constraints for which it holds. -/
theorem C01_print_parse_partial {c : Constraint} (hn : IdentNames c) (hr : Readable c)
    (hf : FitsInt64 c) : parseText sci c.toStr = .ok (readBack c) := by
  rw [parseText_ok_iff sci (toStr_ne_nil hn)]
  refine ⟨printToks c, ?_, (derives_printToks sci c hr hf).lift (Nat.zero_le _)⟩
  rw [tokE, eLex_toStr c hn, andThen, printToks_noEnd c hr]
  rfl

/-- Constraints with xor, division or a negative literal print to a text the parser rejects. -/
theorem C01_unreadable {c : Constraint} (hn : IdentNames c) (hr : ¬ Readable c) :
    parseText sci c.toStr = .null := by
  rcases parseText_total sci (toStr_ne_nil hn) with a | ⟨c', a⟩
  · exact a
  · exfalso
    obtain ⟨w, e, hd⟩ := (parseText_ok_iff sci (toStr_ne_nil hn) c').1 a
    have hpl := derives_plain hd
    rw [tokE, eLex_toStr c hn, andThen] at e
    by_cases he : NoErr c
    · rw [noErr_noEnd c he] at e
      simp at e
      have h1 := (adjacent_printToks c he).2 hr []
      have h2 := derives_adjacent hd []
      rw [e] at h1
      rw [h1] at h2
      simp [adjacent] at h2
    · obtain ⟨x, hx⟩ := err_hasEnd c he
      have hend : hasEnd (printToks c) = true := by
        simp only [hasEnd, List.any_eq_true]
        exact ⟨_, hx, rfl⟩
      rw [hend] at e
      simp at e
      rw [e] at hx
      simp at hx
      have := (hpl _ hx).2
      simp [Tok.isEnd] at this

/-- Exactly which constraints survive printing and parsing. -/
theorem C01_roundtrip_iff {c : Constraint} (hf : FitsInt64 c) :
    parseText sci c.toStr = .ok (readBack c) ↔ IdentNames c ∧ Readable c := by
  constructor
  · intro h
    have hn := (identNames_readBack c).1 (C01_parsed_names sci h)
    refine ⟨hn, ?_⟩
    by_cases hr : Readable c
    · exact hr
    · rw [C01_unreadable sci hn hr] at h
      cases h
  · rintro ⟨hn, hr⟩
    exact C01_print_parse_partial sci hn hr hf

/-- Parsing, printing and parsing again gives the same constraint, for literals without `e`. -/
theorem C01_parse_print_parse {s : Str} {c : Constraint} (h : parseText sci s = .ok c)
    (hr : Readable c) (hf : FitsInt64 c) : parseText sci c.toStr = .ok (readBack c) :=
  C01_print_parse_partial sci (C01_parsed_names sci h) hr hf

/-- A nontrivial constraint meets the hypotheses. -/
example : ∃ c, c = Constraint.bin .excludes (.bin .and (.feature ['A']) (.int 42))
      (.un .not (.bin .lessEqual (.feature ['x', '_', '1']) (.int 7))) ∧
    IdentNames c ∧ Readable c ∧ FitsInt64 c := by
  refine ⟨_, rfl, ?_⟩
  simp [IdentNames, IsIdent, Readable, FitsInt64]; decide

/-- The unrestricted claim is false: each of these comes back as nothing or as something else. -/
theorem C01_counterexamples :
    parseText sci (Constraint.bin .xor (.feature ['A']) (.feature ['B'])).toStr = .null ∧
    parseText sci (Constraint.bin .div (.int 4) (.int 2)).toStr = .null ∧
    parseText sci (Constraint.bin .add (.int 4) (.int (-2))).toStr = .null ∧
    parseText sci (Constraint.feature c!"my-opt").toStr =
      .ok (.bin .sub (.feature c!"my") (.feature c!"opt")) ∧
    parseText sci (Constraint.feature ['o', 'r']).toStr = .null ∧
    parseText sci (Constraint.feature []).toStr = .ub := by
  refine ⟨rfl, ?_, ?_, rfl, rfl, rfl⟩
  · exact C01_unreadable sci ⟨trivial, trivial⟩ (fun h => h.2.1 rfl)
  · exact C01_unreadable sci ⟨trivial, trivial⟩ (fun h => by have : (0 : Int) ≤ -2 := h.2.2.2; omega)

end Verif.Props

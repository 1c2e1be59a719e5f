import Verif.Constraint.LexMain
/-! # Tokens up to whitespace, and what the parser makes of them -/

namespace Verif
open Spec

/-- Characters that end any token before them and are not continued by what follows. -/
def isBreak (c : Char) : Bool :=
  isWs c || c == '(' || c == ')' || c == '~' || c == '*' || c == '&' || c == '|'

theorem break_cases {d} (h : isBreak d = true) :
    d = ' ' ∨ d = '\t' ∨ d = '\r' ∨ d = '\n' ∨ d = '(' ∨ d = ')' ∨ d = '~' ∨ d = '*' ∨ d = '&' ∨
      d = '|' := by
  simpa [isBreak, isWs, or_assoc] using h

theorem takeWhile_break {p : Char → Bool} {d : Char} (hd : p d = false) (s s2 : Str) :
    (s ++ d :: s2).takeWhile p = s.takeWhile p := by
  induction s with
  | nil => simp [hd]
  | cons a s ih =>
    simp only [List.cons_append, List.takeWhile_cons, ih]

theorem break_notId {d} (h : isBreak d = true) : isIdChar d = false := by
  rcases break_cases h with rfl | rfl | rfl | rfl | rfl | rfl | rfl | rfl | rfl | rfl <;> decide

theorem break_notNum {d} (h : isBreak d = true) : isNumChar d = false := by
  rcases break_cases h with rfl | rfl | rfl | rfl | rfl | rfl | rfl | rfl | rfl | rfl <;> decide

theorem munchOperator_two {c : Char} (hc : c ≠ '<') (x : Char) (r r' : Str) :
    munchOperator (c :: x :: r) = munchOperator (c :: x :: r') := by
  by_cases h1 : c = '-'
  · subst h1; by_cases hx : x = '>' <;> simp [munchOperator, hx]
  by_cases h2 : c = '!'
  · subst h2; by_cases hx : x = '=' <;> simp [munchOperator, hx]
  by_cases h3 : c = '='
  · subst h3; by_cases hx : x = '>' <;> simp [munchOperator, hx]
  by_cases h4 : c = '>'
  · subst h4; by_cases hx : x = '=' <;> simp [munchOperator, hx]
  simp [munchOperator, hc, h1, h2, h3, h4]

theorem munchOperator_three (x y : Char) (r r' : Str) :
    munchOperator ('<' :: x :: y :: r) = munchOperator ('<' :: x :: y :: r') := by
  by_cases hx : x = '-'
  · subst hx; by_cases hy : y = '>' <;> simp [munchOperator, hy]
  by_cases hx' : x = '='
  · subst hx'; by_cases hy : y = '>' <;> simp [munchOperator, hy]
  simp [munchOperator, hx, hx']

theorem munchOperator_one {c d : Char} (h1 : d ≠ '>') (h2 : d ≠ '=') (h3 : d ≠ '-') (r : Str) :
    munchOperator (c :: d :: r) = munchOperator [c] := by
  by_cases g1 : c = '-'
  · subst g1; simp [munchOperator, h1]
  by_cases g2 : c = '!'
  · subst g2; simp [munchOperator, h2]
  by_cases g3 : c = '='
  · subst g3; simp [munchOperator, h1]
  by_cases g4 : c = '>'
  · subst g4; simp [munchOperator, h2]
  by_cases g5 : c = '<'
  · subst g5; simp [munchOperator, h2, h3]
  simp [munchOperator, g1, g2, g3, g4, g5]

theorem munchOperator_lt {x d : Char} (h1 : d ≠ '>') (r : Str) :
    munchOperator ('<' :: x :: d :: r) = munchOperator ['<', x] := by
  by_cases hx : x = '-'
  · subst hx; simp [munchOperator, h1]
  by_cases hx' : x = '='
  · subst hx'; simp [munchOperator, h1]
  simp [munchOperator, hx, hx']

theorem munchOperator_break {c cs d} (h : isBreak d = true) (s2 : Str) :
    munchOperator (c :: (cs ++ d :: s2)) = munchOperator (c :: cs) := by
  have hd : d ≠ '>' ∧ d ≠ '=' ∧ d ≠ '-' := by
    rcases break_cases h with rfl | rfl | rfl | rfl | rfl | rfl | rfl | rfl | rfl | rfl <;> decide
  rcases cs with _ | ⟨x, cs⟩
  · exact munchOperator_one hd.1 hd.2.1 hd.2.2 s2
  · by_cases hc : c = '<'
    · subst hc
      rcases cs with _ | ⟨y, cs⟩
      · exact munchOperator_lt hd.1 s2
      · exact munchOperator_three x y _ _
    · exact munchOperator_two hc x _ _

/-- A break character after a text does not change the first token of the text, unless both are
    whitespace. -/
theorem munch_break {c cs d} (h : isBreak d = true) (hc : isWs c = false) (s2 : Str) :
    munch c (c :: (cs ++ d :: s2)) = munch c (c :: cs) := by
  have hi : munchIdentifier (c :: (cs ++ d :: s2)) = munchIdentifier (c :: cs) := by
    have := takeWhile_break (break_notId h) (c :: cs) s2
    simp only [List.cons_append] at this
    simp only [munchIdentifier, this]
  have hn : munchNumber (c :: (cs ++ d :: s2)) = munchNumber (c :: cs) := by
    have := takeWhile_break (break_notNum h) (c :: cs) s2
    simp only [List.cons_append] at this
    simp only [munchNumber, this]
  unfold munch
  rw [hi, hn, munchOperator_break h, hc]
  simp

/-- The tokens of a text without whitespace tokens. -/
def eLex (s : Str) : List Tok := eraseWs (lexAll s)

theorem munch_ws {c} (hc : isWs c = true) (s : Str) : munch c s = munchWhitespace s := by
  have h1 := ws_not_alpha hc
  have h2 := ws_not_digit hc
  have h3 : (c == Char.ofNat 255 || c == Char.ofNat 0) = false := by
    rw [isWs_iff] at hc
    rcases hc with rfl | rfl | rfl | rfl <;> decide
  simp [munch, h1, h2, h3, hc]

theorem eLex_nil : eLex [] = [] := rfl

theorem drop_takeWhile (p : Char → Bool) (s : Str) :
    s.drop (s.takeWhile p).length = s.dropWhile p := by
  induction s with
  | nil => rfl
  | cons a s ih =>
    by_cases h : p a = true
    · simp [h, ih]
    · simp [h]

theorem lexAll_ws {c} (hc : isWs c = true) (s : Str) :
    lexAll (c :: s) = .ws :: lexAll (s.dropWhile isWs) := by
  rw [lexAll_cons, munch_ws hc]
  simp only [munchWhitespace, Tok.isEnd, Bool.false_eq_true, if_false]
  congr 2
  rw [List.takeWhile_cons, if_pos hc]
  simp only [List.length_cons, List.drop_succ_cons]
  exact drop_takeWhile isWs s

theorem eLex_dropWs (s : Str) : eLex (s.dropWhile isWs) = eLex s := by
  cases s with
  | nil => rfl
  | cons c s =>
    by_cases hc : isWs c = true
    · rw [List.dropWhile_cons, if_pos hc, eLex, eLex, lexAll_ws hc, eraseWs_ws]
    · rw [List.dropWhile_cons, if_neg hc]

theorem eLex_ws {c} (hc : isWs c = true) (s : Str) : eLex (c :: s) = eLex s := by
  rw [eLex, lexAll_ws hc, eraseWs_ws, ← eLex, eLex_dropWs]

theorem eLex_wss {w : Str} (hw : ∀ c ∈ w, isWs c = true) (s : Str) : eLex (w ++ s) = eLex s := by
  induction w with
  | nil => rfl
  | cons c w ih =>
    rw [List.cons_append, eLex_ws (hw c (by simp)), ih fun x hx => hw x (by simp [hx])]

theorem munch_ne_ws {c} (hc : isWs c = false) (cs : Str) : (munch c (c :: cs)).1 ≠ .ws := by
  intro e
  rcases munch_ok c cs with ⟨a, _⟩ | ⟨a, _⟩ | ⟨_, h1, h2, a⟩
  · simp [a] at e
  · simp [a] at e
  · rw [e] at a
    have a1 := a.1
    have hk : (munch c (c :: cs)).2 ≠ 0 := by omega
    obtain ⟨k, hk⟩ := Nat.exists_eq_succ_of_ne_zero hk
    rw [hk, List.take_succ_cons] at a1
    cases a1 with
    | ws h => simp [(isWs_iff c).2 (h c (by simp))] at hc

theorem eLex_cons {c} (hc : isWs c = false) (cs : Str) :
    eLex (c :: cs) = if (munch c (c :: cs)).1.isEnd then [(munch c (c :: cs)).1]
      else (munch c (c :: cs)).1 :: eLex ((c :: cs).drop (munch c (c :: cs)).2) := by
  rw [eLex, lexAll_cons]
  split
  · rw [eraseWs_cons _ (munch_ne_ws hc cs)]; rfl
  · rw [eraseWs_cons _ (munch_ne_ws hc cs)]; rfl

def hasEnd (ts : List Tok) : Bool := ts.any Tok.isEnd

/-- Tokens of one text followed by the tokens of another, unless the first stops the lexer. -/
def andThen (a b : List Tok) : List Tok := if hasEnd a then a else a ++ b

theorem andThen_cons {t a b} (ht : t.isEnd = false) :
    andThen (t :: a) b = t :: andThen a b := by
  have h : hasEnd (t :: a) = hasEnd a := by simp [hasEnd, ht]
  unfold andThen
  rw [h]
  cases hasEnd a <;> rfl

/-- Lexing is compositional at a break character. -/
theorem eLex_break {d} (hd : isBreak d = true) (s2 : Str) (n : Nat) (s1 : Str)
    (hn : s1.length ≤ n) : eLex (s1 ++ d :: s2) = andThen (eLex s1) (eLex (d :: s2)) := by
  induction n generalizing s1 with
  | zero =>
    cases s1 with
    | nil => simp [eLex_nil, andThen, hasEnd]
    | cons c cs => simp at hn
  | succ n ih =>
    cases s1 with
    | nil => simp [eLex_nil, andThen, hasEnd]
    | cons c cs =>
      by_cases hc : isWs c = true
      · rw [List.cons_append, eLex_ws hc, eLex_ws hc, ih cs (by simpa using hn)]
      · simp only [Bool.not_eq_true] at hc
        rw [List.cons_append, eLex_cons hc, eLex_cons hc, munch_break hd hc]
        by_cases he : (munch c (c :: cs)).1.isEnd = true
        · simp [he, andThen, hasEnd]
        · rw [if_neg he, if_neg he]
          simp only [Bool.not_eq_true] at he
          have hp := munch_progress he
          rw [andThen_cons he]
          congr 1
          have hdrop : (c :: (cs ++ d :: s2)).drop (munch c (c :: cs)).2
              = (c :: cs).drop (munch c (c :: cs)).2 ++ d :: s2 := by
            rw [← List.cons_append, List.drop_append_of_le_length hp.2.1]
          rw [hdrop]
          exact ih _ (by simp at hn ⊢; omega)

theorem eLex_at {d} (hd : isBreak d = true) (s1 s2 : Str) :
    eLex (s1 ++ d :: s2) = andThen (eLex s1) (eLex (d :: s2)) :=
  eLex_break hd s2 _ s1 (Nat.le_refl _)

/-- A break character that is no whitespace is a token on its own. -/
theorem eLex_punct {d} (hd : isBreak d = true) (hw : isWs d = false) :
    ∃ t, t.isEnd = false ∧ ∀ s, eLex (d :: s) = t :: eLex s := by
  rcases break_cases hd with rfl | rfl | rfl | rfl | rfl | rfl | rfl | rfl | rfl | rfl
  · simp [isWs] at hw
  · simp [isWs] at hw
  · simp [isWs] at hw
  · simp [isWs] at hw
  · exact ⟨.lpar, rfl, fun s => eLex_cons (by decide) s⟩
  · exact ⟨.rpar, rfl, fun s => eLex_cons (by decide) s⟩
  · exact ⟨.neg, rfl, fun s => eLex_cons (by decide) s⟩
  · exact ⟨.bin .star, rfl, fun s => eLex_cons (by decide) s⟩
  · exact ⟨.bin .and, rfl, fun s => eLex_cons (by decide) s⟩
  · exact ⟨.bin .or, rfl, fun s => eLex_cons (by decide) s⟩

/-- The tokens of `tokenize`, without whitespace. -/
def tokE (s : Str) : List Tok := andThen (eLex s) [.eof]

theorem hasEnd_erase (ts : List Tok) : hasEnd (eraseWs ts) = hasEnd ts := by
  induction ts with
  | nil => rfl
  | cons t ts ih =>
    by_cases ht : t = .ws
    · subst ht; rw [eraseWs_ws, ih]; rfl
    · rw [eraseWs_cons _ ht]; simp only [hasEnd, List.any_cons] at ih ⊢; rw [ih]

theorem ended_hasEnd {ts} (h : Ended ts) : hasEnd ts = true := by
  induction h with
  | last h => simp [hasEnd, h]
  | cons h1 h2 ih => simp only [hasEnd, List.any_cons] at ih ⊢; rw [ih]; simp

theorem tokenize_tokE {s : Str} (h : s ≠ []) :
    ∃ ts, tokenize s = .ok ts ∧ Ended ts ∧ eraseWs ts = tokE s := by
  obtain ⟨ts, h1, h2, _, _, h5⟩ := tokenize_eq h
  refine ⟨ts, h1, h2, ?_⟩
  rcases h5 with ⟨a, rfl⟩ | ⟨a, rfl⟩
  · rw [tokE, andThen, eLex, hasEnd_erase, ended_hasEnd a]; rfl
  · have : hasEnd (lexAll s) = false := by simpa [hasEnd] using a
    rw [tokE, andThen, eLex, hasEnd_erase, this]
    simp [eraseWs]

variable (sci : Str → Option Str)

theorem ended_eof {r} (h : Ended (.eof :: r)) : r = [] := by
  cases h with
  | last => rfl
  | cons h => simp [Tok.isEnd] at h

/-- What parsing a well-formed token list means. -/
theorem parseTokens_ok_iff {ts} (h : Ended ts) (c : Constraint) :
    parseTokens sci ts = .ok c ↔
      ∃ w, eraseWs ts = w ++ [.eof] ∧ Sentence (parseInteger sci) w c := by
  have ht := (total sci (parseFuel ts)).1 0 maxPrecedence ts h (by simp [parseFuel]; omega)
  constructor
  · intro hp
    unfold parseTokens at hp
    split at hp <;> simp at hp
    rename_i c' rest hc
    subst hp
    obtain ⟨w, e, hd, hs⟩ := (sound sci _).1 _ _ _ _ _ hc
    rw [hc] at ht
    have hend : Ended rest := ht.1
    rcases hs with ⟨r, rfl⟩ | ⟨hn, _⟩ | ⟨b, r, _, hb⟩
    · have := ended_eof hend
      subst this
      exact ⟨w, by rw [e]; rfl, hd⟩
    · exact absurd rfl hn
    · have := (prec_pos b).2; simp [maxPrecedence] at hb; omega
  · rintro ⟨w, e, hd⟩
    have : ∃ u tail, ts = u ++ tail ∧ eraseWs u = w ∧ eraseWs tail = [.eof] := by
      unfold eraseWs at e
      rw [List.filter_eq_append_iff] at e
      obtain ⟨u, tail, e1, e2, e3⟩ := e
      exact ⟨u, tail, e1, e2, e3⟩
    obtain ⟨u, tail, rfl, hu, htl⟩ := this
    obtain ⟨ws, u', rfl, hws, _⟩ := erase_cons htl
    have hdw : dropWs (ws ++ .eof :: u') = .eof :: u' := dropWs_append hws (by simp)
    have hstop : StopHead 8 (ws ++ .eof :: u') := .inl ⟨u', hdw⟩
    have hloop : ∃ f, parseLoop sci f 0 maxPrecedence c (ws ++ .eof :: u') = .tree c (.eof :: u') :=
      loop_skip sci ws _ hws ⟨1, by simp [parseLoop]⟩
    obtain ⟨f, hf⟩ := complete sci hd u (ws ++ .eof :: u') 0 maxPrecedence (.tree c (.eof :: u'))
      hu (.inl (by decide)) hstop (by simp) hloop
    have key : parseConstraint sci (parseFuel (u ++ (ws ++ .eof :: u'))) 0 maxPrecedence
        (u ++ (ws ++ .eof :: u')) = .tree c (.eof :: u') := by
      rcases Nat.le_total f (parseFuel (u ++ (ws ++ .eof :: u'))) with hle | hle
      · rw [(mono_le sci hle).1 _ _ _ (by simp [hf]), hf]
      · rw [← (mono_le sci hle).1 _ _ _ (by intro e; rw [e] at ht; exact ht), hf]
    unfold parseTokens
    rw [key]

theorem parseTokens_total {ts} (h : Ended ts) :
    parseTokens sci ts = .null ∨ ∃ c, parseTokens sci ts = .ok c := by
  have ht := (total sci (parseFuel ts)).1 0 maxPrecedence ts h (by simp [parseFuel]; omega)
  unfold parseTokens
  split <;> simp_all [Good]

/-- The result of `parseText` depends on the tokens without whitespace only. -/
theorem parseText_congr {s s' : Str} (h : s ≠ []) (h' : s' ≠ []) (e : tokE s = tokE s') :
    parseText sci s = parseText sci s' := by
  obtain ⟨ts, h1, h2, h3⟩ := tokenize_tokE h
  obtain ⟨ts', h1', h2', h3'⟩ := tokenize_tokE h'
  simp only [parseText, h1, h1']
  have hiff : ∀ c, parseTokens sci ts = .ok c ↔ parseTokens sci ts' = .ok c := by
    intro c
    rw [parseTokens_ok_iff sci h2, parseTokens_ok_iff sci h2', h3, h3', e]
  rcases parseTokens_total sci h2 with a | ⟨c, a⟩
  · rcases parseTokens_total sci h2' with b | ⟨c, b⟩
    · rw [a, b]
    · rw [(hiff c).2 b] at a; simp at a
  · rw [a, (hiff c).1 a]

theorem parseText_ok_iff {s : Str} (h : s ≠ []) (c : Constraint) :
    parseText sci s = .ok c ↔
      ∃ w, tokE s = w ++ [.eof] ∧ Sentence (parseInteger sci) w c := by
  obtain ⟨ts, h1, h2, h3⟩ := tokenize_tokE h
  simp only [parseText, h1]
  rw [parseTokens_ok_iff sci h2, h3]

theorem parseText_total {s : Str} (h : s ≠ []) :
    parseText sci s = .null ∨ ∃ c, parseText sci s = .ok c := by
  obtain ⟨ts, h1, h2, h3⟩ := tokenize_tokE h
  simp only [parseText, h1]
  exact parseTokens_total sci h2

end Verif

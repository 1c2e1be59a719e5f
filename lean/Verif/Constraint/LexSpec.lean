import Verif.Constraint.Lexer
/-!
# Specification: the lexical grammar of constraint texts

Which texts spell which token, and what it means that a token list is the longest-match
tokenization of a text.
-/

namespace Verif.Spec

/-- `Spells t s`: the text `s` spells the token `t`. -/
inductive Spells : Tok → Str → Prop
  | ident {c cs} : isAlpha c → (∀ x ∈ cs, isAlnum x ∨ x = '_') → c :: cs ≠ ['o', 'r'] →
      Spells (.ident (c :: cs)) (c :: cs)
  | number {c cs} : isDigit c → (∀ x ∈ cs, isDigit x ∨ x = 'e' ∨ x = 'E' ∨ x = '+' ∨ x = '-') →
      Spells (.number (lower (c :: cs))) (c :: cs)
  | ws {c cs} : (∀ x ∈ c :: cs, x = ' ' ∨ x = '\t' ∨ x = '\r' ∨ x = '\n') → Spells .ws (c :: cs)
  | lpar : Spells .lpar ['(']
  | rpar : Spells .rpar [')']
  | neg : Spells .neg ['~']
  | not : Spells .not ['!']
  | plus : Spells (.bin .plus) ['+']
  | minus : Spells (.bin .minus) ['-']
  | star : Spells (.bin .star) ['*']
  | and : Spells (.bin .and) ['&']
  | or : Spells (.bin .or) ['|']
  | orWord : Spells (.bin .or) ['o', 'r']
  | equal : Spells (.bin .equal) ['=']
  | notEqual : Spells (.bin .notEqual) ['!', '=']
  | implies : Spells (.bin .implies) ['=', '>']
  | arrow : Spells (.bin .implies) ['-', '>']
  | equivalent : Spells (.bin .equivalent) ['<', '=', '>']
  | dblArrow : Spells (.bin .equivalent) ['<', '-', '>']
  | less : Spells (.bin .less) ['<']
  | lessEqual : Spells (.bin .lessEqual) ['<', '=']
  | greater : Spells (.bin .greater) ['>']
  | greaterEqual : Spells (.bin .greaterEqual) ['>', '=']

/-- `piece` is the longest beginning of `s` that spells a token, and that token is `t`. -/
def Longest (t : Tok) (piece s : Str) : Prop :=
  Spells t piece ∧ ∃ rest, s = piece ++ rest ∧
    ∀ longer, longer <+: s → piece.length < longer.length → ∀ t', ¬ Spells t' longer

/-- `Lexes s ts`: longest-match tokenization.  The text ends at its end, at an end-of-text character
    (the bytes `00` and `FF`), or at the first character that starts no token. -/
inductive Lexes : Str → List Tok → Prop
  | done : Lexes [] [.eof]
  | eofChar {c cs} : c = Char.ofNat 0 ∨ c = Char.ofNat 255 → Lexes (c :: cs) [.eof]
  | error {c cs} : ¬ (c = Char.ofNat 0 ∨ c = Char.ofNat 255) →
      (∀ t piece, Spells t piece → ¬ piece <+: c :: cs) → Lexes (c :: cs) [.error [c]]
  | token {t piece rest ts} : Longest t piece (piece ++ rest) → Lexes rest ts →
      Lexes (piece ++ rest) (t :: ts)

end Verif.Spec

import Verif.Props.ConstraintText
import Verif.Constraint.Double
/-!
# What the parser can yield

Every constraint that was read can be printed and is read back unchanged.
-/

namespace Verif.Spec
open Verif

/-- Reading a number in scientific notation without a sign gives no sign.  Stated for the texts of tokens;
    holds for the modelled floating-point arithmetic (`Verif.unsigned_double`). -/
def Unsigned (sci : Str → Option Str) : Prop :=
  ∀ c cs t, isDigit c = true → (∀ x ∈ cs, isNumChar x = true) → sci (c :: cs) = some t → t.head? ≠ some '-'

/-- No exclusion anywhere. -/
def NoExclusion : Constraint → Prop
  | .bin op l r => op ≠ .excludes ∧ NoExclusion l ∧ NoExclusion r
  | .un _ c => NoExclusion c
  | _ => True

end Verif.Spec

namespace Verif
open Verif.Spec

theorem natText_unsigned (n : Nat) : (natText n).head? ≠ some '-' := by
  intro h
  have := natText_digits n '-' (List.mem_of_mem_head? h)
  exact absurd this (by decide)

theorem unsigned_double (other : Str → Option Str) : Unsigned (sciDouble other) := by
  intro c cs t hc hcs h
  have hall : (c :: cs).all (fun c => isNumChar c || c == '.') = true := by
    rw [List.all_eq_true]
    intro x hx
    rcases List.mem_cons.1 hx with rfl | hx
    · simp [isNumChar, hc]
    · simp [hcs x hx]
  have h1 : c ≠ '-' := by rintro rfl; exact absurd hc (by decide)
  have h2 : c ≠ '+' := by rintro rfl; exact absurd hc (by decide)
  rw [sciDouble, if_pos hall] at h
  rotate_left
  · rintro r e; cases e; exact h1 rfl
  · rintro r e; cases e; exact h2 rfl
  obtain ⟨mx, _, rfl⟩ := Option.map_eq_some_iff.1 h
  unfold formatDouble
  split
  · decide
  · exact natText_unsigned _

theorem plain_fits (s : Str) : IsInt64 (parsePlainInteger s) := by
  unfold parsePlainInteger
  cases h : getAsInt64 10 s with
  | none => simp only; split <;> decide
  | some v =>
    simp only
    unfold getAsInt64 at h
    split at h
    · split at h
      · rename_i v' _
        split at h
        · cases h; constructor <;> simp only [int64Min, int64Max] <;> omega
        · cases h
      · cases h
    · split at h
      · rename_i v' _
        split at h
        · cases h; constructor <;> simp only [int64Min, int64Max] <;> omega
        · cases h
      · cases h

theorem plain_pos {s : Str} (hs : s.head? ≠ some '-') : 0 ≤ parsePlainInteger s := by
  unfold parsePlainInteger
  cases h : getAsInt64 10 s with
  | none => simp only [if_neg hs]; decide
  | some v =>
    simp only
    unfold getAsInt64 at h
    split at h
    · exact absurd rfl hs
    · split at h
      · split at h
        · cases h; omega
        · cases h
      · cases h

theorem integer_fits (sci : Str → Option Str) (s : Str) : IsInt64 (parseInteger sci s) := by
  unfold parseInteger
  split
  · split
    · exact plain_fits _
    · split <;> decide
  · exact plain_fits _

theorem integer_pos {sci : Str → Option Str} (h : Unsigned sci) {c : Char} {cs : Str} (hc : isDigit c = true)
    (hcs : ∀ x ∈ cs, isNumChar x = true) : 0 ≤ parseInteger sci (c :: cs) := by
  have hh : (c :: cs).head? ≠ some '-' := by
    intro e
    rw [List.head?_cons, Option.some.injEq] at e
    subst e
    exact absurd hc (by decide)
  unfold parseInteger
  split
  · split
    · rename_i h'
      exact plain_pos (h c cs _ hc hcs h')
    · decide
  · exact plain_pos hh

/-- The text of a number token. -/
def NumText (s : Str) : Prop := ∃ c cs, s = c :: cs ∧ isDigit c = true ∧ ∀ x ∈ cs, isNumChar x = true

theorem lexes_number {s ts} (h : Lexes s ts) : ∀ x, .number x ∈ ts → NumText x := by
  induction h with
  | done => simp
  | eofChar => simp
  | error => simp
  | token hl _ ih =>
    intro x hx
    simp at hx
    rcases hx with rfl | hx
    · have := hl.1
      cases this with
      | @number c cs h1 h2 =>
        refine ⟨(lower [c]).head (by simp [lower]), lower cs, by simp [lower], ?_, ?_⟩
        · have := lower_digits (s := [c]) (by simpa using h1)
          simp only [this]
          exact h1
        · intro x hx
          obtain ⟨y, hy, rfl⟩ := List.mem_map.1 hx
          rcases h2 y hy with h | rfl | rfl | rfl | rfl
          · have := lower_digits (s := [y]) (by simpa using h)
            simp only [lower, List.map_cons, List.map_nil, List.cons.injEq, and_true] at this
            rw [this]
            simp [isNumChar, h]
          all_goals decide
    · exact ih x hx

theorem derives_readable {val p w c} (h : Derives val p w c) (hv : ∀ x, .number x ∈ w → 0 ≤ val x ∧ IsInt64 (val x)) :
    Readable c ∧ FitsInt64 c ∧ NoExclusion c := by
  induction h with
  | ident s => exact ⟨trivial, trivial, trivial⟩
  | number s => exact ⟨(hv s (by simp)).1, (hv s (by simp)).2, trivial⟩
  | not _ ih => exact ih fun x hx => hv x (by simp [hx])
  | neg _ ih => exact ih fun x hx => hv x (by simp [hx])
  | paren _ ih => exact ih fun x hx => hv x (by simp [hx])
  | looser _ ih => exact ih hv
  | «infix» hi _ _ ih1 ih2 =>
    obtain ⟨a1, a2, a3⟩ := ih1 fun x hx => hv x (by simp [hx])
    obtain ⟨b1, b2, b3⟩ := ih2 fun x hx => hv x (by simp [hx])
    cases hi <;> exact ⟨⟨nofun, nofun, a1, b1⟩, ⟨a2, b2⟩, nofun, a3, b3⟩

theorem readBack_noExclusion {c : Constraint} (h : NoExclusion c) : readBack c = c := by
  induction c with
  | feature n => rfl
  | int v => rfl
  | un op c ih => simp only [readBack, ih h]
  | bin op l r ihl ihr =>
    obtain ⟨h1, h2, h3⟩ := h
    cases op <;> simp only [readBack, ihl h2, ihr h3]
    exact absurd rfl h1

variable {sci : Str → Option Str}

/-- What the parser yields. -/
theorem parsed_readable (hs : Unsigned sci) {s : Str} {c : Constraint} (h : parseText sci s = .ok c) :
    Readable c ∧ FitsInt64 c ∧ NoExclusion c := by
  by_cases hne : s = []
  · subst hne; cases h
  obtain ⟨ts, _, _, h3, _, _⟩ := tokenize_eq hne
  obtain ⟨w, e, hd⟩ := (Props.C02_grammar sci hne h3 c).1 h
  refine derives_readable hd fun x hx => ⟨?_, integer_fits sci x⟩
  have : .number x ∈ ts.filter (fun t => decide (t ≠ .ws)) := by rw [e]; simp [hx]
  obtain ⟨c, cs, rfl, h1, h2⟩ := lexes_number h3 x (List.mem_filter.1 this).1
  exact integer_pos hs h1 h2

end Verif

namespace Verif.Props
open Verif Verif.Spec

variable {sci : Str → Option Str}

/-- Every constraint that was read from a text is read back from its own text. -/
theorem C01_reparse (hs : Unsigned sci) {s : Str} {c : Constraint} (h : parseText sci s = .ok c) : parseText sci c.toStr = .ok c := by
  obtain ⟨h1, h2, h3⟩ := parsed_readable hs h
  have := C01_parse_print_parse sci h h1 h2
  rwa [readBack_noExclusion h3] at this

/-- With the modelled floating-point arithmetic there is no condition. -/
theorem C01_reparse_double (other : Str → Option Str) {s : Str} {c : Constraint} (h : parseText (sciDouble other) s = .ok c) :
    parseText (sciDouble other) c.toStr = .ok c := C01_reparse (unsigned_double other) h

/-- Printing what was read settles: the second text is the first. -/
theorem C01_printed_text_final (hs : Unsigned sci) {s : Str} {c c' : Constraint} (h : parseText sci s = .ok c)
    (h' : parseText sci c.toStr = .ok c') : c'.toStr = c.toStr := by
  rw [C01_reparse hs h] at h'
  cases h'
  rfl

example : ∃ c, parseText (sciDouble fun _ => none) c!"A=>(B|!x_1>=7)" = .ok c := ⟨_, rfl⟩

end Verif.Props

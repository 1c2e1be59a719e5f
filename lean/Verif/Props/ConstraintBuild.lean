import Verif.Constraint.BuildParse
import Verif.Props.ConstraintText
/-!
# Properties C05, C06, C49: the constraint builder
-/

namespace Verif.Props
open Spec

/-! ## C05 -/

/-- What the builder builds: exactly the denotation of the call sequence. -/
theorem C05_builds (cs : List Call) (c : Constraint) : buildCalls cs = .ok c ↔ Builds cs c := by
  rw [buildCalls_eq, ← builds_iff]
  split <;> simp_all

/-- In particular it never runs into undefined behaviour and never yields a null feature. -/
theorem C05_safe (cs : List Call) :
    buildCalls cs = .null ∨ ∃ c, buildCalls cs = .ok c := by
  rw [buildCalls_eq]
  split
  · exact .inl rfl
  · exact .inr ⟨_, rfl⟩

/-- The token the textual language has for a call, if it has one: it has no xor, excludes and
    division, and no negative literals; `operator()()` is not a token either. -/
def textTok : Call → Option Tok
  | .constant (.ofNat n) => some (.number (natText n))
  | .constant (.negSucc _) => none
  | .feature n => some (.ident n)
  | .un .not => some .not
  | .un .neg => some .neg
  | .bin .or => some (.bin .or)
  | .bin .and => some (.bin .and)
  | .bin .equal => some (.bin .equal)
  | .bin .notEqual => some (.bin .notEqual)
  | .bin .implies => some (.bin .implies)
  | .bin .equivalence => some (.bin .equivalent)
  | .bin .add => some (.bin .plus)
  | .bin .sub => some (.bin .minus)
  | .bin .mul => some (.bin .star)
  | .bin .less => some (.bin .less)
  | .bin .greater => some (.bin .greater)
  | .bin .lessEqual => some (.bin .lessEqual)
  | .bin .greaterEqual => some (.bin .greaterEqual)
  | .bin .xor => none
  | .bin .excludes => none
  | .bin .div => none
  | .openPar => some .lpar
  | .closePar => some .rpar
  | .parens => none

/-- The tokens of a call sequence. -/
def textToks : List Call → Option (List Tok)
  | [] => some []
  | c :: cs => match textTok c, textToks cs with
    | some t, some ts => some (t :: ts)
    | _, _ => none

/-- Constants in a call sequence are C++ `int`s, hence fit 64 bits. -/
def ConstantsFit (cs : List Call) : Prop := ∀ v, .constant v ∈ cs → IsInt64 v

theorem textToks_same (sci : Str → Option Str) {cs : List Call} {ts : List Tok}
    (h : textToks cs = some ts) (hf : ConstantsFit cs) :
    ∃ ss, symbols cs = some ss ∧ SameAll (parseInteger sci) ss ts := by
  induction cs generalizing ts with
  | nil => simp [textToks] at h; subst h; exact ⟨[], rfl, .nil⟩
  | cons c cs ih =>
    simp only [textToks] at h
    split at h
    · rename_i t ts' h1 h2
      cases h
      obtain ⟨ss, hs, hsame⟩ := ih h2 (fun v hv => hf v (by simp [hv]))
      have : ∃ x, symbol c = some x ∧ Same (parseInteger sci) x t := by
        cases c with
        | constant v =>
          cases v with
          | ofNat n =>
            simp [textTok] at h1
            subst h1
            have hfit := (hf (.ofNat n) (by simp)).2
            have := parseInteger_natText sci n hfit
            refine ⟨_, rfl, ?_⟩
            have hs := Same.number (val := parseInteger sci) (natText n)
            rw [this] at hs
            exact hs
          | negSucc n => simp [textTok] at h1
        | feature n => simp [textTok] at h1; subst h1; exact ⟨_, rfl, .ident n⟩
        | un op => cases op <;> simp [textTok] at h1 <;> subst h1 <;> exact ⟨_, rfl, by constructor⟩
        | bin op =>
          cases op <;> simp [textTok] at h1 <;> subst h1 <;>
            exact ⟨_, rfl, .bin (by constructor)⟩
        | openPar => simp [textTok] at h1; subst h1; exact ⟨_, rfl, .lpar⟩
        | closePar => simp [textTok] at h1; subst h1; exact ⟨_, rfl, .rpar⟩
        | parens => simp [textTok] at h1
      obtain ⟨x, hx, hxs⟩ := this
      exact ⟨x :: ss, by simp [symbols, hx, hs], .cons hxs hsame⟩
    · cases h

/-- Builder and parser agree on every call sequence that has a text: the same constraint, or none. -/
theorem C05_builder_agrees_with_parser (sci : Str → Option Str) {cs : List Call} {ts : List Tok}
    (h : textToks cs = some ts) (hf : ConstantsFit cs) (c : Constraint) :
    buildCalls cs = .ok c ↔ parseTokens sci (ts ++ [.eof]) = .ok c := by
  obtain ⟨ss, hs, hsame⟩ := textToks_same sci h hf
  have hplain : ∀ t ∈ ts, t ≠ .ws ∧ t.isEnd = false := by
    clear h hf hs
    induction hsame with
    | nil => simp
    | cons h1 _ ih =>
      intro t ht
      simp at ht
      rcases ht with rfl | ht
      · cases h1 <;> exact ⟨by simp, rfl⟩
      · exact ih t ht
  have he : Ended (ts ++ [.eof]) := ended_append fun t ht => (hplain t ht).2
  have hw : eraseWs (ts ++ [.eof]) = ts ++ [.eof] := by
    unfold eraseWs
    rw [List.filter_eq_self]
    intro t ht
    simp at ht
    rcases ht with ht | rfl
    · simpa using (hplain t ht).1
    · decide
  rw [C05_builds, symbols_builds hs, parseTokens_ok_iff sci he, hw]
  constructor
  · intro hx
    exact ⟨ts, rfl, expr_derives hx _ hsame⟩
  · rintro ⟨w, e, hd⟩
    have : ts = w := by simpa using e
    subst this
    exact derives_expr hd _ hsame

/-- A nontrivial sequence meets the hypotheses, and both sides build the same tree. -/
example : ∃ cs ts, cs = [Call.un .not, .openPar, .feature ['A'], .bin .or, .feature ['B'],
      .bin .and, .constant 3, .closePar, .bin .implies, .feature ['C']] ∧
    textToks cs = some ts ∧ ConstantsFit cs ∧
    buildCalls cs = .ok (.bin .implies (.un .not (.bin .or (.feature ['A'])
      (.bin .and (.feature ['B']) (.int 3)))) (.feature ['C'])) := by
  refine ⟨_, _, rfl, rfl, ?_, by decide⟩
  intro v hv
  simp at hv
  subst hv
  decide

example : Builds [.feature ['A'], .bin .add, .feature ['B'], .parens, .bin .mul, .feature ['C']]
    (.bin .mul (.bin .add (.feature ['A']) (.feature ['B'])) (.feature ['C'])) :=
  (C05_builds _ _).1 (by decide)

/-! ## C06 -/

/-- `build()` yields a constraint exactly for legal call sequences that end behind an operand with no
    open parenthesis; after the first illegal call nothing can repair the builder. -/
theorem C06_complete_iff (cs : List Call) :
    (∃ c, buildCalls cs = .ok c) ↔ track (false, 0) cs = some (true, 0) := by
  have h := track_arun cs [] none
  have h' := tracks_abuild h
  rw [buildCalls_eq]
  rw [show track (false, 0) cs = track ((none : Option Constraint).isSome, parCount []) cs from rfl,
    ← h']
  cases abuild (arun (AState.run [] none) cs) <;> simp

theorem track_append (st : Bool × Nat) (u v : List Call) :
    track st (u ++ v) = (track st u).bind fun st' => track st' v := by
  induction u generalizing st with
  | nil => rfl
  | cons c u ih =>
    obtain ⟨b, d⟩ := st
    cases b <;> cases c <;> first
      | rfl
      | exact ih _
      | (cases d <;> first | rfl | exact ih _)

/-- Errors are sticky: once a call was illegal, every continuation builds nothing. -/
theorem C06_sticky {w : List Call} (h : track (false, 0) w = none) (w' : List Call) :
    buildCalls (w ++ w') = .null := by
  rcases C05_safe (w ++ w') with a | ⟨c, a⟩
  · exact a
  · have := (C06_complete_iff (w ++ w')).1 ⟨c, a⟩
    rw [track_append, h] at this
    cases this

/-- Misuse examples as general theorems: whatever was called before and is called after. -/
theorem C06_operand_after_operand (w w' : List Call) (a b : Str) :
    buildCalls (w ++ [.feature a, .feature b] ++ w') = .null := by
  apply C06_sticky
  rw [track_append]
  cases track (false, 0) w with
  | none => rfl
  | some st => obtain ⟨b, d⟩ := st; cases b <;> rfl

theorem C06_operator_after_operator (w w' : List Call) (o o' : BinOp) :
    buildCalls (w ++ [.bin o, .bin o'] ++ w') = .null := by
  apply C06_sticky
  rw [track_append]
  cases track (false, 0) w with
  | none => rfl
  | some st => obtain ⟨b, d⟩ := st; cases b <;> rfl

theorem C06_empty_parentheses (w w' : List Call) :
    buildCalls (w ++ [.openPar, .closePar] ++ w') = .null := by
  apply C06_sticky
  rw [track_append]
  cases track (false, 0) w with
  | none => rfl
  | some st => obtain ⟨b, d⟩ := st; cases b <;> rfl

example : track (false, 0) [.feature ['A'], .closePar] = none := rfl
example : buildCalls [.openPar, .feature ['A']] = .null := by decide

/-- `operator()()` parenthesizes everything so far. -/
theorem C06_parens {w : List Call} {c0 : Constraint} (h : buildCalls w = .ok c0)
    {w' : List Call} {ss : List Sym} (hs : symbols w' = some ss) (c : Constraint) :
    buildCalls (w ++ .parens :: w') = .ok c ↔ Expr 8 (.operand c0 :: ss) c := by
  rw [C05_builds]
  have h0 := (C05_builds _ _).1 h
  constructor
  · intro hb
    rw [← builds_iff, arun_append] at hb
    have hb : abuild (arun (astep (arun (.run [] none) w) .parens) w') = some c := hb
    rw [parens_state, (builds_iff _ _).2 h0] at hb
    simp only at hb
    rw [arun_symbols hs] at hb
    exact (abuild_iff _ c).1 hb
  · exact fun he => .parens h0 hs he

/-! ## C49: `build()` can be repeated and does not disturb the builder

The full claim is false for the code (the two witnesses below); repeating a `build()` at once is
harmless when it returned null or when the constraint mentions no feature. -/

theorem popBelowMax_idem (fs : List (Nat × Path)) : popBelowMax (popBelowMax fs) = popBelowMax fs := by
  induction fs with
  | nil => rfl
  | cons f fs ih =>
    obtain ⟨q, slot⟩ := f
    by_cases h : q < builderMax
    · simp only [popBelowMax, if_pos h, ih]
    · simp only [popBelowMax, if_neg h]

/-- The trees without features are unchanged by `build`. -/
theorem moved_of_featureFree (t : BTree) (c : Constraint) (hb : t.build = some (some c))
    (hf : c.features = []) : t.moved = t := by
  induction t generalizing c with
  | hole => rfl
  | int v => rfl
  | feature n =>
    cases n with
    | none => simp [BTree.build] at hb
    | some n => simp [BTree.build] at hb; subst hb; simp [Constraint.features] at hf
  | un op t ih =>
    simp only [BTree.build] at hb
    split at hb
    · cases hb
    · rename_i c' e
      cases c' with
      | none => simp at hb
      | some c' =>
        simp at hb
        subst hb
        simp only [BTree.moved, ih c' e (by simpa [Constraint.features] using hf)]
  | bin op l r ihl ihr =>
    simp only [BTree.build] at hb
    split at hb
    · rename_i a b ea eb
      cases a with
      | none => simp at hb
      | some a =>
        cases b with
        | none => simp at hb
        | some b =>
          simp at hb
          subst hb
          simp only [Constraint.features, List.append_eq_nil_iff] at hf
          simp only [BTree.moved, ihl a ea hf.1, ihr b eb hf.2]
    · cases hb

theorem C49_repeat_partial (s : BState) :
    (s.build.1 = .null → s.build.2.build.1 = .null) ∧
    (∀ c, s.build.1 = .ok c → c.features = [] → s.build.2.build = (.ok c, s.build.2)) := by
  constructor
  · intro h
    unfold BState.build at h ⊢
    cases hh : s.head with
    | none => rfl
    | some p =>
      simp only [hh] at h ⊢
      cases hg : s.root.get? p with
      | none => simp [hg] at h
      | some cur =>
        simp only [hg] at h ⊢
        cases cur with
        | hole => simp [hh, hg]
        | _ =>
          simp only at h ⊢
          by_cases hr : s.root = .hole
          · simp [hr, hh]
            cases p with
            | nil => simp [BTree.get?]
            | cons d p => simp [hr, BTree.get?] at hg
          · rw [if_neg hr] at h ⊢
            by_cases hf : popBelowMax s.frames ≠ []
            · rw [if_pos hf]
              simp [hh, hg, hr, popBelowMax_idem, hf]
            · rw [if_neg hf] at h
              split at h <;> simp at h
  · intro c h hfeat
    unfold BState.build at h ⊢
    cases hh : s.head with
    | none => simp [hh] at h
    | some p =>
      simp only [hh] at h ⊢
      cases hg : s.root.get? p with
      | none => simp [hg] at h
      | some cur =>
        simp only [hg] at h ⊢
        cases cur with
        | hole => simp at h
        | _ =>
          simp only at h ⊢
          by_cases hr : s.root = .hole
          · simp [hr] at h
          · rw [if_neg hr] at h ⊢
            by_cases hf : popBelowMax s.frames ≠ []
            · simp [hf] at h
            · rw [if_neg hf] at h ⊢
              cases hb : s.root.build with
              | none => simp [hb] at h
              | some o =>
                cases o with
                | none => simp [hb] at h
                | some c' =>
                  simp [hb] at h
                  subst h
                  have hm := moved_of_featureFree s.root c' hb hfeat
                  have hf' : popBelowMax s.frames = [] := by simpa using hf
                  simp [hm, hh, hg, hr, hb, hf', popBelowMax]

/-- `build()` must not be called twice: the second result has lost its features. -/
theorem C49_second_build_loses_features :
    ∃ s, BState.init.run [.feature ['A'], .bin .and, .feature ['B']] = some s ∧
      s.build.1 = .ok (.bin .and (.feature ['A']) (.feature ['B'])) ∧
      s.build.2.build.1 = .nullFeature := ⟨_, rfl, by decide, by decide⟩

/-- … and an intermediate `build()` changes the meaning of later calls: the same calls without it
    give `(1 + 2) - 3`, with it `1 + (2 - 3)`. -/
theorem C49_build_changes_builder :
    buildCalls [.constant 1, .bin .add, .constant 2, .bin .sub, .constant 3] =
      .ok (.bin .sub (.bin .add (.int 1) (.int 2)) (.int 3)) ∧
    ∃ s, BState.init.run [.constant 1, .bin .add, .constant 2] = some s ∧
      s.build.1 = .ok (.bin .add (.int 1) (.int 2)) ∧
      ∃ s', s.build.2.run [.bin .sub, .constant 3] = some s' ∧
        s'.build.1 = .ok (.bin .add (.int 1) (.bin .sub (.int 2) (.int 3))) :=
  ⟨by decide, _, rfl, by decide, _, rfl, by decide⟩

end Verif.Props

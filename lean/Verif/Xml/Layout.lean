import Verif.Xml.LayoutText
import Verif.Constraint.Whitespace
import Verif.Props.ConstraintText
/-! # Reading documents that differ in layout -/

namespace Verif.Xml
open Verif Verif.Spec Verif.Sxfm

theorem blank_reverse {a : Str} (h : blank a) : blank a.reverse := fun c hc => h c (List.mem_reverse.1 hc)

/-- Blanks at the end of what is left behind the leading ones. -/
theorem dropWhile_append_blank {s b : Str} (h : blank b) :
    (s ++ b).dropWhile isSpaceC = s.dropWhile isSpaceC ++ b ∨ ((s ++ b).dropWhile isSpaceC = [] ∧ s.dropWhile isSpaceC = []) := by
  induction s with
  | nil =>
    right
    refine ⟨?_, rfl⟩
    have := dropWhile_blank (s := []) h
    simpa using this
  | cons c s ih =>
    by_cases hc : isSpaceC c = true
    · rw [List.cons_append, List.dropWhile_cons_of_pos hc, List.dropWhile_cons_of_pos hc]
      exact ih
    · left
      rw [List.cons_append, List.dropWhile_cons_of_neg hc, List.dropWhile_cons_of_neg hc, List.cons_append]

theorem trimC_pad {a u b : Str} (ha : blank a) (hb : blank b) : trimC (a ++ u ++ b) = trimC u := by
  unfold trimC
  rw [List.append_assoc, dropWhile_blank ha]
  rcases dropWhile_append_blank (s := u) hb with h | ⟨h1, h2⟩
  · rw [h, List.reverse_append, dropWhile_blank (blank_reverse hb)]
  · rw [h1, h2]

theorem _root_.Verif.Spec.Padded.trim {s t : Str} (h : Padded s t) : trimC s = trimC t := by
  cases h with
  | mk ha hb ha' hb' => rw [trimC_pad ha hb, trimC_pad ha' hb']

theorem _root_.Verif.Spec.PaddedLeft.ltrim {s t : Str} (h : PaddedLeft s t) : ltrimC s = ltrimC t := by
  cases h with
  | mk ha ha' => unfold ltrimC; rw [dropWhile_blank ha, dropWhile_blank ha']

theorem _root_.Verif.Spec.PaddedLeft.padded {s t : Str} (h : PaddedLeft s t) : Padded s t := by
  cases h with
  | @mk a a' u ha ha' =>
    have := Padded.mk (u := u) ha blank_nil ha' blank_nil
    simpa using this

theorem padded_refl (s : Str) : Padded s s := by
  have := Padded.mk (u := s) blank_nil blank_nil blank_nil blank_nil
  simpa using this

theorem _root_.Verif.Spec.SameText.padded {p n s t : Str} (h : SameText p n s t) : Padded s t ∨ SameValue n s t := by
  unfold SameText at h
  split at h
  · subst h; exact .inl (padded_refl s)
  · split at h
    · exact .inl h.padded
    · exact h

/-- The elements whose texts can be spelled differently. -/
def respelled : List Str := [c!"line", c!"column", c!"minValue", c!"maxValue", c!"values", c!"optional"]

theorem sameValue_respelled {n s t : Str} (h : SameValue n s t) : n ∈ respelled := by
  cases h with
  | position h => rcases h with rfl | rfl <;> decide
  | bound h => rcases h with rfl | rfl <;> decide
  | values => decide
  | optional => decide

theorem _root_.Verif.Spec.SameText.trim {p n s t : Str} (h : SameText p n s t) (hn : n ∉ respelled) : trimC s = trimC t :=
  h.padded.elim Padded.trim fun h => absurd (sameValue_respelled h) hn

/-! ## Numbers -/

theorem takeWhile_digits_blank {s b : Str} (h : blank b) : (s ++ b).takeWhile isDigit = s.takeWhile isDigit := by
  induction s with
  | nil =>
    cases b with
    | nil => rfl
    | cons c b =>
      have : isDigit c = false := by rcases h c (by simp) with rfl | rfl | rfl | rfl <;> decide
      rw [List.nil_append, List.takeWhile_cons_of_neg (by simp [this])]
      rfl
  | cons c s ih =>
    by_cases hc : isDigit c = true
    · rw [List.cons_append, List.takeWhile_cons_of_pos hc, List.takeWhile_cons_of_pos hc, ih]
    · rw [List.cons_append, List.takeWhile_cons_of_neg hc, List.takeWhile_cons_of_neg hc]

theorem signedValue_blank {s b : Str} (h : blank b) : signedValue (s ++ b) = signedValue s := by
  cases s with
  | nil =>
    cases b with
    | nil => rfl
    | cons c b =>
      have := takeWhile_digits_blank (s := []) h
      rcases h c (by simp) with rfl | rfl | rfl | rfl <;> rfl
  | cons c s =>
    rw [List.cons_append]
    unfold signedValue
    split
    · rename_i r e
      injection e with e1 e2
      subst e1 e2
      simp only [takeWhile_digits_blank h]
    · rename_i r e
      injection e with e1 e2
      subst e1 e2
      simp only [takeWhile_digits_blank h]
    · rename_i r h1 h2
      split
      · rename_i r e; injection e with e1 e2; subst e1; exact absurd rfl (h1 _)
      · rename_i r e; injection e with e1 e2; subst e1; exact absurd rfl (h2 _)
      · rw [← List.cons_append, takeWhile_digits_blank h]

theorem atoi_pad {a u b : Str} (ha : blank a) (hb : blank b) : atoi (a ++ u ++ b) = atoi u := by
  unfold atoi
  rw [List.append_assoc, dropWhile_blank ha]
  rcases dropWhile_append_blank (s := u) hb with h | ⟨h1, h2⟩
  · rw [h, signedValue_blank hb]
  · rw [h1, h2]

theorem _root_.Verif.Spec.Padded.atoi {s t : Str} (h : Padded s t) : atoi s = Xml.atoi t := by
  cases h with
  | mk ha hb ha' hb' => rw [atoi_pad ha hb, atoi_pad ha' hb']

theorem _root_.Verif.Spec.SameText.atoi {p n s t : Str} (h : SameText p n s t) (hn : n = c!"line" ∨ n = c!"column") : atoi s = Xml.atoi t :=
  h.padded.elim Padded.atoi fun h => sameValue_atoi h hn

/-! ## What can be seen -/

theorem trimC_nil_iff {s : Str} : trimC s = [] ↔ ∀ c ∈ s, isSpaceC c = true := by
  constructor
  · intro h c hc
    cases hs : isSpaceC c with
    | true => rfl
    | false => exact absurd h (trimC_ne_nil ⟨c, hc, hs⟩)
  · intro h
    unfold trimC
    have : s.dropWhile isSpaceC = [] := by
      rw [← List.append_nil s, List.dropWhile_append_of_pos h]
      rfl
    rw [this]
    rfl

theorem trimC_append_nil {s t : Str} : trimC (s ++ t) = [] ↔ trimC s = [] ∧ trimC t = [] := by
  simp only [trimC_nil_iff, List.mem_append]
  constructor
  · intro h; exact ⟨fun c hc => h c (.inl hc), fun c hc => h c (.inr hc)⟩
  · rintro ⟨h1, h2⟩ c (hc | hc)
    · exact h1 c hc
    · exact h2 c hc

theorem trimC_blank {s : Str} (h : blank s) : trimC s = [] := trimC_nil_iff.2 (blank_space h)

theorem same_name {p : Str} {x y : Xml} (h : SameElem p x y) : x.name = y.name := by cases h <;> rfl

theorem same_prop {p : Str} {x y : Xml} (h : SameElem p x y) (a : Str) : x.prop a = y.prop a := by cases h <;> rfl

mutual
theorem same_visible : ∀ {p : Str} {x y : Xml}, SameElem p x y → (trimC x.content = [] ↔ trimC y.content = [])
  | _, _, _, .text h => by
    simp only [Xml.content, Xml.contents, List.append_nil]
    rcases h.padded with h | h
    · rw [h.trim]
    · simp [sameValue_visible h]
  | _, _, _, .elements _ hs ht hk => by
    simp only [Xml.content, trimC_append_nil, trimC_blank hs, trimC_blank ht, true_and]
    exact sameAll_visible hk
theorem sameAll_visible : ∀ {p : Str} {ks ks' : List Xml}, SameElems p ks ks' → (trimC (Xml.contents ks) = [] ↔ trimC (Xml.contents ks') = [])
  | _, _, _, .nil => Iff.rfl
  | _, _, _, .cons h hs => by
    simp only [Xml.contents, trimC_append_nil]
    rw [same_visible h, sameAll_visible hs]
end

/-- Elements whose name is not that of a compound have only text, alike up to blanks. -/
theorem same_text {p : Str} {x y : Xml} (h : SameElem p x y) (hn : x.name ∉ compound) : SameText p x.name x.content y.content := by
  cases h with
  | text h => simpa only [Xml.content, Xml.contents, List.append_nil, Xml.name] using h
  | elements hc => exact absurd hc hn

theorem same_kids {p : Str} {x y : Xml} (h : SameElem p x y) (hn : x.name ∈ compound) : SameElems x.name x.kids y.kids := by
  cases h with
  | text h => exact .nil
  | elements hc _ _ hk => exact hk

/-! ## The parts of an option -/

theorem sourceLocation_same {p : Str} : ∀ {ks ks' : List Xml} {l : Loc}, SameElems p ks ks' → sourceLocation l ks = sourceLocation l ks'
  | _, _, l, .nil => rfl
  | _, _, l, .cons (k := k) (k' := k') h hs => by
    simp only [sourceLocation, ← same_name h]
    split
    · rename_i hn
      rw [← (same_text h (by rw [hn]; decide)).atoi (by rw [hn]; decide)]
      cases atoi k.content with
      | none => rfl
      | some v => exact sourceLocation_same hs
    · split
      · rename_i hn
        rw [← (same_text h (by rw [hn]; decide)).atoi (by rw [hn]; decide)]
        cases atoi k.content with
        | none => rfl
        | some v => exact sourceLocation_same hs
      · exact sourceLocation_same hs

theorem revisionTexts_same {p : Str} : ∀ {ks ks' : List Xml} {t : Str × Str}, SameElems p ks ks' → revisionTexts t ks = revisionTexts t ks'
  | _, _, _, .nil => rfl
  | _, _, _, .cons h hs => by
    simp only [revisionTexts, ← same_name h]
    split
    · rename_i hn
      rw [← (same_text h (by rw [hn]; decide)).trim (by rw [hn]; decide)]
      exact revisionTexts_same hs
    · split
      · rename_i hn
        rw [← (same_text h (by rw [hn]; decide)).trim (by rw [hn]; decide)]
        exact revisionTexts_same hs
      · exact revisionTexts_same hs

theorem rangeElems_same {p : Str} : ∀ {ks ks' : List Xml} {r : Range}, SameElems p ks ks' → rangeElems r ks = rangeElems r ks'
  | _, _, _, .nil => rfl
  | _, _, _, .cons (k := k) (k' := k') h hs => by
    simp only [rangeElems, ← same_name h]
    split
    · rename_i hn
      have : revisionRange k = revisionRange k' := by
        unfold revisionRange
        rw [revisionTexts_same (same_kids h (by rw [hn]; decide))]
      rw [this]
      exact rangeElems_same hs
    · split
      · rename_i hn
        rw [← (same_text h (by rw [hn]; decide)).trim (by rw [hn]; decide)]
        exact rangeElems_same hs
      · split
        · rename_i hn
          rw [← sourceLocation_same (same_kids h (by rw [hn]; decide))]
          cases sourceLocation ⟨0, 0⟩ k.kids with
          | none => rfl
          | some l => exact rangeElems_same hs
        · split
          · rename_i hn
            rw [← sourceLocation_same (same_kids h (by rw [hn]; decide))]
            cases sourceLocation ⟨0, 0⟩ k.kids with
            | none => rfl
            | some l => exact rangeElems_same hs
          · split
            · rename_i hn
              rw [← (same_text h (by rw [hn]; decide)).trim (by rw [hn]; decide)]
              exact rangeElems_same hs
            · exact rangeElems_same hs

theorem sourceRanges_same {p : Str} : ∀ {ks ks' : List Xml} {rs : List Range}, SameElems p ks ks' → sourceRanges rs ks = sourceRanges rs ks'
  | _, _, _, .nil => rfl
  | _, _, _, .cons (k := k) (k' := k') h hs => by
    simp only [sourceRanges, ← same_name h]
    split
    · rename_i hn
      have : sourceRange k = sourceRange k' := by
        unfold sourceRange category
        rw [same_prop h]
        split
        · rfl
        · exact rangeElems_same (same_kids h (by rw [hn]; decide))
      rw [← this]
      cases sourceRange k with
      | none => rfl
      | some r => exact sourceRanges_same hs
    · exact sourceRanges_same hs

theorem childEdges_same {name : Str} : ∀ {ks ks' : List Xml} {calls : List BCall}, SameElems c!"children" ks ks' →
    childEdges name calls ks = childEdges name calls ks'
  | _, _, _, .nil => rfl
  | _, _, calls, .cons (k := k) (k' := k') h hs => by
    simp only [childEdges, ← same_name h]
    split
    · rename_i hn
      have e : k.content = k'.content := by
        have := same_text h (by rw [hn]; decide)
        simpa only [SameText, if_true] using this
      rw [← e]
      cases tryEdge calls name k.content with
      | ok calls => exact childEdges_same hs
      | fail => rfl
      | crash => rfl
    · exact childEdges_same hs

theorem pairConstraints_same {p : Str} {op : BinOp} {name : Str} : ∀ {ks ks' : List Xml} {calls : List BCall}, SameElems p ks ks' →
    pairConstraints op name calls ks = pairConstraints op name calls ks'
  | _, _, _, .nil => rfl
  | _, _, calls, .cons (k := k) (k' := k') h hs => by
    simp only [pairConstraints, ← same_name h]
    split
    · rename_i hn
      rw [← (same_text h (by rw [hn]; decide)).trim (by rw [hn]; decide)]
      cases buildCalls [.feature name, .bin op, .feature (trimC k.content)] with
      | ok c => exact pairConstraints_same hs
      | _ => rfl
    · exact pairConstraints_same hs

section
variable {sci : Str → Option Str} {num : Bool}

theorem optElem_same {s : OptSt} {k k' : Xml} (h : SameElem c!"configurationOption" k k') : optElem sci num s k = optElem sci num s k' := by
  unfold optElem
  have hv := same_visible h
  have hn := same_name h
  by_cases h0 : trimC k.content = []
  · rw [if_pos h0, if_pos (hv.1 h0)]
  rw [if_neg h0, if_neg (fun e => h0 (hv.2 e)), ← hn]
  have txt : k.name ∉ compound → k.name ∉ respelled → trimC k.content = trimC k'.content := fun hc hr => (same_text h hc).trim hr
  split
  · rename_i e; rw [← txt (by rw [e]; decide) (by rw [e]; decide)]
  split
  · rename_i e
    have := same_text h (by rw [e]; decide)
    simp only [SameText, e] at this
    rw [if_neg (by decide)] at this
    simp only [if_true] at this
    rw [this.ltrim]
  split
  · rename_i e
    rcases (same_text h (by rw [e]; decide)).padded with hp | hp
    · rw [hp.trim]
    · rw [e] at hp
      simp [sameValue_optional hp]
  split
  · rename_i e; rw [← txt (by rw [e]; decide) (by rw [e]; decide)]
  split
  · rename_i e
    have := same_kids h (by rw [e]; decide)
    rw [e] at this
    rw [childEdges_same this]
  split
  · rename_i e; rw [pairConstraints_same (same_kids h (by rw [e]; decide))]
  split
  · rename_i e; rw [pairConstraints_same (same_kids h (by rw [e]; decide))]
  split
  · rename_i e; rw [sourceRanges_same (same_kids h (by rw [e]; decide))]
  split
  · by_cases hc : k.name ∈ compound
    · unfold numElem
      have hne : ∀ n ∈ [c!"minValue", c!"maxValue", c!"values", c!"stepFunction"], k.name ≠ n := by
        intro n hn e
        rw [e] at hc
        simp only [List.mem_cons, List.not_mem_nil, or_false] at hn
        rcases hn with rfl | rfl | rfl | rfl <;> revert hc <;> decide
      rw [if_neg (hne _ (by simp)), if_neg (hne _ (by simp)), if_neg (hne _ (by simp)), if_neg (hne _ (by simp)),
        if_neg (hne _ (by simp)), if_neg (hne _ (by simp)), if_neg (hne _ (by simp)), if_neg (hne _ (by simp))]
    · rcases (same_text h hc).padded with hp | hp
      · rw [hp.trim]
      · exact sameValue_num sci hp s
  · rfl

theorem optElem_meaningless {s : OptSt} {k : Xml} (h : Meaningless k) : optElem sci num s k = .ok s := by
  unfold optElem
  rcases h with h | h
  · split
    · rfl
    · simp only [List.mem_cons, List.not_mem_nil, or_false] at h
      unfold numElem
      rcases h with h | h | h | h | h <;> rw [h] <;> cases num <;> rfl
  · rw [if_pos]
    rw [trimC_nil_iff]
    intro c hc
    have : c = ' ' ∨ c = '\t' ∨ c = '\n' ∨ c = '\r' := Classical.byContradiction fun hn => h ⟨c, hc, hn⟩
    rcases this with rfl | rfl | rfl | rfl <;> decide

theorem optElems_same : ∀ {ks ks' : List Xml} {s : OptSt}, SameParts ks ks' → optElems sci num s ks = optElems sci num s ks' := by
  intro ks ks' s h
  induction h generalizing s with
  | nil => rfl
  | cons h _ ih =>
    simp only [optElems]
    rw [optElem_same h]
    congr 1
    funext s
    exact ih
  | left h _ ih =>
    simp only [optElems]
    rw [optElem_meaningless h]
    exact ih
  | right h _ ih =>
    simp only [optElems]
    rw [optElem_meaningless h]
    exact ih

theorem parseOptions_same : ∀ {ks ks' : List Xml} {calls : List BCall}, SameEntries ks ks' →
    parseOptions sci num calls ks = parseOptions sci num calls ks' := by
  intro ks ks' calls h
  induction h generalizing calls with
  | nil => rfl
  | cons h _ ih =>
    cases h with
    | option hp =>
      simp only [parseOptions, Xml.name, if_true, parseOption, Xml.kids]
      rw [optElems_same hp]
      congr 1
      funext calls
      exact ih
    | @constraint as s t =>
      have e : ∀ (t : Str) (ks : List Xml), parseOptions sci num calls (.node c!"constraint" as t [] :: ks) = parseOptions sci num calls ks :=
        fun _ _ => rfl
      rw [e, e]
      exact ih

theorem blank_ws {s : Str} (h : blank s) : ∀ c ∈ s, isWs c = true := by
  intro c hc
  rcases h c hc with rfl | rfl | rfl | rfl <;> decide

theorem separators_break {c : Char} (h : c ∈ separators) : isBreak c = true := by
  simp only [separators, List.mem_cons, List.not_mem_nil, or_false] at h
  rcases h with rfl | rfl | rfl | rfl | rfl | rfl | rfl | rfl | rfl | rfl <;> decide

theorem parseText_same {s t : Str} (h : SameSpacing s t) : parseText sci s = parseText sci t := by
  induction h with
  | refl => rfl
  | symm _ ih => exact ih.symm
  | trans _ _ ih1 ih2 => exact ih1.trans ih2
  | @ends a u b ha hb hne =>
    have h1 := Props.C04_whitespace_insert sci (s1 := a ++ u) (s2 := []) (w := b) (by simp [hne]) (blank_ws hb) (.inr (.inl rfl))
    simp only [List.append_nil] at h1
    have h2 := Props.C04_whitespace_insert sci (s1 := []) (s2 := u) (w := a) (by simpa using hne) (blank_ws ha) (.inl rfl)
    simp only [List.nil_append] at h2
    rw [h1, h2]
  | @after s c w t hc hw =>
    exact Props.C04_whitespace_insert sci (by simp) (blank_ws hw) (.inr (.inr (.inl ⟨s, c, rfl, separators_break hc⟩)))
  | @before s w c t hc hw =>
    exact Props.C04_whitespace_insert sci (by simp) (blank_ws hw) (.inr (.inr (.inr ⟨c, t, rfl, separators_break hc⟩)))

theorem parseConstraints_same {cl : CClass} : ∀ {ks ks' : List Xml} {calls : List BCall}, SameEntries ks ks' →
    parseConstraints sci cl calls ks = parseConstraints sci cl calls ks' := by
  intro ks ks' calls h
  induction h generalizing calls with
  | nil => rfl
  | cons h _ ih =>
    cases h with
    | option hp =>
      have e : ∀ (as : List (Str × Str)) (t : Str) (os ks : List Xml),
          parseConstraints sci cl calls (.node c!"configurationOption" as t os :: ks) = parseConstraints sci cl calls ks :=
        fun _ _ _ _ => rfl
      rw [e, e]
      exact ih
    | @constraint as s t hst =>
      simp only [parseConstraints, Xml.name, if_true, Xml.content, Xml.contents, List.append_nil]
      rw [parseText_same hst]
      have : constraintKind cl (.node c!"constraint" as s []) = constraintKind cl (.node c!"constraint" as t []) := rfl
      rw [this]
      cases parseText sci t with
      | ok c =>
        cases constraintKind cl (.node c!"constraint" as t []) with
        | none => rfl
        | some k => exact ih
      | _ => rfl

theorem vmElems_same : ∀ {ks ks' : List Xml} {calls : List BCall}, SameSections ks ks' → vmElems sci calls ks = vmElems sci calls ks' := by
  intro ks ks' calls h
  induction h generalizing calls with
  | nil => rfl
  | @cons n as as' s s' ks ks' hs hs' h _ ih =>
    have : vmElem sci calls (.node n as s ks) = vmElem sci calls (.node n as' s' ks') := by
      simp only [vmElem, Xml.name, Xml.kids]
      rw [parseOptions_same h, parseOptions_same h, parseConstraints_same h, parseConstraints_same h, parseConstraints_same h]
      rfl
    simp only [vmElems]
    rw [this]
    congr 1
    funext calls
    exact ih

end

theorem parseVm_same {sci : Str → Option Str} {cwd : Str} {x y : Xml} (h : SameDoc x y) : parseVm sci cwd x = parseVm sci cwd y := by
  unfold parseVm Xml.prop
  have att : ∀ {a : Str}, SameAtt a x.attrs y.attrs → trimC ((x.attrs.lookup a).getD []) = trimC ((y.attrs.lookup a).getD []) := by
    intro a ha
    rcases ha with ⟨e1, e2⟩ | ⟨s, t, e1, e2, hp⟩
    · rw [e1, e2]
    · rw [e1, e2]; exact hp.trim
  have hr : rootPath cwd (x.attrs.lookup c!"root") = rootPath cwd (y.attrs.lookup c!"root") := by
    rcases h.root with ⟨e1, e2⟩ | ⟨s, t, e1, e2, hp⟩
    · rw [e1, e2]
    · rw [e1, e2]; exact hp.trim
  rw [att h.name, att h.commit, hr, vmElems_same h.sections]

/-- Documents that differ in layout are loaded alike. -/
theorem load_same {sci : Str → Option Str} {E : Env} {world : FModel} {cwd : Str} {x y : Xml} (h : SameDoc x y) :
    load sci E world cwd x = load sci E world cwd y := by
  unfold load
  rw [parseVm_same h]

end Verif.Xml

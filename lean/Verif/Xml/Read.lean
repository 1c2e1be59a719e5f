import Verif.Xml.Doc
import Verif.Sxfm.Clause
import Verif.Sxfm.Levels
import Verif.Constraint.BuildParse
/-!
# Reading documents
-/

namespace Verif.Xml
open Verif Verif.Spec Verif.Sxfm

/-! ## Text -/

theorem trimC_solid {s : Str} (h : Solid s) : trimC s = s := by
  have := trimC_text (a := []) (b := []) (s := s) (by simp) (by simp) h.head h.last h.nonempty
  simpa using this

theorem trimC_trimmed {s : Str} (h : Trimmed s) : trimC s = s := by
  rcases h with rfl | h
  · rfl
  · exact trimC_solid h

/-- A text with a character that is no blank is not blank. -/
theorem trimC_ne_nil {s : Str} (h : ∃ c ∈ s, isSpaceC c = false) : trimC s ≠ [] := by
  apply trimC_nonempty
  obtain ⟨c, hc, hs⟩ := h
  intro hb
  unfold isBlank at hb
  rw [List.all_eq_true] at hb
  rw [hb c hc] at hs
  cases hs

theorem _root_.Verif.Spec.Solid.visible {s : Str} (h : Solid s) : ∃ c ∈ s, isSpaceC c = false := by
  cases s with
  | nil => exact absurd rfl h.nonempty
  | cons c s => exact ⟨c, by simp, h.head c rfl⟩

theorem digit_visible {c : Char} (h : isDigit c = true) : isSpaceC c = false := by
  apply idChar_noSpace
  unfold isIdChar isAlnum
  simp [h]

theorem natText_solid (n : Nat) : Solid (natText n) where
  nonempty := natText_ne_nil n
  head := fun c hc => digit_visible (natText_digits n c (List.mem_of_mem_head? hc))
  last := fun c hc => digit_visible (natText_digits n c (List.mem_of_mem_getLast? hc))

theorem intText_solid (v : Int) : Solid (intText v) := by
  cases v with
  | ofNat n => exact natText_solid n
  | negSucc n =>
    have h := natText_solid (n + 1)
    refine ⟨by simp [intText], ?_, ?_⟩
    · intro c hc
      simp only [intText, List.head?_cons, Option.some.injEq] at hc
      subst hc; decide
    · intro c hc
      simp only [intText] at hc
      rw [List.getLast?_cons, Option.some.injEq] at hc
      cases hl : (natText (n + 1)).getLast? with
      | none => exact absurd (List.getLast?_eq_none_iff.1 hl) h.nonempty
      | some x =>
        rw [hl] at hc
        simp only [Option.getD_some] at hc
        subst hc
        exact h.last x hl

theorem digits_not_e {s : Str} (h : ∀ c ∈ s, isDigit c = true) : s.any (fun c => c == 'e' || c == 'E') = false := by
  rw [List.any_eq_false]
  intro c hc
  have := h c hc
  intro he
  simp only [Bool.or_eq_true, beq_iff_eq] at he
  rcases he with rfl | rfl <;> revert this <;> decide

theorem parseInteger_intText (sci : Str → Option Str) {v : Int} (h : Int64 v) : parseInteger sci (intText v) = v := by
  cases v with
  | ofNat n => exact parseInteger_natText sci n h.2
  | negSucc n =>
    unfold parseInteger intText
    rw [if_neg]
    · unfold parsePlainInteger
      rw [getAsInt64_neg_dec _ (natText_digits _) (natText_ne_nil _), natText_value, if_pos]
      · simp; omega
      · have := h.1
        unfold int64Min at this
        omega
    · have := digits_not_e (natText_digits (n + 1))
      simp [this]

theorem atoi_natText {n : Nat} (h : n ≤ 2147483647) : (atoi (natText n)).map toUnsigned = some n := by
  have hd := natText_digits n
  have hne := natText_ne_nil n
  have hdrop : (natText n).dropWhile isSpaceC = natText n := by
    cases hs : natText n with
    | nil => exact absurd hs hne
    | cons c s =>
      rw [List.dropWhile_cons_of_neg]
      simp [digit_visible (hd c (by rw [hs]; simp))]
  have htake : (natText n).takeWhile isDigit = natText n := by
    generalize natText n = s at hd
    clear hdrop hne h
    induction s with
    | nil => rfl
    | cons c s ih => rw [List.takeWhile_cons_of_pos (hd c (by simp)), ih (fun x hx => hd x (by simp [hx]))]
  have hv : atoi (natText n) = some (n : Int) := by
    unfold atoi
    rw [hdrop]
    cases hs : natText n with
    | nil => exact absurd hs hne
    | cons c s =>
      have hc := hd c (by rw [hs]; simp)
      have e : decValue ((c :: s).takeWhile isDigit) = n := by rw [← hs, htake, natText_value]
      have hm : c ≠ '-' := by rintro rfl; revert hc; decide
      have hp : c ≠ '+' := by rintro rfl; revert hc; decide
      have ev : signedValue (c :: s) = (n : Int) := by
        unfold signedValue
        split
        · rename_i heq; cases heq; exact absurd rfl hm
        · rename_i heq; cases heq; exact absurd rfl hp
        · rw [e]
      rw [ev]
      unfold asInt
      rw [if_pos (by omega)]
  rw [hv]
  simp only [Option.map_some, toUnsigned, Option.some.injEq]
  omega

/-! ## Lists of values -/

theorem intTokens_digits : ∀ (s t : Str) (b : Bool) (r : Str), (∀ c ∈ s, isDigit c = true) →
    intTokens (some t) b (s ++ r) = intTokens (some (t ++ s)) b r
  | [], t, b, r, _ => by simp
  | c :: s, t, b, r, h => by
    rw [List.cons_append]
    conv => lhs; unfold intTokens
    rw [if_pos (h c (by simp)), intTokens_digits s (t ++ [c]) b r (fun x hx => h x (by simp [hx]))]
    simp

theorem intTokens_int (v : Int) (r : Str) : ∃ b, intTokens none false (intText v ++ r) = intTokens (some (intText v)) b r := by
  cases v with
  | ofNat n =>
    have hd := natText_digits n
    simp only [intText]
    cases hs : natText n with
    | nil => exact absurd hs (natText_ne_nil n)
    | cons c s =>
      rw [hs] at hd
      refine ⟨false, ?_⟩
      rw [List.cons_append]
      conv => lhs; unfold intTokens
      rw [if_pos (hd c (by simp)), intTokens_digits s _ _ r (fun x hx => hd x (by simp [hx]))]
      simp
  | negSucc n =>
    have hd := natText_digits (n + 1)
    simp only [intText]
    cases hs : natText (n + 1) with
    | nil => exact absurd hs (natText_ne_nil _)
    | cons c s =>
      rw [hs] at hd
      refine ⟨false, ?_⟩
      rw [List.cons_append, List.cons_append]
      conv => lhs; unfold intTokens
      rw [if_neg (by decide)]
      conv => lhs; unfold intTokens
      rw [if_pos (hd c (by simp)), intTokens_digits s _ _ r (fun x hx => hd x (by simp [hx]))]
      simp

theorem intTokens_list : ∀ (vs : List Int), vs ≠ [] → intTokens none false (listText vs) = vs.map intText
  | [], h => absurd rfl h
  | [v], _ => by
    obtain ⟨b, h⟩ := intTokens_int v []
    simp only [List.append_nil] at h
    simp only [listText, h, List.map_cons, List.map_nil]
    unfold intTokens
    rfl
  | v :: w :: vs, _ => by
    obtain ⟨b, h⟩ := intTokens_int v (';' :: listText (w :: vs))
    have e : listText (v :: w :: vs) = intText v ++ (';' :: listText (w :: vs)) := rfl
    rw [e, h]
    conv => lhs; unfold intTokens
    rw [if_neg (by decide)]
    have : (';' == '-') = false := by decide
    rw [this, intTokens_list (w :: vs) (by simp)]
    rfl

theorem listText_solid : ∀ (vs : List Int), vs ≠ [] → Solid (listText vs)
  | [], h => absurd rfl h
  | [v], _ => intText_solid v
  | v :: w :: vs, _ => by
    have h1 := intText_solid v
    have h2 := listText_solid (w :: vs) (by simp)
    refine ⟨by simp [listText], ?_, ?_⟩
    · intro c hc
      simp only [listText] at hc
      cases hs : intText v with
      | nil => exact absurd hs h1.nonempty
      | cons x s =>
        rw [hs] at hc
        simp only [List.cons_append, List.head?_cons] at hc
        exact h1.head c (by rw [hs]; exact hc)
    · intro c hc
      have e : listText (v :: w :: vs) = (intText v ++ [';']) ++ listText (w :: vs) := by simp [listText]
      rw [e, List.getLast?_append] at hc
      cases hl : (listText (w :: vs)).getLast? with
      | none => exact absurd (List.getLast?_eq_none_iff.1 hl) h2.nonempty
      | some y =>
        rw [hl] at hc
        exact h2.last c (by rw [hl]; exact hc)

/-! ## Elements -/

theorem content_leaf (n t : Str) : (leaf n t).content = t := by
  simp [leaf, Xml.content, Xml.contents]

theorem contents_leaves (n : Str) : ∀ ts : List Str, Xml.contents (ts.map (leaf n)) = ts.flatten
  | [] => rfl
  | t :: ts => by simp [Xml.contents, content_leaf, contents_leaves n ts]

theorem content_group (n : Str) (ks : List Xml) : (group n ks).content = Xml.contents ks := by
  simp [group, Xml.content]

theorem contents_append : ∀ (a b : List Xml), Xml.contents (a ++ b) = Xml.contents a ++ Xml.contents b
  | [], b => rfl
  | x :: a, b => by simp [Xml.contents, contents_append a b]

theorem sourceLocation_point {l : Loc} (h : FitsInt l) :
    sourceLocation ⟨0, 0⟩ [leaf c!"line" (natText l.line), leaf c!"column" (natText l.column)] = some l := by
  obtain ⟨v, v1, v2⟩ := Option.map_eq_some_iff.1 (atoi_natText h.1)
  obtain ⟨u, u1, u2⟩ := Option.map_eq_some_iff.1 (atoi_natText h.2)
  have e1 : (leaf c!"line" (natText l.line)).name = c!"line" := rfl
  have e2 : (leaf c!"column" (natText l.column)).name = c!"column" := rfl
  simp only [sourceLocation, content_leaf, e1, e2, v1, u1, v2, u2, if_true]
  rw [if_neg (by decide)]

theorem revisionRange_read {i : Str} {o : Option Str} (hi : Trimmed i) (ho : ∀ t, o = some t → Solid t) :
    revisionRange (group c!"revisionRange" (leaf c!"introduced" i :: optLeaf c!"removed" o)) = ⟨i, o⟩ := by
  have e1 : (leaf c!"introduced" i).name = c!"introduced" := rfl
  unfold revisionRange
  have hk : (group c!"revisionRange" (leaf c!"introduced" i :: optLeaf c!"removed" o)).kids =
    leaf c!"introduced" i :: optLeaf c!"removed" o := rfl
  rw [hk]
  cases o with
  | none =>
    simp only [optLeaf, revisionTexts, e1, if_true, content_leaf, trimC_trimmed hi]
  | some t =>
    have e2 : (leaf c!"removed" t).name = c!"removed" := rfl
    have ht := ho t rfl
    simp only [optLeaf, revisionTexts, e1, e2, if_true, content_leaf, trimC_trimmed hi, trimC_solid ht]
    have n1 : ¬ (c!"removed" = c!"introduced") := by decide
    simp only [if_neg n1, if_neg ht.nonempty]

theorem rangeElems_append : ∀ (a b : List Xml) (r : Range), rangeElems r (a ++ b) = (rangeElems r a).bind fun r => rangeElems r b
  | [], b, r => rfl
  | k :: a, b, r => by
    have ih := rangeElems_append a b
    simp only [List.cons_append, rangeElems]
    by_cases h1 : k.name = c!"revisionRange"
    · simp only [if_pos h1, ih]
    · by_cases h2 : k.name = c!"path"
      · simp only [if_neg h1, if_pos h2, ih]
      · by_cases h3 : k.name = c!"start"
        · simp only [if_neg h1, if_neg h2, if_pos h3]
          cases sourceLocation ⟨0, 0⟩ k.kids <;> simp [ih]
        · by_cases h4 : k.name = c!"end"
          · simp only [if_neg h1, if_neg h2, if_neg h3, if_pos h4]
            cases sourceLocation ⟨0, 0⟩ k.kids <;> simp [ih]
          · by_cases h5 : k.name = c!"memberOffset"
            · simp only [if_neg h1, if_neg h2, if_neg h3, if_neg h4, if_pos h5, ih]
            · simp only [if_neg h1, if_neg h2, if_neg h3, if_neg h4, if_neg h5, ih]

theorem range_revision (r : Range) (x : Xml) (hx : x.name = c!"revisionRange") (ks : List Xml) :
    rangeElems r (x :: ks) = rangeElems { r with revision := some (revisionRange x) } ks := by
  simp only [rangeElems, if_pos hx]

theorem range_path (r : Range) (t : Str) (ks : List Xml) :
    rangeElems r (leaf c!"path" t :: ks) = rangeElems { r with path := pathElems (trimC t) } ks := by
  have e : (leaf c!"path" t).name = c!"path" := rfl
  simp only [rangeElems, e, content_leaf]
  rw [if_neg (by decide), if_pos trivial]

theorem range_start (r : Range) {l : Loc} (h : FitsInt l) (ks : List Xml) :
    rangeElems r (pointXml c!"start" l :: ks) = rangeElems { r with start := some l } ks := by
  have e : (pointXml c!"start" l).name = c!"start" := rfl
  have e2 : (pointXml c!"start" l).kids = [leaf c!"line" (natText l.line), leaf c!"column" (natText l.column)] := rfl
  simp only [rangeElems, e, e2, sourceLocation_point h]
  rw [if_neg (by decide), if_neg (by decide), if_pos trivial]

theorem range_stop (r : Range) {l : Loc} (h : FitsInt l) (ks : List Xml) :
    rangeElems r (pointXml c!"end" l :: ks) = rangeElems { r with stop := some l } ks := by
  have e : (pointXml c!"end" l).name = c!"end" := rfl
  have e2 : (pointXml c!"end" l).kids = [leaf c!"line" (natText l.line), leaf c!"column" (natText l.column)] := rfl
  simp only [rangeElems, e, e2, sourceLocation_point h]
  rw [if_neg (by decide), if_neg (by decide), if_neg (by decide), if_pos trivial]

theorem range_member (r : Range) (t : Str) (ks : List Xml) :
    rangeElems r (leaf c!"memberOffset" t :: ks) = rangeElems { r with member := createMemberOffset (trimC t) } ks := by
  have e : (leaf c!"memberOffset" t).name = c!"memberOffset" := rfl
  simp only [rangeElems, e, content_leaf]
  rw [if_neg (by decide), if_neg (by decide), if_neg (by decide), if_neg (by decide), if_pos trivial]

theorem sourceRange_read {r : DocRange} (h : r.Ok) : sourceRange r.toXml = some r.read := by
  have hcat : category r.toXml = some (r.category.getD .necessary) := by
    unfold category DocRange.toXml Xml.prop
    cases r.category with
    | none => rfl
    | some c => cases c <;> rfl
  have hk : r.toXml.kids = revisionXml r.revision ++ leaf c!"path" r.path :: pointXml c!"start" r.start ::
    pointXml c!"end" r.stop :: optLeaf c!"memberOffset" r.member := rfl
  unfold sourceRange
  rw [hcat]
  simp only [hk]
  have htail : ∀ r0 : Range, r0.path = [] → r0.start = none → r0.stop = none → r0.member = none →
      rangeElems r0 (leaf c!"path" r.path :: pointXml c!"start" r.start :: pointXml c!"end" r.stop ::
        optLeaf c!"memberOffset" r.member) =
      some { r0 with path := pathElems r.path, start := some r.start, stop := some r.stop,
                     member := r.member.bind createMemberOffset } := by
    intro r0 h1 h2 h3 h4
    rw [range_path, range_start _ h.start, range_stop _ h.stop, trimC_trimmed h.path]
    cases hm : r.member with
    | none =>
      simp only [optLeaf, rangeElems, Option.bind_none, ← h4]
    | some t =>
      simp only [optLeaf]
      rw [range_member, trimC_trimmed (h.member t hm)]
      rfl
  cases hr : r.revision with
  | none =>
    simp only [revisionXml, List.nil_append]
    rw [htail _ rfl rfl rfl rfl]
    simp [DocRange.read, hr]
  | some x =>
    obtain ⟨i, o⟩ := x
    obtain ⟨h1, h2⟩ := h.revision i o hr
    simp only [revisionXml, List.cons_append, List.nil_append]
    rw [range_revision _ _ rfl, revisionRange_read h1 h2, htail _ rfl rfl rfl rfl]
    simp [DocRange.read, hr]

theorem sourceRanges_read : ∀ (l : List DocRange) (rs : List Range), (∀ r ∈ l, r.Ok) →
    sourceRanges rs (l.map DocRange.toXml) = some (rs ++ l.map DocRange.read)
  | [], rs, _ => by simp [sourceRanges]
  | r :: l, rs, h => by
    have e : r.toXml.name = c!"sourceRange" := rfl
    simp only [List.map_cons, sourceRanges, e, if_true, sourceRange_read (h r (by simp))]
    rw [sourceRanges_read l _ (fun x hx => h x (by simp [hx]))]
    simp

/-! ## Options -/

/-- The edges of the calls agree with a parent function. -/
def EdgesOk (par : Str → Str) (calls : List BCall) : Prop := ∀ p c, BCall.addEdge p c ∈ calls → par c = p

theorem parentName_mem : ∀ {calls : List BCall} {c p : Str}, parentName calls c = some p → .addEdge p c ∈ calls
  | [], c, p, h => by cases h
  | x :: xs, c, p, h => by
    unfold parentName at h
    cases hp : parentName xs c with
    | some q =>
      rw [hp] at h
      cases h
      exact List.mem_cons_of_mem _ (parentName_mem hp)
    | none =>
      rw [hp] at h
      simp only at h
      split at h
      · split at h
        · rename_i hc
          cases h
          subst hc
          exact List.mem_cons_self
        · cases h
      · cases h

theorem tryEdge_ok {par : Str → Str} {calls : List BCall} (h : EdgesOk par calls) (c : Str) :
    tryEdge calls (par c) c = .ok (calls ++ [.addEdge (par c) c]) ∧ EdgesOk par (calls ++ [.addEdge (par c) c]) := by
  constructor
  · unfold tryEdge
    cases hp : parentName calls c with
    | none => rfl
    | some q =>
      have := h q c (parentName_mem hp)
      simp only [this, if_true]
  · intro p c' hm
    rcases List.mem_append.1 hm with hm | hm
    · exact h p c' hm
    · rw [List.mem_singleton] at hm; cases hm; rfl

theorem EdgesOk.append {par : Str → Str} {a b : List BCall} (ha : EdgesOk par a) (hb : EdgesOk par b) : EdgesOk par (a ++ b) := by
  intro p c hm
  rcases List.mem_append.1 hm with hm | hm
  · exact ha p c hm
  · exact hb p c hm

theorem childEdges_ok {par : Str → Str} {n : Str} : ∀ (cs : List Str) (calls : List BCall), EdgesOk par calls →
    (∀ c ∈ cs, par c = n) → childEdges n calls (cs.map (leaf c!"options")) = .ok (calls ++ cs.map (.addEdge n))
  | [], calls, _, _ => by simp [childEdges]
  | c :: cs, calls, h, hp => by
    have e : (leaf c!"options" c).name = c!"options" := rfl
    have hpc := hp c (by simp)
    obtain ⟨t1, t2⟩ := tryEdge_ok h c
    rw [hpc] at t1 t2
    simp only [List.map_cons, childEdges, e, if_true, content_leaf, t1]
    rw [childEdges_ok cs _ t2 (fun x hx => hp x (by simp [hx]))]
    simp

theorem pairConstraints_ok {op : BinOp} (hop : op = .implies ∨ op = .excludes) {n : Str} : ∀ (ts : List Str) (calls : List BCall),
    (∀ t ∈ ts, Solid t) → pairConstraints op n calls (ts.map (leaf c!"options")) =
      .ok (calls ++ ts.map fun t => .addConstraint .boolean (.bin op (.feature n) (.feature t)))
  | [], calls, _ => by simp [pairConstraints]
  | t :: ts, calls, h => by
    have e : (leaf c!"options" t).name = c!"options" := rfl
    have hb : buildCalls [.feature n, .bin op, .feature t] = .ok (.bin op (.feature n) (.feature t)) := by
      rcases hop with rfl | rfl <;> rfl
    simp only [List.map_cons, pairConstraints, e, if_true, content_leaf, trimC_solid (h t (by simp)), hb]
    rw [pairConstraints_ok hop ts _ (fun x hx => h x (by simp [hx]))]
    simp

section
variable (sci : Str → Option Str) (num : Bool)

theorem optElems_append : ∀ (a b : List Xml) (s : OptSt),
    optElems sci num s (a ++ b) = (optElems sci num s a).bind fun s => optElems sci num s b
  | [], b, s => rfl
  | x :: a, b, s => by
    simp only [List.cons_append, optElems]
    cases optElem sci num s x with
    | ok s1 => exact optElems_append a b s1
    | fail => rfl
    | crash => rfl

theorem optElems_nil (s : OptSt) : optElems sci num s [] = .ok s := rfl

theorem optElems_one {s s' : OptSt} {x : Xml} (h : optElem sci num s x = .ok s') : optElems sci num s [x] = .ok s' := by
  simp only [optElems, h]; rfl

theorem opt_name (s : OptSt) {t : Str} (h : Solid t) : optElem sci num s (leaf c!"name" t) = .ok { s with name := t } := by
  have e : (leaf c!"name" t).name = c!"name" := rfl
  simp only [optElem, content_leaf, e, trimC_solid h]
  rw [if_neg h.nonempty, if_pos trivial]

theorem ltrimC_eq {t : Str} (h : ∀ c, t.head? = some c → isSpaceC c = false) : ltrimC t = t := by
  unfold ltrimC
  cases t with
  | nil => rfl
  | cons c t => rw [List.dropWhile_cons_of_neg]; simp [h c rfl]

theorem opt_output (s : OptSt) {t : Str} (h1 : t ≠ []) (h2 : ∀ c, t.head? = some c → isSpaceC c = false) :
    optElem sci num s (leaf c!"outputString" t) = .ok { s with output := t } := by
  have e : (leaf c!"outputString" t).name = c!"outputString" := rfl
  have hv : trimC t ≠ [] := trimC_ne_nil (by
    cases t with
    | nil => exact absurd rfl h1
    | cons c t => exact ⟨c, by simp, h2 c rfl⟩)
  simp only [optElem, content_leaf, e]
  rw [if_neg hv, if_neg (by decide), if_pos trivial, ltrimC_eq h2]

theorem opt_optional (s : OptSt) (b : Bool) :
    optElem sci num s (leaf c!"optional" (if b then c!"True" else c!"False")) = .ok { s with opt := b } := by
  cases b <;> rfl

theorem opt_parent (s : OptSt) {par : Str → Str} (h : EdgesOk par s.calls) (hp : Solid (par s.name)) :
    optElem sci num s (leaf c!"parent" (par s.name)) = .ok { s with calls := s.calls ++ [.addEdge (par s.name) s.name] } := by
  have e : (leaf c!"parent" (par s.name)).name = c!"parent" := rfl
  simp only [optElem, content_leaf, e, trimC_solid hp]
  rw [if_neg hp.nonempty, if_neg (by decide), if_neg (by decide), if_neg (by decide), if_pos trivial, (tryEdge_ok h s.name).1]
  rfl

theorem flatten_visible {ts : List Str} (hne : ts ≠ []) (h : ∀ t ∈ ts, Solid t) : ∃ c ∈ ts.flatten, isSpaceC c = false := by
  cases ts with
  | nil => exact absurd rfl hne
  | cons t ts =>
    obtain ⟨c, hc, hs⟩ := (h t (by simp)).visible
    exact ⟨c, by simp [hc], hs⟩

theorem opt_children (s : OptSt) {par : Str → Str} (h : EdgesOk par s.calls) {cs : List Str} (hs : ∀ c ∈ cs, Solid c)
    (hp : ∀ c ∈ cs, par c = s.name) :
    optElems sci num s (namesXml c!"children" cs) = .ok { s with calls := s.calls ++ cs.map (.addEdge s.name) } := by
  unfold namesXml
  by_cases hc : cs = []
  · subst hc; simp [optElems]
  · rw [if_neg hc]
    apply optElems_one
    have e : (group c!"children" (cs.map (leaf c!"options"))).name = c!"children" := rfl
    have e2 : (group c!"children" (cs.map (leaf c!"options"))).kids = cs.map (leaf c!"options") := rfl
    simp only [optElem, content_group, contents_leaves, e, e2]
    rw [if_neg (trimC_ne_nil (flatten_visible hc hs)), if_neg (by decide), if_neg (by decide), if_neg (by decide),
      if_neg (by decide), if_pos trivial, childEdges_ok cs _ h hp]
    rfl

theorem opt_excluded (s : OptSt) {ts : List Str} (hs : ∀ c ∈ ts, Solid c) :
    optElems sci num s (namesXml c!"excludedOptions" ts) = .ok { s with calls := s.calls ++
      (ts.map fun t => .addConstraint .boolean (.bin .excludes (.feature s.name) (.feature t))) } := by
  unfold namesXml
  by_cases hc : ts = []
  · subst hc; simp [optElems]
  · rw [if_neg hc]
    apply optElems_one
    have e : (group c!"excludedOptions" (ts.map (leaf c!"options"))).name = c!"excludedOptions" := rfl
    have e2 : (group c!"excludedOptions" (ts.map (leaf c!"options"))).kids = ts.map (leaf c!"options") := rfl
    simp only [optElem, content_group, contents_leaves, e, e2]
    rw [if_neg (trimC_ne_nil (flatten_visible hc hs)), if_neg (by decide), if_neg (by decide), if_neg (by decide),
      if_neg (by decide), if_neg (by decide), if_pos trivial, pairConstraints_ok (.inr rfl) ts _ hs]
    rfl

theorem opt_implied (s : OptSt) {ts : List Str} (hs : ∀ c ∈ ts, Solid c) :
    optElems sci num s (namesXml c!"impliedOptions" ts) = .ok { s with calls := s.calls ++
      (ts.map fun t => .addConstraint .boolean (.bin .implies (.feature s.name) (.feature t))) } := by
  unfold namesXml
  by_cases hc : ts = []
  · subst hc; simp [optElems]
  · rw [if_neg hc]
    apply optElems_one
    have e : (group c!"impliedOptions" (ts.map (leaf c!"options"))).name = c!"impliedOptions" := rfl
    have e2 : (group c!"impliedOptions" (ts.map (leaf c!"options"))).kids = ts.map (leaf c!"options") := rfl
    simp only [optElem, content_group, contents_leaves, e, e2]
    rw [if_neg (trimC_ne_nil (flatten_visible hc hs)), if_neg (by decide), if_neg (by decide), if_neg (by decide),
      if_neg (by decide), if_neg (by decide), if_neg (by decide), if_pos trivial, pairConstraints_ok (.inl rfl) ts _ hs]
    rfl

theorem ranges_visible {l : List DocRange} (hne : l ≠ []) : ∃ c ∈ Xml.contents (l.map DocRange.toXml), isSpaceC c = false := by
  cases l with
  | nil => exact absurd rfl hne
  | cons r l =>
    obtain ⟨c, hc, hs⟩ := (natText_solid r.start.line).visible
    refine ⟨c, ?_, hs⟩
    have : c ∈ r.toXml.content := by
      unfold DocRange.toXml Xml.content
      rw [List.nil_append, contents_append]
      simp only [Xml.contents, pointXml, content_group, content_leaf]
      simp [hc]
    simp [Xml.contents, this]

theorem opt_locations (s : OptSt) {l : List DocRange} (h : ∀ r ∈ l, r.Ok) :
    optElems sci num s (if l = [] then [] else [group c!"locations" (l.map DocRange.toXml)]) =
      .ok { s with locs := s.locs ++ l.map DocRange.read } := by
  by_cases hc : l = []
  · subst hc; simp [optElems]
  · rw [if_neg hc]
    apply optElems_one
    have e : (group c!"locations" (l.map DocRange.toXml)).name = c!"locations" := rfl
    have e2 : (group c!"locations" (l.map DocRange.toXml)).kids = l.map DocRange.toXml := rfl
    simp only [optElem, content_group, e, e2, sourceRanges_read l _ h]
    rw [if_neg (trimC_ne_nil (ranges_visible hc)), if_neg (by decide), if_neg (by decide), if_neg (by decide),
      if_neg (by decide), if_neg (by decide), if_neg (by decide), if_neg (by decide), if_pos trivial]

/-- An element that only numeric options have. -/
theorem opt_num (s : OptSt) {n t : Str} (ht : Solid t) (hn : n ∈ [c!"minValue", c!"maxValue", c!"values", c!"stepFunction"]) :
    optElem sci num s (leaf n t) = if num then numElem sci s t n else .ok s := by
  have e : (leaf n t).name = n := rfl
  simp only [optElem, content_leaf, e, trimC_solid ht]
  simp only [List.mem_cons, List.not_mem_nil, or_false] at hn
  rw [if_neg ht.nonempty]
  rcases hn with rfl | rfl | rfl | rfl <;>
    rw [if_neg (by decide), if_neg (by decide), if_neg (by decide), if_neg (by decide),
      if_neg (by decide), if_neg (by decide), if_neg (by decide), if_neg (by decide)]

/-- What the elements for values do to the state. -/
def setValues (s : OptSt) : Option Values → OptSt
  | none => s
  | some (.range lo hi) => { s with lo := lo, hi := hi }
  | some (.list vs) => { s with values := s.values ++ vs }

theorem opt_values (s : OptSt) {v : Option Values} (h : ∀ x, v = some x → ValuesOk x) :
    optElems sci num s (valuesXml v) = .ok (if num then setValues s v else s) := by
  cases v with
  | none => cases num <;> rfl
  | some v =>
    have hv := h v rfl
    cases v with
    | range lo hi =>
      simp only [valuesXml, optElems]
      rw [opt_num sci num s (intText_solid lo) (by simp)]
      cases num with
      | false =>
        simp only [Bool.false_eq_true, if_false, SOut.bind]
        rw [opt_num sci false s (intText_solid hi) (by simp)]
        rfl
      | true =>
        simp only [if_true]
        have e1 : numElem sci s (intText lo) c!"minValue" = .ok { s with lo := lo } := by
          unfold numElem
          rw [if_pos rfl, parseInteger_intText sci hv.1]
        rw [e1]
        dsimp only [SOut.bind]
        rw [opt_num sci true _ (intText_solid hi) (by simp)]
        simp only [if_true]
        unfold numElem
        rw [if_neg (by decide), if_pos rfl, parseInteger_intText sci hv.2]
        rfl
    | list vs =>
      simp only [valuesXml]
      apply optElems_one
      rw [opt_num sci num s (listText_solid vs hv.1) (by simp)]
      cases num with
      | false => rfl
      | true =>
        simp only [if_true]
        unfold numElem
        rw [if_neg (by decide), if_neg (by decide), if_pos rfl, intTokens_list vs hv.1, List.map_map]
        have : vs.map (parseInteger sci ∘ intText) = vs := by
          conv => rhs; rw [← List.map_id vs]
          apply List.map_congr_left
          intro x hx
          exact parseInteger_intText sci (hv.2 x hx)
        rw [this]
        rfl

theorem opt_step (s : OptSt) {v : Option (Str × StepFn)} (h : ∀ t f, v = some (t, f) → Solid t ∧ parseStepText t = .ok f) :
    optElems sci num s (optLeaf c!"stepFunction" (v.map Prod.fst)) =
      .ok (if num then { s with step := (v.map Prod.snd).or s.step } else s) := by
  cases v with
  | none => cases num <;> rfl
  | some x =>
    obtain ⟨t, f⟩ := x
    obtain ⟨h1, h2⟩ := h t f rfl
    simp only [Option.map_some, optLeaf]
    apply optElems_one
    rw [opt_num sci num s h1 (by simp)]
    cases num with
    | false => rfl
    | true =>
      simp only [if_true]
      unfold numElem
      rw [if_neg (by decide), if_neg (by decide), if_neg (by decide), if_pos rfl, h2]
      rfl

end

/-- The calls an option leads to. -/
def optCalls (num : Bool) (o : DocOption) : List BCall :=
  o.parent.toList.map (fun p => .addEdge p o.name) ++ o.children.map (.addEdge o.name) ++
    o.constraints.map (fun c => .addConstraint c.1 c.2) ++
    [if isRootName o.name then .makeRoot o.name else .makeFeature (o.attr num)]

/-- The elements of an option after its parent and its children. -/
def restXml (o : DocOption) : List Xml :=
  namesXml c!"impliedOptions" o.implied ++ namesXml c!"excludedOptions" o.excluded ++
    optLeaf c!"optional" (o.optional.map fun b => if b then c!"True" else c!"False") ++ valuesXml o.values ++
    optLeaf c!"stepFunction" (o.step.map Prod.fst) ++
    (if o.locs = [] then [] else [group c!"locations" (o.locs.map DocRange.toXml)])

/-- The edges an option leads to. -/
def optEdges (o : DocOption) : List BCall := o.parent.toList.map (fun p => .addEdge p o.name) ++ o.children.map (.addEdge o.name)

theorem parseOption_split (sci : Str → Option Str) (num : Bool) {o : DocOption} (calls : List BCall) (h : o.Ok) :
    parseOption sci num calls o.toXml =
      (optElems sci num { name := o.name, output := o.output.getD [], calls := calls }
        (optLeaf c!"parent" o.parent ++ namesXml c!"children" o.children)).bind fun s =>
      (optElems sci num s (restXml o)).bind fun s => .ok (s.calls ++ [optCall num s]) := by
  have hk : o.toXml.kids = [leaf c!"name" o.name] ++ (optLeaf c!"outputString" o.output ++
      ((optLeaf c!"parent" o.parent ++ namesXml c!"children" o.children) ++ restXml o)) := by
    unfold restXml
    simp only [← List.append_assoc]
    rfl
  have b1 : ∀ s : OptSt, optElems sci num s (optLeaf c!"outputString" o.output) =
      .ok { s with output := o.output.getD s.output } := by
    intro s
    cases ho : o.output with
    | none => rfl
    | some t =>
      obtain ⟨h1, h2⟩ := h.output t ho
      exact optElems_one sci num (opt_output sci num s h1 h2)
  unfold parseOption
  rw [hk, optElems_append sci num [leaf c!"name" o.name]]
  rw [optElems_one sci num (opt_name sci num _ h.name)]
  dsimp only [SOut.bind]
  rw [optElems_append sci num (optLeaf c!"outputString" o.output), b1]
  dsimp only [SOut.bind]
  rw [optElems_append sci num _ (restXml o)]
  generalize optElems sci num _ (optLeaf _ _ ++ namesXml _ _) = r
  cases r <;> rfl

theorem parseOption_rest (sci : Str → Option Str) (num : Bool) {o : DocOption} (calls : List BCall) (h : o.Ok) :
    ((optElems sci num { name := o.name, output := o.output.getD [], calls := calls ++ optEdges o } (restXml o)).bind fun s =>
      .ok (s.calls ++ [optCall num s])) = .ok (calls ++ optCalls num o) := by
  have b3 : ∀ s : OptSt, optElems sci num s (optLeaf c!"optional" (o.optional.map fun b => if b then c!"True" else c!"False")) =
      .ok { s with opt := o.optional.getD s.opt } := by
    intro s
    cases o.optional with
    | none => rfl
    | some b => exact optElems_one sci num (opt_optional sci num s b)
  unfold restXml optEdges
  rw [optElems_append, optElems_append, optElems_append, optElems_append, optElems_append]
  rw [opt_implied sci num _ h.implied]
  dsimp only [SOut.bind]
  rw [opt_excluded sci num _ h.excluded]
  dsimp only [SOut.bind]
  rw [b3]
  dsimp only [SOut.bind]
  rw [opt_values sci num _ h.values]
  dsimp only [SOut.bind]
  rw [opt_step sci num _ h.step]
  dsimp only [SOut.bind]
  rw [opt_locations sci num _ h.locs]
  simp only [SOut.ok.injEq]
  unfold optCalls DocOption.constraints optCall
  cases num with
  | false =>
    simp only [Bool.false_eq_true, if_false]
    by_cases hr : o.name = c!"root" ∨ o.name = c!"base"
    · have : isRootName o.name = true := by unfold isRootName; simpa using hr
      rw [if_pos hr, this]
      simp [implies, excludes, List.map_map, Function.comp_def]
    · have : isRootName o.name = false := by unfold isRootName; simpa using hr
      rw [if_neg hr, this]
      simp [implies, excludes, List.map_map, Function.comp_def, DocOption.attr]
  | true =>
    simp only [if_true]
    by_cases hr : o.name = c!"root" ∨ o.name = c!"base"
    · have : isRootName o.name = true := by unfold isRootName; simpa using hr
      cases hv : o.values with
      | none => simp [setValues, hr, this, implies, excludes, List.map_map, Function.comp_def]
      | some v => cases v <;> simp [setValues, hr, this, implies, excludes, List.map_map, Function.comp_def]
    · have : isRootName o.name = false := by unfold isRootName; simpa using hr
      cases hv : o.values with
      | none => simp [setValues, hr, this, implies, excludes, List.map_map, Function.comp_def, DocOption.attr, hv]
      | some v =>
        have hvo := h.values v hv
        cases v with
        | range lo hi => simp [setValues, hr, this, implies, excludes, List.map_map, Function.comp_def, DocOption.attr, hv]
        | list vs => simp [setValues, hr, this, implies, excludes, List.map_map, Function.comp_def, DocOption.attr, hv, hvo.1]

theorem parseOption_read (sci : Str → Option Str) (num : Bool) {par : Str → Str} {o : DocOption} {calls : List BCall} (h : o.Ok)
    (he : EdgesOk par calls) (hp : ∀ p, o.parent = some p → par o.name = p) (hc : ∀ c ∈ o.children, par c = o.name) :
    parseOption sci num calls o.toXml = .ok (calls ++ optCalls num o) := by
  have b2 : ∀ s : OptSt, s.name = o.name → EdgesOk par s.calls → optElems sci num s (optLeaf c!"parent" o.parent) =
      .ok { s with calls := s.calls ++ o.parent.toList.map (fun p => .addEdge p o.name) } := by
    intro s hn hs
    cases ho : o.parent with
    | none => simp [optLeaf, optElems]
    | some p =>
      have e := hp p ho
      have := opt_parent sci num s (par := par) hs (by rw [hn, e]; exact h.parent p ho)
      rw [hn, e] at this
      refine (optElems_one sci num this).trans ?_
      rw [← hn]; rfl
  have edges2 : EdgesOk par (calls ++ o.parent.toList.map (fun p => BCall.addEdge p o.name)) := by
    refine he.append ?_
    intro p c hm
    cases ho : o.parent with
    | none => rw [ho] at hm; cases hm
    | some q =>
      rw [ho] at hm
      simp only [Option.toList_some, List.map_cons, List.map_nil, List.mem_singleton, BCall.addEdge.injEq] at hm
      rw [hm.1, hm.2]; exact hp q ho
  rw [parseOption_split sci num calls h, optElems_append, b2 _ rfl he]
  dsimp only [SOut.bind]
  rw [opt_children sci num _ (par := par) edges2 h.children hc]
  have := parseOption_rest sci num calls h
  unfold optEdges at this
  rw [← List.append_assoc] at this
  exact this

theorem optCalls_edges {num : Bool} {par : Str → Str} {o : DocOption} (hp : ∀ p, o.parent = some p → par o.name = p)
    (hc : ∀ c ∈ o.children, par c = o.name) : EdgesOk par (optCalls num o) := by
  intro p c hm
  unfold optCalls at hm
  simp only [List.mem_append, List.mem_map, List.mem_singleton] at hm
  rcases hm with ((⟨q, hq, he⟩ | ⟨q, hq, he⟩) | ⟨q, hq, he⟩) | he
  · cases he
    exact hp p (by simpa using hq)
  · cases he
    exact hc c hq
  · cases he
  · split at he <;> cases he

theorem parseOptions_read (sci : Str → Option Str) (num : Bool) {par : Str → Str} : ∀ (os : List DocOption) (calls : List BCall),
    (∀ o ∈ os, o.Ok) → EdgesOk par calls → (∀ o ∈ os, ∀ p, o.parent = some p → par o.name = p) →
    (∀ o ∈ os, ∀ c ∈ o.children, par c = o.name) →
    parseOptions sci num calls (os.map DocOption.toXml) = .ok (calls ++ os.flatMap (optCalls num)) ∧
      EdgesOk par (calls ++ os.flatMap (optCalls num))
  | [], calls, _, he, _, _ => by simpa [parseOptions] using he
  | o :: os, calls, h, he, hp, hc => by
    have e : o.toXml.name = c!"configurationOption" := rfl
    have ih := parseOptions_read sci num os (calls ++ optCalls num o) (fun x hx => h x (by simp [hx]))
      (he.append (optCalls_edges (hp o (by simp)) (hc o (by simp)))) (fun x hx => hp x (by simp [hx]))
      (fun x hx => hc x (by simp [hx]))
    simp only [List.map_cons, parseOptions, e, if_true,
      parseOption_read sci num (h o (by simp)) he (hp o (by simp)) (hc o (by simp)), SOut.bind, List.flatMap_cons]
    rw [← List.append_assoc]
    exact ih

theorem parseConstraints_read (sci : Str → Option Str) (cl : CClass) : ∀ (cs : List DocConstraint) (calls : List BCall),
    (∀ c ∈ cs, c.Ok sci cl) →
    parseConstraints sci cl calls (cs.map DocConstraint.toXml) = .ok (calls ++ cs.map fun c => .addConstraint c.kind c.tree)
  | [], calls, _ => by simp [parseConstraints]
  | c :: cs, calls, h => by
    have hc := h c (by simp)
    have e : c.toXml.name = c!"constraint" := by unfold DocConstraint.toXml; split <;> rfl
    have e2 : c.toXml.content = c.text := by
      unfold DocConstraint.toXml
      split <;> simp [Xml.content, Xml.contents, content_leaf]
    have e3 : constraintKind cl c.toXml = some c.kind := by
      have hk := hc.kind
      unfold constraintKind DocConstraint.toXml
      cases hck : c.kind with
      | boolean => rw [hck] at hk; cases hk; rfl
      | nonBoolean => rw [hck] at hk; cases hk; rfl
      | mixed i =>
        rw [hck] at hk; cases hk
        obtain ⟨a, b⟩ := i
        cases a <;> cases b <;> rfl
    simp only [List.map_cons, parseConstraints, e, if_true, e2, hc.text, e3]
    rw [parseConstraints_read sci cl cs _ (fun x hx => h x (by simp [hx]))]
    simp

/-- The calls a document leads to. -/
def docCalls (cwd : Str) (x : Spec.Doc) : List BCall :=
  [.setVmName x.name, .setPath (x.path.getD cwd), .setCommit (x.commit.getD [])] ++
    x.options.flatMap (fun o => optCalls o.1 o.2) ++
    (x.ofClass .boolean ++ x.ofClass .nonBoolean ++ x.ofClass .mixed).map fun c => .addConstraint c.1 c.2

theorem vmElems_append (sci : Str → Option Str) : ∀ (a b : List Xml) (calls : List BCall),
    vmElems sci calls (a ++ b) = (vmElems sci calls a).bind fun calls => vmElems sci calls b
  | [], b, s => rfl
  | x :: a, b, s => by
    simp only [List.cons_append, vmElems]
    cases vmElem sci s x with
    | ok s1 => exact vmElems_append sci a b s1
    | fail => rfl
    | crash => rfl

theorem vmElems_one {sci : Str → Option Str} {s s' : List BCall} {x : Xml} (h : vmElem sci s x = .ok s') :
    vmElems sci s [x] = .ok s' := by
  simp only [vmElems, h]; rfl

theorem vm_constraints {sci : Str → Option Str} {n : Str} {cl : CClass}
    (hn : (n, cl) ∈ [(c!"booleanConstraints", CClass.boolean), (c!"nonBooleanConstraints", .nonBoolean), (c!"mixedConstraints", .mixed)])
    {l : Option (List DocConstraint)} (hl : ∀ cs, l = some cs → ∀ c ∈ cs, c.Ok sci cl) (calls : List BCall) :
    vmElems sci calls (groupXml n DocConstraint.toXml l) =
      .ok (calls ++ (l.getD []).map fun c => .addConstraint c.kind c.tree) := by
  cases l with
  | none => simp [groupXml, vmElems]
  | some cs =>
    simp only [groupXml, Option.getD_some]
    apply vmElems_one
    have e : (group n (cs.map DocConstraint.toXml)).name = n := rfl
    have e2 : (group n (cs.map DocConstraint.toXml)).kids = cs.map DocConstraint.toXml := rfl
    unfold vmElem
    rw [e, e2]
    have := parseConstraints_read sci cl cs calls (hl cs rfl)
    simp only [List.mem_cons, List.not_mem_nil, or_false, Prod.mk.injEq] at hn
    rcases hn with ⟨rfl, rfl⟩ | ⟨rfl, rfl⟩ | ⟨rfl, rfl⟩
    · rw [if_neg (by decide), if_neg (by decide), if_pos rfl]; exact this
    · rw [if_neg (by decide), if_neg (by decide), if_neg (by decide), if_pos rfl]; exact this
    · rw [if_neg (by decide), if_neg (by decide), if_neg (by decide), if_neg (by decide), if_pos rfl]; exact this

/-- The attributes of a document. -/
theorem vm_head {sci : Str → Option Str} (cwd : Str) {x : Spec.Doc} (h : x.Ok sci) :
    ([.setVmName (trimC ((x.toXml.prop c!"name").getD [])), .setPath (rootPath cwd (x.toXml.prop c!"root")),
     .setCommit (trimC ((x.toXml.prop c!"commit").getD []))] : List BCall) =
     [.setVmName x.name, .setPath (x.path.getD cwd), .setCommit (x.commit.getD [])] := by
  have p1 : x.toXml.prop c!"name" = some x.name := rfl
  have p2 : x.toXml.prop c!"root" = x.path := by
    unfold Doc.toXml Xml.prop Xml.attrs
    cases x.path with
    | none => cases x.commit <;> rfl
    | some t => rfl
  have p3 : x.toXml.prop c!"commit" = x.commit := by
    unfold Doc.toXml Xml.prop Xml.attrs
    cases x.path with
    | none => cases x.commit <;> rfl
    | some t => cases x.commit <;> rfl
  rw [p1, p2, p3]
  have e1 : rootPath cwd x.path = x.path.getD cwd := by
    cases hp : x.path with
    | none => rfl
    | some t => exact trimC_trimmed (h.path t hp)
  have e2 : trimC (x.commit.getD []) = x.commit.getD [] := by
    cases hp : x.commit with
    | none => rfl
    | some t => exact trimC_trimmed (h.commit t hp)
  rw [e1, e2]
  simp only [Option.getD_some, trimC_trimmed h.name]

theorem parseVm_read {sci : Str → Option Str} (cwd : Str) {x : Spec.Doc} (h : x.Ok sci) {par : Str → Str}
    (hpar : ∀ o ∈ x.options, ∀ p, o.2.parent = some p → par o.2.name = p)
    (hch : ∀ o ∈ x.options, ∀ c ∈ o.2.children, par c = o.2.name) :
    parseVm sci cwd x.toXml = .ok (docCalls cwd x) := by
  have hk : x.toXml.kids = [group c!"binaryOptions" (x.binary.map DocOption.toXml)] ++
      groupXml c!"numericOptions" DocOption.toXml x.numeric ++
      groupXml c!"booleanConstraints" DocConstraint.toXml (x.constraints .boolean) ++
      groupXml c!"nonBooleanConstraints" DocConstraint.toXml (x.constraints .nonBoolean) ++
      groupXml c!"mixedConstraints" DocConstraint.toXml (x.constraints .mixed) := rfl
  have hb : ∀ o ∈ x.binary, (false, o) ∈ x.options := fun o ho => by simp [Doc.options, ho]
  unfold parseVm
  rw [vm_head cwd h, hk, vmElems_append, vmElems_append, vmElems_append, vmElems_append]
  have he0 : EdgesOk par [.setVmName x.name, .setPath (x.path.getD cwd), .setCommit (x.commit.getD [])] := by
    intro p c hm; simp at hm
  obtain ⟨r1, r2⟩ := parseOptions_read sci false x.binary _ h.binary he0
    (fun o ho => hpar _ (hb o ho)) (fun o ho => hch _ (hb o ho))
  have s1 : vmElems sci [.setVmName x.name, .setPath (x.path.getD cwd), .setCommit (x.commit.getD [])]
      [group c!"binaryOptions" (x.binary.map DocOption.toXml)] = .ok _ := vmElems_one (by
    unfold vmElem
    exact (if_pos rfl).trans r1)
  rw [s1]
  dsimp only [SOut.bind]
  have s2 : ∀ calls, EdgesOk par calls → vmElems sci calls (groupXml c!"numericOptions" DocOption.toXml x.numeric) =
      .ok (calls ++ (x.numeric.getD []).flatMap (optCalls true)) := by
    intro calls hc
    cases hn : x.numeric with
    | none => simp [groupXml, vmElems]
    | some l =>
      have hmem : ∀ o ∈ l, (true, o) ∈ x.options := fun o ho => by simp [Doc.options, hn, ho]
      simp only [groupXml, Option.getD_some]
      apply vmElems_one
      have e : (group c!"numericOptions" (l.map DocOption.toXml)).name = c!"numericOptions" := rfl
      unfold vmElem
      rw [e, if_neg (by decide), if_pos rfl]
      exact (parseOptions_read sci true l calls (h.numeric l hn) hc
        (fun o ho => hpar _ (hmem o ho)) (fun o ho => hch _ (hmem o ho))).1
  rw [s2 _ r2]
  dsimp only [SOut.bind]
  rw [vm_constraints (by simp) (h.constraints .boolean)]
  dsimp only [SOut.bind]
  rw [vm_constraints (by simp) (h.constraints .nonBoolean)]
  dsimp only [SOut.bind]
  rw [vm_constraints (by simp) (h.constraints .mixed)]
  simp [docCalls, Doc.options, Doc.ofClass, List.flatMap_map, List.flatMap_append, List.map_map, Function.comp_def]

/-! ## Loading -/

theorem optCalls_other (num : Bool) (o : DocOption) : groupsOf (optCalls num o) = [] ∧ namesOf (optCalls num o) = [] ∧
    pathsOf (optCalls num o) = [] ∧ commitsOf (optCalls num o) = [] := by
  unfold optCalls groupsOf namesOf pathsOf commitsOf
  refine ⟨?_, ?_, ?_, ?_⟩ <;>
  · simp only [List.filterMap_append, List.filterMap_map, Function.comp_def, List.append_eq_nil_iff]
    refine ⟨⟨⟨?_, ?_⟩, ?_⟩, ?_⟩
    · exact List.filterMap_eq_nil_iff.2 (fun _ _ => rfl)
    · exact List.filterMap_eq_nil_iff.2 (fun _ _ => rfl)
    · exact List.filterMap_eq_nil_iff.2 (fun _ _ => rfl)
    · by_cases h : isRootName o.name = true <;> simp [h]

theorem optCalls_attrs (num : Bool) (o : DocOption) :
    attrsOf (optCalls num o) = if isRootName o.name then [] else [o.attr num] := by
  unfold optCalls attrsOf
  simp only [List.filterMap_append, List.filterMap_map, Function.comp_def]
  rw [List.filterMap_eq_nil_iff.2 (fun _ _ => rfl), List.filterMap_eq_nil_iff.2 (fun _ _ => rfl),
    List.filterMap_eq_nil_iff.2 (fun _ _ => rfl)]
  by_cases h : isRootName o.name = true <;> simp [h]

theorem optCalls_roots (num : Bool) (o : DocOption) :
    rootsOf (optCalls num o) = if isRootName o.name then [o.name] else [] := by
  unfold optCalls rootsOf
  simp only [List.filterMap_append, List.filterMap_map, Function.comp_def]
  rw [List.filterMap_eq_nil_iff.2 (fun _ _ => rfl), List.filterMap_eq_nil_iff.2 (fun _ _ => rfl),
    List.filterMap_eq_nil_iff.2 (fun _ _ => rfl)]
  by_cases h : isRootName o.name = true <;> simp [h]

theorem optCalls_constraints (num : Bool) (o : DocOption) : constraintsOf (optCalls num o) = o.constraints := by
  unfold optCalls constraintsOf
  simp only [List.filterMap_append, List.filterMap_map, Function.comp_def]
  rw [List.filterMap_eq_nil_iff.2 (fun _ _ => rfl), List.filterMap_eq_nil_iff.2 (fun _ _ => rfl)]
  have e : ∀ l : List (CKind × Constraint), l.filterMap (fun x => some (x.1, x.2)) = l := by
    intro l; induction l with
    | nil => rfl
    | cons a l ih => rw [List.filterMap_cons_some rfl, ih]
  rw [e]
  by_cases h : isRootName o.name = true <;> simp [h]

theorem filterMap_flatMap_nil {α β γ : Type} (f : β → Option γ) (g : α → List β) (l : List α)
    (h : ∀ a, (g a).filterMap f = []) : (l.flatMap g).filterMap f = [] := by
  induction l with
  | nil => rfl
  | cons a l ih => rw [List.flatMap_cons, List.filterMap_append, h, ih]; rfl

theorem docCalls_attrs (cwd : Str) (x : Spec.Doc) : attrsOf (docCalls cwd x) = x.attrs := by
  have h : attrsOf (x.options.flatMap fun o => optCalls o.1 o.2) = x.attrs := by
    unfold Doc.attrs
    generalize x.options = l
    induction l with
    | nil => rfl
    | cons o l ih =>
      have e := optCalls_attrs o.1 o.2
      unfold attrsOf at e ih ⊢
      rw [List.flatMap_cons, List.filterMap_append, e, ih]
      by_cases hr : isRootName o.2.name = true <;> simp [hr]
  unfold docCalls
  unfold attrsOf at h ⊢
  rw [List.filterMap_append, List.filterMap_append, h, List.filterMap_map]
  dsimp only [Function.comp_def]
  rw [List.filterMap_eq_nil_iff.2 (fun _ _ => rfl)]
  simp

theorem docCalls_roots (cwd : Str) (x : Spec.Doc) : rootsOf (docCalls cwd x) = x.roots := by
  have h : rootsOf (x.options.flatMap fun o => optCalls o.1 o.2) = x.roots := by
    unfold Doc.roots
    generalize x.options = l
    induction l with
    | nil => rfl
    | cons o l ih =>
      have e := optCalls_roots o.1 o.2
      unfold rootsOf at e ih ⊢
      rw [List.flatMap_cons, List.filterMap_append, e, ih]
      by_cases hr : isRootName o.2.name = true <;> simp [hr]
  unfold docCalls
  unfold rootsOf at h ⊢
  rw [List.filterMap_append, List.filterMap_append, h, List.filterMap_map]
  dsimp only [Function.comp_def]
  rw [List.filterMap_eq_nil_iff.2 (fun _ _ => rfl)]
  simp

theorem docCalls_constraints (cwd : Str) (x : Spec.Doc) : constraintsOf (docCalls cwd x) =
    x.options.flatMap (fun o => o.2.constraints) ++ x.ofClass .boolean ++ x.ofClass .nonBoolean ++ x.ofClass .mixed := by
  have h : constraintsOf (x.options.flatMap fun o => optCalls o.1 o.2) = x.options.flatMap fun o => o.2.constraints := by
    generalize x.options = l
    induction l with
    | nil => rfl
    | cons o l ih =>
      have e := optCalls_constraints o.1 o.2
      unfold constraintsOf at e ih ⊢
      rw [List.flatMap_cons, List.filterMap_append, e, ih, List.flatMap_cons]
  have e : ∀ l : List (CKind × Constraint), constraintsOf (l.map fun c => .addConstraint c.1 c.2) = l := by
    intro l; induction l with
    | nil => rfl
    | cons a l ih => unfold constraintsOf at ih ⊢; rw [List.map_cons, List.filterMap_cons]; dsimp only; rw [ih]
  unfold docCalls
  have e2 := e (x.ofClass .boolean ++ x.ofClass .nonBoolean ++ x.ofClass .mixed)
  unfold constraintsOf at h e2 ⊢
  rw [List.filterMap_append, List.filterMap_append, h, e2]
  simp [List.append_assoc]

theorem docCalls_other (cwd : Str) (x : Spec.Doc) : groupsOf (docCalls cwd x) = [] ∧ namesOf (docCalls cwd x) = [x.name] ∧
    pathsOf (docCalls cwd x) = [x.path.getD cwd] ∧ commitsOf (docCalls cwd x) = [x.commit.getD []] := by
  have h1 := fun o : Bool × DocOption => optCalls_other o.1 o.2
  unfold docCalls
  unfold groupsOf namesOf pathsOf commitsOf at h1 ⊢
  refine ⟨?_, ?_, ?_, ?_⟩
  all_goals rw [List.filterMap_append, List.filterMap_append, List.filterMap_map]; dsimp only [Function.comp_def]
  · rw [filterMap_flatMap_nil _ _ _ (fun o => (h1 o).1), List.filterMap_eq_nil_iff.2 (fun _ _ => rfl)]; rfl
  · rw [filterMap_flatMap_nil _ _ _ (fun o => (h1 o).2.1), List.filterMap_eq_nil_iff.2 (fun _ _ => rfl)]; rfl
  · rw [filterMap_flatMap_nil _ _ _ (fun o => (h1 o).2.2.1), List.filterMap_eq_nil_iff.2 (fun _ _ => rfl)]; rfl
  · rw [filterMap_flatMap_nil _ _ _ (fun o => (h1 o).2.2.2), List.filterMap_eq_nil_iff.2 (fun _ _ => rfl)]; rfl

theorem docCalls_edges {cwd : Str} {x : Spec.Doc} {p c : Str} : .addEdge p c ∈ docCalls cwd x ↔
    ∃ o ∈ x.options, (o.2.parent = some p ∧ o.2.name = c) ∨ (o.2.name = p ∧ c ∈ o.2.children) := by
  unfold docCalls optCalls
  simp only [List.mem_append, List.mem_cons, List.not_mem_nil, List.mem_flatMap, List.mem_map, reduceCtorEq, or_false, false_or,
    and_false, exists_false, BCall.addEdge.injEq]
  constructor
  · rintro ⟨o, ho, (⟨q, hq, rfl, rfl⟩ | ⟨q, hq, rfl, rfl⟩) | h⟩
    · exact ⟨o, ho, .inl ⟨by simpa using hq, rfl⟩⟩
    · exact ⟨o, ho, .inr ⟨rfl, hq⟩⟩
    · split at h <;> cases h
  · rintro ⟨o, ho, ⟨h1, rfl⟩ | ⟨rfl, h2⟩⟩
    · exact ⟨o, ho, .inl (.inl ⟨p, by simpa using h1, rfl, rfl⟩)⟩
    · exact ⟨o, ho, .inl (.inr ⟨c, h2, rfl, rfl⟩)⟩

theorem attrs_names {x : Spec.Doc} {n : Str} : n ∈ x.attrs.map Attr.name ↔ isRootName n = false ∧ ∃ o ∈ x.options, o.2.name = n := by
  unfold Doc.attrs
  simp only [List.map_map, List.mem_map, List.mem_filter, Function.comp_def, DocOption.attr, Bool.not_eq_true']
  constructor
  · rintro ⟨o, ⟨h1, h2⟩, rfl⟩; exact ⟨h2, o, h1, rfl⟩
  · rintro ⟨h2, o, h1, rfl⟩; exact ⟨o, ⟨h1, h2⟩, rfl⟩

theorem buildable_doc {cwd : Str} {x : Spec.Doc} {d : Desc} (hd : DocDescribes cwd x d) : Buildable (docCalls cwd x) d where
  attrs := by rw [docCalls_attrs, hd.attrs]
  kinds := by
    rw [docCalls_attrs]
    intro a ha
    unfold Doc.attrs at ha
    simp only [List.mem_map, List.mem_filter] at ha
    obtain ⟨o, _, rfl⟩ := ha
    unfold DocOption.attr
    cases o.1 <;> simp
  distinct := by rw [docCalls_attrs]; exact hd.distinct
  root := by rw [docCalls_roots]; exact hd.root
  root_new := by
    rw [docCalls_attrs]
    intro h
    have := (attrs_names.1 h).1
    rcases hd.root with ⟨_, h2⟩ | h2
    · rw [h2] at this; cases this
    · have hm : d.root ∈ x.roots := by rw [h2]; simp
      unfold Doc.roots at hm
      rw [(List.mem_filter.1 hm).2] at this
      cases this
  default_root := by
    rw [docCalls_attrs]
    intro h
    have := (attrs_names.1 h).1
    cases this
  edges := by
    intro p c h
    rw [docCalls_attrs]
    obtain ⟨o, ho, ⟨h1, rfl⟩ | ⟨rfl, h2⟩⟩ := docCalls_edges.1 h
    · exact hd.parent o ho p h1
    · obtain ⟨h3, h4⟩ := hd.children o ho c h2
      refine ⟨h3, ?_, h4⟩
      by_cases hr : isRootName o.2.name = true
      · left
        have hm : o.2.name ∈ x.roots := List.mem_filter.2 ⟨List.mem_map.2 ⟨o, ho, rfl⟩, hr⟩
        rcases hd.root with ⟨h5, _⟩ | h5
        · rw [h5] at hm; cases hm
        · rw [h5] at hm; simpa using hm
      · right
        exact attrs_names.2 ⟨by simpa using hr, o, ho, rfl⟩
  no_edge := by
    rw [docCalls_attrs]
    intro a ha h
    have hn : a.name ∈ x.attrs.map Attr.name := List.mem_map_of_mem ha
    obtain ⟨_, o, ho, he⟩ := attrs_names.1 hn
    rw [← he] at hn h ⊢
    refine hd.no_parent o ho hn ?_ ?_
    · cases hp : o.2.parent with
      | none => rfl
      | some p => exact absurd (docCalls_edges.2 ⟨o, ho, .inl ⟨hp, rfl⟩⟩) (h p)
    · intro o' ho' hc
      exact h o'.2.name (docCalls_edges.2 ⟨o', ho', .inr ⟨rfl, hc⟩⟩)
  acyclic := by rw [docCalls_attrs]; exact hd.acyclic
  groups := by rw [(docCalls_other cwd x).1]; exact hd.groups
  one_group := by rw [(docCalls_other cwd x).1]; exact List.nodup_nil
  groups_known := by rw [(docCalls_other cwd x).1]; intro g hg; cases hg
  constraints := by rw [docCalls_constraints]; exact hd.constraints
  name := by rw [(docCalls_other cwd x).2.1, hd.name]; exact .inr rfl
  path := by rw [(docCalls_other cwd x).2.2.1, hd.path]; exact .inr rfl
  commit := by rw [(docCalls_other cwd x).2.2.2, hd.commit]; exact .inr rfl

/-- A document that describes a tree is read as that tree, with an alternative group wherever mandatory
    children exclude each other. -/
theorem load_ok {sci : Str → Option Str} {world : FModel} (hf : ∀ i, world.heap i ≠ none → i < world.next) (E : Env) {cwd : Str}
    {x : Spec.Doc} {d : Desc} (h : x.Ok sci) (hd : DocDescribes cwd x d) (hk : ConstraintsKnown d) :
    ∃ m gs, load sci E world cwd x.toXml = .built m ∧ Describes { d with groups := gs } m ∧
      ∀ n k, (n, k) ∈ gs ↔ k = .alternative ∧ Exclusive d n := by
  obtain ⟨m, h1, h2⟩ := build_ok hf E (buildable_doc hd) hk
  obtain ⟨m', gs, h3, h4, h5⟩ := detectAlternatives_spec h2 hd.groups E
  refine ⟨m', gs, ?_, h4, h5⟩
  unfold load
  rw [parseVm_read cwd h (fun o ho p hp => (hd.parent o ho p hp).2.2) (fun o ho c hc => (hd.children o ho c hc).2)]
  simp only [h1, h3]

end Verif.Xml

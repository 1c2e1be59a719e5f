import Verif.Props.Xml
import Verif.Xml.LayoutText
import Verif.Props.Scientific
/-!
# Property C57: numbers in documents that do not fit or are spelled otherwise
-/

namespace Verif.Props
open Spec Xml
open Sxfm hiding load

/-- A document with one feature that has one location; `t` is the text of the line it begins on. -/
def lineDoc (t : Str) : Xml :=
  .node c!"vm" [(c!"name", c!"M")] [] [group c!"binaryOptions" [group c!"configurationOption"
    [leaf c!"name" c!"A", group c!"locations" [.node c!"sourceRange" [] [] [leaf c!"path" c!"f",
      group c!"start" [leaf c!"line" t, leaf c!"column" c!"1"],
      group c!"end" [leaf c!"line" c!"2", leaf c!"column" c!"1"]]]]]]

/-- What `lineDoc` says if the line is `l`. -/
def lineDesc (l : Nat) : Desc where
  name := c!"M"
  path := c!"/home"
  commit := []
  root := c!"root"
  attrs := [{ name := c!"A", kind := .binary, locs := [⟨[c!"f"], some ⟨l, 1⟩, some ⟨2, 1⟩, .necessary, none, none⟩] }]
  parent := fun _ => c!"root"
  groups := []
  constraints := []

def lineSays (l : Nat) : Spec.Doc where
  name := c!"M"
  binary := [{ name := c!"A", locs := [{ path := c!"f", start := ⟨l, 1⟩, stop := ⟨2, 1⟩ }] }]

theorem lineSays_desc (l : Nat) : DocDescribes c!"/home" (lineSays l) (lineDesc l) where
  name := rfl
  path := rfl
  commit := rfl
  root := .inl ⟨rfl, rfl⟩
  attrs := rfl
  distinct := by simp [lineSays, Doc.attrs, Doc.options, isRootName, DocOption.attr]
  parent := by intro o ho p hp; simp [lineSays, Doc.options] at ho; subst ho; simp at hp
  children := by intro o ho p hp; simp [lineSays, Doc.options] at ho; subst ho; simp at hp
  no_parent := by intros; rfl
  acyclic := ⟨fun n => if n = c!"A" then 1 else 0, by intro a ha; simp [lineSays, Doc.attrs, Doc.options, isRootName] at ha; subst ha; show (if (c!"root" : Str) = c!"A" then 1 else 0) < (if (c!"A" : Str) = c!"A" then 1 else 0); decide⟩
  groups := rfl
  constraints := rfl

theorem lineDoc_parse (sci : Str → Option Str) {t : Str} {v : Int} (h : atoi t = some v) :
    parseVm sci c!"/home" (lineDoc t) = .ok (docCalls c!"/home" (lineSays (toUnsigned v))) := by
  have h1 : sourceLocation ⟨0, 0⟩ [leaf c!"line" t, leaf c!"column" c!"1"] = some ⟨toUnsigned v, 1⟩ := by
    show (match atoi (leaf c!"line" t).content with
      | some v => sourceLocation { (⟨0, 0⟩ : Loc) with line := toUnsigned v } [leaf c!"column" c!"1"]
      | none => none) = _
    have : (leaf c!"line" t).content = t := by simp [leaf, Xml.content, Xml.contents]
    rw [this, h]
    rfl
  have h2 : sourceRanges [] [.node c!"sourceRange" [] [] [leaf c!"path" c!"f",
      group c!"start" [leaf c!"line" t, leaf c!"column" c!"1"],
      group c!"end" [leaf c!"line" c!"2", leaf c!"column" c!"1"]]] =
      some [⟨[c!"f"], some ⟨toUnsigned v, 1⟩, some ⟨2, 1⟩, .necessary, none, none⟩] := by
    have h3 : sourceRange (.node c!"sourceRange" [] [] [leaf c!"path" c!"f",
      group c!"start" [leaf c!"line" t, leaf c!"column" c!"1"],
      group c!"end" [leaf c!"line" c!"2", leaf c!"column" c!"1"]]) =
      some ⟨[c!"f"], some ⟨toUnsigned v, 1⟩, some ⟨2, 1⟩, .necessary, none, none⟩ := by
      show (match sourceLocation ⟨0, 0⟩ [leaf c!"line" t, leaf c!"column" c!"1"] with
        | some l => rangeElems { (⟨[c!"f"], none, none, .necessary, none, none⟩ : Range) with start := some l }
            [group c!"end" [leaf c!"line" c!"2", leaf c!"column" c!"1"]]
        | none => none) = _
      rw [h1]
      rfl
    show (match sourceRange (.node c!"sourceRange" [] [] [leaf c!"path" c!"f",
      group c!"start" [leaf c!"line" t, leaf c!"column" c!"1"],
      group c!"end" [leaf c!"line" c!"2", leaf c!"column" c!"1"]]) with
      | some r => sourceRanges ([] ++ [r]) []
      | none => none) = _
    rw [h3]
    rfl
  have h4 : optElem sci false { name := c!"A", calls := [.setVmName c!"M", .setPath c!"/home", .setCommit []] }
      (group c!"locations" [.node c!"sourceRange" [] [] [leaf c!"path" c!"f",
      group c!"start" [leaf c!"line" t, leaf c!"column" c!"1"],
      group c!"end" [leaf c!"line" c!"2", leaf c!"column" c!"1"]]]) =
      .ok { name := c!"A", calls := [.setVmName c!"M", .setPath c!"/home", .setCommit []],
            locs := [⟨[c!"f"], some ⟨toUnsigned v, 1⟩, some ⟨2, 1⟩, .necessary, none, none⟩] } := by
    unfold optElem
    rw [if_neg]
    · show (match sourceRanges [] [.node c!"sourceRange" [] [] [leaf c!"path" c!"f",
        group c!"start" [leaf c!"line" t, leaf c!"column" c!"1"],
        group c!"end" [leaf c!"line" c!"2", leaf c!"column" c!"1"]]] with
        | some rs => SOut.ok { ({ name := c!"A", calls := [.setVmName c!"M", .setPath c!"/home", .setCommit []] } : OptSt) with locs := rs }
        | none => .crash) = _
      rw [h2]
    · apply trimC_ne_nil
      refine ⟨'f', ?_, by decide⟩
      simp [group, leaf, Xml.content, Xml.contents]
  have h5 : parseVm sci c!"/home" (lineDoc t) =
      SOut.bind (SOut.bind (SOut.bind (SOut.bind (optElem sci false
        { name := c!"A", calls := [.setVmName c!"M", .setPath c!"/home", .setCommit []] }
        (group c!"locations" [.node c!"sourceRange" [] [] [leaf c!"path" c!"f",
          group c!"start" [leaf c!"line" t, leaf c!"column" c!"1"],
          group c!"end" [leaf c!"line" c!"2", leaf c!"column" c!"1"]]])) fun s => optElems sci false s [])
        fun s => .ok (s.calls ++ [optCall false s])) fun calls => parseOptions sci false calls [])
        fun calls => vmElems sci calls [] := rfl
  rw [h5, h4]
  rfl

/-- However the number of a line is spelled, with a sign, leading zeros or something behind it: it is
    read as that number if it is not negative, and as the number plus `2 ^ 32` if it is. -/
theorem C57_line_text {sci : Str → Option Str} {world : FModel} (hf : ∀ i, world.heap i ≠ none → i < world.next) (E : Env)
    {t : Str} {v : Int} (h : LineText t v) (hv : -2147483648 ≤ v ∧ v ≤ 2147483647) :
    ∃ m gs, load sci E world c!"/home" (lineDoc t) = .built m ∧
      Describes { lineDesc (if 0 ≤ v then v.toNat else (v + 4294967296).toNat) with groups := gs } m := by
  have hu : toUnsigned v = if 0 ≤ v then v.toNat else (v + 4294967296).toNat := by
    unfold toUnsigned
    split
    · omega
    · congr 1; omega
  rw [← hu]
  have hd := lineSays_desc (toUnsigned v)
  obtain ⟨m, h1, h2⟩ := build_ok hf E (buildable_doc hd) (by intro c hc; exact absurd hc (by simp [lineDesc]))
  obtain ⟨m', gs, h3, h4, h5⟩ := detectAlternatives_spec h2 hd.groups E
  refine ⟨m', gs, ?_, h4⟩
  unfold Xml.load
  rw [lineDoc_parse sci (atoi_lineText h hv)]
  simp only [h1, h3]

theorem lineDoc_valid (t : Str) : Conforms (lineDoc t) := by
  have h := doc_valid (lineSays 0)
  obtain ⟨h1, h2, h3, h4⟩ := h
  refine .mk h1 h2 h3 ?_
  have h := h4 _ List.mem_cons_self
  obtain ⟨h1, h2, h3, h4⟩ := h
  intro k hk
  rw [List.mem_singleton] at hk
  subst hk
  refine .mk h1 h2 h3 ?_
  have h := h4 _ List.mem_cons_self
  obtain ⟨h1, h2, h3, h4⟩ := h
  intro k hk
  rw [List.mem_singleton] at hk
  subst hk
  refine .mk h1 h2 h3 ?_
  have h := h4 _ (List.mem_cons_of_mem _ List.mem_cons_self)
  obtain ⟨h1, h2, h3, h4⟩ := h
  intro k hk
  simp only [List.mem_cons, List.not_mem_nil, or_false] at hk
  rcases hk with rfl | rfl
  · exact valid_text rfl
  refine .mk h1 h2 h3 ?_
  have h := h4 _ List.mem_cons_self
  obtain ⟨h1, h2, h3, h4⟩ := h
  intro k hk
  rw [List.mem_singleton] at hk
  subst hk
  refine .mk h1 h2 h3 ?_
  intro k hk
  simp only [List.mem_cons, List.not_mem_nil, or_false] at hk
  rcases hk with rfl | rfl | rfl
  · exact valid_text rfl
  · exact valid_point rfl _ _
  · exact valid_point rfl _ _

/-- A negative line conforms to the DTD and is read as a line beyond four thousand million: documents are
    not read as what they say. -/
theorem C57_negative_position (sci : Str → Option Str) (E : Env) :
    Conforms (lineDoc c!"-5") ∧ ∃ m gs, load sci E nothing c!"/home" (lineDoc c!"-5") = .built m ∧
      Describes { lineDesc 4294967291 with groups := gs } m := by
  refine ⟨lineDoc_valid _, ?_⟩
  · exact C57_line_text nothing_fresh E (LineText.minus (ds := c!"5") (r := []) (by decide) (by decide) (by simp)) (by decide)

example : LineText c!"+007th" 7 := LineText.plus (ds := c!"007") (r := c!"th") (by decide) (by decide) (by simp; decide)

/-! ## Bounds of numeric features -/

/-- A document with one numeric feature; `t` is the text of its lower bound. -/
def boundDoc (t : Str) : Xml :=
  .node c!"vm" [(c!"name", c!"M")] [] [group c!"binaryOptions" [], group c!"numericOptions" [group c!"configurationOption"
    [leaf c!"name" c!"N", leaf c!"minValue" t, leaf c!"maxValue" c!"9"]]]

/-- What `boundDoc` says if the bound is `v`. -/
def boundDesc (v : Int) : Desc where
  name := c!"M"
  path := c!"/home"
  commit := []
  root := c!"root"
  attrs := [{ name := c!"N", kind := .numeric (.range v 9) none }]
  parent := fun _ => c!"root"
  groups := []
  constraints := []

def boundSays (v : Int) : Spec.Doc where
  name := c!"M"
  binary := []
  numeric := some [{ name := c!"N", values := some (.range v 9) }]

theorem boundSays_desc (v : Int) : DocDescribes c!"/home" (boundSays v) (boundDesc v) where
  name := rfl
  path := rfl
  commit := rfl
  root := .inl ⟨rfl, rfl⟩
  attrs := rfl
  distinct := by simp [boundSays, Doc.attrs, Doc.options, isRootName, DocOption.attr]
  parent := by intro o ho p hp; simp [boundSays, Doc.options] at ho; subst ho; simp at hp
  children := by intro o ho p hp; simp [boundSays, Doc.options] at ho; subst ho; simp at hp
  no_parent := by intros; rfl
  acyclic := ⟨fun n => if n = c!"N" then 1 else 0, by
    intro a ha
    simp [boundSays, Doc.attrs, Doc.options, isRootName] at ha
    subst ha
    show (if (c!"root" : Str) = c!"N" then 1 else 0) < (if (c!"N" : Str) = c!"N" then 1 else 0)
    decide⟩
  groups := rfl
  constraints := rfl

theorem boundDoc_parse (sci : Str → Option Str) {t : Str} (h : Solid t) :
    parseVm sci c!"/home" (boundDoc t) = .ok (docCalls c!"/home" (boundSays (parseInteger sci t))) := by
  have hc : (leaf c!"minValue" t).content = t := by simp [leaf, Xml.content, Xml.contents]
  have h4 : optElem sci true { name := c!"N", calls := [.setVmName c!"M", .setPath c!"/home", .setCommit []] }
      (leaf c!"minValue" t) =
      .ok { name := c!"N", calls := [.setVmName c!"M", .setPath c!"/home", .setCommit []], lo := parseInteger sci t } := by
    unfold optElem
    rw [hc, trimC_solid h, if_neg h.nonempty]
    rfl
  have h5 : parseVm sci c!"/home" (boundDoc t) =
      SOut.bind (SOut.bind (SOut.bind (SOut.bind (optElem sci true
        { name := c!"N", calls := [.setVmName c!"M", .setPath c!"/home", .setCommit []] }
        (leaf c!"minValue" t)) fun s => optElems sci true s [leaf c!"maxValue" c!"9"])
        fun s => .ok (s.calls ++ [optCall true s])) fun calls => parseOptions sci true calls [])
        fun calls => vmElems sci calls [] := rfl
  rw [h5, h4]
  rfl

theorem boundDoc_loads {sci : Str → Option Str} {world : FModel} (hf : ∀ i, world.heap i ≠ none → i < world.next) (E : Env)
    {t : Str} (h : Solid t) : ∃ m gs, load sci E world c!"/home" (boundDoc t) = .built m ∧
      Describes { boundDesc (parseInteger sci t) with groups := gs } m := by
  have hd := boundSays_desc (parseInteger sci t)
  obtain ⟨m, h1, h2⟩ := build_ok hf E (buildable_doc hd) (by intro c hc; exact absurd hc (by simp [boundDesc]))
  obtain ⟨m', gs, h3, h4, h5⟩ := detectAlternatives_spec h2 hd.groups E
  refine ⟨m', gs, ?_, h4⟩
  unfold Xml.load
  rw [boundDoc_parse sci h]
  simp only [h1, h3]

theorem solid_digits {t : Str} (h : ∀ c ∈ t, isDigit c = true) (hne : t ≠ []) : Solid t where
  nonempty := hne
  head c hc := digit_visible (h c (List.mem_of_head? hc))
  last c hc := digit_visible (h c (List.mem_of_getLast? hc))

/-- A bound of any number of digits is read as its value, or as the largest 64-bit integer if it is
    larger. -/
theorem C57_bound_digits {sci : Str → Option Str} {world : FModel} (hf : ∀ i, world.heap i ≠ none → i < world.next) (E : Env)
    {t : Str} (h : ∀ c ∈ t, isDigit c = true) (hne : t ≠ []) :
    ∃ m gs, load sci E world c!"/home" (boundDoc t) = .built m ∧
      Describes { boundDesc (if (decValue t : Int) ≤ int64Max then (decValue t : Int) else int64Max) with groups := gs } m := by
  have hv := parsePlainInteger_digits h hne
  rw [← hv]
  have := boundDoc_loads (sci := sci) hf E (solid_digits h hne)
  rw [parseInteger, if_neg (by simp [digits_not_e h])] at this
  exact this

/-- The same with a minus sign, down to the least 64-bit integer. -/
theorem C57_bound_negative {sci : Str → Option Str} {world : FModel} (hf : ∀ i, world.heap i ≠ none → i < world.next) (E : Env)
    {t : Str} (h : ∀ c ∈ t, isDigit c = true) (hne : t ≠ []) :
    ∃ m gs, load sci E world c!"/home" (boundDoc ('-' :: t)) = .built m ∧
      Describes { boundDesc (if int64Min ≤ -(decValue t : Int) then -(decValue t : Int) else int64Min) with groups := gs } m := by
  have hs : Solid ('-' :: t) := by
    refine ⟨by simp, by intro c hc; cases hc; decide, ?_⟩
    intro c hc
    rw [List.getLast?_cons] at hc
    cases hl : t.getLast? with
    | none => exact absurd (List.getLast?_eq_none_iff.1 hl) hne
    | some x =>
      rw [hl] at hc
      cases hc
      exact digit_visible (h _ (List.mem_of_getLast? hl))
  have hv : parseInteger sci ('-' :: t) = if int64Min ≤ -(decValue t : Int) then -(decValue t : Int) else int64Min := by
    rw [parseInteger, if_neg (by simp [digits_not_e h]), parsePlainInteger, getAsInt64_neg_dec t h hne]
    by_cases hle : decValue t ≤ 9223372036854775808
    · have hm : int64Min ≤ -(decValue t : Int) := by unfold int64Min; omega
      rw [if_pos hle, if_pos hm]
    · have hm : ¬ int64Min ≤ -(decValue t : Int) := by unfold int64Min; omega
      rw [if_neg hle, if_neg hm]
      rfl
  rw [← hv]
  exact boundDoc_loads hf E hs

/-- A bound in scientific notation whose value is an integer up to `2 ^ 53` is read as that value. -/
theorem C57_bound_exponent (other : Str → Option Str) {world : FModel} (hf : ∀ i, world.heap i ≠ none → i < world.next) (E : Env)
    {t : Str} {n d : Nat} (h : Scientific t (n * d) d) (hn : n ≤ 2 ^ 53) (hl : lower t = t) (hs : Solid t) :
    ∃ m gs, load (sciDouble other) E world c!"/home" (boundDoc t) = .built m ∧ Describes { boundDesc n with groups := gs } m := by
  have hv : parseInteger (sciDouble other) t = n := by
    have := C07_exponent_exact other h hn
    obtain ⟨⟨c, cs, e, hc⟩, hnum, _, _⟩ := Scientific.chars h
    rw [parseText_number _ e hc hnum, hl] at this
    simpa using this
  rw [← hv]
  exact boundDoc_loads hf E hs

theorem parseInteger_scientific_neg (other : Str → Option Str) {t : Str} {n d : Nat} (h : Scientific t (n * d) d) (hn : n ≤ 2 ^ 53)
    (hl : lower t = t) : parseInteger (sciDouble other) ('-' :: t) = -(n : Int) := by
  obtain ⟨⟨c, cs, e, hc⟩, hnum, ha, hd⟩ := Scientific.chars h
  have hr := NearestDouble.exact hd (nearestDouble_nearest (n * d) hd) hn (roundEven_nearest _ onesUnits_pos)
  have hs := sciDouble_scientific other h
  rw [hl] at hs ha
  have hc' : isDigit c = true := hc
  have hall : t.all (fun c => isNumChar c || c == '.') = true := by
    rw [List.all_eq_true]
    intro c hc
    simp [hnum c hc]
  have h1 : c ≠ '-' := by rintro rfl; exact absurd hc' (by decide)
  have h2 : c ≠ '+' := by rintro rfl; exact absurd hc' (by decide)
  have hu : sciUnsigned t = some (formatDouble (nearestDouble (n * d) d)) := by
    rw [← hs]
    unfold sciDouble
    rw [if_pos hall]
    split
    · injection e with e; exact absurd e.symm h1
    · injection e with e; exact absurd e.symm h2
    · rfl
  have hx : sciDouble other ('-' :: t) = some ('-' :: formatDouble (nearestDouble (n * d) d)) := by
    rw [sciDouble, if_pos (by rw [List.all_cons, hall]; decide)]
    simp only [hu, Option.map_some]
  rw [parseInteger, if_pos (by rw [List.any_cons, ha]; simp), hx]
  simp only
  unfold formatDouble
  by_cases hb : 2 ^ 1024 * onesUnits ≤ nearestDouble (n * d) d
  · exfalso
    have h1 : 2 ^ 1024 ≤ nearestDouble (n * d) d / onesUnits := (Nat.le_div_iff_mul_le onesUnits_pos).mpr hb
    have h2 := roundEven_ge (nearestDouble (n * d) d) onesUnits
    have h3 := large_int
    unfold int64Max at h3
    generalize 2 ^ 1024 = B at *
    omega
  · rw [if_neg hb, hr, parsePlainInteger, getAsInt64_neg_dec _ (natText_digits _) (natText_ne_nil _), natText_value, if_pos (by omega)]

/-- The same behind a minus sign. -/
theorem C57_bound_exponent_negative (other : Str → Option Str) {world : FModel} (hf : ∀ i, world.heap i ≠ none → i < world.next) (E : Env)
    {t : Str} {n d : Nat} (h : Scientific t (n * d) d) (hn : n ≤ 2 ^ 53) (hl : lower t = t) (hs : Solid ('-' :: t)) :
    ∃ m gs, load (sciDouble other) E world c!"/home" (boundDoc ('-' :: t)) = .built m ∧
      Describes { boundDesc (-(n : Int)) with groups := gs } m := by
  have hv : parseInteger (sciDouble other) ('-' :: t) = -(n : Int) := parseInteger_scientific_neg other h hn hl
  rw [← hv]
  exact boundDoc_loads hf E hs

theorem some_bound : Scientific c!"1500e-2" (15 * 10 ^ 2) (10 ^ 2) :=
  Scientific.minus (m := c!"1500") (x := c!"2") (by decide) (by decide) (by decide) (Or.inl rfl) (by decide)

example (other : Str → Option Str) (E : Env) : ∃ m gs, load (sciDouble other) E nothing c!"/home" (boundDoc c!"1500e-2") = .built m ∧
    Describes { boundDesc 15 with groups := gs } m :=
  C57_bound_exponent other nothing_fresh E (n := 15) some_bound (by decide) (by decide) (solid_of (by decide))

example (other : Str → Option Str) (E : Env) : ∃ m gs, load (sciDouble other) E nothing c!"/home" (boundDoc c!"-1500e-2") = .built m ∧
    Describes { boundDesc (-15) with groups := gs } m :=
  C57_bound_exponent_negative other nothing_fresh E (n := 15) some_bound (by decide) (by decide) (solid_of (by decide))

end Verif.Props

import Verif.Xml.Respell
import Verif.Props.XmlLayout
import Verif.Props.XmlNumbers
/-!
# Bounds in scientific notation in any document

C57, C63.
-/

namespace Verif.Props
open Verif Verif.Spec Verif.Xml Verif.Sxfm

/-- A document that describes a tree is loaded as exactly that, whatever its layout and however its bounds are written, also in
    scientific notation with fractions; lists of values without values say nothing. -/
theorem C57_any_spelling_partial (other : Str → Option Str) {world : FModel} (hf : ∀ i, world.heap i ≠ none → i < world.next) (E : Env)
    {cwd : Str} {x : Spec.Doc} {d : Desc} (h : x.Ok (sciDouble other)) (hd : DocDescribes cwd x d) (hk : ConstraintsKnown d)
    {y z : Xml} (hy : LaidOut x y) (hz : Respelled y z) :
    ∃ m gs, load (sciDouble other) E world cwd z = .built m ∧ Describes { d with groups := gs } m ∧
      ∀ n k, (n, k) ∈ gs ↔ k = .alternative ∧ Exclusive d n := by
  rw [← load_respelled other hz]
  exact C57_any_layout_partial hf E h hd hk hy

/-- Any two documents that differ in how bounds are written are loaded as the same model, or both rejected. -/
theorem C63_bounds_partial (other : Str → Option Str) {E : Env} {world : FModel} {cwd : Str} {x y : Xml} (h : Respelled x y) :
    load (sciDouble other) E world cwd x = load (sciDouble other) E world cwd y := load_respelled other h

/-- Not vacuous: 1500 and -25 with a point and an exponent, and a list without values. -/
theorem C63_bounds_not_vacuous : Respelled
    (.node c!"vm" [(c!"name", c!"M")] [] [group c!"binaryOptions" [], group c!"numericOptions" [group c!"configurationOption"
      [leaf c!"name" c!"N", leaf c!"minValue" c!"-25", leaf c!"maxValue" c!"1500"]]])
    (.node c!"vm" [(c!"name", c!"M")] [] [group c!"binaryOptions" [], group c!"numericOptions" [group c!"configurationOption"
      [leaf c!"name" c!"N", leaf c!"minValue" c!" -.25E+02", leaf c!"values" c!"none", leaf c!"maxValue" c!"15.00e2\n"]]]) := by
  have dg : ∀ {s : Str}, s.all isDigit = true → ∀ c ∈ s, isDigit c = true := fun h => List.all_eq_true.1 h
  have n25 : Integral c!"-25" (-25) := .numeral (.minus (ds := c!"25") ⟨by simp, dg (by decide)⟩)
  have s25 : Integral c!"-.25E+02" (-25) := .negative (t := c!".25E+02") (v := 25)
    (SciNotation.mk (i := []) (fr := c!".25") (f := c!"25") (r := c!"+02") (e := 'E') (by simp) (.point (dg (by decide))) (by simp) (.inr rfl)
      (.plus (x := c!"02") (dg (by decide)) (by decide))) (.inl ⟨by decide, by decide⟩) (by decide)
  have n15 : Integral c!"1500" 1500 := .numeral (.plain (ds := c!"1500") ⟨by simp, dg (by decide)⟩)
  have s15 : Integral c!"15.00e2" 1500 := .exponent (v := 1500)
    (SciNotation.mk (i := c!"15") (fr := c!".00") (f := c!"00") (r := c!"2") (e := 'e') (dg (by decide)) (.point (dg (by decide))) (by simp) (.inl rfl)
      (.plain (x := c!"2") (dg (by decide)) (by decide))) (.inl ⟨by decide, by decide⟩) (by decide)
  refine .mk (.cons .nil (.cons (.option (.cons .same (.cons ?_ (.right ?_ (.cons ?_ .nil)))) .nil) .nil))
  · exact .bound (a := []) (b := []) (a' := c!" ") (b' := []) (.inl rfl) blank_nil blank_nil (blank_of (by decide)) blank_nil n25 s25
  · exact ⟨rfl, by decide⟩
  · exact .bound (a := []) (b := []) (a' := []) (b' := c!"\n") (.inr rfl) blank_nil blank_nil blank_nil (blank_of (by decide)) n15 s15

/-! ## Lists of values -/

/-- A document with one numeric feature; `t` is the text of its list of values. -/
def valuesDoc (t : Str) : Xml :=
  .node c!"vm" [(c!"name", c!"M")] [] [group c!"binaryOptions" [], group c!"numericOptions" [group c!"configurationOption"
    [leaf c!"name" c!"N", leaf c!"values" t]]]

/-- What it describes if these are the values. -/
def valuesDesc (vs : List Int) : Desc where
  name := c!"M"
  path := c!"/home"
  commit := []
  root := c!"root"
  attrs := [{ name := c!"N", kind := .numeric (.list vs) none }]
  parent := fun _ => c!"root"
  groups := []
  constraints := []

def valuesSays (vs : List Int) : Spec.Doc where
  name := c!"M"
  binary := []
  numeric := some [{ name := c!"N", values := some (.list vs) }]

theorem valuesSays_desc (vs : List Int) : DocDescribes c!"/home" (valuesSays vs) (valuesDesc vs) where
  name := rfl
  path := rfl
  commit := rfl
  root := .inl ⟨rfl, rfl⟩
  attrs := rfl
  distinct := by simp [valuesSays, Doc.attrs, Doc.options, isRootName, DocOption.attr]
  parent := by intro o ho p hp; simp [valuesSays, Doc.options] at ho; subst ho; simp at hp
  children := by intro o ho p hp; simp [valuesSays, Doc.options] at ho; subst ho; simp at hp
  no_parent := by intros; rfl
  acyclic := ⟨fun n => if n = c!"N" then 1 else 0, by
    intro a ha
    simp [valuesSays, Doc.attrs, Doc.options, isRootName] at ha
    subst ha
    show (if (c!"root" : Str) = c!"N" then 1 else 0) < (if (c!"N" : Str) = c!"N" then 1 else 0)
    decide⟩
  groups := rfl
  constraints := rfl

/-- A list of values is every run of digits in its text, with a minus sign if that is right in front, each limited to 64 bits. -/
theorem C57_values_text {sci : Str → Option Str} {world : FModel} (hf : ∀ i, world.heap i ≠ none → i < world.next) (E : Env)
    {t : Str} {vs : List Int} (h : Numbers t vs) (hne : vs ≠ []) : ∃ m gs, load sci E world c!"/home" (valuesDoc t) = .built m ∧
      Describes { valuesDesc (vs.map clamp64) with groups := gs } m := by
  have hv : (intTokens none false (trimC t)).map (parseInteger sci) = vs.map clamp64 := by rw [intTokens_trim, numbers_read sci h]
  have hn : trimC t ≠ [] := trimC_ne_nil (numbers_visible h hne)
  have hc : (leaf c!"values" t).content = t := by simp [leaf, Xml.content, Xml.contents]
  have h4 : optElem sci true { name := c!"N", calls := [.setVmName c!"M", .setPath c!"/home", .setCommit []] } (leaf c!"values" t) =
      .ok { name := c!"N", calls := [.setVmName c!"M", .setPath c!"/home", .setCommit []], values := vs.map clamp64 } := by
    unfold optElem
    rw [hc, if_neg hn]
    show numElem sci _ (trimC t) c!"values" = _
    unfold numElem
    rw [hv]
    rfl
  have h5 : parseVm sci c!"/home" (valuesDoc t) = .ok (docCalls c!"/home" (valuesSays (vs.map clamp64))) := by
    have : parseVm sci c!"/home" (valuesDoc t) =
        SOut.bind (SOut.bind (SOut.bind (SOut.bind (optElem sci true
          { name := c!"N", calls := [.setVmName c!"M", .setPath c!"/home", .setCommit []] }
          (leaf c!"values" t)) fun s => optElems sci true s [])
          fun s => .ok (s.calls ++ [optCall true s])) fun calls => parseOptions sci true calls [])
          fun calls => vmElems sci calls [] := rfl
    rw [this, h4]
    have hne' : vs.map clamp64 ≠ [] := by simp [hne]
    simp only [SOut.bind, optElems, optCall, parseOptions, vmElems, if_neg hne']
    rfl
  obtain ⟨m, h1, h2⟩ := build_ok hf E (buildable_doc (valuesSays_desc (vs.map clamp64))) (by intro c hc; exact absurd hc (by simp [valuesDesc]))
  obtain ⟨m', gs, h3, h6, _⟩ := detectAlternatives_spec h2 (valuesSays_desc (vs.map clamp64)).groups E
  refine ⟨m', gs, ?_, h6⟩
  unfold Xml.load
  rw [h5]
  simp only [h1, h3]

/-- A number in scientific notation in such a list is two numbers. -/
theorem C57_values_exponent {sci : Str → Option Str} {world : FModel} (hf : ∀ i, world.heap i ≠ none → i < world.next) (E : Env)
    {a b : Str} (ha : Digits a) (hb : Digits b) : ∃ m gs, load sci E world c!"/home" (valuesDoc (a ++ 'e' :: b)) = .built m ∧
      Describes { valuesDesc [clamp64 (decValue a), clamp64 (decValue b)] with groups := gs } m := by
  refine C57_values_text hf E (vs := [(decValue a : Int), (decValue b : Int)]) ?_ (by simp)
  have hb' : Numbers (c!"e" ++ (b ++ [])) [(decValue b : Int)] :=
    .plain (by intro c hc; simp only [List.mem_singleton] at hc; subst hc; decide) (by decide) hb (by intro c hc; cases hc) (.nil (by simp))
  have := Numbers.plain (sep := []) (ds := a) (r := c!"e" ++ (b ++ [])) (by simp) (by simp) ha (by intro c hc; cases hc; decide) hb'
  simpa using this

example (sci : Str → Option Str) (E : Env) : ∃ m gs, load sci E nothing c!"/home" (valuesDoc c!"1e3") = .built m ∧
    Describes { valuesDesc [1, 3] with groups := gs } m :=
  C57_values_exponent nothing_fresh E (a := c!"1") (b := c!"3") ⟨by simp, by decide⟩ ⟨by simp, by decide⟩

end Verif.Props

import Verif.Xml.Layout
import Verif.Props.Xml
/-!
# Layout of XML documents

C57 for documents in any layout, and C63.
-/

namespace Verif.Props
open Verif Verif.Spec Verif.Xml

/-- A document that describes a tree is loaded as exactly that, whatever its layout. -/
theorem C57_any_layout_partial {sci : Str → Option Str} {world : FModel} (hf : ∀ i, world.heap i ≠ none → i < world.next) (E : Env)
    {cwd : Str} {x : Spec.Doc} {d : Desc} (h : x.Ok sci) (hd : DocDescribes cwd x d) (hk : ConstraintsKnown d)
    {y : Xml} (hy : LaidOut x y) :
    ∃ m gs, load sci E world cwd y = .built m ∧ Describes { d with groups := gs } m ∧
      ∀ n k, (n, k) ∈ gs ↔ k = .alternative ∧ Exclusive d n := by
  rcases hy with rfl | hy
  · exact load_ok hf E h hd hk
  · rw [← load_same hy]
    exact load_ok hf E h hd hk

/-! ## C63: layout makes no difference -/

/-- Documents that differ in blanks around texts, between elements and in constraints, in elements of an option
    without visible text, in elements without meaning and in how numbers and `optional` are spelled are loaded
    as the same model, or both rejected. -/
theorem C63_layout_partial {sci : Str → Option Str} {E : Env} {world : FModel} {cwd : Str} {x y : Xml} (h : SameDoc x y) :
    load sci E world cwd x = load sci E world cwd y := load_same h

/-- A small document. -/
def tight : Spec.Doc where
  name := c!"M"
  binary := [{ name := c!"A", optional := some true, locs := [{ path := c!"f", start := ⟨1, 1⟩, stop := ⟨2, 1⟩ }] }, { name := c!"B", parent := some c!"A", optional := some false }]
  constraints := fun
    | .boolean => some [{ text := c!"A|B", tree := .bin .or (.feature c!"A") (.feature c!"B"), kind := .boolean }]
    | _ => none

/-- The same with line breaks and indentation, an unsupported element and an empty one, and some texts spelled
    otherwise. -/
def loose : Xml :=
  .node c!"vm" [(c!"name", c!" M ")] c!"\n\n" [
    .node c!"binaryOptions" [] c!"\n" [
      .node c!"configurationOption" [] c!"\n\n\n" [leaf c!"name" c!"\n  A\n", leaf c!"outputString" c!"  ", leaf c!"defaultValue" c!"1",
        leaf c!"optional" c!" True",
        .node c!"locations" [] c!"\n" [.node c!"sourceRange" [] c!"\n" [leaf c!"path" c!"\tf", .node c!"start" [] c!" " [leaf c!"line" c!" +01", leaf c!"column" c!"1 "],
          group c!"end" [leaf c!"line" c!"2\n", leaf c!"column" c!"1"]]]],
      .node c!"configurationOption" [] c!"\n" [leaf c!"name" c!"B ", leaf c!"prefix" c!"-", leaf c!"parent" c!"\nA\n", leaf c!"optional" c!"no"]],
    .node c!"booleanConstraints" [] c!"\n" [leaf c!"constraint" c!" A |\nB"]]

theorem blank_of {s : Str} (h : s.all (fun c => decide (c = ' ' ∨ c = '\t' ∨ c = '\n' ∨ c = '\r')) = true) : blank s := by
  intro c hc
  exact of_decide_eq_true (List.all_eq_true.1 h c hc)

theorem pad (a u b : Str) {s : Str} (e : s = a ++ u ++ b)
    (ha : a.all (fun c => decide (c = ' ' ∨ c = '\t' ∨ c = '\n' ∨ c = '\r')) = true)
    (hb : b.all (fun c => decide (c = ' ' ∨ c = '\t' ∨ c = '\n' ∨ c = '\r')) = true) : Padded u s := by
  subst e
  have := Padded.mk (u := u) blank_nil blank_nil (blank_of ha) (blank_of hb)
  simpa using this

/-- Not vacuous. -/
theorem C63_not_vacuous : SameDoc tight.toXml loose := by
  have h1 : natText 1 = c!"1" := by simp [natText]; decide
  have h2 : natText 2 = c!"2" := by simp [natText]; decide
  have e : tight.toXml = .node c!"vm" [(c!"name", c!"M")] [] [
      group c!"binaryOptions" [
        group c!"configurationOption" [leaf c!"name" c!"A", leaf c!"optional" c!"True",
          group c!"locations" [.node c!"sourceRange" [] [] [leaf c!"path" c!"f", group c!"start" [leaf c!"line" c!"1", leaf c!"column" c!"1"],
            group c!"end" [leaf c!"line" c!"2", leaf c!"column" c!"1"]]]],
        group c!"configurationOption" [leaf c!"name" c!"B", leaf c!"parent" c!"A", leaf c!"optional" c!"False"]],
      group c!"booleanConstraints" [leaf c!"constraint" c!"A|B"]] := by
    simp only [tight, Doc.toXml, DocOption.toXml, DocRange.toXml, pointXml, List.map_cons, h1, h2]
    rfl
  rw [e]
  have bl : blank c!"\n" := blank_of (by decide)
  have dg : ∀ {s : Str}, s.all isDigit = true → ∀ c ∈ s, isDigit c = true := fun h => List.all_eq_true.1 h
  have line : SameValue c!"line" c!"1" c!" +01" := .position (a := []) (b := c!" ") (v := 1) (.inl rfl) blank_nil (blank_of (by decide))
    (.plain (ds := c!"1") (r := []) (by simp) (dg (by decide)) (by simp)) (.plus (ds := c!"01") (r := []) (by simp) (dg (by decide)) (by simp))
    (by omega)
  have optional : SameValue c!"optional" c!"False" c!"no" := .optional
    (.mk (a := []) (b := []) (u := c!"False") blank_nil blank_nil (solid_of (by decide)) (by decide))
    (.mk (a := []) (b := []) (u := c!"no") blank_nil blank_nil (solid_of (by decide)) (by decide))
  refine ⟨.inr ⟨_, _, rfl, rfl, pad c!" " c!"M" c!" " rfl (by decide) (by decide)⟩, .inl ⟨rfl, rfl⟩, .inl ⟨rfl, rfl⟩, ?_⟩
  refine .cons (.cons (.option ?_) (.cons (.option ?_) .nil)) (.cons (.cons ?_ .nil) .nil)
  · refine .cons (.text (.inl <| pad c!"\n  " c!"A" c!"\n" rfl (by decide) (by decide))) (.right (.inr ?_) (.right (.inl (by simp [leaf, Xml.name])) ?_))
    · rintro ⟨c, hc, hv⟩
      have : c ∈ c!"  " := by simpa [leaf, Xml.content, Xml.contents] using hc
      exact hv (blank_of (s := c!"  ") (by decide) c this)
    refine .cons (.text (.inl <| pad c!" " c!"True" [] rfl (by decide) (by decide))) (.cons ?_ .nil)
    refine .elements (by decide) blank_nil bl (.cons ?_ .nil)
    refine .elements (by decide) blank_nil bl (.cons (.text (.inl <| pad c!"\t" c!"f" [] rfl (by decide) (by decide))) (.cons ?_ (.cons ?_ .nil)))
    · exact .elements (by decide) blank_nil (blank_of (by decide)) (.cons (.text (.inr line))
        (.cons (.text (.inl <| pad [] c!"1" c!" " rfl (by decide) (by decide))) .nil))
    · exact .elements (by decide) blank_nil blank_nil (.cons (.text (.inl <| pad [] c!"2" c!"\n" rfl (by decide) (by decide)))
        (.cons (.text (.inl <| pad [] c!"1" [] rfl (by decide) (by decide))) .nil))
  · exact .cons (.text (.inl <| pad [] c!"B" c!" " rfl (by decide) (by decide))) (.right (.inl (by simp [leaf, Xml.name]))
      (.cons (.text (.inl <| pad c!"\n" c!"A" c!"\n" rfl (by decide) (by decide))) (.cons (.text (.inr optional)) .nil)))
  · have h : SameSpacing c!" A |\nB" c!"A|B" :=
      .trans (.ends (a := c!" ") (b := []) (u := c!"A |\nB") (blank_of (by decide)) blank_nil (by simp))
        (.trans (.before (s := c!"A") (w := c!" ") (t := c!"\nB") (c := '|') (by decide) (blank_of (by decide)))
          (.after (s := c!"A") (c := '|') (w := c!"\n") (t := c!"B") (by decide) bl))
    exact .constraint h.symm

/-- Not vacuous: three ways to list three numbers, and two to give a bound. -/
theorem C63_numbers_not_vacuous : SameText c!"configurationOption" c!"values" c!"1;-2;30" c!" 01 and -2, or 030." ∧
    SameText c!"configurationOption" c!"minValue" c!"-7" c!"\n-007 " := by
  have dg : ∀ {s : Str}, s.all isDigit = true → s ≠ [] → Digits s := fun h hne => ⟨hne, List.all_eq_true.1 h⟩
  have nd : ∀ {s : Str}, s.all (fun c => !isDigit c) = true → ∀ c ∈ s, isDigit c = false := fun h c hc => by
    simpa using List.all_eq_true.1 h c hc
  refine ⟨.inr (.values (vs := [1, -2, 30]) (by simp) ?_ ?_), .inr ?_⟩
  · exact .plain (sep := []) (ds := c!"1") (by simp) (by simp) (dg (by decide) (by simp)) (by intro c hc; cases hc; decide)
      (.minus (sep := c!";") (ds := c!"2") (nd (by decide)) (dg (by decide) (by simp)) (by intro c hc; cases hc; decide)
        (.plain (sep := c!";") (ds := c!"30") (r := []) (nd (by decide)) (by decide) (dg (by decide) (by simp)) (by intro c hc; cases hc)
          (.nil (by simp))))
  · exact .plain (sep := c!" ") (ds := c!"01") (nd (by decide)) (by decide) (dg (by decide) (by simp)) (by intro c hc; cases hc; decide)
      (.minus (sep := c!" and ") (ds := c!"2") (nd (by decide)) (dg (by decide) (by simp)) (by intro c hc; cases hc; decide)
        (.plain (sep := c!", or ") (ds := c!"030") (r := c!".") (nd (by decide)) (by decide) (dg (by decide) (by simp)) (by intro c hc; cases hc; decide)
          (.nil (nd (by decide)))))
  · exact .bound (a := []) (b := []) (a' := c!"\n") (b' := c!" ") (v := -7) (.inl rfl) blank_nil blank_nil (blank_of (by decide)) (blank_of (by decide))
      (.minus (ds := c!"7") (dg (by decide) (by simp))) (.minus (ds := c!"007") (dg (by decide) (by simp)))

def childDoc : Spec.Doc := { name := c!"M", binary := [{ name := c!"A", children := [c!"B"] }, { name := c!"B" }] }

def childDesc : Desc where
  name := c!"M"
  path := []
  commit := []
  root := c!"root"
  attrs := childDoc.attrs
  parent := fun n => if n = c!"B" then c!"A" else c!"root"
  groups := []
  constraints := []

theorem childDoc_ok {sci : Str → Option Str} : childDoc.Ok sci where
  name := .inr (solid_of (by decide))
  path := by intro t h; cases h
  commit := by intro t h; cases h
  binary := by
    intro o ho
    simp only [childDoc, List.mem_cons, List.not_mem_nil, or_false] at ho
    rcases ho with rfl | rfl
    all_goals refine ⟨solid_of (by decide), ?_, ?_, ?_, ?_, ?_, ?_, ?_, ?_⟩ <;> simp
    exact solid_of (by decide)
  numeric := by intro l hl; cases hl
  constraints := by intro cl l hl; cases hl

theorem childDoc_says : DocDescribes [] childDoc childDesc where
  name := rfl
  path := rfl
  commit := rfl
  root := .inl ⟨by decide, rfl⟩
  attrs := rfl
  distinct := by decide
  parent := by decide
  children := by decide
  no_parent := by decide
  acyclic := ⟨fun n => if n = c!"B" then 2 else if n = c!"root" then 0 else 1, by decide⟩
  groups := rfl
  constraints := rfl

/-- Blanks around the name of a child do make a difference: with them a document that conforms is
    rejected, without them it is loaded. -/
theorem C63_children_differ (sci : Str → Option Str) :
    ∃ x y : Spec.Doc, Conforms x.toXml ∧ Conforms y.toXml ∧ (∃ b, y.binary = [{ name := c!"A", children := [c!" B"] }, b] ∧
      x = { y with binary := [{ name := c!"A", children := [c!"B"] }, b] }) ∧
      (∃ m, load sci (stdEnv true) nothing [] x.toXml = .built m) ∧ load sci (stdEnv true) nothing [] y.toXml = .null := by
  refine ⟨childDoc,
    { name := c!"M", binary := [{ name := c!"A", children := [c!" B"] }, { name := c!"B" }] }, doc_valid _, doc_valid _, ⟨_, rfl, rfl⟩, ?_, ?_⟩
  · exact (load_ok nothing_fresh (stdEnv true) (cwd := []) childDoc_ok childDoc_says (by unfold ConstraintsKnown; decide)).imp fun m h => h.choose_spec.1
  · rfl

end Verif.Props

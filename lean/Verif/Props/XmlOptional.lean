import Verif.Props.XmlNumbers
/-!
# Property C57: what texts make a feature optional
-/

namespace Verif.Props
open Spec Xml
open Sxfm hiding load

/-- A document with one feature; `t` is the text that says whether it is optional. -/
def optionalDoc (t : Str) : Xml :=
  .node c!"vm" [(c!"name", c!"M")] [] [group c!"binaryOptions" [group c!"configurationOption"
    [leaf c!"name" c!"A", leaf c!"optional" t]]]

/-- The model with one feature, optional or not. -/
def optionalDesc (b : Bool) : Desc where
  name := c!"M"
  path := c!"/home"
  commit := []
  root := c!"root"
  attrs := [{ name := c!"A", kind := .binary, opt := b }]
  parent := fun _ => c!"root"
  groups := []
  constraints := []

def optionalSays (b : Bool) : Spec.Doc where
  name := c!"M"
  binary := [{ name := c!"A", optional := some b }]

theorem optionalSays_desc (b : Bool) : DocDescribes c!"/home" (optionalSays b) (optionalDesc b) where
  name := rfl
  path := rfl
  commit := rfl
  root := .inl ⟨rfl, rfl⟩
  attrs := by cases b <;> rfl
  distinct := by simp [optionalSays, Doc.attrs, Doc.options, isRootName, DocOption.attr]
  parent := by intro o ho p hp; simp [optionalSays, Doc.options] at ho; subst ho; simp at hp
  children := by intro o ho p hp; simp [optionalSays, Doc.options] at ho; subst ho; simp at hp
  no_parent := by intros; rfl
  acyclic := ⟨fun n => if n = c!"A" then 1 else 0, by
    intro a ha
    simp [optionalSays, Doc.attrs, Doc.options, isRootName] at ha
    subst ha
    show (if (c!"root" : Str) = c!"A" then 1 else 0) < (if (c!"A" : Str) = c!"A" then 1 else 0)
    decide⟩
  groups := rfl
  constraints := rfl

theorem optionalDoc_parse (sci : Str → Option Str) (t : Str) :
    parseVm sci c!"/home" (optionalDoc t) =
      .ok (docCalls c!"/home" (optionalSays (decide (trimC t = c!"True")))) := by
  have hc : (leaf c!"optional" t).content = t := by simp [leaf, Xml.content, Xml.contents]
  have h4 : optElem sci false { name := c!"A", calls := [.setVmName c!"M", .setPath c!"/home", .setCommit []] }
      (leaf c!"optional" t) =
      .ok { name := c!"A", calls := [.setVmName c!"M", .setPath c!"/home", .setCommit []],
            opt := decide (trimC t = c!"True") } := by
    unfold optElem
    rw [hc]
    by_cases h : trimC t = []
    · rw [if_pos h, h]; rfl
    · rw [if_neg h]; rfl
  have h5 : parseVm sci c!"/home" (optionalDoc t) =
      SOut.bind (SOut.bind (SOut.bind (SOut.bind (optElem sci false
        { name := c!"A", calls := [.setVmName c!"M", .setPath c!"/home", .setCommit []] }
        (leaf c!"optional" t)) fun s => optElems sci false s [])
        fun s => .ok (s.calls ++ [optCall false s])) fun calls => parseOptions sci false calls [])
        fun calls => vmElems sci calls [] := rfl
  rw [h5, h4]
  rfl

theorem dropWhile_split (p : Char → Bool) (s : Str) : ∃ a, s = a ++ s.dropWhile p ∧ ∀ c ∈ a, p c = true :=
  ⟨s.takeWhile p, by simp, fun _ hc => by
    induction s with
    | nil => cases hc
    | cons x xs ih =>
      rw [List.takeWhile_cons] at hc
      split at hc
      · rename_i hx
        rcases List.mem_cons.1 hc with rfl | hc
        · exact hx
        · exact ih hc
      · cases hc⟩

theorem trimC_true {t : Str} : trimC t = c!"True" ↔
    ∃ a b, t = a ++ c!"True" ++ b ∧ (∀ c ∈ a, isSpaceC c = true) ∧ ∀ c ∈ b, isSpaceC c = true := by
  constructor
  · intro h
    obtain ⟨a, ha, ha'⟩ := dropWhile_split isSpaceC t
    obtain ⟨b, hb, hb'⟩ := dropWhile_split isSpaceC (t.dropWhile isSpaceC).reverse
    refine ⟨a, b.reverse, ?_, ha', fun c hc => hb' c (List.mem_reverse.1 hc)⟩
    have e : t.dropWhile isSpaceC = trimC t ++ b.reverse := by
      unfold trimC
      rw [← List.reverse_append, ← hb, List.reverse_reverse]
    rw [List.append_assoc, ← h, ← e]
    exact ha
  · rintro ⟨a, b, rfl, ha, hb⟩
    exact trimC_text ha hb (by intro c hc; cases hc; decide) (by intro c hc; cases hc; decide) (by decide)

/-- A feature is read as optional if the text is `True`, perhaps with blanks around it, and as mandatory
    for every other text. -/
theorem C57_optional_text {sci : Str → Option Str} {world : FModel} (hf : ∀ i, world.heap i ≠ none → i < world.next)
    (E : Env) (t : Str) (b : Bool) (h : b = true ↔ ∃ l r, t = l ++ c!"True" ++ r ∧
      (∀ c ∈ l, isSpaceC c = true) ∧ ∀ c ∈ r, isSpaceC c = true) :
    ∃ m gs, load sci E world c!"/home" (optionalDoc t) = .built m ∧
      Describes { optionalDesc b with groups := gs } m := by
  have hb : b = decide (trimC t = c!"True") := by
    rw [← trimC_true] at h
    by_cases hx : trimC t = c!"True"
    · rw [h.2 hx]; simp [hx]
    · cases b with
      | false => simp [hx]
      | true => exact absurd (h.1 rfl) hx
  subst hb
  have hd := optionalSays_desc (decide (trimC t = c!"True"))
  obtain ⟨m, h1, h2⟩ := build_ok hf E (buildable_doc hd) (by intro c hc; exact absurd hc (by simp [optionalDesc]))
  obtain ⟨m', gs, h3, h4, h5⟩ := detectAlternatives_spec h2 hd.groups E
  refine ⟨m', gs, ?_, h4⟩
  unfold Xml.load
  rw [optionalDoc_parse sci t]
  simp only [h1, h3]

/-- Both cases occur: the spelling `true` makes a feature mandatory. -/
theorem C57_lower_case_true_is_mandatory (sci : Str → Option Str) (E : Env) :
    (∃ m gs, load sci E nothing c!"/home" (optionalDoc c!"true") = .built m ∧
      Describes { optionalDesc false with groups := gs } m) ∧
    ∃ m gs, load sci E nothing c!"/home" (optionalDoc c!"\n True ") = .built m ∧
      Describes { optionalDesc true with groups := gs } m := by
  refine ⟨C57_optional_text nothing_fresh E _ _ ?_, C57_optional_text nothing_fresh E _ _ ?_⟩
  · rw [← trimC_true]; decide
  · rw [← trimC_true]; decide

end Verif.Props

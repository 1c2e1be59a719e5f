import Verif.Xml.Storable
import Verif.Props.XmlLayout
import Verif.Props.SavedDocuments
/-!
# Loading and saving normalises documents

C104.
-/

namespace Verif.Props
open Verif Verif.Spec Verif.Xml

variable {sci : Str → Option Str} {cwd : Str} {x y : Spec.Doc} {d : Desc} {w w' : FModel}

/-- Documents with the same options, in any order and any layout, are loaded and saved as one and the same
    document. -/
theorem C104_same_saved (hs : Unsigned sci) (hx : x.Ok sci) (hd : DocDescribes cwd x d) (hk : ConstraintsKnown d) (hst : Storable x d)
    (hxy : SameContent x y) {t t' : Xml} (ht : LaidOut x t) (ht' : LaidOut y t') (hf : ∀ i, w.heap i ≠ none → i < w.next)
    (hf' : ∀ i, w'.heap i ≠ none → i < w'.next) (E₁ E₂ E₃ E₄ : Env) :
    ∃ m m' z, load sci E₁ w cwd t = .built m ∧ load sci E₂ w' cwd t' = .built m' ∧ write E₃ m = some z ∧ write E₄ m' = some z := by
  have hw := writable_doc hs hx hd hk hst
  obtain ⟨m, gs, h1, h2, h3⟩ := C57_any_layout_partial hf E₁ hx hd hk ht
  obtain ⟨m', gs', k1, k2, k3⟩ := C57_any_layout_partial hf' E₂ (shuffled_ok hxy hx) (shuffled_describes hxy hd) (shuffled_known hxy hd hk) ht'
  have hw' := shuffled_writable hxy hd hw
  have wg : Writable { d with groups := gs } :=
    ⟨hw.name, hw.path, hw.commit, hw.root, hw.names, hw.siblings, hw.kinds, hw.locs, hw.known, hw.constraints⟩
  have wg' : Writable { shuffledDesc d y with groups := gs' } :=
    ⟨hw'.name, hw'.path, hw'.commit, hw'.root, hw'.names, hw'.siblings, hw'.kinds, hw'.locs, hw'.known, hw'.constraints⟩
  obtain ⟨z, e1, e2⟩ := C103_same_document h2 k2 wg wg' (shuffled_same hxy hd h3 k3) E₃ E₄
  exact ⟨m, m', z, h1, k1, e1, e2⟩

/-- The saved document is a normal form: loading and saving it again changes nothing, exactly if no option
    implies itself and no implication between two options stands among the non-Boolean or mixed
    constraints.  The claim is without this condition. -/
theorem C104_final_iff (hs : Unsigned sci) (hx : x.Ok sci) (hd : DocDescribes cwd x d) (hk : ConstraintsKnown d) (hst : Storable x d)
    {t : Xml} (ht : LaidOut x t) (hf : ∀ i, w.heap i ≠ none → i < w.next) (hf' : ∀ i, w'.heap i ≠ none → i < w'.next)
    (E₁ E₂ E₃ E₄ : Env) (sci' : Str → Option Str) (cwd' : Str) :
    ∃ m z m', load sci E₁ w cwd t = .built m ∧ write E₂ m = some z ∧ load sci' E₃ w' cwd' z = .built m' ∧
      (write E₄ m' = some z ↔ Calm d) := by
  have hw := writable_doc hs hx hd hk hst
  obtain ⟨m, gs, h1, h2, h3⟩ := C57_any_layout_partial hf E₁ hx hd hk ht
  have wg : Writable { d with groups := gs } :=
    ⟨hw.name, hw.path, hw.commit, hw.root, hw.names, hw.siblings, hw.kinds, hw.locs, hw.known, hw.constraints⟩
  obtain ⟨z, m', _, k1, _, k3, _⟩ := roundTrip h2 wg E₂ E₃ sci' cwd' hf'
  refine ⟨m, z, m', h1, k1, k3, ?_⟩
  rw [C103_fixpoint_iff h2 wg hf' k1 k3 E₄]
  exact ⟨fun h => ⟨h.1.self, h.1.own⟩, fun h => ⟨⟨h.self, h.own⟩, doc_noneNew hs hx hd h3 h⟩⟩

/-- In particular: documents are loaded and saved as a normal form, if no option implies itself and no
    implication stands among other than Boolean constraints. -/
theorem C104_normal_form_partial (hs : Unsigned sci) (hx : x.Ok sci) (hd : DocDescribes cwd x d) (hk : ConstraintsKnown d)
    (hst : Storable x d) (hc : Calm d) {t : Xml} (ht : LaidOut x t) (hf : ∀ i, w.heap i ≠ none → i < w.next)
    (hf' : ∀ i, w'.heap i ≠ none → i < w'.next) (E₁ E₂ E₃ E₄ : Env) (sci' : Str → Option Str) (cwd' : Str) :
    ∃ m z m', load sci E₁ w cwd t = .built m ∧ write E₂ m = some z ∧ load sci' E₃ w' cwd' z = .built m' ∧ write E₄ m' = some z := by
  obtain ⟨m, z, m', h1, h2, h3, h4⟩ := C104_final_iff hs hx hd hk hst ht hf hf' E₁ E₂ E₃ E₄ sci' cwd'
  exact ⟨m, z, m', h1, h2, h3, h4.2 hc⟩

/-! ## An example -/

/-- The options of `altDoc` in another order, with the exclusion of `B` stated twice. -/
def altDoc' : Spec.Doc :=
  { altDoc with
    binary := [{ name := c!"B", excluded := [c!"A", c!"A"] }, { name := c!"root", children := [c!"B", c!"A"] },
      { name := c!"A", output := some c!"-a ", parent := some c!"root", excluded := [c!"B", c!"B"],
        locs := [{ path := c!"src/a.cpp", start := ⟨3, 1⟩, stop := ⟨4, 20⟩, category := some .inessential }] }] }

theorem altDoc_same : SameContent altDoc altDoc' where
  name := rfl
  path := rfl
  commit := rfl
  constraints := rfl
  binary := by
    refine ⟨[(altDoc.binary[0], altDoc'.binary[1]), (altDoc.binary[1], altDoc'.binary[2]), (altDoc.binary[2], altDoc'.binary[0])], ?_, rfl, ?_⟩
    · intro p hp
      simp only [List.mem_cons, List.not_mem_nil, or_false] at hp
      rcases hp with rfl | rfl | rfl
      · exact ⟨rfl, rfl, rfl, rfl, rfl, rfl, rfl, by simp [altDoc, altDoc', or_comm], .nil, by simp [altDoc, altDoc']⟩
      · exact ⟨rfl, rfl, rfl, rfl, rfl, rfl, rfl, by simp [altDoc, altDoc'], .nil, by simp [altDoc, altDoc']⟩
      · exact ⟨rfl, rfl, rfl, rfl, rfl, rfl, rfl, by simp [altDoc, altDoc'], .nil, by simp [altDoc, altDoc']⟩
    · show List.Perm [_, _, _] [_, _, _]
      exact ((List.Perm.swap _ _ _).trans (.cons _ (.swap _ _ _)))
  numeric := ⟨((altDoc.numeric.getD []).map fun o => (o, o)), by
    rintro p hp
    obtain ⟨o, _, rfl⟩ := List.mem_map.1 hp
    exact ⟨rfl, rfl, rfl, rfl, rfl, rfl, rfl, fun _ => .rfl, .refl _, fun _ => .rfl⟩, rfl, .refl _⟩

theorem altDoc_storable : Storable altDoc altDesc where
  path := .inr (solid_of (by decide))
  siblings := by decide
  files := by decide

theorem altDesc_calm : Calm altDesc where
  self := by
    rintro a ⟨k, hk⟩
    simp [altDesc, excludes] at hk
  own := fun a b => by simp [elsewhere, altDesc, excludes]

/-- Both documents are saved as the same document, and it is final. -/
theorem C104_not_vacuous (other : Str → Option Str) (E : Env) : ∃ m m' z m'',
    load (sciDouble other) E nothing c!"/home" altDoc.toXml = .built m ∧
    load (sciDouble other) E nothing c!"/home" altDoc'.toXml = .built m' ∧ write E m = some z ∧ write E m' = some z ∧
    load (sciDouble other) E nothing c!"/home" z = .built m'' ∧ write E m'' = some z := by
  obtain ⟨m, m', z, h1, h2, h3, h4⟩ := C104_same_saved (unsigned_double other) (altDoc_ok _) altDoc_says altDesc_known altDoc_storable
    altDoc_same (.inl rfl) (.inl rfl) nothing_fresh nothing_fresh E E E E
  obtain ⟨n, z', m'', k1, k2, k3, k4⟩ := C104_normal_form_partial (unsigned_double other) (altDoc_ok _) altDoc_says altDesc_known
    altDoc_storable altDesc_calm (.inl rfl) nothing_fresh nothing_fresh E E E E (sciDouble other) c!"/home"
  rw [h1] at k1
  cases k1
  rw [h3] at k2
  cases k2
  exact ⟨m, m', z, m'', h1, h2, h3, h4, k3, k4⟩

/-! ## Names that differ in case only -/

/-- `A` and `a` below the root. -/
def caseModel : FModel :=
  ofNodes [featNode "root" none [1, 2] .root, featNode "A" (some 0) [], featNode "a" (some 0) []]
    (some 0) [(c!"root", 0), (c!"A", 1), (c!"a", 2)] []

/-- The names of the options of the first element, in order. -/
def firstNames : Xml → List (List Str)
  | .node _ _ _ kids => (kids.head?.map fun k => k.kids.map fun o => o.kids.map Xml.text).getD []

/-- Without the condition on siblings the claim is false: the order of `A` and `a` in the saved document
    depends on the order of the hash set of children, that is, on addresses. -/
theorem C104_case_fails : WF caseModel ∧ ∃ x y, write (stdEnv true) caseModel = some x ∧ write (revEnv true) caseModel = some y ∧
    x ≠ y := by
  refine ⟨wf_of_check (fun i => i) (ofNodes_fresh _ _ _ _ _) (by decide), ?_⟩
  have h : (write (stdEnv true) caseModel).map firstNames ≠ (write (revEnv true) caseModel).map firstNames := by decide
  have h1 : (write (stdEnv true) caseModel).isSome = true := by decide
  have h2 : (write (revEnv true) caseModel).isSome = true := by decide
  obtain ⟨x, hx⟩ := Option.isSome_iff_exists.1 h1
  obtain ⟨y, hy⟩ := Option.isSome_iff_exists.1 h2
  refine ⟨x, y, hx, hy, fun e => h ?_⟩
  rw [hx, hy, e]

end Verif.Props

import Verif.Props.Generator
import Verif.Props.Sxfm
/-!
# C75: verifying a file tells whether it loads

`verifyFeatureModel` and `loadFeatureModel` on files, for every machine whose XML library reads a text as
some element and validates it against the DTD.
-/

namespace Verif.Props
open Verif Verif.Xml Verif.Spec Verif.Tools

variable {M : Machine} {fs : Files} {p t : Str}

/-- The library reads a text as an element (`raw`) and hands it out if it is valid
    (FeatureModelParser.cpp:420-440). -/
def Validates (M : Machine) (raw : Str → Option Xml) : Prop :=
  ∀ t x, M.xml t = some x ↔ raw t = some x ∧ Conforms x

/-- What loads verifies; what does not verify gives no model and does not crash. -/
theorem C75_loaded_verifies :
    (∀ m, loadFeatureModel M fs p = .built m → verifyFeatureModel M fs p = true) ∧
    (verifyFeatureModel M fs p = false → loadFeatureModel M fs p = .null) := by
  unfold loadFeatureModel verifyFeatureModel
  cases fs p with
  | none => exact ⟨fun m h => absurd h (by simp), fun _ => rfl⟩
  | some t =>
    cases h : M.xml t with
    | none => exact ⟨fun m h' => by simp [h] at h', fun _ => by simp [h]⟩
    | some x => exact ⟨fun m _ => by simp [h], fun h' => by simp [h] at h'⟩

/-- A file verifies exactly if it can be read and holds a document valid for the DTD. -/
theorem C75_verifies_iff {raw : Str → Option Xml} (hM : Validates M raw) :
    verifyFeatureModel M fs p = true ↔ ∃ t x, fs p = some t ∧ raw t = some x ∧ Conforms x := by
  unfold verifyFeatureModel
  cases hp : fs p with
  | none => simp
  | some t =>
    simp only [Option.isSome_iff_exists, hM t]
    exact ⟨fun ⟨x, hx⟩ => ⟨t, x, rfl, hx⟩, fun ⟨t', x, ht, hx⟩ => by cases ht; exact ⟨x, hx⟩⟩

/-- A file that holds a document describing a model verifies and loads. -/
theorem C75_described_partial {raw : Str → Option Xml} (hM : Validates M raw) (hf : ∀ i, M.heap.heap i ≠ none → i < M.heap.next)
    {x : Spec.Doc} {d : Desc} (hp : fs p = some t) (ht : raw t = some x.toXml) (h : x.Ok M.sci)
    (hd : DocDescribes M.cwd x d) (hk : ConstraintsKnown d) :
    verifyFeatureModel M fs p = true ∧ ∃ m gs, loadFeatureModel M fs p = .built m ∧ Describes { d with groups := gs } m := by
  have hx : M.xml t = some x.toXml := (hM t _).2 ⟨ht, doc_valid x⟩
  refine ⟨by simp [verifyFeatureModel, hp, hx], ?_⟩
  obtain ⟨m, gs, h1, h2, _⟩ := C57_loads_partial hf M.env h hd hk
  exact ⟨m, gs, by simpa [loadFeatureModel, hp, hx] using h1, h2⟩

/-- A file that holds such a document in any layout loads exactly if it verifies. -/
theorem C75_any_layout_partial {raw : Str → Option Xml} (hM : Validates M raw) (hf : ∀ i, M.heap.heap i ≠ none → i < M.heap.next)
    {x : Spec.Doc} {y : Xml} {d : Desc} (hp : fs p = some t) (ht : raw t = some y) (hy : LaidOut x y) (h : x.Ok M.sci)
    (hd : DocDescribes M.cwd x d) (hk : ConstraintsKnown d) :
    verifyFeatureModel M fs p = true ↔ ∃ m, loadFeatureModel M fs p = .built m := by
  refine ⟨fun hv => ?_, fun ⟨m, hm⟩ => C75_loaded_verifies.1 m hm⟩
  obtain ⟨t', y', h1, h2, h3⟩ := (C75_verifies_iff hM).1 hv
  rw [hp] at h1
  cases h1
  rw [ht] at h2
  cases h2
  have hx : M.xml t = some y := (hM t _).2 ⟨ht, h3⟩
  obtain ⟨m, gs, h1, h2, _⟩ := C57_any_layout_partial hf M.env h hd hk hy
  exact ⟨m, by simpa [loadFeatureModel, hp, hx] using h1⟩

/-- A file that verifies loads or gives no model, without crashing, if its texts are harmless. -/
theorem C75_safe_partial {raw : Str → Option Xml} (hM : Validates M raw) (hf : ∀ i, M.heap.heap i ≠ none → i < M.heap.next)
    {x : Xml} (hp : fs p = some t) (ht : raw t = some x) (hh : Harmless x) (hr : RootTied x) :
    loadFeatureModel M fs p ≠ .ub := by
  unfold loadFeatureModel
  simp only [hp]
  cases h : M.xml t with
  | none => simp
  | some y =>
    obtain ⟨h1, h2⟩ := (hM t y).1 h
    rw [ht] at h1
    cases h1
    exact C59_load_safe_partial hf h2 hh hr

/-- Verifying looks at the DTD only: a document in which an option has two parents verifies and does
    not load. -/
theorem C75_two_parents {raw : Str → Option Xml} (hM : Validates M raw) {x : Spec.Doc} (hp : fs p = some t)
    (ht : raw t = some x.toXml) (h : x.Ok M.sci) {a b c : Str}
    (ha : ∃ o ∈ x.options, (o.2.parent = some a ∧ o.2.name = c) ∨ (o.2.name = a ∧ c ∈ o.2.children))
    (hb : ∃ o ∈ x.options, (o.2.parent = some b ∧ o.2.name = c) ∨ (o.2.name = b ∧ c ∈ o.2.children)) (hne : a ≠ b) :
    verifyFeatureModel M fs p = true ∧ loadFeatureModel M fs p = .null := by
  have hx : M.xml t = some x.toXml := (hM t _).2 ⟨ht, doc_valid x⟩
  exact ⟨by simp [verifyFeatureModel, hp, hx],
    by simpa [loadFeatureModel, hp, hx] using C58_two_parents h M.env M.heap M.cwd ha hb hne⟩

/-- So does one with two options of one name, … -/
theorem C75_duplicate {raw : Str → Option Xml} (hM : Validates M raw) (hf : ∀ i, M.heap.heap i ≠ none → i < M.heap.next)
    {x : Spec.Doc} (hp : fs p = some t) (ht : raw t = some x.toXml) (h : x.Ok M.sci) (hd : ¬ (x.attrs.map Attr.name).Nodup) :
    verifyFeatureModel M fs p = true ∧ loadFeatureModel M fs p = .null := by
  have hx : M.xml t = some x.toXml := (hM t _).2 ⟨ht, doc_valid x⟩
  exact ⟨by simp [verifyFeatureModel, hp, hx], by simpa [loadFeatureModel, hp, hx] using C58_duplicate hf M.env M.cwd h hd⟩

/-- … and one with a constraint about a feature it does not have. -/
theorem C75_unknown_feature {raw : Str → Option Xml} (hM : Validates M raw) (hf : ∀ i, M.heap.heap i ≠ none → i < M.heap.next)
    {x : Spec.Doc} {d : Desc} (hp : fs p = some t) (ht : raw t = some x.toXml) (h : x.Ok M.sci) (hd : DocDescribes M.cwd x d)
    (hk : ¬ ConstraintsKnown d) : verifyFeatureModel M fs p = true ∧ loadFeatureModel M fs p = .null := by
  have hx : M.xml t = some x.toXml := (hM t _).2 ⟨ht, doc_valid x⟩
  exact ⟨by simp [verifyFeatureModel, hp, hx], by simpa [loadFeatureModel, hp, hx] using C58_unknown_feature hf M.env h hd hk⟩

/-- Documents of the other format, whose element is `feature_model`, neither verify nor load
    (FeatureModel.cpp:125-128, 145-148). -/
theorem C75_sxfm {raw : Str → Option Xml} (hM : Validates M raw) {x : Xml} (hp : fs p = some t) (ht : raw t = some x)
    (hn : x.name = c!"feature_model") : verifyFeatureModel M fs p = false ∧ loadFeatureModel M fs p = .null := by
  have hv : verifyFeatureModel M fs p = false := by
    cases h : verifyFeatureModel M fs p with
    | false => rfl
    | true =>
      obtain ⟨t', y, h1, h2, h3⟩ := (C75_verifies_iff hM).1 h
      rw [hp] at h1
      cases h1
      rw [ht] at h2
      cases h2
      cases h3 with
      | mk h1 _ _ _ =>
        simp only [Xml.name] at hn
        subst hn
        rw [show dtd.lookup c!"feature_model" = none by decide] at h1
        cases h1
  exact ⟨hv, C75_loaded_verifies.2 hv⟩

/-- A library for two texts. -/
def someRaw : Str → Option Xml := fun t =>
  if t = c!"bad" then some (Doc.toXml { name := c!"M", binary := [], constraints := fun
      | .boolean => some [{ text := [], tree := .int 0, kind := .boolean }]
      | _ => none })
  else if t = c!"good" then some altDoc.toXml
  else if t = c!"twice" then some (Doc.toXml { name := c!"M", binary := [{ name := c!"A" }, { name := c!"A" }] })
  else if t = c!"sxfm" then some (.node c!"feature_model" [(c!"name", c!"M")] [] [])
  else none

open Classical in
/-- The rest of a machine, with that library. -/
noncomputable def withRaw (M : Machine) (raw : Str → Option Xml) : Machine :=
  { M with xml := fun t => (raw t).filter fun x => decide (Conforms x) }

theorem withRaw_validates (M : Machine) (raw : Str → Option Xml) : Validates (withRaw M raw) raw := by
  intro t x
  simp [withRaw, Option.filter_eq_some_iff]

/-- The claim fails: on every machine there are files that verify while loading crashes or gives nothing. -/
theorem C75_fails (M : Machine) (hf : ∀ i, M.heap.heap i ≠ none → i < M.heap.next) (fs : Files) (h1 : fs c!"f" = some c!"bad")
    (h2 : fs c!"g" = some c!"twice") :
    (verifyFeatureModel (withRaw M someRaw) fs c!"f" = true ∧ loadFeatureModel (withRaw M someRaw) fs c!"f" = .ub) ∧
    (verifyFeatureModel (withRaw M someRaw) fs c!"g" = true ∧ loadFeatureModel (withRaw M someRaw) fs c!"g" = .null) := by
  have hM := withRaw_validates M someRaw
  constructor
  · obtain ⟨hc, hl⟩ := C59_empty_constraint M.sci M.env M.heap M.cwd
    have hx := (hM c!"bad" _).2 ⟨rfl, hc⟩
    refine ⟨by simp only [verifyFeatureModel, h1, hx]; rfl, ?_⟩
    simp only [loadFeatureModel, h1, hx]
    exact hl
  · refine C75_duplicate hM hf h2 rfl ?_ (by decide)
    refine ⟨.inr (solid_of (by decide)), by simp, by simp, ?_, by simp, by simp⟩
    intro o ho
    have : o = { name := c!"A" } := by simpa using ho
    subst this
    refine ⟨solid_of (by decide), ?_, ?_, ?_, ?_, ?_, ?_, ?_, ?_⟩ <;> simp

/-- A file for which the positive part holds, and one of the other format. -/
example (M : Machine) (hf : ∀ i, M.heap.heap i ≠ none → i < M.heap.next) (hc : M.cwd = c!"/home") (fs : Files)
    (h1 : fs c!"f" = some c!"good") (h2 : fs c!"g" = some c!"sxfm") :
    verifyFeatureModel (withRaw M someRaw) fs c!"f" = true ∧ (∃ m, loadFeatureModel (withRaw M someRaw) fs c!"f" = .built m) ∧
    loadFeatureModel (withRaw M someRaw) fs c!"g" = .null := by
  have hM := withRaw_validates M someRaw
  obtain ⟨a, m, _, b, _⟩ := C75_described_partial (d := altDesc) hM hf h1 rfl (altDoc_ok _) (by show DocDescribes M.cwd _ _; rw [hc]; exact altDoc_says) altDesc_known
  exact ⟨a, ⟨m, b⟩, (C75_sxfm hM h2 rfl rfl).2⟩

end Verif.Props

import Verif.Xml.CallsProof
import Verif.Props.XmlRoundTrip
/-!
# C74: a failed write is reported

The writer as a program calling the text writer of libxml2 (`Xml/Calls`), whose calls may fail in any
way.
-/

namespace Verif.Props
open Verif Verif.Xml Verif.Spec

/-- The writer makes the calls that write the tree of the model, in order, up to the first that fails. -/
theorem C74_calls {E : Env} {m : FModel} {x : Xml} (h : write E m = some x) :
    ∃ cs, Document cs x ∧ ∀ L : Lib,
      (¬ Fails L cs → writeToFile E m true L = some (cs, L cs)) ∧
      ∀ k, FailsAt L cs k → writeToFile E m true L = some (cs.take (k + 1), L (cs.take (k + 1))) := by
  obtain ⟨cs, hne, hm, hd⟩ := model_makes h
  refine ⟨cs, hd, fun L => ?_⟩
  have hr : runW (modelW E m) L = .done (exec L cs ⟨[], 0⟩) := hm L ⟨[], 0⟩ (by simp)
  have hs := exec_start L cs hne
  simp only [writeToFile, hr, if_true]
  constructor
  · intro hn
    rcases hs with ⟨_, e, _⟩ | ⟨k, hk, _⟩
    · rw [e]
    · exact absurd ⟨k, hk.1, hk.2.1⟩ hn
  · intro k hk
    rcases hs with ⟨hn, _, _⟩ | ⟨k', hk', e⟩
    · exact absurd ⟨k, hk.1, hk.2.1⟩ hn
    · have : k' = k := by
        rcases Nat.lt_trichotomy k' k with hlt | heq | hgt
        · exact absurd hk'.2.1 (hk.2.2 k' hlt)
        · exact heq
        · exact absurd hk.2.1 (hk'.2.2 k hgt)
      subst this
      rw [e]

/-- Into an opened file: the number returned is negative exactly if a call failed; otherwise the calls
    for the complete document, valid for the DTD, have been made and have all succeeded. -/
theorem C74_file_partial {d : Desc} {m : FModel} (h : Describes d m) (hw : Writable d) (E : Env) :
    ∃ x cs, write E m = some x ∧ Conforms x ∧ Document cs x ∧ ∀ L : Lib, ∃ made rc,
      writeToFile E m true L = some (made, rc) ∧ made <+: cs ∧ (rc < 0 ↔ Fails L made) ∧ (¬ rc < 0 → made = cs) := by
  obtain ⟨x, hx, _⟩ := write_spec h hw E
  obtain ⟨cs, hd, hL⟩ := C74_calls hx
  refine ⟨_, cs, hx, (C32_written_valid hx).1, hd, fun L => ?_⟩
  by_cases hf : Fails L cs
  · obtain ⟨k, hk⟩ := fails_first hf
    refine ⟨_, _, (hL L).2 k hk, List.take_prefix _ _, ⟨fun _ => ⟨k, ?_, ?_⟩, fun _ => hk.2.1⟩, fun hn => absurd hk.2.1 hn⟩
    · have := hk.1
      simp only [List.length_take]
      omega
    · rw [List.take_take, Nat.min_self]
      exact hk.2.1
  · refine ⟨_, _, (hL L).1 hf, List.prefix_refl _, ⟨fun hn => ?_, fun hc => absurd hc hf⟩, fun _ => rfl⟩
    have hne : cs ≠ [] := by
      intro e
      rw [e] at hd
      exact absurd hd (by simp [Document, Pending.steps])
    have hl : 0 < cs.length := List.length_pos_iff.2 hne
    refine ⟨cs.length - 1, by omega, ?_⟩
    rw [show cs.length - 1 + 1 = cs.length by omega, List.take_length]
    exact hn

/-- The number a Python program gets for an opened file is negative exactly if a call failed. -/
theorem C74_python_file {d : Desc} {m : FModel} (h : Describes d m) (hw : Writable d) (E : Env) :
    ∃ x cs, write E m = some x ∧ Document cs x ∧ ∀ L : Lib, ∃ rc, pyFile E m true L = some rc ∧ (rc < 0 ↔ Fails L cs) := by
  obtain ⟨x, hx, _⟩ := write_spec h hw E
  obtain ⟨cs, hd, hL⟩ := C74_calls hx
  refine ⟨_, cs, hx, hd, fun L => ?_⟩
  by_cases hf : Fails L cs
  · obtain ⟨k, hk⟩ := fails_first hf
    exact ⟨_, by rw [pyFile, (hL L).2 k hk]; rfl, by simpa [hf] using hk.2.1⟩
  · refine ⟨_, by rw [pyFile, (hL L).1 hf]; rfl, ?_⟩
    constructor
    · intro hn
      have hne : cs ≠ [] := by
        intro e
        rw [e] at hd
        exact absurd hd (by simp [Document, Pending.steps])
      have hl : 0 < cs.length := List.length_pos_iff.2 hne
      refine ⟨cs.length - 1, by omega, ?_⟩
      rw [show cs.length - 1 + 1 = cs.length by omega, List.take_length]
      exact hn
    · intro hc; exact absurd hc hf

/-- Into a text: nothing is returned exactly if there is no writer or a call failed; otherwise it is what
    the library dumps after all the calls for the document. -/
theorem C74_text_partial {d : Desc} {m : FModel} (h : Describes d m) (hw : Writable d) (E : Env) :
    ∃ x cs, write E m = some x ∧ Document cs x ∧ ∀ (created : Bool) (L : Lib) (dump : List XCall → Option Str),
      ∃ r, writeToText E m created L dump = some r ∧ (r = none ↔ created = false ∨ Fails L cs) ∧
        ∀ t, r = some t → t = (dump cs).getD [] := by
  obtain ⟨x, hx, _⟩ := write_spec h hw E
  obtain ⟨cs, hne, hm, hd⟩ := model_makes hx
  refine ⟨_, cs, hx, hd, fun created L dump => ?_⟩
  cases created with
  | false => exact ⟨none, rfl, by simp, by simp⟩
  | true =>
    have hr : runW (modelW E m) L = .done (exec L cs ⟨[], 0⟩) := hm L ⟨[], 0⟩ (by simp)
    simp only [writeToText, hr, if_true]
    rcases exec_start L cs hne with ⟨hn, e, h0⟩ | ⟨k, hk, e⟩
    · rw [e]
      dsimp only
      rw [if_neg (by omega)]
      exact ⟨_, rfl, by simp [hn], by simp⟩
    · rw [e]
      dsimp only
      rw [if_pos hk.2.1]
      exact ⟨_, rfl, by simpa using ⟨k, hk.1, hk.2.1⟩, by simp⟩

/-- The text a Python program gets is empty exactly if nothing was written, given that a dumped document
    is not empty. -/
theorem C74_python_text {d : Desc} {m : FModel} (h : Describes d m) (hw : Writable d) (E : Env) :
    ∃ x cs, write E m = some x ∧ Document cs x ∧ ∀ (created : Bool) (L : Lib) (dump : List XCall → Option Str) (t : Str),
      dump cs = some t → t ≠ [] →
      ∃ r, pyText E m created L dump = some r ∧ (r = [] ↔ created = false ∨ Fails L cs) ∧ (r ≠ [] → r = t) := by
  obtain ⟨x, cs, hx, hd, hr⟩ := C74_text_partial h hw E
  refine ⟨x, cs, hx, hd, fun created L dump t ht hne => ?_⟩
  obtain ⟨r, h1, h2, h3⟩ := hr created L dump
  refine ⟨_, by simp only [pyText, h1, Option.map_some]; rfl, ?_, ?_⟩
  · rw [← h2]
    cases r with
    | none => simp
    | some u =>
      have := h3 u rfl
      rw [ht] at this
      simp [this, hne]
  · cases r with
    | none => simp
    | some u =>
      have := h3 u rfl
      rw [ht] at this
      simp [this]

/-- The writer crashes on exactly the models that have no document. -/
theorem C74_crash_iff (E : Env) (m : FModel) (L : Lib) (hL : ∀ h, 0 ≤ L h) :
    writeToFile E m true L = none ↔ write E m = none := by
  constructor
  · intro h
    cases hx : write E m with
    | none => rfl
    | some x =>
      obtain ⟨cs, _, hc⟩ := C74_calls hx
      rw [(hc L).1 (by rintro ⟨k, _, hk⟩; have := hL (cs.take (k + 1)); omega)] at h
      exact absurd h (by simp)
  · intro h
    have := model_crashes h L ⟨[], 0⟩ hL (by simp)
    simp [writeToFile, runW, this]

/-- A file that cannot be opened is not reported: nothing is written and the number returned, zero, is no
    error.  So it is for every model, and for Python programs. -/
theorem C74_unopened_unreported (E : Env) (m : FModel) (L : Lib) :
    writeToFile E m false L = some ([], 0) ∧ pyFile E m false L = some 0 := ⟨rfl, rfl⟩

/-- The number returned then is one that a library may return for a complete document. -/
theorem C74_unopened_looks_written {d : Desc} {m : FModel} (h : Describes d m) (hw : Writable d) (E : Env) :
    ∃ x cs L, Document cs x ∧ ¬ Fails L cs ∧ writeToFile E m true L = some (cs, 0) ∧
      (writeToFile E m false L).map (·.2) = (writeToFile E m true L).map (·.2) := by
  obtain ⟨x, hx, _⟩ := write_spec h hw E
  obtain ⟨cs, hd, hL⟩ := C74_calls hx
  have hn : ¬ Fails (fun _ => 0) cs := by
    rintro ⟨k, _, hk⟩
    exact absurd hk (by simp)
  have := (hL fun _ => 0).1 hn
  exact ⟨_, cs, _, hd, hn, this, by rw [this]; rfl⟩

/-- A dump that fails is not reported either: the text is empty. -/
theorem C74_dump_unreported {d : Desc} {m : FModel} (h : Describes d m) (hw : Writable d) (E : Env) (L : Lib)
    (hL : ∀ h, 0 ≤ L h) : writeToText E m true L (fun _ => none) = some (some []) := by
  obtain ⟨x, cs, _, _, hr⟩ := C74_text_partial h hw E
  obtain ⟨r, h1, h2, h3⟩ := hr true L fun _ => none
  rw [h1]
  cases r with
  | none =>
    rcases h2.1 rfl with hc | ⟨k, _, hk⟩
    · exact absurd hc (by simp)
    · have := hL (cs.take (k + 1))
      omega
  | some t => rw [h3 t rfl]; rfl

/-- The claim as stated fails: for a file that cannot be opened nothing is written, nothing is reported. -/
theorem C74_fails (E : Env) : ∃ d m, Describes d m ∧ Writable d ∧ ∃ (opened : Bool) (L : Lib) (rc : Int),
    writeToFile E m opened L = some ([], rc) ∧ ¬ rc < 0 := by
  obtain ⟨m, h, hw, _⟩ := C33_not_vacuous
  exact ⟨_, m, h, hw, false, fun _ => 0, 0, rfl, by decide⟩

/-- A disk that is full after three calls: the third call is the last and its code is returned. -/
example (E : Env) (m : FModel) : writeToFile E m true (fun h => if h.length < 3 then 0 else -1) =
    some ([.indent, .indentText c!"  ", .startDocument c!"1.0" c!"UTF-8"], -1) := by
  simp [writeToFile, runW, modelW, W.seq, W.call]

/-- A list of calls that writes a small document. -/
example : Document [.start c!"a", .attribute c!"k" c!"v", .element c!"b" c!"t", .start c!"c", .string c!"u", .endDocument]
    (.node c!"a" [(c!"k", c!"v")] [] [leaf c!"b" c!"t", leaf c!"c" c!"u"]) := by
  simp [Document, Pending.steps, Pending.step, Pending.put, Pending.closeAll, Pending.close, leaf]

/-- Calls that write no document: an attribute after a child, two document elements, an element left open. -/
example : (∀ x, ¬ Document [.start c!"a", .element c!"b" [], .attribute c!"k" c!"v", .stop] x) ∧
    (∀ x, ¬ Document [.element c!"a" [], .element c!"b" []] x) ∧ (∀ x, ¬ Document [.start c!"a"] x) := by
  refine ⟨?_, ?_, ?_⟩ <;> intro x <;>
    simp [Document, Pending.steps, Pending.step, Pending.put, Pending.close]

end Verif.Props

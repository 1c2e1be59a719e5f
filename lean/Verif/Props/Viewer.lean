import Verif.Tools.Viewer
import Verif.Props.Graph
import Verif.Props.XmlLayout
/-!
# The feature model viewer

C65.
-/

namespace Verif.Props
open Verif Verif.Spec Verif.Tools Verif.Xml

variable {D : Desk} {fs : Files} {a : ViewArgs}

/-- A run ends with 0 or 1; with 1 it has changed nothing and started nothing.  Standard output is for
    `--dump` only.  With `--dump` no file is changed, with `-o` only that file; a program is started only
    without both, on the file that was written. -/
theorem C65_effects {code : Nat} {fs' : Files} {out : Str} {st : Option Started} (h : view D fs a = .exit code fs' out st) :
    (code = 0 ∨ code = 1 ∧ fs' = fs ∧ out = [] ∧ st = none) ∧ (a.dump = false → out = []) ∧ (a.dump = true → fs' = fs ∧ st = none) ∧
    (a.out ≠ [] → st = none ∧ ∀ p, p ≠ a.out → fs' p = fs p) ∧
    ∀ s, st = some s → ∃ path t, fs' = fs.set path t ∧ (s = .found path ∨ ∃ p, D.program a.viewer = some p ∧ s = .asked p path) := by
  have h1 : ∀ {code : Nat} {fs' : Files} {out : Str} {st : Option Started}, ViewRun.exit 1 fs [] none = .exit code fs' out st →
      (code = 0 ∨ code = 1 ∧ fs' = fs ∧ out = [] ∧ st = none) ∧ (a.dump = false → out = []) ∧ (a.dump = true → fs' = fs ∧ st = none) ∧
      (a.out ≠ [] → st = none ∧ ∀ p, p ≠ a.out → fs' p = fs p) ∧
      ∀ s, st = some s → ∃ path t, fs' = fs.set path t ∧ (s = .found path ∨ ∃ p, D.program a.viewer = some p ∧ s = .asked p path) := by
    intro _ _ _ _ h
    cases h
    exact ⟨.inr ⟨rfl, rfl, rfl, rfl⟩, fun _ => rfl, fun _ => ⟨rfl, rfl⟩, fun _ => ⟨rfl, fun _ _ => rfl⟩, nofun⟩
  unfold view at h
  split at h
  · exact h1 h
  split at h
  · exact h1 h
  split at h
  · exact h1 h
  · cases h
  split at h
  · rename_i hd
    split at h
    · cases h
    · cases h
      exact ⟨.inl rfl, fun e => (by rw [hd] at e; cases e), fun _ => ⟨rfl, rfl⟩, fun _ => ⟨rfl, fun _ _ => rfl⟩, nofun⟩
  rename_i hd
  split at h
  · rename_i ho
    split at h
    · split at h
      · cases h
      · cases h
        exact ⟨.inl rfl, fun _ => rfl, fun e => absurd e hd, fun _ => ⟨rfl, fun p hp => by simp [Files.set, hp]⟩, nofun⟩
    · cases h
      exact ⟨.inl rfl, fun _ => rfl, fun e => absurd e hd, fun _ => ⟨rfl, fun _ _ => rfl⟩, nofun⟩
  · rename_i ho
    split at h
    · exact h1 h
    · rename_i path _
      split at h
      · cases h
      · rename_i t _
        cases h
        refine ⟨.inl rfl, fun _ => rfl, fun e => absurd e hd, fun e => absurd e ho, fun s hs => ⟨path, t, rfl, ?_⟩⟩
        cases hs
        by_cases hv : a.viewer = []
        · simp [hv]
        · simp only [hv, if_false]
          cases D.program a.viewer with
          | none => exact .inl rfl
          | some p => exact .inr ⟨p, rfl, rfl⟩

/-- Without a file name, and with a file that cannot be read, is not valid or cannot be built, the run ends
    with 1 and does nothing. -/
theorem C65_rejects (h : a.file = [] ∨ fs a.file = none ∨ (∃ text, fs a.file = some text ∧ D.xml text = none) ∨
      ∃ text x, fs a.file = some text ∧ D.xml text = some x ∧ load D.sci D.env D.heap D.cwd x = .null) :
    view D fs a = .exit 1 fs [] none := by
  unfold view
  split
  · rfl
  rename_i hf
  split
  · rfl
  have : loadFeatureModel D.toMachine fs a.file = .null := by
    unfold loadFeatureModel
    rcases h with h | h | ⟨t, h1, h2⟩ | ⟨t, x, h1, h2, h3⟩
    · exact absurd h hf
    · rw [h]
    · rw [h1]; simp only [h2]
    · rw [h1]; simp only [h2, h3]
  rw [this]

/-- The model of a document is dumped: the texts of all features, each once. -/
theorem C65_dump_partial {x : Spec.Doc} {y : Xml} {d : Desc} {text : Str} (hf : a.file ≠ []) (hd : a.dump = true) (hfile : fs a.file = some text)
    (hx : D.xml text = some y) (hy : LaidOut x y) (hok : x.Ok D.sci) (hdoc : DocDescribes D.cwd x d) (hk : ConstraintsKnown d)
    (hh : ∀ i, D.heap.heap i ≠ none → i < D.heap.next) :
    ∃ (m : FModel) (gs : List (Str × RKind)) (order : List (Str × Id)) (ts : List Str), Describes { d with groups := gs } m ∧
      (∀ n k, (n, k) ∈ gs ↔ k = .alternative ∧ Exclusive d n) ∧ order.Perm m.features ∧ order.map (fun e => m.toText e.2) = ts.map some ∧
      view D fs a = .exit 0 fs ((ts.flatMap fun t => c!"{\n" ++ t ++ c!"\n}\n") ++ c!"\n") none := by
  obtain ⟨m, gs, hl, hm, hgs⟩ := C57_any_layout_partial hh D.env hok hdoc hk hy
  obtain ⟨order, ts, h1, h2, h3⟩ := C62_dump hm.wf D.env
  refine ⟨m, gs, order, ts, hm, hgs, h1, h2, ?_⟩
  unfold view
  rw [if_neg hf, if_neg (by simp [verifyFeatureModel, hfile, hx]),
    show loadFeatureModel D.toMachine fs a.file = .built m by simp only [loadFeatureModel, hfile, hx]; exact hl]
  dsimp only
  rw [if_pos hd, h3]

/-- The graph of a document is written to the file asked for: a drawing of the model it describes. -/
theorem C65_out_partial {x : Spec.Doc} {y : Xml} {d : Desc} {text : Str} (hf : a.file ≠ []) (hd : a.dump = false) (hfile : fs a.file = some text)
    (hx : D.xml text = some y) (hy : LaidOut x y) (hok : x.Ok D.sci) (hdoc : DocDescribes D.cwd x d) (hk : ConstraintsKnown d)
    (hh : ∀ i, D.heap.heap i ≠ none → i < D.heap.next) (ho : a.out ≠ []) (hopen : D.canOpen a.out = true) :
    ∃ m gs xs name t fs', Describes { d with groups := gs } m ∧ (∀ n k, (n, k) ∈ gs ↔ k = .alternative ∧ Exclusive d n) ∧
      Drawing m xs ∧ Quotable name ∧ view D fs a = .exit 0 fs' [] none ∧ (∀ p, p ≠ a.out → fs' p = fs p) ∧
      fs' a.out = some t ∧ t = (c!"digraph " ++ (c!"graph_" ++ D.self m) ++
        c!" {\n  graph [pad=.5 nodesep=2 ranksep=2 splines=true newrank=true bgcolor=white rankdir=tb overlap=false fontname=\"CMU Typewriter\" label=\"" ++
        name ++ c!"\"];\n\n" ++ xs.flatMap (DotItem.text (D.ptr m)) ++ c!"}\n") := by
  obtain ⟨m, gs, hl, hm, hgs⟩ := C57_any_layout_partial hh D.env hok hdoc hk hy
  obtain ⟨xs, head, name, h1, h2, h3, _, h4⟩ := C60_graph hm.wf hm.bound hm.registered (D.ptr m) (D.self m) []
  rw [h3 rfl] at h4
  generalize ht : c!"digraph " ++ (c!"graph_" ++ D.self m) ++
        c!" {\n  graph [pad=.5 nodesep=2 ranksep=2 splines=true newrank=true bgcolor=white rankdir=tb overlap=false fontname=\"CMU Typewriter\" label=\"" ++
        name ++ c!"\"];\n\n" ++ xs.flatMap (DotItem.text (D.ptr m)) ++ c!"}\n" = t at h4
  refine ⟨m, gs, xs, name, t, fs.set a.out t, hm, hgs, h1, h2, ?_, ?_, ?_, ?_⟩
  · unfold view
    rw [if_neg hf, if_neg (by simp [verifyFeatureModel, hfile, hx]),
      show loadFeatureModel D.toMachine fs a.file = .built m by simp only [loadFeatureModel, hfile, hx]; exact hl]
    dsimp only
    rw [if_neg (by simp [hd]), if_pos ho, if_pos hopen, h4]
  · intro p hp
    exact if_neg hp
  · exact if_pos rfl
  · exact ht.symm

/-- `--verify` is said to verify the input and exit, but it makes no difference at all, whatever the file and
    the other options are. -/
theorem C65_verify_is_ignored : view D fs { a with verify := true } = view D fs { a with verify := false } := by
  unfold view
  dsimp only
  split
  · rfl
  · rw [if_neg (by simp : ¬ (false = true ∧ _))]
    by_cases hv : verifyFeatureModel D.toMachine fs a.file = false
    · rw [if_pos ⟨rfl, hv⟩]
      have : loadFeatureModel D.toMachine fs a.file = .null := by
        unfold verifyFeatureModel at hv
        unfold loadFeatureModel
        cases hfile : fs a.file with
        | none => rfl
        | some t =>
          simp only [hfile] at hv ⊢
          cases hx : D.xml t with
          | none => rfl
          | some x => simp [hx] at hv
      rw [this]
    · rw [if_neg fun h => hv h.2]

/-- So it does not exit: with a valid document the viewer is started. -/
theorem C65_verify_starts_viewer {x : Spec.Doc} {y : Xml} {d : Desc} {text path : Str} (hf : a.file ≠ []) (hfile : fs a.file = some text)
    (hx : D.xml text = some y) (hy : LaidOut x y) (hok : x.Ok D.sci) (hdoc : DocDescribes D.cwd x d) (hk : ConstraintsKnown d)
    (hh : ∀ i, D.heap.heap i ≠ none → i < D.heap.next) (hd : a.dump = false) (ho : a.out = []) (hv : a.verify = true)
    (ht : D.temp d.name = some path) :
    ∃ fs' s, view D fs a = .exit 0 fs' [] (some s) ∧ fs' path ≠ none := by
  obtain ⟨m, gs, hl, hm, hgs⟩ := C57_any_layout_partial hh D.env hok hdoc hk hy
  obtain ⟨xs, head, name, h1, h2, h3, _, h4⟩ := C60_graph hm.wf hm.bound hm.registered (D.ptr m) (D.self m) []
  have hn : m.name = d.name := hm.name
  unfold view
  rw [if_neg hf, if_neg (by simp [verifyFeatureModel, hfile, hx]),
    show loadFeatureModel D.toMachine fs a.file = .built m by simp only [loadFeatureModel, hfile, hx]; exact hl]
  dsimp only
  rw [if_neg (by simp [hd]), if_neg (by simp [ho]), hn, ht]
  dsimp only
  rw [h4]
  exact ⟨_, _, rfl, by simp [Files.set]⟩

/-- If the file for the graph cannot be opened, the run ends with 0 although nothing is written. -/
theorem C65_unwritable_is_success {x : Spec.Doc} {y : Xml} {d : Desc} {text : Str} (hf : a.file ≠ []) (hd : a.dump = false) (hfile : fs a.file = some text)
    (hx : D.xml text = some y) (hy : LaidOut x y) (hok : x.Ok D.sci) (hdoc : DocDescribes D.cwd x d) (hk : ConstraintsKnown d)
    (hh : ∀ i, D.heap.heap i ≠ none → i < D.heap.next) (ho : a.out ≠ []) (hopen : D.canOpen a.out = false) :
    view D fs a = .exit 0 fs [] none := by
  obtain ⟨m, gs, hl, hm, hgs⟩ := C57_any_layout_partial hh D.env hok hdoc hk hy
  unfold view
  rw [if_neg hf, if_neg (by simp [verifyFeatureModel, hfile, hx]),
    show loadFeatureModel D.toMachine fs a.file = .built m by simp only [loadFeatureModel, hfile, hx]; exact hl]
  dsimp only
  rw [if_neg (by simp [hd]), if_pos ho, if_neg (by simp [hopen])]

/-- `-o` is ignored if `--dump` is given. -/
theorem C65_dump_ignores_out {out viewer : Str} (hd : a.dump = true) : view D fs { a with out := out, viewer := viewer } = view D fs a := by
  unfold view
  dsimp only
  rw [hd]
  simp only [if_true]

/-- The hypotheses are met. -/
example {text : Str} (hf : a.file ≠ []) (hd : a.dump = true) (hfile : fs a.file = some text) (hx : D.xml text = some altDoc.toXml)
    (hh : D.heap = nothing) (hcwd : D.cwd = c!"/home") : ∃ out, view D fs a = .exit 0 fs out none := by
  obtain ⟨_, _, _, _, _, _, _, _, h⟩ := C65_dump_partial hf hd hfile hx (.inl rfl) (altDoc_ok _) (hcwd ▸ altDoc_says) altDesc_known
    (by rw [hh]; exact nothing_fresh)
  exact ⟨_, h⟩

end Verif.Props

import Verif.FM.CopyScript
import Verif.Props.Script
/-!
# Property C20, for descriptions: what the edits of a copy transaction make of a model
-/

namespace Verif.Props
open Spec

variable {d : Desc} {m : FModel}

/-- A copy transaction with edits that make sense one after the other commits, and the new model is described by the edits
    applied to the description of the clone, with those that move a feature left out.  New features can be put below others
    added in the same transaction. -/
theorem C20_described (E : Env) (h : Describes d m) (hk : ConstraintsKnown d) (hroot : c!"root" ∉ d.attrs.map Attr.name) {es : List Edit}
    (hc : d.cloned.CanCopy es) : ∃ c, runCopy E m es = some (some c) ∧ Describes (es.foldl Desc.inCopy d.cloned) c := by
  obtain ⟨c, h1, h2, _⟩ := describes_copy E h hk hroot hc
  exact ⟨c, h1, h2⟩

/-- For edits that a modify transaction on the clone allows and none of which moves a feature, both transactions succeed with one
    and the same model. -/
theorem C20_same_edits_partial (E : Env) (h : Describes d m) (hk : ConstraintsKnown d) (hroot : c!"root" ∉ d.attrs.map Attr.name)
    {es : List Edit} (hc : Desc.CanAll d.cloned.Has d.cloned es) (hn : ∀ e ∈ es, ∀ p x, e ≠ .move p x) :
    ∃ c c', m.clone E = .built c ∧ runCopy E m es = some (some c') ∧ runTransaction E c es = some c' ∧
      Describes (es.foldl Desc.edit d.cloned) c' := by
  obtain ⟨c, h1, h2⟩ := clone_describes h E hroot hk
  have hk' : ConstraintsKnown d.cloned := by
    intro x hx n hn
    rw [cloned_names]
    exact hk x hx n hn
  obtain ⟨c', h3, h4, h5⟩ := copyRun_same h.wf E h2.wf es _ c d.cloned.Has h2 hk' (frame_clone h.wf.fresh h1) (fun x hx => by
    obtain ⟨i, hi⟩ := (h2.names x).2 hx
    exact ⟨i, hi, hi⟩) hc hn
  refine ⟨c, c', h1, ?_, ?_, h5⟩
  · unfold runCopy FModel.copyTransaction
    simp only [h1, h3, consistent_of_WF h5.wf]
  · unfold runTransaction FModel.commitOps
    simp only [h4, consistent_of_WF h5.wf]

/-- Moving a feature in a copy transaction has no effect, in every model and wherever it is moved to: what is committed is
    described as the clone. -/
theorem C20_move_ignored (E : Env) (h : Describes d m) (hk : ConstraintsKnown d) (hroot : c!"root" ∉ d.attrs.map Attr.name) (p x : Str) :
    ∃ c, runCopy E m [.move p x] = some (some c) ∧ Describes d.cloned c :=
  C20_described E h hk hroot (es := [.move p x]) ⟨.inl ⟨p, x, rfl⟩, trivial⟩

/-- The conditions are met: `C` is added below `A`, `D` below `C`, and the model gets another name. -/
example (E : Env) : ∃ m c c' c'', Describes (pairDesc false false (some .alternative) false) m ∧
    runCopy E m [.add { name := c!"C", kind := .binary } c!"A", .add { name := c!"D", kind := .binary } c!"C", .name c!"New"] = some (some c) ∧
    c.name = c!"New" ∧ (∃ i, (c!"D", i) ∈ c.features) ∧
    m.clone E = .built c' ∧ runCopy E m [.add { name := c!"C", kind := .binary } c!"A", .name c!"New"] = some (some c'') ∧
    runTransaction E c' [.add { name := c!"C", kind := .binary } c!"A", .name c!"New"] = some c'' := by
  obtain ⟨m, h⟩ := pair_model false false (some .alternative) false
  obtain ⟨c, h1, h2⟩ := C20_described E h (pair_known _ _ _ _) (by decide)
    (es := [.add { name := c!"C", kind := .binary } c!"A", .add { name := c!"D", kind := .binary } c!"C", .name c!"New"]) (by
      simp [Desc.CanCopy, Desc.inCopy, Desc.Can, Desc.edit, Desc.cloned, Desc.Has, pairDesc, pairCalls, attrsOf, groupsOf, clonedAttr])
  obtain ⟨c', c'', k1, k2, k3, _⟩ := C20_same_edits_partial E h (pair_known _ _ _ _) (by decide)
    (es := [.add { name := c!"C", kind := .binary } c!"A", .name c!"New"]) (by
      simp [Desc.CanAll, Desc.Can, Desc.edit, Desc.cloned, Desc.Has, pairDesc, pairCalls, attrsOf, groupsOf, clonedAttr]) (by
      intro e he
      simp at he
      rcases he with rfl | rfl <;> (intro p x h; cases h))
  exact ⟨m, c, c', c'', h, h1, h2.name, (h2.names _).2 (by
    simp [Desc.inCopy, Desc.edit, Desc.cloned, pairDesc, pairCalls, attrsOf, clonedAttr]), k1, k2, k3⟩

end Verif.Props

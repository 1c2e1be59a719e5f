import Verif.FM.BuildOrder
import Verif.Props.Build

/-!
# The order of names given to a builder (C28)
-/

namespace Verif.Props
open Verif Verif.Spec

/-- A name that is not free when it is given makes the result null, whatever the other calls are: a feature called like the root
    of that time (`root` before the first `makeRoot`) or like a feature made before, or a root called like a feature made before. -/
theorem C28_taken {world : FModel} (hf : ∀ i, world.heap i ≠ none → i < world.next) (E : Env) {calls : List BCall}
    (hk : ∀ a ∈ attrsOf calls, a.kind ≠ .root) (hn : ¬ NamesFree c!"root" [] calls) :
    world.build E (builderOf calls) = .null := build_taken hf E hk hn

/-- If all names are free when they are given, the edges make a tree and the groups are below different features, then the builder
    gives the model described; the last of several roots, names, paths and commits counts. -/
theorem C28_in_order {world : FModel} (hf : ∀ i, world.heap i ≠ none → i < world.next) (E : Env) {calls : List BCall} {d : Desc}
    (hb : BuildableInOrder calls d) (hk : ConstraintsKnown d) :
    ∃ m, world.build E (builderOf calls) = .built m ∧ Describes d m := build_ok_order hf E hb hk

/-- Exactly, for calls without edges, groups and constraints: there is a model if and only if all names are free when given, and else
    null. -/
theorem C28_names_iff {world : FModel} (hf : ∀ i, world.heap i ≠ none → i < world.next) (E : Env) {calls : List BCall}
    (hk : ∀ a ∈ attrsOf calls, a.kind ≠ .root) (he : ∀ p c, .addEdge p c ∉ calls) (hg : groupsOf calls = [])
    (hc : constraintsOf calls = []) :
    (NamesFree c!"root" [] calls → ∃ m, world.build E (builderOf calls) = .built m) ∧
    (¬ NamesFree c!"root" [] calls → world.build E (builderOf calls) = .null) := by
  refine ⟨fun h => ?_, build_taken hf E hk⟩
  let d : Desc :=
    { name := lastOr c!"FeatureModel" (namesOf calls)
      path := lastOr [] (pathsOf calls)
      commit := lastOr [] (commitsOf calls)
      root := lastOr c!"root" (rootsOf calls)
      attrs := attrsOf calls
      parent := fun _ => lastOr c!"root" (rootsOf calls)
      groups := []
      constraints := [] }
  have hnew : d.root ∉ (attrsOf calls).map Attr.name := by
    rcases phase1_order E calls world.fresh freshDesc (describes_fresh hf) rfl rfl rfl hk with ⟨_, _, _, h2⟩ | ⟨_, _, _, h2⟩
    · exact absurd h h2
    · exact h2.root_new
  obtain ⟨m, h1, _⟩ := build_ok_order hf E (d := d)
    { attrs := rfl, kinds := hk, free := h, root := rfl
      edges := fun p c hx => absurd hx (he p c)
      no_edge := fun _ _ _ => rfl
      acyclic := ⟨rootRank d.root (fun _ => 0), by
        intro a ha
        have : a.name ≠ d.root := fun e => hnew (e ▸ List.mem_map_of_mem ha)
        show rootRank d.root (fun _ => 0) d.root < _
        simp [rootRank, this]⟩
      groups := hg.symm
      one_group := by rw [hg]; exact List.nodup_nil
      groups_known := by rw [hg]; intro g hx; cases hx
      constraints := hc.symm
      name := rfl, path := rfl, commit := rfl } (by intro x hx; cases hx)
  exact ⟨m, h1⟩

/-- The calls of `C28_order_of_root`: free in one order, taken in the other; and a root made twice. -/
example : NamesFree c!"root" [] [.makeRoot c!"R", .makeFeature { name := c!"root", kind := .binary }] ∧
    ¬ NamesFree c!"root" [] [.makeFeature { name := c!"root", kind := .binary }, .makeRoot c!"R"] ∧
    NamesFree c!"root" [] [.makeRoot c!"R", .makeFeature { name := c!"root", kind := .binary }, .makeRoot c!"S"] ∧
    ¬ NamesFree c!"root" [] [.makeRoot c!"R", .makeFeature { name := c!"A", kind := .binary }, .makeRoot c!"A"] := by
  simp [NamesFree]

end Verif.Props

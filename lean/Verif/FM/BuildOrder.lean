import Verif.FM.Buildable

/-!
# Names in the order they are given to a builder

A new builder has a root called `root`; `makeRoot` gives it another name, and from then on `root` is free.
-/

namespace Verif
namespace Spec

/-- Every name is free when it is given: a feature is not called like the root of that time or a feature made before, and a root not
    like a feature made before. -/
def NamesFree (root : Str) (names : List Str) : List BCall → Prop
  | [] => True
  | .makeFeature a :: cs => a.name ≠ root ∧ a.name ∉ names ∧ NamesFree root (names ++ [a.name]) cs
  | .makeRoot n :: cs => n ∉ names ∧ NamesFree n names cs
  | _ :: cs => NamesFree root names cs

/-- Calls that describe a model, as `Buildable`, but with names that are free when they are given; the last of several names, paths,
    commits and roots counts. -/
structure BuildableInOrder (calls : List BCall) (d : Desc) : Prop where
  attrs : d.attrs = attrsOf calls
  kinds : ∀ a ∈ attrsOf calls, a.kind ≠ .root
  free : NamesFree c!"root" [] calls
  root : d.root = lastOr c!"root" (rootsOf calls)
  edges : ∀ p c, .addEdge p c ∈ calls →
    c ∈ (attrsOf calls).map Attr.name ∧ (p = d.root ∨ p ∈ (attrsOf calls).map Attr.name) ∧ d.parent c = p
  no_edge : ∀ a ∈ attrsOf calls, (∀ p, .addEdge p a.name ∉ calls) → d.parent a.name = d.root
  acyclic : ∃ rk : Str → Nat, ∀ a ∈ attrsOf calls, rk (d.parent a.name) < rk a.name
  groups : d.groups = groupsOf calls
  one_group : ((groupsOf calls).map Prod.fst).Nodup
  groups_known : ∀ g ∈ groupsOf calls, g.1 = d.root ∨ g.1 ∈ (attrsOf calls).map Attr.name
  constraints : d.constraints = constraintsOf calls
  name : d.name = lastOr c!"FeatureModel" (namesOf calls)
  path : d.path = lastOr [] (pathsOf calls)
  commit : d.commit = lastOr [] (commitsOf calls)

end Spec
open Verif.Spec

theorem phase1_order (E : Env) : ∀ (calls : List BCall) (m : FModel) (d : Desc), Describes d m → d.groups = [] →
    d.constraints = [] → d.parent = (fun _ => d.root) → (∀ a ∈ attrsOf calls, a.kind ≠ .root) →
    (∃ e m', FModel.outFold (FModel.exec E) m (calls.filterMap BCall.featOp) = .err e m' ∧ ¬ NamesFree d.root (d.attrs.map Attr.name) calls) ∨
    (∃ m', FModel.outFold (FModel.exec E) m (calls.filterMap BCall.featOp) = .ok m' ∧
      NamesFree d.root (d.attrs.map Attr.name) calls ∧
      Describes { d with attrs := d.attrs ++ attrsOf calls, root := lastOr d.root (rootsOf calls),
                         parent := fun _ => lastOr d.root (rootsOf calls) } m')
  | [], m, d, h, _, _, hp, _ => by
    refine .inr ⟨m, rfl, trivial, ?_⟩
    have : ({ d with attrs := d.attrs ++ attrsOf [], root := lastOr d.root (rootsOf []),
                     parent := fun _ => lastOr d.root (rootsOf []) } : Desc) = d := by
      obtain ⟨a, b, c, e, f, g, i, j⟩ := d
      simp only at hp
      subst hp
      simp [attrsOf, rootsOf, lastOr]
    rw [this]; exact h
  | .makeFeature a :: cs, m, d, h, hg, hc, hp, hk => by
    have hka : a.kind ≠ .root := hk a (by simp [attrsOf])
    have hkr : ∀ b ∈ attrsOf cs, b.kind ≠ .root := fun b hb => hk b (by simp only [attrsOf] at *; simp at *; exact .inr hb)
    have e1 : attrsOf (.makeFeature a :: cs) = a :: attrsOf cs := by simp [attrsOf]
    have e2 : rootsOf (.makeFeature a :: cs) = rootsOf cs := by simp [rootsOf]
    by_cases hn : a.name ∈ m.features.map Prod.fst
    · refine .inl ⟨.alreadyPresent, m, ?_, ?_⟩
      · simp only [List.filterMap_cons, BCall.featOp, FModel.outFold, FModel.exec, execAddFeature_err hn]
      · rintro ⟨g1, g2, _⟩
        rw [mem_features_fst, h.names] at hn
        rcases hn with hn | hn
        · exact g1 hn
        · exact g2 hn
    · rw [mem_features_fst, h.names, not_or] at hn
      obtain ⟨m1, h1, h2⟩ := describes_addFeature E h hg hc hp hka hn.1 hn.2
      have hh := phase1_order E cs m1 _ h2 hg hc hp hkr
      have hf : FModel.outFold (FModel.exec E) m ((.makeFeature a :: cs).filterMap BCall.featOp) =
          FModel.outFold (FModel.exec E) m1 (cs.filterMap BCall.featOp) := by
        simp only [List.filterMap_cons, BCall.featOp]; exact outFold_cons h1
      rw [hf, e1, e2]
      simp only [List.append_assoc, List.singleton_append] at hh
      rcases hh with ⟨e, m', g1, g2⟩ | ⟨m', g1, g2, g3⟩
      · exact .inl ⟨e, m', g1, fun g3 => g2 (by simpa using g3.2.2)⟩
      · exact .inr ⟨m', g1, ⟨hn.1, hn.2, by simpa using g2⟩, g3⟩
  | .makeRoot n :: cs, m, d, h, hg, hc, hp, hk => by
    have e1 : attrsOf (.makeRoot n :: cs) = attrsOf cs := by simp [attrsOf]
    have e2 : rootsOf (.makeRoot n :: cs) = n :: rootsOf cs := by simp [rootsOf]
    rw [e1] at hk
    by_cases hn : n ∈ d.attrs.map Attr.name
    · obtain ⟨r, rf, r1, r2, r3, r4⟩ := h.root
      have hne : rf.attr.name ≠ n := by rw [r4]; rintro rfl; exact h.root_new hn
      refine .inl ⟨.alreadyPresent, m, ?_, ?_⟩
      · have := execSetRoot_taken r1 r3 hne (mem_features_fst.2 ((h.names n).2 (.inr hn)))
        simp only [List.filterMap_cons, BCall.featOp, FModel.outFold, FModel.exec, this]
      · rintro ⟨g1, _⟩
        exact g1 hn
    · obtain ⟨m1, h1, h2⟩ := describes_setRoot E h hg hc hp hn
      have hh := phase1_order E cs m1 _ h2 hg hc rfl hk
      have hf : FModel.outFold (FModel.exec E) m ((.makeRoot n :: cs).filterMap BCall.featOp) =
          FModel.outFold (FModel.exec E) m1 (cs.filterMap BCall.featOp) := by
        simp only [List.filterMap_cons, BCall.featOp]; exact outFold_cons h1
      rw [hf, e1, e2]
      rcases hh with ⟨e, m', g1, g2⟩ | ⟨m', g1, g2, g3⟩
      · exact .inl ⟨e, m', g1, fun g3 => g2 g3.2⟩
      · exact .inr ⟨m', g1, ⟨hn, g2⟩, g3⟩
  | .addEdge p c :: cs, m, d, h, hg, hc, hp, hk => phase1_order E cs m d h hg hc hp hk
  | .emplaceRelationship k p :: cs, m, d, h, hg, hc, hp, hk => phase1_order E cs m d h hg hc hp hk
  | .addConstraint k c :: cs, m, d, h, hg, hc, hp, hk => phase1_order E cs m d h hg hc hp hk
  | .setVmName n :: cs, m, d, h, hg, hc, hp, hk => phase1_order E cs m d h hg hc hp hk
  | .setPath n :: cs, m, d, h, hg, hc, hp, hk => phase1_order E cs m d h hg hc hp hk
  | .setCommit n :: cs, m, d, h, hg, hc, hp, hk => phase1_order E cs m d h hg hc hp hk

/-- The first two phases, and the third up to constraints. -/
theorem build_steps_order {world : FModel} (hf : ∀ i, world.heap i ≠ none → i < world.next) (E : Env) {calls : List BCall} {d : Desc}
    (hb : BuildableInOrder calls d) : ∃ m1 m2, world.fresh.commitOps E (calls.filterMap BCall.featOp) = .ok m1 ∧
      m1.commitOps E (calls.filterMap BCall.modelOp) = .ok m2 ∧
      Describes { d with groups := [], constraints := [] } m2 := by
  have hroot : lastOr freshDesc.root (rootsOf calls) = d.root := hb.root.symm
  rcases phase1_order E calls world.fresh freshDesc (describes_fresh hf) rfl rfl rfl hb.kinds with ⟨e, m1, _, h2⟩ | ⟨m1, h1, _, h2⟩
  · exact absurd hb.free h2
  rw [hroot] at h2
  simp only [freshDesc, List.nil_append] at h2
  have root_new : d.root ∉ (attrsOf calls).map Attr.name := h2.root_new
  have distinct : ((attrsOf calls).map Attr.name).Nodup := h2.distinct
  obtain ⟨rk, hrk⟩ := hb.acyclic
  have hrr : ∀ n ∈ (attrsOf calls).map Attr.name, rootRank d.root rk n = rk n + 1 := by
    intro n hn
    have : n ≠ d.root := by rintro rfl; exact root_new hn
    simp [rootRank, this]
  rcases phase2 E (rootRank d.root rk) calls m1 _ h2 rfl rfl (by
      intro a ha
      rw [hrr _ (List.mem_map_of_mem (f := Attr.name) ha)]
      simp [rootRank]) (by
      intro p c hx
      obtain ⟨g1, g2, g3⟩ := hb.edges p c hx
      refine ⟨?_, by rintro rfl; exact root_new g1⟩
      rw [hrr c g1]
      obtain ⟨a, ha, rfl⟩ := List.mem_map.1 g1
      have := hrk a ha
      rw [g3] at this
      unfold rootRank
      split <;> omega) with ⟨e, m2, _, h4⟩ | ⟨m2, h3, h4, _⟩
  · exact absurd (fun p c hx => ⟨(hb.edges p c hx).1, (hb.edges p c hx).2.1⟩) h4
  refine ⟨m1, m2, commitOps_ok h1 h2.wf, commitOps_ok h3 h4.wf, ?_⟩
  refine h4.congr ?_ ?_ ?_ rfl ?_ ?_ ?_ ?_ ?_
  · exact hb.name
  · exact hb.path
  · exact hb.commit
  · simp only [hb.attrs]; exact distinct
  · intro a; simp only [hb.attrs]
  · intro a ha
    simp only at ha ⊢
    rcases parentsAfter_cases calls (fun _ => d.root) a.name with ⟨p, g1, g2⟩ | ⟨g1, g2⟩
    · rw [g2]; exact (hb.edges p _ g1).2.2
    · rw [g2]; exact hb.no_edge a ha g1
  · intro g; simp
  · intro cl; simp [Desc.ofClass]

/-- Every such list of calls builds the model it describes. -/
theorem build_ok_order {world : FModel} (hf : ∀ i, world.heap i ≠ none → i < world.next) (E : Env) {calls : List BCall} {d : Desc}
    (hb : BuildableInOrder calls d) (hk : ConstraintsKnown d) :
    ∃ m, world.build E (builderOf calls) = .built m ∧ Describes d m := by
  rw [builderOf_eq]
  obtain ⟨m1, m2, h1, h2, h4⟩ := build_steps_order hf E hb
  obtain ⟨m3, h5, h6⟩ := phase3 E calls m2 _ h4 (by simpa using hb.one_group)
    (by simp only [hb.attrs]; exact hb.groups_known)
    (by have := hk; unfold ConstraintsKnown at this; rw [hb.constraints] at this; exact this)
  refine ⟨m3, ?_, ?_⟩
  · simp only [FModel.build, h1, h2, commitOps_ok h5 h6.wf]
  · have : d = { d with groups := groupsOf calls, constraints := constraintsOf calls } := by
      rw [← hb.groups, ← hb.constraints]
    rw [this]
    simpa using h6

/-- A constraint on a feature that was not made: null. -/
theorem build_constraint_missing_order {world : FModel} (hf : ∀ i, world.heap i ≠ none → i < world.next) (E : Env)
    {calls : List BCall} {d : Desc} (hb : BuildableInOrder calls d) (hk : ¬ ConstraintsKnown d) :
    world.build E (builderOf calls) = .null := by
  rw [builderOf_eq]
  obtain ⟨m1, m2, h1, h2, h4⟩ := build_steps_order hf E hb
  obtain ⟨e, m3, h5⟩ := phase3_missing E calls m2 _ h4 (by simpa using hb.one_group)
    (by simp only [hb.attrs]; exact hb.groups_known)
    (by unfold ConstraintsKnown at hk; rw [hb.constraints] at hk; exact hk)
  simp only [FModel.build, h1, h2, commitOps_err h5]

/-- A name that is not free when it is given: null, whatever the other calls are. -/
theorem build_taken {world : FModel} (hf : ∀ i, world.heap i ≠ none → i < world.next) (E : Env) {calls : List BCall}
    (hk : ∀ a ∈ attrsOf calls, a.kind ≠ .root) (hn : ¬ NamesFree c!"root" [] calls) :
    world.build E (builderOf calls) = .null := by
  rw [builderOf_eq]
  rcases phase1_order E calls world.fresh freshDesc (describes_fresh hf) rfl rfl rfl hk with ⟨e, m1, h1, _⟩ | ⟨m1, h1, h2, _⟩
  · simp only [FModel.build, commitOps_err h1]
  · exact absurd h2 hn

end Verif

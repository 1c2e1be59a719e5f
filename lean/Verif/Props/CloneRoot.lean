import Verif.Props.Clone
/-!
# Property C29: what is stored at the root is lost

Whatever locations, output text or optional flag the root of a model has, its clone is the clone of the model whose
root has none.
-/

namespace Verif.Props
open Spec FModel

/-- The model with other attributes at its root. -/
def rootWith (m : FModel) (r : Id) (a : Attr) : FModel :=
  { m with heap := fun i => if i = r then (m.heap i).map fun n =>
      { n with data := match n.data with | .feat f => .feat { f with attr := a } | .rel k => .rel k } else m.heap i }

section
variable {m : FModel} {r : Id} {a : Attr}

theorem rootWith_ne {i : Id} (h : i ≠ r) : (rootWith m r a).heap i = m.heap i := by simp [rootWith, h]

theorem rootWith_parentFeature : ∀ (n : Nat) (i : Id), (rootWith m r a).parentFeatureFuel n i = m.parentFeatureFuel n i
  | 0, _ => rfl
  | n + 1, i => by
    have hp : ∀ j, ((rootWith m r a).heap j).map Node.parent = (m.heap j).map Node.parent := by
      intro j
      by_cases hj : j = r
      · subst hj
        simp only [rootWith, if_true, Option.map_map]
        rfl
      · rw [rootWith_ne hj]
    have hf : ∀ j, ((rootWith m r a).heap j).map Node.isFeat = (m.heap j).map Node.isFeat := by
      intro j
      by_cases hj : j = r
      · subst hj
        simp only [rootWith, if_true, Option.map_map]
        cases m.heap j with
        | none => rfl
        | some nd =>
          obtain ⟨d, p, e⟩ := nd
          cases d <;> rfl
      · rw [rootWith_ne hj]
    unfold parentFeatureFuel
    have hpi := hp i
    cases h1 : m.heap i with
    | none =>
      rw [h1] at hpi
      rw [Option.map_eq_none_iff.1 hpi]
    | some nd =>
      rw [h1] at hpi
      obtain ⟨nd', h2, h3⟩ := Option.map_eq_some_iff.1 hpi
      rw [h2]
      simp only [h3]
      cases hq : nd.parent with
      | none => rfl
      | some q =>
        simp only
        have hfq := hf q
        cases h4 : m.heap q with
        | none =>
          rw [h4] at hfq
          rw [Option.map_eq_none_iff.1 hfq]
        | some qn =>
          rw [h4] at hfq
          obtain ⟨qn', h5, h6⟩ := Option.map_eq_some_iff.1 hfq
          rw [h5]
          simp only [h6]
          split
          · rfl
          · exact rootWith_parentFeature n q

variable {f : Feat} (hd : data m r = some (.feat f)) (hn : a.name = f.attr.name) (hk : a.kind = .root) (hf : f.attr.kind = .root)
include hd

theorem rootWith_feat : (rootWith m r a).feat? r = some { f with attr := a } ∧ m.feat? r = some f := by
  have h := heap_of_data hd
  unfold feat?
  simp [rootWith, h]

include hn

theorem rootWith_nameOf (i : Id) : (rootWith m r a).nameOf i = m.nameOf i := by
  unfold nameOf
  by_cases hi : i = r
  · subst hi
    rw [(rootWith_feat hd).1, (rootWith_feat (a := a) hd).2]
    simp [hn]
  · unfold feat?
    rw [rootWith_ne hi]

theorem rootWith_cloneRel (b : ModelBuilder) (x : Id) : (rootWith m r a).cloneRel b x = m.cloneRel b x := by
  have h := heap_of_data hd
  unfold cloneRel
  by_cases hx : x = r
  · subst hx
    simp [rootWith, h]
  · rw [rootWith_ne hx]
    cases hm : m.heap x with
    | none => rfl
    | some nd =>
      simp only
      cases hdd : nd.data with
      | feat g => rfl
      | rel k =>
        cases hp : nd.parent with
        | none => rfl
        | some p =>
          simp only
          by_cases hpr : p = r
          · subst hpr
            simp [rootWith, h, hn]
          · rw [rootWith_ne hpr]

omit hn in
theorem rootWith_cloneStored (s : Stored) : (rootWith m r a).cloneStored s = m.cloneStored s := by
  have : ∀ i, ((rootWith m r a).feat? i).isSome = (m.feat? i).isSome := by
    intro i
    by_cases hi : i = r
    · subst hi
      rw [(rootWith_feat hd).1, (rootWith_feat (a := a) hd).2]
      rfl
    · unfold feat?
      rw [rootWith_ne hi]
  unfold cloneStored
  congr 2
  refine congrArg (fun g => s.binds.all g) (funext fun b => ?_)
  cases b with
  | none => rfl
  | some i => exact this i

include hk hf

theorem rootWith_cloneFeature (b : ModelBuilder) (i : Id) : (rootWith m r a).cloneFeature b i = m.cloneFeature b i := by
  unfold cloneFeature parentFeature
  rw [show (rootWith m r a).next = m.next from rfl, rootWith_parentFeature]
  simp only [rootWith_nameOf hd hn]
  by_cases hi : i = r
  · subst hi
    rw [(rootWith_feat hd).1, (rootWith_feat (a := a) hd).2]
    simp only [hk, hf, hn]
  · have : (rootWith m r a).feat? i = m.feat? i := by
      unfold feat?
      rw [rootWith_ne hi]
    rw [this]

theorem rootWith_cloneCalls (E : Env) : (rootWith m r a).cloneCalls E = m.cloneCalls E := by
  unfold cloneCalls cloneConstraints
  simp only [rootWith_cloneFeature hd hn hk hf, rootWith_cloneRel hd hn, rootWith_cloneStored hd]
  rfl
end

/-- The clone of a model with any attributes at the root has the description of the clone without them, so its root
    has nothing but its name. -/
theorem C29_root_attributes {d : Desc} {m : FModel} (h : Describes d m) (E : Env) (hroot : c!"root" ∉ d.attrs.map Attr.name)
    (hc : ConstraintsKnown d) {r : Id} (hr : m.root = some r) {a : Attr} (hn : a.name = d.root) (hk : a.kind = .root) :
    ∃ c i f, (rootWith m r a).clone E = .built c ∧ Describes d.cloned c ∧ c.root = some i ∧ data c i = some (.feat f) ∧
      f.attr = { name := a.name, kind := .root } := by
  obtain ⟨r', rf, b1, b2, b3, b4⟩ := h.root
  rw [hr] at b1; cases b1
  have hw : ∀ i, (rootWith m r a).heap i ≠ none → i < (rootWith m r a).next := by
    intro i hi
    refine h.wf.fresh i fun e => hi ?_
    by_cases hir : i = r
    · subst hir; simp [rootWith, e]
    · rw [rootWith_ne hir]; exact e
  obtain ⟨c, h1, h2⟩ := clone_builds h E hroot hc hw
  have hcl : (rootWith m r a).clone E = .built c := by
    have e : (rootWith m r a).cloneCalls E = m.cloneCalls E :=
      rootWith_cloneCalls b3 (by rw [b4]; exact hn) hk (by rw [b4]) E
    simp only [FModel.clone, e, cloneCalls_eq h E, h1]
  obtain ⟨i, f, c1, c2, c3, c4⟩ := h2.root
  refine ⟨c, i, f, hcl, h2, c1, c3, ?_⟩
  rw [c4, hn]
  rfl

/-- A model with features, a group and constraints, and a location at its root. -/
example : ∃ m r c i f, nothing.build (stdEnv true) (builderOf someCalls) = .built m ∧ m.root = some r ∧
    (rootWith m r { name := someDesc.root, kind := .root, locs := [⟨[c!"a.cpp"], none, none, .necessary, none, none⟩] }).clone (revEnv true) =
      .built c ∧ c.root = some i ∧ data c i = some (.feat f) ∧ f.attr.locs = [] := by
  obtain ⟨m, h1, h2⟩ := C28_builds_partial nothing_fresh (stdEnv true) someCalls_buildable someDesc_known
  obtain ⟨r, _, b1, _⟩ := h2.root
  obtain ⟨c, i, f, c1, _, c2, c3, c4⟩ := C29_root_attributes h2 (revEnv true) (by decide) someDesc_known b1
    (a := { name := someDesc.root, kind := .root, locs := [⟨[c!"a.cpp"], none, none, .necessary, none, none⟩] }) rfl rfl
  exact ⟨m, r, c, i, f, h1, b1, c1, c2, c3, by rw [c4]⟩

end Verif.Props

import Verif.Merge.Spec
import Verif.FM.Copy
/-! Lemmas: what `compareProperties` decides. -/

namespace Verif
open Verif.Spec

variable {m1 m2 : FModel}

theorem sameParentName_spec (w1 : WF m1) (w2 : WF m2) {i j : Id} (hi : Known m1 i) (hj : Known m2 j)
    (ri : m1.root ≠ some i) (rj : m2.root ≠ some j) :
    ∃ b, m1.sameParentName m2 i j = some b ∧ (b = true ↔ SameParent m1 m2 i j) := by
  obtain ⟨p, hp, kp⟩ := w1.has_fparent (.inl hi) ri
  obtain ⟨q, hq, kq⟩ := w2.has_fparent (.inl hj) rj
  obtain ⟨r1, e1, s1⟩ := parentFeature_spec w1 (.inl hi)
  obtain ⟨r2, e2, s2⟩ := parentFeature_spec w2 (.inl hj)
  rw [(s1 p).2 hp] at e1
  rw [(s2 q).2 hq] at e2
  obtain ⟨⟨pn, p'⟩, hpn, rfl⟩ := List.mem_map.1 kp
  obtain ⟨⟨qn, q'⟩, hqn, rfl⟩ := List.mem_map.1 kq
  refine ⟨decide (lower pn = lower qn), ?_, ?_⟩
  · simp only [FModel.sameParentName, e1, e2, nameOf_mem w1 hpn, nameOf_mem w2 hqn]
  · rw [decide_eq_true_iff]
    constructor
    · intro h; exact ⟨p', q', pn, qn, hp, hq, hpn, hqn, h⟩
    · rintro ⟨x, y, xn, yn, h1, h2, h3, h4, h5⟩
      have := h1.functional hp; subst this
      have := h2.functional hq; subst this
      have := w1.id_unique h3 hpn; subst this
      have := w2.id_unique h4 hqn; subst this
      exact h5

theorem parentIsFeat_spec {m : FModel} (w : WF m) {i : Id} (hi : Known m i) (ri : m.root ≠ some i) :
    ∃ b, m.parentIsFeat i = some b ∧ (b = true ↔ ¬ InGroup m i) := by
  obtain ⟨f, hf⟩ := w.known_data hi
  cases hp : par m i with
  | none => exact absurd (w.orphan i (.inl hi) hp) ri
  | some p =>
    obtain ⟨hop, _⟩ := w.par_edge i p (.inl hi) hp
    obtain ⟨d, hd⟩ := w.owned_data hop
    have h1 : m.parentIsFeat i = some (isF d) := by
      have : m.heap i = some ⟨.feat f, par m i, edg m i⟩ := heap_of_data hf
      simp only [FModel.parentIsFeat, this, hp, heap_of_data hd, Option.map_some, isFeat_T]
    refine ⟨_, h1, ?_⟩
    unfold InGroup
    constructor
    · rintro h ⟨r, hr, k, hk⟩
      rw [hp] at hr; cases hr
      rw [hd] at hk; cases hk
      cases h
    · intro h
      cases d with
      | feat f => rfl
      | rel k => exact absurd ⟨p, hp, k, hd⟩ h

theorem root_of_kind {m : FModel} (w : WF m) {i : Id} (hi : Known m i) {f : Feat} (hf : data m i = some (.feat f)) :
    f.attr.kind = .root ↔ m.root = some i := by
  constructor
  · exact w.one_root i f hi hf
  · intro h
    obtain ⟨r, rf, hr, _, hrd, hrr, _⟩ := w.root_ok
    rw [h] at hr; cases hr
    rw [hf] at hrd; cases hrd
    exact hrr

theorem compareRest_spec (w1 : WF m1) (w2 : WF m2) {i j : Id} (hi : Known m1 i) (hj : Known m2 j) {f g : Feat}
    (hf : data m1 i = some (.feat f)) (hg : data m2 j = some (.feat g)) (strict : Bool) :
    ∃ b, m1.compareRest m2 i j f.attr g.attr strict = some b ∧
      (b = true ↔ (strict = true → f.attr.opt = g.attr.opt ∧ SameKind f.attr.kind g.attr.kind ∧
        (f.attr.kind = .root ∨ (InGroup m1 i ↔ InGroup m2 j)))) := by
  unfold FModel.compareRest
  cases strict with
  | false => exact ⟨true, rfl, by simp⟩
  | true =>
    simp only [Bool.not_true, Bool.false_eq_true, if_false, forall_const]
    by_cases ho : f.attr.opt = g.attr.opt
    · rw [if_neg (by simpa using ho)]
      by_cases hk : FModel.sameFeatureKind f.attr.kind g.attr.kind = true
      · rw [if_neg (by simp [hk])]
        by_cases hr : f.attr.kind = .root
        · rw [if_pos hr]
          refine ⟨true, rfl, ?_⟩
          rw [hr] at hk ⊢
          cases hgk : g.attr.kind <;> rw [hgk] at hk <;> simp [FModel.sameFeatureKind] at hk
          simp [ho, SameKind]
        · rw [if_neg hr]
          have ri : m1.root ≠ some i := fun h => hr ((root_of_kind w1 hi hf).2 h)
          have rj : m2.root ≠ some j := by
            intro h
            rw [(root_of_kind w2 hj hg).2 h] at hk
            cases hfk : f.attr.kind <;> rw [hfk] at hk <;> simp [FModel.sameFeatureKind] at hk
            exact hr hfk
          obtain ⟨x, hx, hxs⟩ := parentIsFeat_spec w1 hi ri
          obtain ⟨y, hy, hys⟩ := parentIsFeat_spec w2 hj rj
          simp only [hx, hy]
          have hxy : x = y ↔ (InGroup m1 i ↔ InGroup m2 j) := by
            have e1 : InGroup m1 i ↔ x = false := by
              constructor
              · intro h; cases x with
                | false => rfl
                | true => exact absurd h (hxs.1 rfl)
              · intro h; apply Classical.byContradiction; intro hn; rw [hxs.2 hn] at h; cases h
            have e2 : InGroup m2 j ↔ y = false := by
              constructor
              · intro h; cases y with
                | false => rfl
                | true => exact absurd h (hys.1 rfl)
              · intro h; apply Classical.byContradiction; intro hn; rw [hys.2 hn] at h; cases h
            rw [e1, e2]
            cases x <;> cases y <;> simp
          by_cases he : x = y
          · rw [if_neg (by simpa using he)]
            have := hxy.1 he
            cases hfk : f.attr.kind <;> cases hgk : g.attr.kind <;> rw [hfk, hgk] at hk <;>
              simp [FModel.sameFeatureKind] at hk <;> (first | exact absurd hfk hr | simp [SameKind, ho, this])
          · rw [if_pos (by simpa using he)]
            refine ⟨false, rfl, ?_⟩
            have : ¬ (InGroup m1 i ↔ InGroup m2 j) := fun h => he (hxy.2 h)
            simp [this, hr]
      · rw [if_pos (by simpa using hk)]
        refine ⟨false, rfl, ?_⟩
        simp only [Bool.false_eq_true, false_iff, not_and]
        intro _ h
        exfalso
        cases hfk : f.attr.kind <;> cases hgk : g.attr.kind <;> rw [hfk, hgk] at hk h <;>
          simp [FModel.sameFeatureKind, SameKind] at hk h
    · rw [if_pos (by simpa using ho)]
      exact ⟨false, rfl, by simp [ho]⟩

theorem compareProperties_spec (w1 : WF m1) (w2 : WF m2) {n : Str} {i j : Id} (hi : (n, i) ∈ m1.features) (hj : (n, j) ∈ m2.features)
    (strict : Bool) : ∃ b, m1.compareProperties m2 i j strict = some b ∧ (b = true ↔ Fits strict m1 m2 i j) := by
  have ki := known_of_mem hi
  have kj := known_of_mem hj
  obtain ⟨f, hf, fn⟩ := w1.feat_ok _ hi
  obtain ⟨g, hg, gn⟩ := w2.feat_ok _ hj
  simp only at hf fn hg gn
  obtain ⟨b, hb, hbs⟩ := compareRest_spec w1 w2 ki kj hf hg strict
  have hfits : Fits strict m1 m2 i j ↔ (f.attr.kind = .root ∨ g.attr.kind = .root ∨ SameParent m1 m2 i j) ∧ b = true := by
    rw [hbs]
    unfold Fits
    constructor
    · rintro ⟨f', g', h1, h2, h3⟩
      rw [hf] at h1; cases h1
      rw [hg] at h2; cases h2
      exact h3
    · intro h; exact ⟨f, g, hf, hg, h⟩
  unfold FModel.compareProperties
  rw [feat?_of_data hf, feat?_of_data hg]
  simp only
  rw [if_neg (by rw [fn, gn]; simp)]
  by_cases hr : f.attr.kind ≠ .root ∧ g.attr.kind ≠ .root
  · rw [if_pos hr]
    have ri : m1.root ≠ some i := fun h => hr.1 ((root_of_kind w1 ki hf).2 h)
    have rj : m2.root ≠ some j := fun h => hr.2 ((root_of_kind w2 kj hg).2 h)
    obtain ⟨p, hp, hps⟩ := sameParentName_spec w1 w2 ki kj ri rj
    rw [hp]
    cases p with
    | false =>
      refine ⟨false, rfl, ?_⟩
      rw [hfits]
      simp only [Bool.false_eq_true, false_iff] at hps
      simp [hr.1, hr.2, hps]
    | true =>
      refine ⟨b, hb, ?_⟩
      rw [hfits]
      simp [hps.1 rfl]
  · rw [if_neg hr]
    refine ⟨b, hb, ?_⟩
    rw [hfits]
    by_cases h1 : f.attr.kind = .root
    · simp [h1]
    · by_cases h2 : g.attr.kind = .root
      · simp [h2]
      · exact absurd ⟨h1, h2⟩ hr

end Verif

import Verif.Merge.Model
/-! Lemma: what all modifications of a copy keep, merging keeps. -/

namespace Verif

section
variable {E : Env} {P : FModel → Prop} (hP : ∀ (os : List Op) (c c' : FModel), P c → FModel.copyRun E c os = some c' → P c')
include hP

theorem keep_mergeOne {strict : Bool} {m1 m2 c c' : FModel} {j : Id} {b : Bool} (t : P c)
    (h : FModel.mergeOne E strict m1 m2 c j = some (c', b)) : P c' := by
  unfold FModel.mergeOne at h
  cases hg : m2.feat? j with
  | none => rw [hg] at h; cases h
  | some g =>
    rw [hg] at h
    simp only at h
    cases hi : m1.getFeature g.attr.name with
    | some i =>
      rw [hi] at h
      simp only at h
      cases hf : m1.feat? i with
      | none => rw [hf] at h; cases h
      | some f =>
        rw [hf] at h
        cases hc : m1.compareProperties m2 i j strict with
        | none => rw [hc] at h; cases h
        | some x =>
          rw [hc] at h
          cases x with
          | false => simp only [Option.some.injEq, Prod.mk.injEq] at h; exact h.1 ▸ t
          | true =>
            simp only [Option.map_eq_some_iff] at h
            obtain ⟨c1, h1, h2⟩ := h
            cases h2
            exact hP _ _ _ t h1
    | none =>
      rw [hi] at h
      simp only at h
      cases hc : FModel.featureCopy g.attr with
      | none => rw [hc] at h; simp only [Option.some.injEq, Prod.mk.injEq] at h; exact h.1 ▸ t
      | some a =>
        rw [hc] at h
        simp only at h
        cases hp : m2.parentFeature j with
        | none => rw [hp] at h; cases h
        | some p =>
          rw [hp] at h
          simp only [Option.map_eq_some_iff] at h
          obtain ⟨c1, h1, h2⟩ := h
          cases h2
          exact hP _ _ _ t h1

omit hP in
theorem keep_fold {α} {f : FModel → α → Option (FModel × Bool)}
    (hf : ∀ c x c' b, P c → f c x = some (c', b) → P c') : ∀ {l : List α} {c c' : FModel} {b : Bool}, P c →
      FModel.boolFold f c l = some (c', b) → P c'
  | [], c, c', b, t, h => by simp only [FModel.boolFold, Option.some.injEq, Prod.mk.injEq] at h; exact h.1 ▸ t
  | x :: xs, c, c', b, t, h => by
    unfold FModel.boolFold at h
    cases hx : f c x with
    | none => rw [hx] at h; cases h
    | some r =>
      obtain ⟨c1, b1⟩ := r
      rw [hx] at h
      have t1 := hf c x c1 b1 t hx
      cases b1 with
      | false => simp only [Option.some.injEq, Prod.mk.injEq] at h; exact h.1 ▸ t1
      | true => exact keep_fold hf t1 h

theorem keep_mergeSubtree {strict : Bool} {m1 m2 : FModel} : ∀ (fuel : Nat) (c : FModel) (j : Id) (c' : FModel) (b : Bool),
    P c → FModel.mergeSubtree E strict m1 m2 fuel c j = some (c', b) → P c' := by
  intro fuel
  induction fuel with
  | zero => intro c j c' b _ h; cases h
  | succ fuel ih =>
    intro c j c' b t h
    unfold FModel.mergeSubtree at h
    cases h1 : FModel.mergeOne E strict m1 m2 c j with
    | none => rw [h1] at h; cases h
    | some r =>
      obtain ⟨c1, b1⟩ := r
      rw [h1] at h
      have t1 := keep_mergeOne hP t h1
      cases b1 with
      | false => simp only [Option.some.injEq, Prod.mk.injEq] at h; exact h.1 ▸ t1
      | true =>
        simp only at h
        cases h2 : m2.children E Node.isFeat j with
        | none => rw [h2] at h; cases h
        | some cs =>
          rw [h2] at h
          exact keep_fold (fun c x c' b => ih c x c' b) t1 h

/-- The merged model has what the clone of the first has. -/
theorem keep_merge {strict : Bool} {m1 m2 c : FModel} (h0 : ∀ c0, m1.clone E = .built c0 → P c0)
    (h : m1.mergeFeatureModels E m2 strict = some (some c)) : P c := by
  unfold FModel.mergeFeatureModels at h
  split at h
  · cases h
  · cases h1 : m1.clone E with
    | ub => rw [h1] at h; cases h
    | null => rw [h1] at h; cases h
    | built c0 =>
      rw [h1] at h
      cases h2 : m2.root with
      | none => rw [h2] at h; cases h
      | some r =>
        rw [h2] at h
        simp only at h
        cases h3 : FModel.mergeSubtree E strict m1 m2 (m2.next + 1) c0 r with
        | none => rw [h3] at h; cases h
        | some x =>
          obtain ⟨c1, b⟩ := x
          rw [h3] at h
          cases b with
          | false => cases h
          | true =>
            simp only at h
            split at h
            · cases h; exact keep_mergeSubtree hP _ c0 r _ true (h0 c0 h1) h3
            · cases h
end

end Verif

import Verif.FM.BuildStores
import Verif.Props.Undo

/-!
# Property C99: which constraints a transaction adds
-/

namespace Verif.Props
open Verif Verif.Spec

/-- A transaction that is committed adds exactly the constraints it was given, behind those there were, each class in the order of the
    modifications, whatever else it does. -/
theorem C99_constraints_added {E : Env} {m m' : FModel} {ops : List Op} (h : m.commitOps E ops = .ok m') (cl : CClass) :
    (m'.store cl).map Stored.tree = (m.store cl).map Stored.tree ++ added cl ops :=
  commitOps_stores (T := fun cl => (m.store cl).map Stored.tree) (fun _ => rfl) h cl

theorem outFold_err_stores {E : Env} : ∀ (ops : List Op) (T : CClass → List Constraint) (m r : FModel) (x : FTErr), Holding T m →
    FModel.outFold (FModel.exec E) m ops = .err x r → ∃ pre post, ops = pre ++ post ∧ Holding (fun cl => T cl ++ added cl pre) r
  | [], T, m, r, x, h, e => by cases e
  | o :: ops, T, m, r, x, h, e => by
    have hstep := exec_stores (E := E) o h
    rw [FModel.outFold] at e
    cases hm : m.exec E o with
    | ub => rw [hm] at e; cases e
    | err y z =>
      rw [hm] at e hstep
      cases e
      exact ⟨[o], ops, rfl, hstep⟩
    | ok m1 =>
      rw [hm] at e hstep
      obtain ⟨pre, post, h1, h2⟩ := outFold_err_stores ops _ m1 r x hstep e
      refine ⟨o :: pre, post, by rw [h1]; rfl, ?_⟩
      intro cl
      have h3 : added cl (o :: pre) = added cl [o] ++ added cl pre := List.filterMap_append (l := [o])
      have h4 := h2 cl
      simp only at h4 ⊢
      rw [h4, h3, List.append_assoc]

/-- One that fails adds those of its first modifications, and takes none of them back. -/
theorem C99_constraints_left {E : Env} {m m' : FModel} {ops : List Op} {x : FTErr} (h : m.commitOps E ops = .err x m') :
    ∃ pre post, ops = pre ++ post ∧ ∀ cl, (m'.store cl).map Stored.tree = (m.store cl).map Stored.tree ++ added cl pre := by
  unfold FModel.commitOps at h
  cases h2 : FModel.outFold (FModel.exec E) m ops with
  | ub => rw [h2] at h; cases h
  | err y z =>
    rw [h2] at h
    cases h
    exact outFold_err_stores ops (fun cl => (m.store cl).map Stored.tree) m _ _ (fun _ => rfl) h2
  | ok m1 =>
    rw [h2] at h
    have h4 := outFold_stores (E := E) ops (fun cl => (m.store cl).map Stored.tree) m m1 (fun _ => rfl) h2
    simp only at h
    cases h3 : m1.consistent E with
    | none => rw [h3] at h; cases h
    | some b =>
      rw [h3] at h
      cases b with
      | true => cases h
      | false => cases h; exact ⟨ops, [], by simp, h4⟩

/-- Not vacuous: two constraints added and a feature removed; and a transaction that fails at its second constraint, which stays. -/
example : (∃ m', (ofNodes [featNode "root" none [1] .root, featNode "A" (some 0) []] (some 0) [(c!"root", 0), (c!"A", 1)] []).commitOps (stdEnv true)
      [.addConstraint .boolean (.feature c!"root"), .removeFeature (.name c!"A") false, .addConstraint .boolean (.feature c!"root")] = .ok m' ∧
      (m'.store .boolean).map Stored.tree = [.feature c!"root", .feature c!"root"]) ∧
    ∃ x m', (ofNodes [featNode "root" none [1] .root, featNode "A" (some 0) []] (some 0) [(c!"root", 0), (c!"A", 1)] []).commitOps (stdEnv true)
      [.addConstraint .boolean (.feature c!"A"), .addConstraint .boolean (.feature c!"X"), .setName c!"M"] = .err x m' ∧
      (m'.store .boolean).map Stored.tree = [.feature c!"A", .feature c!"X"] := by
  constructor
  · cases h : (ofNodes [featNode "root" none [1] .root, featNode "A" (some 0) []] (some 0) [(c!"root", 0), (c!"A", 1)] []).commitOps (stdEnv true)
        [.addConstraint .boolean (.feature c!"root"), .removeFeature (.name c!"A") false, .addConstraint .boolean (.feature c!"root")] with
    | ok m' => exact ⟨m', rfl, C99_constraints_added h .boolean⟩
    | err x m' => exact absurd (congrArg (fun o : Out => match o with | .ok _ => true | _ => false) h) (by show ¬ _ = false; decide)
    | ub => exact absurd (congrArg (fun o : Out => match o with | .ok _ => true | _ => false) h) (by decide)
  · cases h : (ofNodes [featNode "root" none [1] .root, featNode "A" (some 0) []] (some 0) [(c!"root", 0), (c!"A", 1)] []).commitOps (stdEnv true)
        [.addConstraint .boolean (.feature c!"A"), .addConstraint .boolean (.feature c!"X"), .setName c!"M"] with
    | err x m' =>
      have := congrArg (fun o : Out => match o with | .err _ m => (m.store .boolean).map Stored.tree | _ => []) h
      exact ⟨x, m', rfl, this.symm.trans (by decide)⟩
    | ok m' => exact absurd (congrArg (fun o : Out => match o with | .err _ _ => true | _ => false) h) (by show ¬ _ = false; decide)
    | ub => exact absurd (congrArg (fun o : Out => match o with | .err _ _ => true | _ => false) h) (by decide)

end Verif.Props

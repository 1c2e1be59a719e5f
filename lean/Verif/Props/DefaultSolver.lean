import Verif.Props.HandWhole
/-!
# C94: the solver the factory makes without a model
-/

namespace Verif.Props
open Verif Verif.Spec Verif.FModel Verif.Z3Solver

/-- Nothing has been allocated. -/
def blank : FModel :=
  { heap := fun _ => none, next := 0, name := [], root := none, path := [], commit := [], features := [], booleans := [],
    nonBooleans := [], mixeds := [], rels := [] }

/-- `initializeSolver(Type)` (SolverFactory.h:41-47): the model of an empty builder is put into the solver. -/
def defaultSolver (E : Env) (F : IntFloats) (fuel : Nat) : SRes :=
  match blank.build E {} with
  | .built m => initSolver E F fuel m
  | _ => .crash

/-- It is not empty: it has an option "root" that is true. -/
theorem C94_default_solver (E : Env) (F : IntFloats) (fuel : Nat) :
    defaultSolver E F fuel = .ok { options := [(c!"root", .boolConst c!"root")], asserted := [.boolConst c!"root"] } := by
  have h1 : E.setOrder [] = [] := List.Perm.eq_nil (E.setOrder_perm [])
  have h2 : E.mapOrder [(c!"root", 0)] = [(c!"root", 0)] := List.perm_singleton.1 (E.mapOrder_perm _)
  have hc : blank.fresh.consistent E = some true := by
    exact consistent_of_WF (wf_fresh blank (fun i hi => absurd rfl hi)) E
  have hb : blank.build E {} = .built blank.fresh := by
    simp [build, commitOps, outFold, hc]
  have hi : blank.fresh.iterate E = some [0] := by
    simp [iterate, end?, fresh, blank, parentFeature, parentFeatureFuel, begin, DFS.mk', collect, DFS.eq, DFS.next, sortedChildren, children, childrenImpl, h1]
  simp only [defaultSolver, hb, initSolver, applyModel, hi]
  rfl

/-- So it answers for more than it is given: its configurations always have an option "root", which nobody added, and a feature
    of that name, like the root of every model that was not given another name, is refused. -/
theorem C94_default_root (E : Env) (F : IntFloats) (fuel : Nat) (m : FModel) (O : Oracle) : ∃ s, defaultSolver E F fuel = .ok s ∧
    (∀ c s', s.tells F fuel m O [.next] = some ([.config c], s') → c.value c!"root" = some c!"true") ∧
    (∀ i g f, m.feat? i = some f → m.parentFeature i = some none → f.attr.name = c!"root" →
      s.tells F fuel m O [.feature i g] = some ([.error .alreadyPresent], s)) := by
  refine ⟨_, C94_default_solver E F fuel, fun c s' h => ?_, fun i g f hf hp hn => ?_⟩
  · simp only [Z3Solver.tells, tell, ask, getNext] at h
    cases hc : O.check 0 [.boolConst c!"root"] with
    | unsat => simp only [hc] at h; simp [CRes.reply] at h
    | unknown => simp only [hc] at h; simp [CRes.reply] at h
    | sat a =>
      simp only [hc] at h
      simp [CRes.reply] at h
      have ht := (O.sound _ _ _ hc) _ (List.mem_singleton.2 rfl)
      rw [← h.1]
      simp only [configOf, List.foldl, ht]
      decide
  · simp [Z3Solver.tells, tell, addFeature, hf, hp, parentPresent, hn, SRes.reply, Z3Solver.has]

/-- A configuration is given, and the root of the shop is refused. -/
example (E : Env) (F : IntFloats) : ∃ s, defaultSolver E F 9 = .ok s ∧
    (∃ c s', s.tells F 9 shop idealOracle [.next] = some ([.config c], s')) ∧
    s.tells F 9 shop idealOracle [.feature 0 false] = some ([.error .alreadyPresent], s) := by
  obtain ⟨s, h1, _, h3⟩ := C94_default_root E F 9 shop idealOracle
  refine ⟨s, h1, ?_, h3 0 false _ rfl rfl rfl⟩
  rw [C94_default_solver] at h1; cases h1
  simp only [Z3Solver.tells, tell, ask, getNext]
  cases hc : idealOracle.check 0 [.boolConst c!"root"] with
  | unsat => exact absurd (show Sat ⟨fun _ => true, fun _ => 0, fun _ => 0⟩ [.boolConst c!"root"] by intro t ht; simp at ht; subst ht; rfl) (idealOracle.complete _ _ hc _)
  | unknown => exact absurd hc (idealOracle_answers _ _)
  | sat a => exact ⟨_, _, rfl⟩

end Verif.Props

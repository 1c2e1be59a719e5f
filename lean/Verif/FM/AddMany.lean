import Verif.FM.Consistent
import Verif.FM.Add
import Verif.FM.Failure
/-!
# The helper that adds several features
-/

namespace Verif
namespace FModel

/-- `addFeatures` (FeatureModelTransaction.cpp:24-32): the result of the commit is dropped.  `none` is
    undefined or, for the assertion in `openTransaction`, a failed assertion. -/
def addFeatures (E : Env) (m : FModel) (xs : List (Attr × Option Id)) : Option FModel :=
  if E.asserts && !(m.consistent E == some true) then none
  else
    match m.commitOps E (xs.map fun x => .addFeature x.1 x.2) with
    | .ok m => some m
    | .err _ m => some m
    | .ub => none

end FModel

namespace Spec

/-- The features `xs`, each with its parent, have been added at the addresses `ids`, nothing else changed. -/
structure AddedAll (m m' : FModel) (xs : List (Attr × Id)) (ids : List Id) : Prop where
  len : ids.length = xs.length
  distinct : ids.Nodup
  unused : ∀ i ∈ ids, m.heap i = none
  new : ∀ x ∈ xs.zip ids, data m' x.2 = some (.feat { attr := x.1.1 }) ∧ par m' x.2 = some x.1.2
  data : ∀ i, i ∉ ids → data m' i = data m i
  par : ∀ i, i ∉ ids → par m' i = par m i
  edg : ∀ i, edg m' i = edg m i ++ ((xs.zip ids).filter fun x => x.1.2 == i).map Prod.snd
  features : m'.features = m.features ++ (xs.zip ids).map fun x => (x.1.1.name, x.2)
  rels : m'.rels = m.rels
  root : m'.root = m.root
  name : m'.name = m.name
  path : m'.path = m.path
  commit : m'.commit = m.commit
  stored : ∀ cl, m'.store cl = m.store cl

/-- The features can be added: their names are new and different, none is a root, and their parents are known
    or among the new features before them.  A new feature is at the address it was created at: the `j`-th one is
    at `m.next + j`. -/
structure Addable (m : FModel) (xs : List (Attr × Option Id)) : Prop where
  distinct : (xs.map fun x => x.1.name).Nodup
  new : ∀ x ∈ xs, ∀ i, (x.1.name, i) ∉ m.features
  parent : ∀ k x, xs[k]? = some x → ∀ i, x.2 = some i → Known m i ∨ ∃ j, j < k ∧ i = (m.next + j : Nat)
  kind : ∀ x ∈ xs, x.1.kind ≠ .root

end Spec
open Spec

/-- The features with their parents if `r` is the root. -/
def Spec.placed (r : Id) (xs : List (Attr × Option Id)) : List (Attr × Id) := xs.map fun x => (x.1, x.2.getD r)

theorem addAll_ok (E : Env) : ∀ (xs : List (Attr × Option Id)) {m : FModel} {r : Id}, WF m → m.root = some r → Addable m xs →
    ∃ m' ids, FModel.outFold (FModel.exec E) m (xs.map fun x => .addFeature x.1 x.2) = .ok m' ∧ WF m' ∧
      AddedAll m m' (placed r xs) ids ∧ (∀ i ∈ ids, (m.next : Nat) ≤ i) ∧ ids = (List.range xs.length).map (fun j => (m.next + j : Nat))
  | [], m, r, w, _, _ => ⟨m, [], rfl, w, ⟨rfl, .nil, by simp, by simp, by simp, by simp, by simp, by simp, rfl, rfl, rfl, rfl, rfl, by simp⟩, by simp, rfl⟩
  | (a, o) :: xs, m, r, w, hr, h => by
    have hn : a.name ∉ m.features.map Prod.fst := by
      intro hx
      obtain ⟨e, he, h1⟩ := List.mem_map.1 hx
      exact h.new (a, o) (by simp) e.2 (by rw [← h1]; exact he)
    obtain ⟨m1, p, e1, e2, e3, e4, e5⟩ := execAddFeature_ok (parent := o) w hn (fun i hi => by
      rcases h.parent 0 (a, o) (by simp) i hi with h1 | ⟨j, hj, _⟩
      · exact .inl h1
      · omega)
    have e3 : (m1.next : Nat) = m.next + 1 := e3
    have hp : p = o.getD r := by
      rcases e5 with e5 | ⟨e5, e6⟩
      · rw [e5]; rfl
      · rw [e5]; rw [hr] at e6; exact (Option.some.inj e6).symm
    have w1 : WF m1 := wf_of_added w e2 (show (m.next : Nat) < m1.next by omega) (show (m.next : Nat) ≤ m1.next by omega) hn e4 (h.kind (a, o) (by simp))
    have hd := h.distinct
    simp only [List.map_cons, List.nodup_cons] at hd
    have h1 : Addable m1 xs := by
      refine ⟨hd.2, ?_, ?_, ?_⟩
      · intro x hx i hi
        rw [e2.features, List.mem_append, List.mem_singleton] at hi
        rcases hi with hi | hi
        · exact h.new x (by simp [hx]) i hi
        · have : x.1.name = a.name := congrArg Prod.fst hi
          exact hd.1 (List.mem_map.2 ⟨x, hx, this⟩)
      · intro k x hx i hi
        rcases h.parent (k + 1) x (by simpa using hx) i hi with h1 | ⟨j, hj, h1⟩
        · exact .inl ((e2.known i).2 (.inl h1))
        · cases j with
          | zero => exact .inl ((e2.known i).2 (.inr h1))
          | succ j => exact .inr ⟨j, by omega, by rw [h1, e3]; show m.next + (j + 1) = m.next + 1 + j; omega⟩
      · exact fun x hx => h.kind x (by simp [hx])
    obtain ⟨m', ids, f1, f2, f3, f4, f5⟩ := addAll_ok E xs w1 (e2.root.trans hr) h1
    have hnext : ∀ i ∈ ids, i ≠ m.next := by
      intro i hi
      have h2 := f4 i hi
      rw [e3] at h2
      exact Nat.ne_of_gt h2
    have hnot : m.next ∉ ids := fun hi => hnext _ hi rfl
    refine ⟨m', m.next :: ids, ?_, f2, ?_, ?_, ?_⟩
    · rw [List.map_cons, outFold_cons (show m.exec E (.addFeature a o) = .ok m1 from e1)]
      exact f1
    · refine
        { len := by simp [placed, f3.len]
          distinct := List.nodup_cons.2 ⟨hnot, f3.distinct⟩
          unused := ?_
          new := ?_
          data := ?_
          par := ?_
          edg := ?_
          features := ?_
          rels := f3.rels.trans e2.rels
          root := f3.root.trans e2.root
          name := f3.name.trans e2.name
          path := f3.path.trans e2.path
          commit := f3.commit.trans e2.commit
          stored := ?_ }
      · intro i hi
        rcases List.mem_cons.1 hi with rfl | hi
        · exact e2.new
        · cases hh : m.heap i with
          | none => rfl
          | some n =>
            have h1 : (i : Nat) < m.next := w.fresh i (by rw [hh]; simp)
            have h2 := f4 i hi
            rw [e3] at h2
            exact absurd (Nat.lt_trans h1 h2) (Nat.lt_irrefl _)
      · intro x hx
        simp only [placed, List.map_cons, List.zip_cons_cons, List.mem_cons] at hx
        rcases hx with rfl | hx
        · dsimp only
          rw [f3.data _ hnot, f3.par _ hnot, e2.data, e2.par, upd_same, upd_same, hp]
          exact ⟨rfl, rfl⟩
        · exact f3.new x hx
      · intro i hi
        simp only [List.mem_cons, not_or] at hi
        rw [f3.data i hi.2, e2.data, upd_ne _ _ hi.1]
      · intro i hi
        simp only [List.mem_cons, not_or] at hi
        rw [f3.par i hi.2, e2.par, upd_ne _ _ hi.1]
      · intro i
        rw [f3.edg i, e2.edg]
        simp only [placed, List.map_cons, List.zip_cons_cons, List.filter_cons]
        by_cases hi : i = p
        · subst hi
          rw [upd_same]
          simp [hp]
        · rw [upd_ne _ _ hi, if_neg (by rw [beq_iff_eq, ← hp]; exact fun e => hi e.symm)]
      · rw [f3.features, e2.features]
        simp [placed]
      · intro cl
        rw [f3.stored cl]
        cases cl
        · exact e2.booleans
        · exact e2.nonBooleans
        · exact e2.mixeds
    · intro i hi
      rcases List.mem_cons.1 hi with rfl | hi
      · exact Nat.le_refl _
      · have h2 := f4 i hi
        rw [e3] at h2
        exact Nat.le_of_succ_le h2
    · rw [f5, List.length_cons, List.range_succ_eq_map, List.map_cons, List.map_map, e3]
      congr 1
      refine List.map_congr_left fun j _ => ?_
      show m.next + 1 + j = m.next + (j + 1)
      omega

theorem outFold_append {α : Type _} {f : FModel → α → Out} : ∀ {xs ys : List α} {m m1 : FModel}, FModel.outFold f m xs = .ok m1 →
    FModel.outFold f m (xs ++ ys) = FModel.outFold f m1 ys
  | [], ys, m, m1, h => by cases h; rfl
  | x :: xs, ys, m, m1, h => by
    simp only [List.cons_append, FModel.outFold] at h ⊢
    cases e : f m x with
    | ub => rw [e] at h; cases h
    | err _ _ => rw [e] at h; cases h
    | ok m2 =>
      rw [e] at h
      exact outFold_append h

end Verif

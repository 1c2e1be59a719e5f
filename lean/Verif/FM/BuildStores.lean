import Verif.FM.Closed
import Verif.FM.Buildable

/-! Lemmas: the constraints of whatever a builder builds. -/

namespace Verif
open Verif.Spec

/-- The constraints of each class are the given ones. -/
def Holding (T : CClass → List Constraint) (m : FModel) : Prop := ∀ cl, (m.store cl).map Stored.tree = T cl

theorem holding_same {T : CClass → List Constraint} {m m' : FModel} (h : Holding T m) (h1 : m'.booleans = m.booleans)
    (h2 : m'.nonBooleans = m.nonBooleans) (h3 : m'.mixeds = m.mixeds) : Holding T m' := by
  intro cl
  rw [store_of_same h1 h2 h3]
  exact h cl

theorem holding_quiet (T : CClass → List Constraint) : ClosedQuiet (Holding T) where
  put := by intro m i n n' h _ cl; exact holding_same h rfl rfl rfl cl
  insert := by
    intro m a m' i h e cl
    unfold FModel.insertFeature at e
    cases hg : m.getFeature a.name with
    | some j => rw [hg] at e; cases e
    | none => rw [hg] at e; cases e; exact holding_same h rfl rfl rfl cl
  erase := by
    intro m i m' h e cl
    unfold FModel.eraseFeature at e
    cases hn : m.nameOf i with
    | none => rw [hn] at e; cases e
    | some n =>
      rw [hn] at e
      simp only at e
      by_cases hr : m.root = some i
      · rw [if_pos hr] at e
        cases hg : ({ m with root := none } : FModel).getFeature n with
        | none => rw [hg] at e; cases e; exact holding_same h rfl rfl rfl cl
        | some j => rw [hg] at e; cases e; exact holding_same h rfl rfl rfl cl
      · rw [if_neg hr] at e
        cases hg : m.getFeature n with
        | none => rw [hg] at e; cases e; exact h cl
        | some j => rw [hg] at e; cases e; exact holding_same h rfl rfl rfl cl
  newRel := by intro m k h cl; exact holding_same h rfl rfl rfl cl
  drop := by
    intro m r m' h e cl
    unfold FModel.dropRel at e
    by_cases hr : r ∈ m.rels
    · rw [if_pos hr] at e; cases e; exact holding_same h rfl rfl rfl cl
    · rw [if_neg hr] at e; cases e
  bind := by
    intro m l i h cl
    have : ((m.bindLeaf l i).store cl).map Stored.tree = (m.store cl).map Stored.tree := by
      have hm : ∀ (xs : List Stored) (k : Nat), (xs.modify k fun s => { s with binds := s.binds.set l.leaf (some i) }).map Stored.tree = xs.map Stored.tree := by
        intro xs
        induction xs with
        | nil => intro k; cases k <;> rfl
        | cons x xs ih =>
          intro k
          cases k with
          | zero => rfl
          | succ k => simp only [List.modify_succ_cons, List.map_cons, ih k]
      unfold FModel.bindLeaf
      cases hc : l.root.cls <;> cases cl <;> simp only [FModel.setStore, FModel.store, hm]
    rw [this]; exact h cl
  name := by intro m s h cl; exact holding_same h rfl rfl rfl cl
  commit := by intro m s h cl; exact holding_same h rfl rfl rfl cl
  path := by intro m s h cl; exact holding_same h rfl rfl rfl cl
  root := by intro m s h cl; exact holding_same h rfl rfl rfl cl

/-- The constraints a modification adds, by class. -/
def added (cl : CClass) (ops : List Op) : List Constraint :=
  ops.filterMap fun
    | .addConstraint k c => if k.cls = cl then some c else none
    | _ => none

theorem exec_stores {E : Env} (o : Op) {T : CClass → List Constraint} {m : FModel} (h : Holding T m) :
    OutP (Holding fun cl => T cl ++ added cl [o]) (m.exec E o) := by
  by_cases ho : ∀ k c, o ≠ .addConstraint k c
  · have := (holding_quiet T).exec (E := E) o ho h
    have h0 : ∀ cl, added cl [o] = [] := by
      intro cl
      cases o with
      | addConstraint k c => exact absurd rfl (ho k c)
      | _ => rfl
    simpa [h0] using this
  · simp only [ne_eq, Classical.not_forall, Classical.not_not] at ho
    obtain ⟨k, c, rfl⟩ := ho
    show OutP _ (m.execAddConstraint k c)
    unfold FModel.execAddConstraint
    simp only
    have h1 : Holding (fun cl => T cl ++ added cl [Op.addConstraint k c])
        (m.setStore k.cls (m.store k.cls ++ [⟨c, c.features.map fun _ => none, k.info⟩])) := by
      intro cl
      have hh := h cl
      have : (m.setStore k.cls (m.store k.cls ++ [⟨c, c.features.map fun _ => none, k.info⟩])).store cl =
          if k.cls = cl then m.store cl ++ [⟨c, c.features.map fun _ => none, k.info⟩] else m.store cl := by
        cases k.cls <;> cases cl <;> simp [FModel.setStore, FModel.store]
      rw [this]
      by_cases hc : k.cls = cl
      · simp [added, hc, hh]
      · simp [added, hc, hh]
    generalize m.setStore k.cls (m.store k.cls ++ [⟨c, c.features.map fun _ => none, k.info⟩]) = m1 at h1
    cases hb : FModel.bindLeaves c ⟨k.cls, (m.store k.cls).length⟩ m1 0 c.features with
    | none => trivial
    | some r =>
      obtain ⟨m2, b⟩ := r
      cases b <;> exact (holding_quiet _).bindLeaves _ _ _ h1 hb

theorem outFold_stores {E : Env} : ∀ (ops : List Op) (T : CClass → List Constraint) (m r : FModel), Holding T m →
    FModel.outFold (FModel.exec E) m ops = .ok r → Holding (fun cl => T cl ++ added cl ops) r
  | [], T, m, r, h, e => by
    cases e
    intro cl
    simpa [added] using h cl
  | o :: ops, T, m, r, h, e => by
    have hstep := exec_stores (E := E) o h
    rw [FModel.outFold] at e
    cases hm : m.exec E o with
    | err x y => rw [hm] at e; cases e
    | ub => rw [hm] at e; cases e
    | ok m1 =>
      rw [hm] at e hstep
      simp only at e
      intro cl
      have h2 := outFold_stores ops _ m1 r hstep e cl
      have h3 : added cl (o :: ops) = added cl [o] ++ added cl ops := List.filterMap_append (l := [o])
      simp only at h2
      simp only
      rw [h2, h3, List.append_assoc]

theorem commitOps_stores {E : Env} {ops : List Op} {T : CClass → List Constraint} {m r : FModel} (h : Holding T m)
    (e : m.commitOps E ops = .ok r) : Holding (fun cl => T cl ++ added cl ops) r := by
  unfold FModel.commitOps at e
  cases h2 : FModel.outFold (FModel.exec E) m ops with
  | err x y => rw [h2] at e; cases e
  | ub => rw [h2] at e; cases e
  | ok m1 =>
    have h1 := outFold_stores (E := E) ops T m m1 h h2
    rw [h2] at e
    simp only at e
    cases h3 : m1.consistent E with
    | none => rw [h3] at e; cases e
    | some b =>
      rw [h3] at e
      cases b with
      | false => cases e
      | true => cases e; exact h1

theorem added_none {cl : CClass} {ops : List Op} (h : ∀ o ∈ ops, ∀ k c, o ≠ .addConstraint k c) : added cl ops = [] := by
  refine List.filterMap_eq_nil_iff.2 fun o ho => ?_
  cases o with
  | addConstraint k c => exact absurd rfl (h _ ho k c)
  | _ => rfl

/-- Whatever a builder builds has the constraints it was given, in their order, and no other. -/
theorem build_stores {E : Env} {world m : FModel} {calls : List BCall} (h : world.build E (builderOf calls) = .built m) (cl : CClass) :
    (m.store cl).map Stored.tree = ((constraintsOf calls).filter fun x => decide (x.1.cls = cl)).map Prod.snd := by
  rw [builderOf_eq] at h
  unfold FModel.build at h
  simp only at h
  have h0 : Holding (fun _ => []) world.fresh := by intro cl; cases cl <;> rfl
  cases h1 : world.fresh.commitOps E (calls.filterMap BCall.featOp) with
  | err x y => rw [h1] at h; cases h
  | ub => rw [h1] at h; cases h
  | ok m1 =>
    rw [h1] at h
    simp only at h
    cases h2 : m1.commitOps E (calls.filterMap BCall.modelOp) with
    | err x y => rw [h2] at h; cases h
    | ub => rw [h2] at h; cases h
    | ok m2 =>
      rw [h2] at h
      simp only at h
      cases h3 : m2.commitOps E (calls.filterMap BCall.relOp) with
      | err x y => rw [h3] at h; cases h
      | ub => rw [h3] at h; cases h
      | ok m3 =>
        rw [h3] at h
        cases h
        have := commitOps_stores (commitOps_stores (commitOps_stores h0 h1) h2) h3 cl
        simp only at this
        rw [this, added_none, added_none, List.nil_append, List.nil_append, List.nil_append]
        · clear h1 h2 h3 this
          induction calls with
          | nil => rfl
          | cons b bs ih =>
            cases b with
            | addConstraint k c =>
              by_cases hk : k.cls = cl
              · simpa [added, constraintsOf, BCall.relOp, hk, List.filterMap_cons] using ih
              · simpa [added, constraintsOf, BCall.relOp, hk, List.filterMap_cons] using ih
            | _ => simpa [added, constraintsOf, BCall.relOp, List.filterMap_cons] using ih
        · intro o ho k c hc
          subst hc
          obtain ⟨b, _, hb⟩ := List.mem_filterMap.1 ho
          cases b <;> cases hb
        · intro o ho k c hc
          subst hc
          obtain ⟨b, _, hb⟩ := List.mem_filterMap.1 ho
          cases b <;> cases hb

end Verif

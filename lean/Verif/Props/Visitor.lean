import Verif.Constraint.Visitor
/-!
# Property C93: constraint visitors visit every node once
-/

namespace Verif.Props
open Verif Verif.Spec

/-- `accept` visits every node of the constraint exactly once, operators before their operands and from left to right,
    and returns whether all visits of leaves did; no visit is skipped because another one returned false. -/
theorem C93_visits {σ : Type} (V : Visitor σ) (c : Constraint) (s : σ) :
    ∃ ps : List Place, ps.Nodup ∧ (∀ p, p ∈ ps ↔ nodeAt c p ≠ none) ∧ ps.Pairwise PlaceLt ∧
      V.accept [] c s = ps.foldl (visitAt V c) (s, true) := by
  refine ⟨places c, ?_, fun p => mem_places, places_sorted c, ?_⟩
  · refine List.Pairwise.imp ?_ (places_sorted c)
    rintro p q h rfl
    exact placeLt_irrefl p h
  · have := accept_places V c c [] s true (by cases c <;> simp [nodeAt])
    simp only [List.nil_append, List.map_id', Bool.true_and] at this
    rw [this]

/-- The order is determined by these conditions. -/
theorem C93_order_unique {c : Constraint} {ps qs : List Place} (h1 : ∀ p, p ∈ ps ↔ nodeAt c p ≠ none) (h2 : ps.Pairwise PlaceLt)
    (g1 : ∀ p, p ∈ qs ↔ nodeAt c p ≠ none) (g2 : qs.Pairwise PlaceLt) : ps = qs := by
  have nd : ∀ {l : List Place}, l.Pairwise PlaceLt → l.Nodup := by
    intro l h
    refine List.Pairwise.imp ?_ h
    rintro p q h rfl
    exact placeLt_irrefl p h
  refine List.Perm.eq_of_pairwise (le := PlaceLt) ?_ h2 g2 ((List.perm_ext_iff_of_nodup (nd h2) (nd g2)).2 (fun p => by rw [h1, g1]))
  intro a b _ _ hab hba
  exact absurd (placeLt_trans hab hba) (placeLt_irrefl a)

/-- A visitor that only looks: with `answer` saying what its visits of leaves return, `accept` returns true exactly if
    all of them do. -/
theorem C93_result {σ : Type} (V : Visitor σ) (answer : Place → Bool) (hi : ∀ p v s, (V.int p v s).2 = answer p)
    (hf : ∀ p n s, (V.feature p n s).2 = answer p) (c : Constraint) (s : σ) :
    (V.accept [] c s).2 = true ↔
      ∀ p, (∃ v, nodeAt c p = some (.int v)) ∨ (∃ n, nodeAt c p = some (.feature n)) → answer p = true := by
  obtain ⟨ps, _, h2, _, h4⟩ := C93_visits V c s
  rw [h4]
  have key : ∀ (l : List Place) (s : σ) (b : Bool), (l.foldl (visitAt V c) (s, b)).2 = true ↔
      b = true ∧ ∀ p ∈ l, (∃ v, nodeAt c p = some (.int v)) ∨ (∃ n, nodeAt c p = some (.feature n)) → answer p = true := by
    intro l
    induction l with
    | nil => intro s b; simp
    | cons p l ih =>
      intro s b
      rw [List.foldl_cons]
      cases e : nodeAt c p with
      | none => simp [visitAt, e, ih]
      | some d =>
        cases d with
        | int v => simp [visitAt, e, ih, hi, and_assoc]
        | feature n => simp [visitAt, e, ih, hf, and_assoc]
        | bin op l r => simp [visitAt, e, ih]
        | un op c => simp [visitAt, e, ih]
  rw [key]
  constructor
  · intro h p hp
    refine h.2 p ((h2 p).2 ?_) hp
    rcases hp with ⟨v, h⟩ | ⟨v, h⟩ <;> simp [h]
  · intro h
    exact ⟨rfl, fun p _ hp => h p hp⟩

/-- The default visitor always succeeds and changes nothing. -/
theorem C93_default {σ : Type} (c : Constraint) (s : σ) : (({} : Visitor σ).accept [] c s) = (s, true) := by
  have key : ∀ (c : Constraint) (p : Place), (({} : Visitor σ).accept p c s) = (s, true) := by
    intro c
    induction c with
    | bin op l r ihl ihr => intro p; simp [Visitor.accept, ihl, ihr]
    | un op c ih => intro p; simp [Visitor.accept, ih]
    | int v => intro p; rfl
    | feature n => intro p; rfl
  exact key c []

/-- A visitor that collects feature names gets all of them, left to right. -/
theorem C93_collect (c : Constraint) :
    (({ feature := fun _ n s => (s ++ [n], true) } : Visitor (List Str)).accept [] c []).1 = c.features := by
  have key : ∀ (c : Constraint) (p : Place) (s : List Str),
      (({ feature := fun _ n s => (s ++ [n], true) } : Visitor (List Str)).accept p c s).1 = s ++ c.features := by
    intro c
    induction c with
    | bin op l r ihl ihr => intro p s; simp [Visitor.accept, ihl, ihr, Constraint.features]
    | un op c ih => intro p s; simp [Visitor.accept, ih, Constraint.features]
    | int v => intro p s; simp [Visitor.accept, Constraint.features]
    | feature n => intro p s; simp [Visitor.accept, Constraint.features]
  exact key c [] []

/-- Adding a constraint to a model as the code does it, with a visitor: the new constraint's leaves are bound as
    `bindLeaves` says, on which the properties about added constraints rest. -/
theorem C93_add_constraint (tree : Constraint) (root : CRoot) (m : FModel) :
    (∀ a, FModel.bindLeaves tree root m 0 tree.features = some a →
      (addVisitor tree root).accept [] tree (some m, 0) = ((some a.1, tree.features.length), a.2)) ∧
    (FModel.bindLeaves tree root m 0 tree.features = none → ((addVisitor tree root).accept [] tree (some m, 0)).1.1 = none) := by
  have := addVisitor_eq tree root tree [] m 0
  constructor
  · intro a h; rw [h] at this; simpa using this
  · intro h; rw [h] at this; exact this.1

example : ∃ c : Constraint, ∃ V : Visitor (List Str), c.features.length = 2 ∧
    V.accept [] c [] = ([c!"a", c!"b"], false) :=
  ⟨.bin .and (.un .not (.feature c!"a")) (.bin .less (.feature c!"b") (.int 3)),
    { feature := fun _ n s => (s ++ [n], decide (n ≠ c!"a")) }, rfl, rfl⟩

end Verif.Props

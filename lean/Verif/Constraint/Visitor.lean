import Verif.FM.Transaction
/-!
# Constraint visitors

`ConstraintVisitor` (`/repo/include/vara/Feature/Constraint.h:632-650`) and the `accept` methods
(`/repo/lib/Feature/Constraint.cpp:5-15`).  A visitor is a class with some overrides; what it remembers is the state.
Overrides of inner nodes are modelled as doing something and then calling the default they replace.
-/

namespace Verif

/-- Where a node is in a constraint: the way down from the top, `false` for the (left) operand, `true` for the right
    one. -/
abbrev Place := List Bool

/-- A visitor (Constraint.h:632-650): what it does at inner nodes before calling the default, and its visits of
    leaves.  -/
structure Visitor (σ : Type) where
  inner : Place → Constraint → σ → σ := fun _ _ s => s
  int : Place → Int → σ → σ × Bool := fun _ _ s => (s, true)
  feature : Place → Str → σ → σ × Bool := fun _ _ s => (s, true)

/-- `accept` with the default visits (Constraint.cpp:5-15, Constraint.h:636-648). -/
def Visitor.accept {σ : Type} (V : Visitor σ) : Place → Constraint → σ → σ × Bool
  | p, .bin op l r, s =>
    let a := V.accept (p ++ [false]) l (V.inner p (.bin op l r) s)
    let b := V.accept (p ++ [true]) r a.1
    (b.1, a.2 && b.2)
  | p, .un op c, s => V.accept (p ++ [false]) c (V.inner p (.un op c) s)
  | p, .int v, s => V.int p v s
  | p, .feature n, s => V.feature p n s

/-- The visitor of `AddConstraintToModel` (FeatureModelTransaction.h:587-605): it overrides the visit of features.  The
    state is the model (`none`: undefined) and the number of leaves seen, by which leaves are told apart. -/
def addVisitor (tree : Constraint) (root : CRoot) : Visitor (Option FModel × Nat) where
  feature := fun _ n s =>
    match s.1 with
    | none => ((none, s.2 + 1), false)
    | some m =>
      match m.getFeature n with
      | none => ((some m, s.2 + 1), false)
      | some i => (((m.bindLeaf ⟨root, s.2⟩ i).updFeat i (Feat.register tree ⟨root, s.2⟩), s.2 + 1), true)

namespace Spec

/-- The node at a place. -/
def nodeAt : Constraint → Place → Option Constraint
  | c, [] => some c
  | .bin _ l _, false :: p => nodeAt l p
  | .bin _ _ r, true :: p => nodeAt r p
  | .un _ c, false :: p => nodeAt c p
  | _, _ => none

/-- A place comes before another one: it is above it or further left. -/
def PlaceLt : Place → Place → Prop
  | [], [] => False
  | [], _ :: _ => True
  | _ :: _, [] => False
  | a :: p, b :: q => (a = false ∧ b = true) ∨ (a = b ∧ PlaceLt p q)

/-- A visit of the node at a place. -/
def visitAt {σ : Type} (V : Visitor σ) (c : Constraint) (s : σ × Bool) (p : Place) : σ × Bool :=
  match nodeAt c p with
  | some (.int v) => ((V.int p v s.1).1, s.2 && (V.int p v s.1).2)
  | some (.feature n) => ((V.feature p n s.1).1, s.2 && (V.feature p n s.1).2)
  | some d => (V.inner p d s.1, s.2)
  | none => s

end Spec

/-! ### Lemmas -/

open Spec

/-- All places, above first, then left to right. -/
def places : Constraint → List Place
  | .bin _ l r => [] :: ((places l).map (false :: ·) ++ (places r).map (true :: ·))
  | .un _ c => [] :: (places c).map (false :: ·)
  | _ => [[]]

theorem mem_places {c : Constraint} : ∀ {p : Place}, p ∈ places c ↔ nodeAt c p ≠ none := by
  induction c with
  | bin op l r ihl ihr =>
    intro p
    cases p with
    | nil => simp [places, nodeAt]
    | cons b p => cases b <;> simp [places, nodeAt, ihl, ihr]
  | un op c ih =>
    intro p
    cases p with
    | nil => simp [places, nodeAt]
    | cons b p => cases b <;> simp [places, nodeAt, ih]
  | int v => intro p; cases p <;> simp [places, nodeAt]
  | feature n => intro p; cases p <;> simp [places, nodeAt]

theorem placeLt_irrefl : ∀ p, ¬ PlaceLt p p
  | [] => fun h => h
  | a :: p => by
    rintro (⟨h1, h2⟩ | ⟨_, h⟩)
    · rw [h1] at h2; cases h2
    · exact placeLt_irrefl p h

theorem placeLt_trans : ∀ {p q r}, PlaceLt p q → PlaceLt q r → PlaceLt p r
  | [], _, r :: _, _, _ => trivial
  | [], [], [], h, _ => h
  | [], _ :: _, [], _, h => h
  | _ :: _, [], _, h, _ => absurd h (by simp [PlaceLt])
  | _ :: _, _ :: _, [], _, h => absurd h (by simp [PlaceLt])
  | a :: p, b :: q, c :: r, h, h' => by
    rcases h with ⟨h1, h2⟩ | ⟨h1, h2⟩
    · rcases h' with ⟨h3, h4⟩ | ⟨h3, h4⟩
      · rw [h2] at h3; cases h3
      · exact .inl ⟨h1, by rw [← h3, h2]⟩
    · rcases h' with ⟨h3, h4⟩ | ⟨h3, h4⟩
      · exact .inl ⟨by rw [h1, h3], h4⟩
      · exact .inr ⟨by rw [h1, h3], placeLt_trans h2 h4⟩

theorem places_sorted (c : Constraint) : (places c).Pairwise PlaceLt := by
  induction c with
  | bin op l r ihl ihr =>
    rw [places, List.pairwise_cons, List.pairwise_append, List.pairwise_map, List.pairwise_map]
    refine ⟨?_, ihl.imp (fun h => .inr ⟨rfl, h⟩), ihr.imp (fun h => .inr ⟨rfl, h⟩), ?_⟩
    · intro q hq
      simp only [List.mem_append, List.mem_map] at hq
      rcases hq with ⟨p, _, rfl⟩ | ⟨p, _, rfl⟩ <;> exact trivial
    · intro p hp q hq
      simp only [List.mem_map] at hp hq
      obtain ⟨p, _, rfl⟩ := hp
      obtain ⟨q, _, rfl⟩ := hq
      exact .inl ⟨rfl, rfl⟩
  | un op c ih =>
    rw [places, List.pairwise_cons, List.pairwise_map]
    refine ⟨?_, ih.imp (fun h => .inr ⟨rfl, h⟩)⟩
    intro q hq
    simp only [List.mem_map] at hq
    obtain ⟨p, _, rfl⟩ := hq
    exact trivial
  | int v => simp [places]
  | feature n => simp [places]

theorem nodeAt_append : ∀ (c : Constraint) (p q : Place), nodeAt c (p ++ q) = (nodeAt c p).bind (nodeAt · q)
  | c, [], q => by simp [nodeAt]
  | .bin _ l r, false :: p, q => by simp [nodeAt, nodeAt_append l p q]
  | .bin _ l r, true :: p, q => by simp [nodeAt, nodeAt_append r p q]
  | .un _ c, false :: p, q => by simp [nodeAt, nodeAt_append c p q]
  | .un _ c, true :: p, q => by simp [nodeAt]
  | .int _, b :: p, q => by simp [nodeAt]
  | .feature _, b :: p, q => by simp [nodeAt]

/-- `accept` at a place visits what is under it, in order. -/
theorem accept_places {σ : Type} (V : Visitor σ) (top c : Constraint) : ∀ (p : Place) (s : σ) (b : Bool), nodeAt top p = some c →
    ((places c).map (p ++ ·)).foldl (visitAt V top) (s, b) = ((V.accept p c s).1, b && (V.accept p c s).2) := by
  induction c with
  | bin op l r ihl ihr =>
    intro p s b h
    have hl : nodeAt top (p ++ [false]) = some l := by simp [nodeAt_append, h, nodeAt]
    have hr : nodeAt top (p ++ [true]) = some r := by simp [nodeAt_append, h, nodeAt]
    have e : ∀ (x : Bool) (ps : List Place), (ps.map (x :: ·)).map (p ++ ·) = ps.map ((p ++ [x]) ++ ·) := by
      intro x ps; simp
    rw [places, List.map_cons, List.map_append, e, e, List.foldl_cons, List.foldl_append]
    have h0 : visitAt V top (s, b) (p ++ []) = (V.inner p (.bin op l r) s, b) := by simp [visitAt, h]
    rw [h0, ihl _ _ _ hl, ihr _ _ _ hr]
    simp [Visitor.accept, Bool.and_assoc]
  | un op c ih =>
    intro p s b h
    have hl : nodeAt top (p ++ [false]) = some c := by simp [nodeAt_append, h, nodeAt]
    have e : ((places c).map (false :: ·)).map (p ++ ·) = (places c).map ((p ++ [false]) ++ ·) := by simp
    rw [places, List.map_cons, e, List.foldl_cons]
    have h0 : visitAt V top (s, b) (p ++ []) = (V.inner p (.un op c) s, b) := by simp [visitAt, h]
    rw [h0, ih _ _ _ hl]
    simp [Visitor.accept]
  | int v => intro p s b h; simp [places, visitAt, h, Visitor.accept]
  | feature n => intro p s b h; simp [places, visitAt, h, Visitor.accept]

/-- The visitor that adds constraints does what `bindLeaves` does. -/
theorem addVisitor_none (tree : Constraint) (root : CRoot) (c : Constraint) : ∀ (p : Place) (k : Nat),
    ((addVisitor tree root).accept p c (none, k)).1 = (none, k + c.features.length) := by
  induction c with
  | bin op l r ihl ihr => intro p k; simp [Visitor.accept, addVisitor] at *; rw [ihl, ihr]; simp [Constraint.features]; omega
  | un op c ih => intro p k; simp [Visitor.accept, addVisitor] at *; rw [ih]; simp [Constraint.features]
  | int v => intro p k; simp [Visitor.accept, addVisitor, Constraint.features]
  | feature n => intro p k; simp [Visitor.accept, addVisitor, Constraint.features]

theorem bindLeaves_append (tree : Constraint) (root : CRoot) : ∀ (xs ys : List Str) (m : FModel) (k : Nat),
    FModel.bindLeaves tree root m k (xs ++ ys) = (FModel.bindLeaves tree root m k xs).bind fun a =>
      (FModel.bindLeaves tree root a.1 (k + xs.length) ys).map fun b => (b.1, a.2 && b.2)
  | [], ys, m, k => by simp [FModel.bindLeaves]
  | n :: xs, ys, m, k => by
    simp only [List.cons_append, FModel.bindLeaves]
    cases m.getFeature n with
    | none =>
      simp only [bindLeaves_append tree root xs ys m (k + 1), List.length_cons]
      cases FModel.bindLeaves tree root m (k + 1) xs with
      | none => rfl
      | some a =>
        simp only [Option.bind_some, Option.map_some, Option.map_map, show k + 1 + xs.length = k + (xs.length + 1) by omega]
        cases FModel.bindLeaves tree root a.1 (k + (xs.length + 1)) ys <;> simp
    | some i =>
      simp only
      cases (m.bindLeaf ⟨root, k⟩ i).updFeat i (Feat.register tree ⟨root, k⟩) with
      | none => rfl
      | some m' =>
        simp only [bindLeaves_append tree root xs ys m' (k + 1), List.length_cons, show k + 1 + xs.length = k + (xs.length + 1) by omega]

theorem addVisitor_eq (tree : Constraint) (root : CRoot) (c : Constraint) : ∀ (p : Place) (m : FModel) (k : Nat),
    match FModel.bindLeaves tree root m k c.features with
    | none => ((addVisitor tree root).accept p c (some m, k)).1.1 = none ∧
        ((addVisitor tree root).accept p c (some m, k)).1.2 = k + c.features.length
    | some a => (addVisitor tree root).accept p c (some m, k) = ((some a.1, k + c.features.length), a.2) := by
  induction c with
  | bin op l r ihl ihr =>
    intro p m k
    have hin : (addVisitor tree root).inner p (.bin op l r) (some m, k) = (some m, k) := rfl
    simp only [Constraint.features, bindLeaves_append, Visitor.accept, hin]
    have h1 := ihl (p ++ [false]) m k
    cases e : FModel.bindLeaves tree root m k l.features with
    | none =>
      rw [e] at h1
      simp only [Option.bind_none]
      have h2 : ((addVisitor tree root).accept (p ++ [false]) l (some m, k)).1 = (none, k + l.features.length) :=
        Prod.ext h1.1 h1.2
      rw [h2, addVisitor_none]
      simp; omega
    | some a =>
      rw [e] at h1
      simp only at h1
      have h2 := ihr (p ++ [true]) a.1 (k + l.features.length)
      simp only [Option.bind_some, h1]
      cases e2 : FModel.bindLeaves tree root a.1 (k + l.features.length) r.features with
      | none => rw [e2] at h2; simp only [Option.map_none] at *; exact ⟨h2.1, by rw [h2.2]; simp; omega⟩
      | some b => rw [e2] at h2; simp only [Option.map_some] at *; rw [h2]; simp; omega
  | un op c ih => intro p m k; exact ih (p ++ [false]) m k
  | int v => intro p m k; simp [Constraint.features, FModel.bindLeaves, Visitor.accept, addVisitor]
  | feature n =>
    intro p m k
    simp only [Constraint.features, FModel.bindLeaves, Visitor.accept, addVisitor]
    cases m.getFeature n with
    | none => simp
    | some i =>
      simp only
      cases (m.bindLeaf ⟨root, k⟩ i).updFeat i (Feat.register tree ⟨root, k⟩) with
      | none => simp
      | some m' => simp

end Verif

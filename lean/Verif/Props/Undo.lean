import Verif.FM.Undo
import Verif.FM.Closed
import Verif.Props.Script
/-!
# Property C99: transactions can undo each other and make every model

Scripts and what they mean on descriptions are those of C83.
-/

namespace Verif.Props
open Verif Spec Xml Z3Solver

variable {d d0 : Desc} {m m0 m' : FModel}

/-- What a script did, as long as it added no constraint, can be undone by another script: the model is again the one
    described before, with the same valid configurations. -/
theorem C99_undo_partial (E : Env) (h : Describes d m) (hk : ConstraintsKnown d) {ts : List (List Edit)} (hc : d.CanRun ts)
    (hn : ∀ t ∈ ts, ∀ k c, .constrain k c ∉ t) :
    ∃ m', runScript E m ts = some m' ∧ Describes (edited d ts) m' ∧
      ∃ us m'', runScript E m' us = some m'' ∧ Describes d m'' ∧ ∀ F a, Valid F m'' a ↔ Valid F m a := by
  obtain ⟨m', h1, h2, h3⟩ := describes_script E ts d m h hk hc
  obtain ⟨us, m'', k1, k2, _⟩ := undo_script E ts d m h hk hc hn h3 m' h2
  exact ⟨m', h1, h2, us, m'', k1, k2, fun F a => by rw [valid_desc k2, valid_desc h]⟩

/-- From a model without constraints some script leads to any model that can be described. -/
theorem C99_any (E : Env) (h0 : Describes d0 m0) (hc : d0.constraints = []) (h : Describes d m) (hk : ConstraintsKnown d) :
    ∃ ts m', runScript E m0 ts = some m' ∧ Describes d m' := by
  obtain ⟨ts, m', h1, h2, _⟩ := leads_any (E := E) h.sound hk d0 hc (by intro x hx; rw [hc] at hx; cases hx) m0 h0
  exact ⟨ts, m', h1, h2⟩

/-- What transactions of any modifications, committed one after the other with success or not, make of a model. -/
inductive After (E : Env) : FModel → FModel → Prop
  | refl {m : FModel} : After E m m
  | ok {m m1 m' : FModel} {ops : List Op} : m.commitOps E ops = .ok m1 → After E m1 m' → After E m m'
  | err {m m1 m' : FModel} {ops : List Op} {e : FTErr} : m.commitOps E ops = .err e m1 → After E m1 m' → After E m m'

/-- Constraints stay, in their order, whatever transactions do. -/
theorem C99_constraints_stay {E : Env} (h : After E m m') (cl : CClass) : (m.store cl).map (·.tree) <+: (m'.store cl).map (·.tree) := by
  have key : ∀ T, Begins T m → Begins T m' := by
    intro T
    induction h with
    | refl => exact id
    | @ok m m1 m' ops e _ ih =>
      intro hb
      have := (begins_closed T).commitOps (E := E) ops hb
      rw [e] at this
      exact ih this
    | @err m m1 m' ops er e _ ih =>
      intro hb
      have := (begins_closed T).commitOps (E := E) ops hb
      rw [e] at this
      exact ih this
  exact key (fun cl => (m.store cl).map (·.tree)) (fun cl => List.prefix_rfl) cl

/-- So adding a constraint cannot be undone. -/
theorem C99_constraint_for_good {E : Env} {k : CKind} {c : Constraint} (h : Describes (d.edit (.constrain k c)) m) (ha : After E m m') :
    ¬ Describes d m' := by
  intro h'
  have hp := (C99_constraints_stay ha k.cls).length_le
  rw [h.store, h'.store] at hp
  simp [Desc.edit, Desc.ofClass] at hp
  exact absurd hp (Nat.not_succ_le_self _)

/-! ## Not vacuous -/

/-- `A` is removed from the alternative of `A` and `B`, the root renamed and `B` given a location, the group dissolved. -/
def undone : List (List Edit) := [[.remove c!"A" false, .root c!"top"], [.locate c!"B" aLoc, .ungroup c!"top", .name c!"N"]]

theorem undone_can : (pairDesc false false (some .alternative) false).CanRun undone := by
  simp only [undone, Desc.CanRun, Desc.CanAll, List.foldl_cons, List.foldl_nil, Desc.Can]
  have hu : ∀ x, (pairDesc false false (some .alternative) false).Under c!"A" x → x = c!"A" :=
    fun x u => under_leaf (by simp [pairDesc, pairCalls, attrsOf]) u
  have hd : ∀ (p : Prop) [Decidable p], ¬ p → decide p = false := fun p _ h => decide_eq_false h
  have hB : c!"B" ∈ ((pairDesc false false (some .alternative) false).edit (.remove c!"A" false)).attrs.map Attr.name := by
    simp only [Desc.edit, List.mem_map, List.mem_filter, Bool.not_eq_true']
    refine ⟨{ name := c!"B", kind := .binary }, ⟨by simp [pairDesc, pairCalls, attrsOf], ?_⟩, rfl⟩
    refine @hd _ (Classical.propDecidable _) fun u => absurd (hu _ u) (by decide)
  refine ⟨⟨⟨by decide, ?_, ?_⟩, ?_, ⟨?_, ?_⟩, ?_, trivial⟩, ⟨hB, ?_, ⟨.alternative, ?_⟩, ?_, trivial, ?_, trivial⟩, trivial⟩
  · simp [pairDesc, pairCalls, attrsOf]
  · simp [pairDesc, pairCalls, constraintsOf]
  · simp
  · rintro (h | h)
    · exact absurd h (by decide)
    · obtain ⟨a, ha, e⟩ := List.mem_map.1 h
      have ha : a ∈ (pairDesc false false (some .alternative) false).attrs := (List.mem_filter.1 ha).1
      simp [pairDesc, pairCalls, attrsOf] at ha
      rcases ha with rfl | rfl <;> exact absurd e (by decide)
  · simp [Desc.edit, pairDesc, pairCalls, constraintsOf]
  · simp
  · simp
  · simp only [Desc.edit, List.mem_map, List.mem_filter, Bool.not_eq_true']
    refine ⟨(c!"root", .alternative), ⟨by simp [pairDesc, pairCalls, groupsOf], ?_⟩, by decide⟩
    refine @hd _ (Classical.propDecidable _) fun u => absurd (hu _ u) (by decide)
  · simp
  · simp

example (E : Env) : ∃ m us m' m'', Describes (pairDesc false false (some .alternative) false) m ∧ runScript E m undone = some m' ∧
    Describes (edited (pairDesc false false (some .alternative) false) undone) m' ∧
    runScript E m' us = some m'' ∧ Describes (pairDesc false false (some .alternative) false) m'' := by
  obtain ⟨m, h⟩ := pair_model false false (some .alternative) false
  obtain ⟨m', h1, h2, us, m'', h3, h4, _⟩ := C99_undo_partial E h (pair_known _ _ _ _) undone_can (by simp [undone])
  exact ⟨m, us, m', m'', h, h1, h2, h3, h4⟩

/-- From the alternative to the exclusive pair of optional features without group. -/
example (E : Env) : ∃ m ts m', Describes (pairDesc false false (some .alternative) false) m ∧ runScript E m ts = some m' ∧
    Describes (pairDesc true true none true) m' := by
  obtain ⟨m, h⟩ := pair_model false false (some .alternative) false
  obtain ⟨mt, ht⟩ := pair_model true true none true
  obtain ⟨ts, m', h1, h2⟩ := C99_any E h (by simp [pairDesc, pairCalls, constraintsOf]) ht (pair_known _ _ _ _)
  exact ⟨m, ts, m', h, h1, h2⟩

end Verif.Props

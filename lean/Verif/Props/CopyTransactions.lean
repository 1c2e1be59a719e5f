import Verif.FM.Copy
/-!
# Properties C19, C20: copy transactions
-/

namespace Verif.Props
open Spec

/-! ## C19 -/

/-- Whatever calls are made on a copy transaction, in any state of it: every object of the
    original model (and any other object that existed when the transaction was opened) is as it was,
    and no node, parent, child or constraint leaf of the copy is one of those objects.  Committing
    hands out this copy, aborting discards it. -/
theorem C19_original_unchanged {m c c' : FModel} (w : WF m) (E : Env) (hc : m.clone E = .built c) {ops : List Op}
    (hr : FModel.copyRun E c ops = some c') :
    (∀ i, m.heap i ≠ none → c'.heap i = m.heap i) ∧
    (∀ i, Owned m i → c'.heap i = m.heap i ∧ ¬ Owned c' i) ∧
    (∀ i, Owned c' i → m.heap i = none ∧ (∀ p, par c' i = some p → m.heap p = none) ∧
      ∀ x ∈ edg c' i, m.heap x = none) ∧
    (∀ i, Mentioned c' i → m.heap i = none) ∧ (∀ i, c'.root = some i → m.heap i = none) := by
  have hf : Frame m.next m.heap c' := (frame_clone w.fresh hc).copyRun hr
  have hz : ∀ i, m.next ≤ i → m.heap i = none := by
    intro i hi
    cases h : m.heap i with
    | none => rfl
    | some n => exact absurd (w.fresh i (by rw [h]; simp)) (Nat.not_lt.2 hi)
  have hown : ∀ i, Owned c' i → m.next ≤ i := by
    intro i hi
    rcases hi with hi | hi
    · obtain ⟨e, he, rfl⟩ := List.mem_map.1 hi; exact hf.features e he
    · exact hf.rels i hi
  refine ⟨fun i hi => hf.low i (w.fresh i hi), fun i hi => ?_, fun i hi => ⟨hz i (hown i hi), fun p hp => ?_, fun x hx => ?_⟩,
    ?_, fun i hi => hz i (hf.root i hi)⟩
  · have := w.owned_lt hi
    exact ⟨hf.low i this, fun h => Nat.not_lt.2 (hown i h) this⟩
  · cases hh : c'.heap i with
    | none => simp [par, hh] at hp
    | some n => exact hz p (hf.par i n (hown i hi) hh p (by simpa [par, hh] using hp))
  · cases hh : c'.heap i with
    | none => simp [edg, hh] at hx
    | some n => exact hz x (hf.edg i n (hown i hi) hh x (by simpa [edg, hh] using hx))
  · rintro i ⟨s, hs, hi⟩
    exact hz i (hf.binds s hs i hi)

/-- The committed model of a whole copy transaction. -/
theorem C19_committed {m c' : FModel} (w : WF m) (E : Env) {ops : List Op}
    (h : m.copyTransaction E ops = some (some c')) :
    (∀ i, m.heap i ≠ none → c'.heap i = m.heap i) ∧ (∀ i, Owned c' i → m.heap i = none) := by
  unfold FModel.copyTransaction at h
  cases hc : m.clone E with
  | ub => rw [hc] at h; cases h
  | null => rw [hc] at h; cases h
  | built c =>
    simp only [hc] at h
    cases hr : FModel.copyRun E c ops with
    | none => simp only [hr] at h; cases h
    | some d =>
      simp only [hr] at h
      have : d = c' := by
        cases hk : d.consistent E with
        | none => rw [hk] at h; cases h
        | some b => rw [hk] at h; cases b <;> simp at h; exact h
      subst this
      obtain ⟨a1, _, a3, _⟩ := C19_original_unchanged w E hc hr
      exact ⟨a1, fun i hi => (a3 i hi).1⟩

/-- A copy transaction that removes a feature, adds another and renames the model commits. -/
example : ∃ c', chain.copyTransaction (stdEnv true)
    [.removeFeature (.name c!"A") true, .addFeature { name := c!"D", kind := .binary } none, .setName c!"other"] = some (some c') ∧
    c'.getFeature c!"B" = none ∧ c'.name = c!"other" := by
  obtain ⟨c', h1, h2⟩ := of_commits (r := chain.copyTransaction (stdEnv true)
    [.removeFeature (.name c!"A") true, .addFeature { name := c!"D", kind := .binary } none, .setName c!"other"])
    (p := fun m => decide (m.getFeature c!"B" = none) && decide (m.name = c!"other")) (by decide)
  simp only [Bool.and_eq_true, decide_eq_true_eq] at h2
  exact ⟨c', h1, h2⟩

/-! ## C20 -/

/-- What holds: for modifications other than `addChild` that refer to features of the model and
    succeed, the copy transaction on `m` and the modify transaction on its clone commit the same
    model.  In the copy transaction a feature may be given by name or as a pointer into `m`, in the
    modify transaction by name or as a pointer into the clone.  The claim fails without these
    conditions (`C20_add_child_ignored`, `C20_missing_feature`, `C20_goes_on_after_error`). -/
theorem C20_same_partial {m c : FModel} (wm : WF m) (E : Env) (hc : m.clone E = .built c) (wc : WF c) (bc : Bound c)
    {ops : List (Op × Op)} (hs : SameRun E m c ops) :
    ∃ c', m.copyTransaction E (ops.map Prod.fst) = some (some c') ∧ c.commitOps E (ops.map Prod.snd) = .ok c' := by
  obtain ⟨c', h1, h2, w', b'⟩ := sameRun_copy wm E ops c wc bc (frame_clone wm.fresh hc) hs
  refine ⟨c', ?_, ?_⟩
  · simp only [FModel.copyTransaction, hc, h1, consistent_of_WF w']
  · simp only [FModel.commitOps, h2, consistent_of_WF w']

/-- A copy transaction ignores `addChild`: B stays below A, where the modify transaction moves it. -/
theorem C20_add_child_ignored : ∃ c c1 c2 : FModel, ∃ b a d : Id,
    WF chain ∧ chain.clone (stdEnv true) = .built c ∧
    chain.copyTransaction (stdEnv true) [.addChild (.name c!"C") (.name c!"B")] = some (some c1) ∧
    c.commitOps (stdEnv true) [.addChild (.name c!"C") (.name c!"B")] = .ok c2 ∧
    (c!"B", b) ∈ c1.features ∧ (c!"B", b) ∈ c2.features ∧ (c!"A", a) ∈ c1.features ∧ (c!"C", d) ∈ c2.features ∧
    par c1 b = some a ∧ par c2 b = some d ∧ a ≠ d := by
  obtain ⟨c, h1, h2⟩ := BuildRes.of_passes (r := chain.clone (stdEnv true))
    (p := fun c => (c.commitOps (stdEnv true) [.addChild (.name c!"C") (.name c!"B")]).passes fun m =>
      decide ((c!"B", 6) ∈ m.features) && decide ((c!"C", 7) ∈ m.features) && decide (par m 6 = some 7)) (by decide)
  obtain ⟨c2, h3, h4⟩ := Out.of_passes h2
  obtain ⟨c1, h5, h6⟩ := of_commits (r := chain.copyTransaction (stdEnv true) [.addChild (.name c!"C") (.name c!"B")])
    (p := fun m => decide ((c!"B", 6) ∈ m.features) && decide ((c!"A", 5) ∈ m.features) && decide (par m 6 = some 5))
    (by decide)
  simp only [Bool.and_eq_true, decide_eq_true_eq] at h4 h6
  exact ⟨c, c1, c2, 6, 5, 7, chain_wf, h1, h5, h3, h6.1.1, h4.1.1, h6.1.2, h4.1.2, h6.2, h4.2, by decide⟩

/-- Naming a feature the model does not have is undefined in a copy transaction, in every model;
    in a modify transaction it is an error. -/
theorem C20_missing_feature {c : FModel} (E : Env) {n : Str} (hn : ∀ i, (n, i) ∉ c.features) (recursive : Bool) :
    c.copyExec E (.removeFeature (.name n) recursive) = .ub ∧
    c.exec E (.removeFeature (.name n) recursive) = .err .missingFeature c := by
  have hg : c.getFeature n = none := by
    cases hg : c.getFeature n with
    | none => rfl
    | some i => exact absurd (getFeature_some hg) (hn i)
  have hr : c.resolve (.name n) = none := hg
  exact ⟨by simp only [FModel.copyExec, hr, FModel.translate],
    by simp only [FModel.exec, FModel.execRemoveFeature, hr]⟩

/-- After a failed call the copy transaction goes on and commits; the modify transaction stops and
    returns the error. -/
theorem C20_goes_on_after_error : ∃ c c1 c2 : FModel,
    WF chain ∧ chain.clone (stdEnv true) = .built c ∧
    chain.copyTransaction (stdEnv true) [.addFeature { name := c!"A", kind := .binary } none, .setName c!"new"] = some (some c1) ∧
    c1.name = c!"new" ∧
    c.commitOps (stdEnv true) [.addFeature { name := c!"A", kind := .binary } none, .setName c!"new"] = .err .alreadyPresent c2 ∧
    c2.name = c!"M" := by
  obtain ⟨c, h1, h2⟩ := BuildRes.of_passes (r := chain.clone (stdEnv true))
    (p := fun c => (c.commitOps (stdEnv true) [.addFeature { name := c!"A", kind := .binary } none, .setName c!"new"]).failsWith
      fun e m => decide (e = .alreadyPresent) && decide (m.name = c!"M")) (by decide)
  obtain ⟨e, c2, h3, h4⟩ := Out.of_failsWith h2
  obtain ⟨c1, h5, h6⟩ := of_commits (r := chain.copyTransaction (stdEnv true)
      [.addFeature { name := c!"A", kind := .binary } none, .setName c!"new"])
    (p := fun m => decide (m.name = c!"new")) (by decide)
  simp only [Bool.and_eq_true, decide_eq_true_eq] at h4 h6
  obtain ⟨rfl, h4⟩ := h4
  exact ⟨c, c1, c2, chain_wf, h1, h5, h6, h3, h4⟩

open FModel in
/-- A copy transaction ignores `addChild` in every model: with such calls only, whatever they name, it
    commits the clone as it is. -/
theorem C20_children_never_move {m c : FModel} (E : Env) (hc : m.clone E = .built c) (wc : WF c) (moves : List (Ref × Ref)) :
    m.copyTransaction E (moves.map fun e => .addChild e.1 e.2) = some (some c) := by
  have hr : copyRun E c (moves.map fun e => .addChild e.1 e.2) = some c := by
    induction moves with
    | nil => rfl
    | cons e es ih => simpa only [List.map_cons, copyRun, copyExec] using ih
  simp only [FModel.copyTransaction, hc, hr, consistent_of_WF wc]

open FModel in
/-- In every model, adding a feature under a name that is taken makes a modify transaction return the
    error with nothing changed, whatever else was asked for; a copy transaction commits what it would
    have committed without that call. -/
theorem C20_error_skipped {m c : FModel} (E : Env) (hc : m.clone E = .built c) {a : Attr} {i : Id}
    (hn : c.getFeature a.name = some i) (rest : List Op) :
    m.copyTransaction E (.addFeature a none :: rest) = m.copyTransaction E rest ∧
    c.commitOps E (.addFeature a none :: rest) = .err .alreadyPresent c := by
  have h : c.execAddFeature a none = .err .alreadyPresent c := by
    simp [execAddFeature, insertFeature, hn]
  constructor
  · simp only [FModel.copyTransaction, hc, copyRun, copyExec, h]
  · simp only [commitOps, outFold, exec, h]

end Verif.Props

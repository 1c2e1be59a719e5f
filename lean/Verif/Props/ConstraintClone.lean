import Verif.Constraint.HeapLemmas
/-!
# Cloning constraints (C08)
-/

namespace Verif.Props
open Verif Verif.Spec

variable {nm : Nat → Option Str} {s : CState}

/-- For every constraint object whose features exist, `clone` ends, in whichever order operands are cloned.
    The result is a constraint with the same shape, operators, literals and names on new objects that prints the
    same text; `getRoot` on each of its objects ends at the result; no object that existed before is changed; and
    its features are own ones. -/
theorem C08_clone (hf : Fresh s) {i : Nat} {c : Constraint} (h : Reads nm s i c) (lf : Nat → Bool) :
    ∃ s' i' l, (∃ N, ∀ n, N ≤ n → CState.clone nm lf n s i = some (s', i')) ∧
      Held nm s' none i' c l ∧ l.Nodup ∧ Fresh s' ∧
      (∃ N, ∀ n, N ≤ n → CState.text nm n s' i' = CState.text nm n s i ∧ CState.text nm n s i = some c.toStr) ∧
      (∃ N, ∀ j ∈ l, ∀ n, N ≤ n → CState.getRoot n s' j = some i') ∧
      (∀ k, s.objs k ≠ none → s'.objs k = s.objs k ∧ k ∉ l) ∧ OwnLeaves s' l := by
  obtain ⟨N, hN⟩ := clone_spec h lf
  obtain ⟨s', i', l, e, hc⟩ := hN N (Nat.le_refl _) s hf (fun _ _ => rfl)
  obtain ⟨A, hA⟩ := text_spec h
  obtain ⟨B, hB⟩ := text_spec hc.held.reads
  refine ⟨s', i', l, ⟨N, fun n hn => clone_mono e hn⟩, hc.held, hc.nodup, hc.fresh,
    ⟨A + B, fun n hn => ⟨(hB n (by omega)).trans (hA n (by omega)).symm, hA n (by omega)⟩⟩, root_spec hc.held, ?_, hc.own⟩
  intro k hk
  have hlt := fresh_lt hf hk
  exact ⟨hc.old k hlt, fun hm => absurd (hc.new k hm) (Nat.not_le.2 hlt)⟩

/-- Whatever is done to the objects of the clone afterwards, the original stays the same, and vice versa. -/
theorem C08_independent (hf : Fresh s) {p : Option Nat} {i : Nat} {c : Constraint} {l0 : List Nat} (h : Held nm s p i c l0) {lf : Nat → Bool} {n : Nat}
    {s' : CState} {i' : Nat} (hc : CState.clone nm lf n s i = some (s', i')) :
    ∃ l, Held nm s' p i c l0 ∧ Held nm s' none i' c l ∧
      (∀ s'' : CState, (∀ k, k ∉ l → s''.objs k = s'.objs k) → Held nm s'' p i c l0) ∧
      ∀ s'' : CState, (∀ k, k ∉ l0 → s''.objs k = s'.objs k) → Held nm s'' none i' c l := by
  obtain ⟨s1, i1, l, ⟨N, e⟩, h1, _, _, _, _, h2, _⟩ := C08_clone hf h.reads lf
  have := clone_mono hc (Nat.le_add_right n N)
  rw [e (n + N) (by omega)] at this
  cases this
  have hold : Held nm s' p i c l0 := h.congr fun k hk => (h2 k (h.used k hk)).1
  refine ⟨l, hold, h1, ?_, ?_⟩
  · intro s'' hs
    exact hold.congr fun k hk => hs k (h2 k (h.used k hk)).2
  · intro s'' hs
    exact h1.congr fun k hk => hs k fun hk0 => (h2 k (h.used k hk0)).2 hk

/-- However constraints are put together, cloned, taken apart and given features: every constraint that is owned
    is a tree on objects of its own, and `getRoot` leads from each of its objects to its root. -/
theorem C08_roots {lf : Nat → Bool} {x : CState × List Nat} (h : CSteps nm lf (⟨fun _ => none, 0⟩, []) x) :
    ∀ i ∈ x.2, ∃ c l, Held nm x.1 none i c l ∧ l.Nodup ∧ ∃ N, ∀ j ∈ l, ∀ n, N ≤ n → CState.getRoot n x.1 j = some i := by
  obtain ⟨ts, h1, h2⟩ := forest_steps h (ts := []) ⟨fun _ _ => rfl, by simp, by simp⟩ (.refl _)
  intro i hi
  obtain ⟨t, ht, rfl⟩ := List.mem_map.1 (h2.mem_iff.2 hi)
  refine ⟨t.2.1, t.2.2, h1.held t ht, ?_, root_spec (h1.held t ht)⟩
  obtain ⟨l1, l2, rfl⟩ := List.append_of_mem ht
  have := (h1.perm List.perm_middle).apart
  rw [List.flatMap_cons, List.nodup_append] at this
  exact this.1

/-- The hypotheses of `C08_clone` are met by `(A | !B)`, with A a feature of a model and B an own feature. -/
example : ∃ (nm : Nat → Option Str) (s : CState), Fresh s ∧ Reads nm s 3 (.bin .or (.feature c!"A") (.un .not (.feature c!"B"))) ∧
    ∃ s', CState.clone nm (fun _ => false) 5 s 3 = some (s', 7) ∧ CState.text nm 5 s' 7 = some c!"(A | !B)" ∧
      CState.getRoot 5 s' 5 = some 7 := by
  refine ⟨fun i => if i = 40 then some c!"A" else none, ⟨fun i =>
    [some ⟨.feature (.ptr (some 40)), some 3⟩, some ⟨.feature (.own c!"B"), some 2⟩, some ⟨.un .not 1, some 3⟩, some ⟨.bin .or 0 2, none⟩][i]?.join, 4⟩,
    ?_, ?_, ?_⟩
  · intro k hk
    have : 4 ≤ k := hk
    simp [List.getElem?_eq_none (l := [_, _, _, _]) this]
  · exact .bin (p := none) (l := 0) (r := 2) rfl (.feature (p := some 3) (f := .ptr (some 40)) rfl rfl)
      (.un (p := some 3) (c := 1) rfl (.feature (p := some 2) (f := .own c!"B") rfl rfl))
  · refine ⟨_, rfl, by decide, by decide⟩

/-- A program that builds `A & A`, clones it and uses the clone as an operand. -/
example : ∃ x, CSteps (fun _ => none) (fun _ => true) (⟨fun _ => none, 0⟩, []) x ∧ x.2.length = 2 := by
  refine ⟨_, .cons (.feature (.own c!"A") c!"A" rfl) (.cons (.feature (.own c!"A") c!"A" rfl)
    (.cons (.bin .and (rs' := []) (.refl _) rfl) (.cons (.clone (fuel := 3) (i := 2)
      (.bin (p := none) (l := 1) (r := 0) rfl (.feature (p := some 2) (f := .own c!"A") rfl rfl)
        (.feature (p := some 2) (f := .own c!"A") rfl rfl)) rfl)
    (.cons (.un .not (rs' := [2]) (.refl _) rfl) .nil)))), rfl⟩

end Verif.Props

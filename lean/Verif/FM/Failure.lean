import Verif.FM.Effects
/-! Lemmas: what an error leaves behind, and which registrations `addConstraint` makes. -/

namespace Verif
open Verif.Spec

/-- A computation that cannot end with an error code. -/
def NeverErr (o : Out) : Prop := ∀ e m, o ≠ .err e m

theorem noErr_outOf (o : Option FModel) : NeverErr (FModel.outOf o) := by
  intro e m h
  cases o <;> cases h

theorem noErr_outFold {α} {f : FModel → α → Out} (hf : ∀ m x, NeverErr (f m x)) :
    ∀ (l : List α) (m : FModel), NeverErr (FModel.outFold f m l)
  | [], m => by intro e m' h; cases h
  | x :: xs, m => by
    intro e m' h
    unfold FModel.outFold at h
    cases hx : f m x with
    | ok m1 => rw [hx] at h; exact noErr_outFold hf xs m1 e m' h
    | err e1 m1 => exact hf m x e1 m1 hx
    | ub => rw [hx] at h; cases h

theorem noErr_removeFinish (m : FModel) (i : Id) : NeverErr (m.removeFinish i) := by
  intro e m' h
  unfold FModel.removeFinish at h
  cases h1 : m.heap i with
  | none => rw [h1] at h; cases h
  | some n =>
    rw [h1] at h; simp only at h
    cases h2 : n.parent with
    | none => rw [h2] at h; cases h
    | some p =>
      rw [h2] at h; simp only at h
      cases h3 : m.removeEdge p i with
      | none => rw [h3] at h; cases h
      | some m1 => rw [h3] at h; exact noErr_outOf _ e m' h

theorem noErr_removeRec (E : Env) : ∀ (fuel : Nat) (m : FModel) (i : Id), NeverErr (FModel.removeRec E fuel true m i)
  | 0, m, i => by intro e m' h; cases h
  | fuel + 1, m, i => by
    intro e m' h
    simp only [FModel.removeRec, if_true] at h
    cases h1 : m.children E Node.isFeat i with
    | none => rw [h1] at h; cases h
    | some cs =>
      rw [h1] at h; simp only at h
      cases h2 : FModel.outFold (fun m c => FModel.removeRec E fuel true m c) m cs with
      | ub => rw [h2] at h; cases h
      | err e1 m1 => exact noErr_outFold (fun m x => noErr_removeRec E fuel m x) cs m e1 m1 h2
      | ok m1 =>
        rw [h2] at h; simp only at h
        cases h3 : m1.children E Node.isRel i with
        | none => rw [h3] at h; cases h
        | some rs =>
          rw [h3] at h; simp only at h
          cases h4 : FModel.outFold (fun m r => FModel.outOf (m.dropRelOf i r)) m1 rs with
          | ub => rw [h4] at h; cases h
          | err e1 m2 => exact noErr_outFold (fun m x => noErr_outOf _) rs m1 e1 m2 h4
          | ok m2 => rw [h4] at h; exact noErr_removeFinish _ _ _ _ h

/-- Every modification but `addConstraint` that reports an error has done nothing, in every model. -/
theorem exec_err {m m' : FModel} {E : Env} {op : Op} {e : FTErr} (h : m.exec E op = .err e m')
    (hc : ∀ k c, op ≠ .addConstraint k c) : m' = m := by
  cases op with
  | addFeature a p =>
    have h : m.execAddFeature a p = .err e m' := h
    unfold FModel.execAddFeature at h
    cases h1 : m.insertFeature a with
    | none => rw [h1] at h; cases h; rfl
    | some r =>
      rw [h1] at h; simp only at h
      cases p with
      | some p => exact absurd h (noErr_outOf _ _ _)
      | none =>
        simp only at h
        cases h2 : r.1.root with
        | none => rw [h2] at h; cases h
        | some x => rw [h2] at h; exact absurd h (noErr_outOf _ _ _)
  | removeFeature f r =>
    have h : m.execRemoveFeature E f r = .err e m' := h
    unfold FModel.execRemoveFeature at h
    cases h1 : m.resolve f with
    | none => rw [h1] at h; cases h; rfl
    | some i =>
      rw [h1] at h; simp only at h
      cases r with
      | true => exact absurd h (noErr_removeRec _ _ _ _ _ _)
      | false =>
        simp only [FModel.removeRec, Bool.false_eq_true, if_false] at h
        cases h2 : m.children E Node.isFeat i with
        | none => rw [h2] at h; cases h
        | some cs =>
          rw [h2] at h
          cases cs with
          | cons c cs => cases h; rfl
          | nil =>
            simp only at h
            cases h3 : m.children E Node.isRel i with
            | none => rw [h3] at h; cases h
            | some rs =>
              rw [h3] at h
              cases rs with
              | nil => exact absurd h (noErr_removeFinish _ _ _ _)
              | cons r rs =>
                simp only at h
                cases h4 : m.dropRel r with
                | none => rw [h4] at h; cases h
                | some m1 => rw [h4] at h; exact absurd h (noErr_removeFinish _ _ _ _)
  | addRelationship k p =>
    have h : m.execAddRelationship E k p = .err e m' := h
    unfold FModel.execAddRelationship at h
    simp only at h
    generalize ({ m.put m.next { data := .rel k } with next := m.next + 1, rels := m.rels ++ [m.next] } : FModel) = m1 at h
    cases h1 : m1.resolve p with
    | none => rw [h1] at h; cases h
    | some i =>
      rw [h1] at h; simp only at h
      cases h2 : m1.link i m.next with
      | none => rw [h2] at h; cases h
      | some m2 =>
        rw [h2] at h; simp only at h
        cases h3 : m2.children E Node.isFeat i with
        | none => rw [h3] at h; cases h
        | some cs => rw [h3] at h; exact absurd h (noErr_outFold (fun _ _ => noErr_outOf _) _ _ _ _)
  | removeRelationship p =>
    have h : m.execRemoveRelationship E p = .err e m' := h
    unfold FModel.execRemoveRelationship at h
    cases h1 : m.resolve p with
    | none => rw [h1] at h; cases h; rfl
    | some i =>
      rw [h1] at h; simp only at h
      cases h2 : m.children E Node.isRel i with
      | none => rw [h2] at h; cases h
      | some rs =>
        rw [h2] at h
        cases rs with
        | nil => cases h
        | cons r rs =>
          simp only at h
          cases h3 : m.removeEdge i r with
          | none => rw [h3] at h; cases h
          | some m1 =>
            rw [h3] at h; simp only at h
            cases h4 : m1.children E Node.isFeat r with
            | none => rw [h4] at h; cases h
            | some cs =>
              rw [h4] at h; simp only at h
              cases h5 : FModel.outFold (fun m c => FModel.outOf (FModel.regroup E r i m c)) m1 cs with
              | ub => rw [h5] at h; cases h
              | err e1 m2 => exact absurd h5 (noErr_outFold (fun _ _ => noErr_outOf _) _ _ _ _)
              | ok m2 => rw [h5] at h; exact absurd h (noErr_outOf _ _ _)
  | addLocation f r =>
    have h : m.execAddLocation f r = .err e m' := h
    unfold FModel.execAddLocation at h
    cases h1 : m.resolve f with
    | none => rw [h1] at h; cases h
    | some i => rw [h1] at h; exact absurd h (noErr_outOf _ _ _)
  | removeLocation f r =>
    have h : m.execRemoveLocation f r = .err e m' := h
    unfold FModel.execRemoveLocation at h
    cases h1 : m.resolve f with
    | none => rw [h1] at h; cases h
    | some i =>
      rw [h1] at h; simp only at h
      cases h2 : m.feat? i with
      | none => rw [h2] at h; cases h
      | some ft =>
        rw [h2] at h; simp only at h
        cases h3 : FModel.eraseLoc r ft.attr.locs with
        | none => rw [h3] at h; cases h
        | some ls => rw [h3] at h; exact absurd h (noErr_outOf _ _ _)
  | addConstraint k c => exact absurd rfl (hc k c)
  | setName n => cases h
  | setCommit n => cases h
  | setPath n => cases h
  | setRoot n =>
    have h : m.execSetRoot n = .err e m' := h
    unfold FModel.execSetRoot at h
    have key : (match m.insertFeature { name := n, kind := .root } with
        | none => Out.err .alreadyPresent m
        | some (m, i) =>
          match m.root with
          | none => .ok { m with root := some i }
          | some r =>
            match m.heap r with
            | none => .ub
            | some rn =>
              match FModel.outFold (fun m c => FModel.outOf (m.link i c)) m rn.edges with
              | .ok m =>
                match FModel.outFold (fun m c => FModel.outOf (m.removeEdge r c)) m rn.edges with
                | .ok m =>
                  match m.eraseFeature r with
                  | none => .ub
                  | some m => .ok { m with root := some i }
                | o => o
              | o => o) = .err e m' → m' = m := by
      intro h
      cases h1 : m.insertFeature { name := n, kind := .root } with
      | none => rw [h1] at h; cases h; rfl
      | some r =>
        rw [h1] at h; simp only at h
        cases h2 : r.1.root with
        | none => rw [h2] at h; cases h
        | some x =>
          rw [h2] at h; simp only at h
          cases h3 : r.1.heap x with
          | none => rw [h3] at h; cases h
          | some xn =>
            rw [h3] at h; simp only at h
            cases h4 : FModel.outFold (fun m c => FModel.outOf (m.link r.2 c)) r.1 xn.edges with
            | ub => rw [h4] at h; cases h
            | err e1 m2 => exact absurd h4 (noErr_outFold (fun _ _ => noErr_outOf _) _ _ _ _)
            | ok m2 =>
              rw [h4] at h; simp only at h
              cases h5 : FModel.outFold (fun m c => FModel.outOf (m.removeEdge x c)) m2 xn.edges with
              | ub => rw [h5] at h; cases h
              | err e1 m2 => exact absurd h5 (noErr_outFold (fun _ _ => noErr_outOf _) _ _ _ _)
              | ok m3 =>
                rw [h5] at h; simp only at h
                cases h6 : m3.eraseFeature x with
                | none => rw [h6] at h; cases h
                | some m4 => rw [h6] at h; cases h
    cases h1 : m.root with
    | none => rw [h1] at h; exact key h
    | some r =>
      rw [h1] at h; simp only at h
      cases h2 : m.nameOf r with
      | none => rw [h2] at h; cases h
      | some rn =>
        rw [h2] at h; simp only at h
        by_cases h3 : rn = n
        · rw [if_pos h3] at h; cases h
        · rw [if_neg h3] at h; exact key h
  | addChild p c =>
    have h : m.execAddChild p c = .err e m' := h
    unfold FModel.execAddChild at h
    cases h1 : m.resolve c with
    | none => rw [h1] at h; cases h; rfl
    | some ci =>
      rw [h1] at h; simp only at h
      cases h2 : m.resolve p with
      | none => rw [h2] at h; cases h; rfl
      | some pi =>
        rw [h2] at h; simp only at h
        by_cases h3 : ci = pi
        · rw [if_pos h3] at h; cases h; rfl
        · rw [if_neg h3] at h
          cases h4 : m.heap ci with
          | none => rw [h4] at h; cases h
          | some cn =>
            rw [h4] at h; simp only at h
            have fin : ∀ m1 : FModel, (match m1.addEdge pi ci with
                | none => Out.ub | some m => FModel.outOf (m.setParent ci (some pi))) = .err e m' → m' = m := by
              intro m1 h
              cases h6 : m1.addEdge pi ci with
              | none => rw [h6] at h; cases h
              | some m2 => rw [h6] at h; exact absurd h (noErr_outOf _ _ _)
            cases h5 : cn.parent with
            | none => rw [h5] at h; exact fin m h
            | some q =>
              rw [h5] at h; simp only at h
              cases h6 : m.removeEdge q ci with
              | none => rw [h6] at h; cases h
              | some m1 => rw [h6] at h; exact fin m1 h

/-- An error of a whole sequence is the error of one of its members, after all before it. -/
theorem outFold_err {α} {f : FModel → α → Out} : ∀ {l : List α} {m m' : FModel} {e : FTErr},
    FModel.outFold f m l = .err e m' →
    ∃ pre x post m1, l = pre ++ x :: post ∧ FModel.outFold f m pre = .ok m1 ∧ f m1 x = .err e m'
  | [], m, m', e, h => by cases h
  | x :: xs, m, m', e, h => by
    unfold FModel.outFold at h
    cases hx : f m x with
    | ub => rw [hx] at h; cases h
    | err e1 m1 => rw [hx] at h; cases h; exact ⟨[], x, xs, m, rfl, rfl, hx⟩
    | ok m1 =>
      rw [hx] at h
      obtain ⟨pre, y, post, m2, h1, h2, h3⟩ := outFold_err (l := xs) h
      exact ⟨x :: pre, y, post, m2, by rw [h1]; rfl, by simp only [FModel.outFold, hx]; exact h2, h3⟩

/-- A transaction that no longer holds its model changes nothing, whatever is called. -/
theorem txRun_closed (E : Env) : ∀ (cs : List TxCall) (m : FModel) (t : Tx), t.opened = false →
    ∃ rs, m.txRun E t cs = some (m, rs) ∧ rs.length = cs.length ∧
      ∀ k : Nat, cs[k]? = some TxCall.commit → rs[k]? = some (TxRes.err .aborted)
  | [], m, t, _ => ⟨[], rfl, rfl, by intro k h; cases h⟩
  | c :: cs, m, t, ht => by
    have hstep : ∃ t' r, m.txStep E t c = some (m, t', r) ∧ t'.opened = false ∧ (c = .commit → r = .err .aborted) := by
      cases c with
      | op o => exact ⟨_, _, rfl, ht, by intro h; cases h⟩
      | commit => exact ⟨t, .err .aborted, by simp [FModel.txStep, FModel.txCommit, ht], ht, fun _ => rfl⟩
      | abort => exact ⟨_, _, rfl, rfl, by intro h; cases h⟩
      | destroy => exact ⟨t, .none, by simp [FModel.txStep, ht], ht, by intro h; cases h⟩
    obtain ⟨t', r, h1, h2, h3⟩ := hstep
    obtain ⟨rs, h4, h5, h6⟩ := txRun_closed E cs m t' h2
    refine ⟨r :: rs, ?_, by simp [h5], ?_⟩
    · simp only [FModel.txRun, h1, h4]; rfl
    · intro k hk
      cases k with
      | zero => simp at hk; simp [h3 hk]
      | succ k => simp at hk ⊢; exact h6 k hk

/-- Queueing changes nothing. -/
theorem txRun_queue (E : Env) (rest : List TxCall) : ∀ (ops : List Op) (m : FModel) (t : Tx),
    m.txRun E t (ops.map TxCall.op ++ rest) =
      (m.txRun E { t with ops := t.ops ++ ops } rest).map fun x => (x.1, ops.map (fun _ => TxRes.none) ++ x.2)
  | [], m, t => by
    simp only [List.map_nil, List.nil_append, List.append_nil]
    cases m.txRun E t rest <;> rfl
  | o :: os, m, t => by
    simp only [List.map_cons, List.cons_append]
    conv => lhs; unfold FModel.txRun
    simp only [FModel.txStep]
    rw [txRun_queue E rest os m]
    simp only [List.append_assoc, List.singleton_append]
    cases m.txRun E { t with ops := t.ops ++ o :: os } rest <;> rfl

/-! ## Registrations -/

theorem positions_mem {n : Str} : ∀ {l : List Str} {k x : Nat},
    x ∈ positions n k l ↔ k ≤ x ∧ l[x - k]? = some n
  | [], k, x => by simp [positions]
  | y :: ys, k, x => by
    have ih := positions_mem (n := n) (l := ys) (k := k + 1) (x := x)
    have hidx : k + 1 ≤ x → (y :: ys)[x - k]? = ys[x - (k + 1)]? := by
      intro h
      rw [show x - k = (x - (k + 1)) + 1 by omega]; rfl
    unfold positions
    by_cases hy : y = n
    · rw [if_pos hy, List.mem_cons, ih]
      constructor
      · rintro (rfl | ⟨h1, h2⟩)
        · simp [hy]
        · exact ⟨by omega, by rw [hidx h1]; exact h2⟩
      · rintro ⟨h1, h2⟩
        by_cases hx : x = k
        · exact .inl hx
        · exact .inr ⟨by omega, by rw [← hidx (by omega)]; exact h2⟩
    · rw [if_neg hy, ih]
      constructor
      · rintro ⟨h1, h2⟩
        exact ⟨by omega, by rw [hidx h1]; exact h2⟩
      · rintro ⟨h1, h2⟩
        have hx : x ≠ k := by rintro rfl; simp at h2; exact hy h2
        exact ⟨by omega, by rw [← hidx (by omega)]; exact h2⟩

/-- The root of the constraint is an implication between its two sides. -/
def Spec.IsImplies (c : Constraint) : Prop := ∃ l r, c = .bin .implies l r
/-- The root of the constraint is an exclusion. -/
def Spec.IsExcludes (c : Constraint) : Prop := ∃ l r, c = .bin .excludes l r

theorem register_mem (tree : Constraint) (l : CLeaf) (f : Feat) :
    (∀ x, x ∈ (f.register tree l).constraints ↔ x ∈ f.constraints ∨ x = l) ∧
    (∀ x, x ∈ (f.register tree l).implications ↔ x ∈ f.implications ∨ (IsImplies tree ∧ x = l.root)) ∧
    (∀ x, x ∈ (f.register tree l).excludes ↔ x ∈ f.excludes ∨ (IsExcludes tree ∧ x = l.root)) := by
  unfold Feat.register
  by_cases h1 : IsImplies tree
  · obtain ⟨a, b, rfl⟩ := h1
    have h2 : ¬ IsExcludes (.bin .implies a b) := by rintro ⟨_, _, h⟩; cases h
    have h1 : IsImplies (.bin .implies a b) := ⟨a, b, rfl⟩
    simp [h1, h2]
  · by_cases h2 : IsExcludes tree
    · obtain ⟨a, b, rfl⟩ := h2
      have h2 : IsExcludes (.bin .excludes a b) := ⟨a, b, rfl⟩
      simp [h1, h2]
    · simp only [h1, h2, false_and, or_false]
      split
      · exact absurd ⟨_, _, rfl⟩ h1
      · exact absurd ⟨_, _, rfl⟩ h2
      · simp

theorem regs_mem (tree : Constraint) (root : CRoot) : ∀ (ks : List Nat) (f : Feat),
    (∀ x, x ∈ (regs tree root ks f).constraints ↔ x ∈ f.constraints ∨ (x.root = root ∧ x.leaf ∈ ks)) ∧
    (∀ x, x ∈ (regs tree root ks f).implications ↔ x ∈ f.implications ∨ (IsImplies tree ∧ x = root ∧ ks ≠ [])) ∧
    (∀ x, x ∈ (regs tree root ks f).excludes ↔ x ∈ f.excludes ∨ (IsExcludes tree ∧ x = root ∧ ks ≠ []))
  | [], f => by simp [regs]
  | k :: ks, f => by
    obtain ⟨a1, a2, a3⟩ := regs_mem tree root ks (f.register tree ⟨root, k⟩)
    obtain ⟨b1, b2, b3⟩ := register_mem tree ⟨root, k⟩ f
    have e : regs tree root (k :: ks) f = regs tree root ks (f.register tree ⟨root, k⟩) := rfl
    rw [e]
    refine ⟨fun x => ?_, fun x => ?_, fun x => ?_⟩
    · rw [a1, b1, List.mem_cons]
      obtain ⟨r, l⟩ := x
      simp only [CLeaf.mk.injEq]
      constructor
      · rintro ((h | ⟨h1, h2⟩) | ⟨h1, h2⟩)
        · exact .inl h
        · exact .inr ⟨h1, .inl h2⟩
        · exact .inr ⟨h1, .inr h2⟩
      · rintro (h | ⟨h1, h2 | h2⟩)
        · exact .inl (.inl h)
        · exact .inl (.inr ⟨h1, h2⟩)
        · exact .inr ⟨h1, h2⟩
    · rw [a2, b2]
      constructor
      · rintro ((h | ⟨h1, h2⟩) | ⟨h1, h2, h3⟩)
        · exact .inl h
        · exact .inr ⟨h1, h2, by simp⟩
        · exact .inr ⟨h1, h2, by simp⟩
      · rintro (h | ⟨h1, h2, _⟩)
        · exact .inl (.inl h)
        · exact .inl (.inr ⟨h1, h2⟩)
    · rw [a3, b3]
      constructor
      · rintro ((h | ⟨h1, h2⟩) | ⟨h1, h2, h3⟩)
        · exact .inl h
        · exact .inr ⟨h1, h2, by simp⟩
        · exact .inr ⟨h1, h2, by simp⟩
      · rintro (h | ⟨h1, h2, _⟩)
        · exact .inl (.inl h)
        · exact .inl (.inr ⟨h1, h2⟩)

theorem positions_length (n : Str) : ∀ (l : List Str) (k : Nat), (positions n k l).length = l.count n
  | [], _ => rfl
  | x :: l, k => by
    unfold positions
    by_cases hx : x = n
    · rw [if_pos hx, List.length_cons, positions_length n l, hx, List.count_cons_self]
    · rw [if_neg hx, positions_length n l, List.count_cons_of_ne hx]

open Classical in
/-- An implication is listed once for each of its leaves. -/
theorem regs_count (tree : Constraint) (root r : CRoot) : ∀ (ks : List Nat) (f : Feat), (regs tree root ks f).implications.count r =
    f.implications.count r + if IsImplies tree ∧ r = root then ks.length else 0
  | [], f => by simp [regs]
  | k :: ks, f => by
    have e : regs tree root (k :: ks) f = regs tree root ks (f.register tree ⟨root, k⟩) := rfl
    rw [e, regs_count tree root r ks]
    by_cases h1 : IsImplies tree
    · obtain ⟨a, b, rfl⟩ := h1
      have h1 : IsImplies (.bin .implies a b) := ⟨a, b, rfl⟩
      simp only [Feat.register, List.count_append, h1, true_and, List.length_cons]
      by_cases hr : r = root
      · subst hr; simp; omega
      · have : root ≠ r := fun e => hr e.symm
        simp [hr, this]
    · have hi : (f.register tree ⟨root, k⟩).implications = f.implications := by
        unfold Feat.register
        split
        · exact absurd ⟨_, _, rfl⟩ h1
        · rfl
        · rfl
      simp [h1, hi]

end Verif

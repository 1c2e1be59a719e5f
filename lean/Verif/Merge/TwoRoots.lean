import Verif.Merge.Result
/-! Lemmas: a second root in the copy stays there. -/

namespace Verif
open Verif.Spec

/-- Two features of root kind. -/
structure TwoRoots (c : FModel) : Prop where
  fresh : ∀ i, c.heap i ≠ none → i < c.next
  two : ∃ x y f g, x ≠ y ∧ Known c x ∧ Known c y ∧ data c x = some (.feat f) ∧ data c y = some (.feat g) ∧
    f.attr.kind = .root ∧ g.attr.kind = .root

/-- Nothing but parents and edges changed. -/
structure OnlyLinks (c c' : FModel) : Prop where
  data : data c' = data c
  next : c'.next = c.next
  features : c'.features = c.features

theorem data_ne_none {c : FModel} {i : Id} : c.heap i ≠ none ↔ data c i ≠ none := by
  unfold data; cases c.heap i <;> simp

theorem OnlyLinks.twoRoots {c c' : FModel} (h : OnlyLinks c c') (t : TwoRoots c) : TwoRoots c' := by
  refine ⟨fun i hi => ?_, ?_⟩
  · rw [data_ne_none, h.data, ← data_ne_none] at hi
    rw [h.next]; exact t.fresh i hi
  · have hk : ∀ x, Known c' x ↔ Known c x := by intro x; unfold Known; rw [h.features]
    simp only [h.data, hk]
    exact t.two

theorem onlyLinks_setParent {c c' : FModel} {i : Id} {p : Option Id} (h : c.setParent i p = some c') : OnlyLinks c c' := by
  unfold FModel.setParent at h
  cases hn : c.heap i with
  | none => rw [hn] at h; cases h
  | some n =>
    rw [hn] at h
    simp only [Option.map_some, Option.some.injEq] at h
    subst h
    refine ⟨?_, rfl, rfl⟩
    rw [data_put]
    have : (some n.data) = data c i := by simp [data, hn]
    rw [this, upd_self]

theorem onlyLinks_addEdge {c c' : FModel} {p x : Id} (h : c.addEdge p x = some c') : OnlyLinks c c' := by
  unfold FModel.addEdge at h
  cases hn : c.heap p with
  | none => rw [hn] at h; cases h
  | some n =>
    rw [hn] at h
    simp only [Option.map_some, Option.some.injEq] at h
    subst h
    refine ⟨?_, rfl, rfl⟩
    rw [data_put]
    have : (some n.data) = data c p := by simp [data, hn]
    rw [this, upd_self]

theorem onlyLinks_link {c c' : FModel} {p x : Id} (h : c.link p x = some c') : OnlyLinks c c' := by
  unfold FModel.link at h
  cases h1 : c.setParent x (some p) with
  | none => rw [h1] at h; cases h
  | some c1 =>
    rw [h1] at h
    have a := onlyLinks_setParent h1
    have b := onlyLinks_addEdge h
    exact ⟨b.data.trans a.data, b.next.trans a.next, b.features.trans a.features⟩

/-- What a modification leaves, if it is defined. -/
def OutAll (P : FModel → Prop) : Out → Prop
  | .ok m => P m
  | .err _ m => P m
  | .ub => True

theorem twoRoots_insert {c c' : FModel} {a : Attr} {i : Id} (t : TwoRoots c) (h : c.insertFeature a = some (c', i)) : TwoRoots c' := by
  unfold FModel.insertFeature at h
  cases hg : c.getFeature a.name with
  | some j => rw [hg] at h; cases h
  | none =>
    rw [hg] at h
    simp only [Option.some.injEq, Prod.mk.injEq] at h
    obtain ⟨h, _⟩ := h
    subst h
    obtain ⟨x, y, f, g, h1, h2, h3, h4, h5, h6, h7⟩ := t.two
    have hlt : ∀ x f, data c x = some f → x ≠ c.next := by
      intro x f hx e
      have := t.fresh x (by rw [data_ne_none, hx]; simp)
      rw [e] at this
      exact Nat.lt_irrefl _ this
    refine ⟨?_, x, y, f, g, h1, ?_, ?_, ?_, ?_, h6, h7⟩
    · intro j hj
      by_cases e : j = c.next
      · subst e; exact Nat.lt_succ_self _
      · have : c.heap j ≠ none := by simpa [FModel.put, e] using hj
        exact Nat.lt_succ_of_lt (t.fresh j this)
    · unfold Known at h2 ⊢; simp only [List.map_append, List.mem_append]; exact .inl h2
    · unfold Known at h3 ⊢; simp only [List.map_append, List.mem_append]; exact .inl h3
    · show data (c.put _ _) x = _
      rw [data_put, upd_ne _ _ (hlt x _ h4)]; exact h4
    · show data (c.put _ _) y = _
      rw [data_put, upd_ne _ _ (hlt y _ h5)]; exact h5

theorem twoRoots_addFeature {c : FModel} {a : Attr} {p : Option Id} (t : TwoRoots c) : OutAll TwoRoots (c.execAddFeature a p) := by
  unfold FModel.execAddFeature
  cases h : c.insertFeature a with
  | none => exact t
  | some r =>
    obtain ⟨c1, i⟩ := r
    have t1 := twoRoots_insert t h
    have hl : ∀ q, OutAll TwoRoots (FModel.outOf (c1.link q i)) := by
      intro q
      cases hq : c1.link q i with
      | none => trivial
      | some c2 => exact (onlyLinks_link hq).twoRoots t1
    cases p with
    | some q => exact hl q
    | none =>
      simp only
      cases hr : c1.root with
      | none => exact t1
      | some r => exact hl r

theorem twoRoots_addLocation {c : FModel} {i : Id} {r : Range} (t : TwoRoots c) :
    OutAll TwoRoots (c.execAddLocation (.ptr (some i)) r) := by
  simp only [FModel.execAddLocation, FModel.resolve]
  cases hu : c.updFeat i (fun f => { f with attr := { f.attr with locs := f.attr.locs ++ [r] } }) with
  | none => trivial
  | some c' =>
    show TwoRoots c'
    cases hd : data c i with
    | none => simp [FModel.updFeat, show c.heap i = none by simpa [data] using hd] at hu
    | some dd =>
      cases dd with
      | rel k => simp [FModel.updFeat, heap_of_data hd] at hu
      | feat f0 =>
        obtain ⟨c1, h1, h2, h3, h4, h5⟩ := updFeat_ok (fun f => { f with attr := { f.attr with locs := f.attr.locs ++ [r] } }) hd
        rw [hu] at h1; cases h1
        obtain ⟨x, y, f, g, k1, k2, k3, k4, k5, k6, k7⟩ := t.two
        have hk : ∀ x, Known c' x ↔ Known c x := by intro x; unfold Known; rw [h2.features]
        have hroot : ∀ x f, data c x = some (.feat f) → f.attr.kind = .root →
            ∃ f', data c' x = some (.feat f') ∧ f'.attr.kind = .root := by
          intro x f hx hk
          by_cases e : x = i
          · subst e
            rw [hd] at hx; cases hx
            exact ⟨{ f0 with attr := { f0.attr with locs := f0.attr.locs ++ [r] } }, by rw [h5]; simp, hk⟩
          · exact ⟨f, by rw [h5, upd_ne _ _ e]; exact hx, hk⟩
        obtain ⟨f', a1, a2⟩ := hroot x f k4 k6
        obtain ⟨g', b1, b2⟩ := hroot y g k5 k7
        refine ⟨?_, x, y, f', g', k1, (hk x).2 k2, (hk y).2 k3, a1, b1, a2, b2⟩
        intro j hj
        rw [h2.next]
        apply t.fresh
        rw [data_ne_none] at hj ⊢
        by_cases e : j = i
        · subst e; rw [hd]; simp
        · rw [h5, upd_ne _ _ e] at hj; exact hj

/-- The calls of a merge. -/
def MergeOp : Op → Prop
  | .addFeature _ _ => True
  | .addLocation _ _ => True
  | _ => False

theorem twoRoots_copyExec (E : Env) {c : FModel} (t : TwoRoots c) {o : Op} (ho : MergeOp o) : OutAll TwoRoots (c.copyExec E o) := by
  cases o <;> simp only [MergeOp] at ho
  case addFeature a p =>
    cases p with
    | none => simp only [FModel.copyExec]; exact twoRoots_addFeature t
    | some q =>
      simp only [FModel.copyExec]
      cases c.translate (some q) with
      | none => trivial
      | some p => exact twoRoots_addFeature t
  case addLocation f r =>
    simp only [FModel.copyExec]
    cases c.translate (c.resolve f) with
    | none => trivial
    | some p =>
      cases p with
      | none => trivial
      | some i => exact twoRoots_addLocation t

theorem twoRoots_copyRun (E : Env) : ∀ {ops : List Op} {c c' : FModel}, TwoRoots c → (∀ o ∈ ops, MergeOp o) →
    FModel.copyRun E c ops = some c' → TwoRoots c'
  | [], c, c', t, _, h => by simp only [FModel.copyRun, Option.some.injEq] at h; exact h ▸ t
  | o :: os, c, c', t, ho, h => by
    have := twoRoots_copyExec E t (ho o (List.mem_cons_self ..))
    unfold FModel.copyRun at h
    cases hx : c.copyExec E o with
    | ub => rw [hx] at h; cases h
    | ok c1 => rw [hx] at h this; exact twoRoots_copyRun E this (fun o h => ho o (List.mem_cons_of_mem _ h)) h
    | err e c1 => rw [hx] at h this; exact twoRoots_copyRun E this (fun o h => ho o (List.mem_cons_of_mem _ h)) h

theorem twoRoots_mergeOne (E : Env) (strict : Bool) {m1 m2 c c' : FModel} {j : Id} {b : Bool} (t : TwoRoots c)
    (h : FModel.mergeOne E strict m1 m2 c j = some (c', b)) : TwoRoots c' := by
  unfold FModel.mergeOne at h
  cases hg : m2.feat? j with
  | none => rw [hg] at h; cases h
  | some g =>
    rw [hg] at h
    simp only at h
    cases hi : m1.getFeature g.attr.name with
    | some i =>
      rw [hi] at h
      simp only at h
      cases hf : m1.feat? i with
      | none => rw [hf] at h; cases h
      | some f =>
        rw [hf] at h
        cases hc : m1.compareProperties m2 i j strict with
        | none => rw [hc] at h; cases h
        | some x =>
          rw [hc] at h
          cases x with
          | false => simp only [Option.some.injEq, Prod.mk.injEq] at h; exact h.1 ▸ t
          | true =>
            simp only [Option.map_eq_some_iff] at h
            obtain ⟨c1, h1, h2⟩ := h
            cases h2
            refine twoRoots_copyRun E t ?_ h1
            intro o ho
            obtain ⟨r, _, rfl⟩ := List.mem_map.1 ho
            trivial
    | none =>
      rw [hi] at h
      simp only at h
      cases hc : FModel.featureCopy g.attr with
      | none => rw [hc] at h; simp only [Option.some.injEq, Prod.mk.injEq] at h; exact h.1 ▸ t
      | some a =>
        rw [hc] at h
        simp only at h
        cases hp : m2.parentFeature j with
        | none => rw [hp] at h; cases h
        | some p =>
          rw [hp] at h
          simp only [Option.map_eq_some_iff] at h
          obtain ⟨c1, h1, h2⟩ := h
          cases h2
          exact twoRoots_copyRun E t (by simp [MergeOp]) h1

theorem twoRoots_fold {α} {f : FModel → α → Option (FModel × Bool)}
    (hf : ∀ c x c' b, TwoRoots c → f c x = some (c', b) → TwoRoots c') : ∀ {l : List α} {c c' : FModel} {b : Bool}, TwoRoots c →
      FModel.boolFold f c l = some (c', b) → TwoRoots c'
  | [], c, c', b, t, h => by simp only [FModel.boolFold, Option.some.injEq, Prod.mk.injEq] at h; exact h.1 ▸ t
  | x :: xs, c, c', b, t, h => by
    unfold FModel.boolFold at h
    cases hx : f c x with
    | none => rw [hx] at h; cases h
    | some r =>
      obtain ⟨c1, b1⟩ := r
      rw [hx] at h
      have t1 := hf c x c1 b1 t hx
      cases b1 with
      | false => simp only [Option.some.injEq, Prod.mk.injEq] at h; exact h.1 ▸ t1
      | true => exact twoRoots_fold hf t1 h

theorem twoRoots_mergeSubtree (E : Env) (strict : Bool) {m1 m2 : FModel} : ∀ (fuel : Nat) (c : FModel) (j : Id) (c' : FModel) (b : Bool),
    TwoRoots c → FModel.mergeSubtree E strict m1 m2 fuel c j = some (c', b) → TwoRoots c' := by
  intro fuel
  induction fuel with
  | zero => intro c j c' b _ h; cases h
  | succ fuel ih =>
    intro c j c' b t h
    unfold FModel.mergeSubtree at h
    cases h1 : FModel.mergeOne E strict m1 m2 c j with
    | none => rw [h1] at h; cases h
    | some r =>
      obtain ⟨c1, b1⟩ := r
      rw [h1] at h
      have t1 := twoRoots_mergeOne E strict t h1
      cases b1 with
      | false => simp only [Option.some.injEq, Prod.mk.injEq] at h; exact h.1 ▸ t1
      | true =>
        simp only at h
        cases h2 : m2.children E Node.isFeat j with
        | none => rw [h2] at h; cases h
        | some cs =>
          rw [h2] at h
          exact twoRoots_fold (fun c x c' b => ih c x c' b) t1 h

theorem two_le_countP {α} {p : α → Bool} {a b : α} (hne : a ≠ b) (ha : p a = true) (hb : p b = true) : ∀ {l : List α}, a ∈ l → b ∈ l →
    2 ≤ l.countP p
  | [], h, _ => by cases h
  | x :: xs, h1, h2 => by
    rcases List.mem_cons.1 h1 with rfl | h1'
    · rcases List.mem_cons.1 h2 with e | h2
      · exact absurd e.symm hne
      · rw [List.countP_cons_of_pos ha]
        have := List.countP_pos_iff.2 ⟨b, h2, hb⟩
        omega
    · rcases List.mem_cons.1 h2 with rfl | h2'
      · rw [List.countP_cons_of_pos hb]
        have := List.countP_pos_iff.2 ⟨a, h1', ha⟩
        omega
      · have := two_le_countP hne ha hb h1' h2'
        rw [List.countP_cons]
        omega

theorem TwoRoots.inconsistent {c : FModel} (t : TwoRoots c) (E : Env) : c.consistent E = some false := by
  obtain ⟨x, y, f, g, h1, h2, h3, h4, h5, h6, h7⟩ := t.two
  unfold FModel.consistent
  rw [if_neg]
  unfold FModel.exactlyOneRoot
  simp only [Bool.and_eq_true, decide_eq_true_eq, not_and]
  intro _ heq
  obtain ⟨a, ha, rfl⟩ := List.mem_map.1 h2
  obtain ⟨b, hb, rfl⟩ := List.mem_map.1 h3
  have := two_le_countP (p := fun e : Str × Id => match c.heap e.2 with | some n => n.isRoot | none => false)
    (fun e => h1 (congrArg Prod.snd e)) (by simp [heap_of_data h4, Node.isRoot, h6]) (by simp [heap_of_data h5, Node.isRoot, h7])
    ((E.mapOrder_perm _).mem_iff.2 ha) ((E.mapOrder_perm _).mem_iff.2 hb)
  exact absurd (Nat.le_trans this (Nat.le_of_eq heq)) (by decide)

/-! ### The answer does not depend on the copy -/

theorem mergeOne_true (E : Env) (strict : Bool) {m1 m2 c c' : FModel} (w1 : WF m1) (w2 : WF m2) {j : Id} {b : Bool}
    (hm : Mergeable strict m1 m2 j) (h : FModel.mergeOne E strict m1 m2 c j = some (c', b)) : b = true := by
  obtain ⟨n, g, hn, hg, hcase⟩ := hm
  obtain ⟨g', hg', gn⟩ := w2.feat_ok _ hn
  simp only at hg' gn
  rw [hg] at hg'; cases hg'
  unfold FModel.mergeOne at h
  rw [feat?_of_data hg] at h
  simp only [gn] at h
  rcases hcase with ⟨i, hi, hfit⟩ | ⟨hnot, hk⟩
  · rw [getFeature_mem w1.names hi] at h
    simp only at h
    obtain ⟨f, hf, _⟩ := w1.feat_ok _ hi
    obtain ⟨b', hb', hbs⟩ := compareProperties_spec w1 w2 hi hn strict
    rw [feat?_of_data hf, hb', hbs.2 hfit] at h
    simp only [Option.map_eq_some_iff] at h
    obtain ⟨_, _, h2⟩ := h
    cases h2; rfl
  · rw [getFeature_none.2 (by
      intro a
      obtain ⟨⟨_, i⟩, ha, rfl⟩ := List.mem_map.1 a
      exact hnot i ha)] at h
    simp only [featureCopy_eq, if_neg hk] at h
    cases hp : m2.parentFeature j with
    | none => rw [hp] at h; cases h
    | some p =>
      rw [hp] at h
      simp only [Option.map_eq_some_iff] at h
      obtain ⟨_, _, h2⟩ := h
      cases h2; rfl

theorem boolFold_true {α} {f : FModel → α → Option (FModel × Bool)} : ∀ {l : List α} {c c' : FModel} {b : Bool},
    (∀ x ∈ l, ∀ c c' b, f c x = some (c', b) → b = true) → FModel.boolFold f c l = some (c', b) → b = true
  | [], c, c', b, _, h => by simp only [FModel.boolFold, Option.some.injEq, Prod.mk.injEq] at h; exact h.2.symm
  | x :: xs, c, c', b, hf, h => by
    unfold FModel.boolFold at h
    cases hx : f c x with
    | none => rw [hx] at h; cases h
    | some r =>
      obtain ⟨c1, b1⟩ := r
      have := hf x (List.mem_cons_self ..) c c1 b1 hx
      subst this
      rw [hx] at h
      exact boolFold_true (fun y hy => hf y (List.mem_cons_of_mem _ hy)) h

theorem mergeSubtree_true (E : Env) (strict : Bool) {m1 m2 : FModel} (w1 : WF m1) (w2 : WF m2) (hm : ∀ j, Known m2 j → Mergeable strict m1 m2 j) :
    ∀ (fuel : Nat) (c : FModel) (j : Id) (c' : FModel) (b : Bool), Known m2 j →
      FModel.mergeSubtree E strict m1 m2 fuel c j = some (c', b) → b = true := by
  intro fuel
  induction fuel with
  | zero => intro c j c' b _ h; cases h
  | succ fuel ih =>
    intro c j c' b hj h
    unfold FModel.mergeSubtree at h
    cases h1 : FModel.mergeOne E strict m1 m2 c j with
    | none => rw [h1] at h; cases h
    | some r =>
      obtain ⟨c1, b1⟩ := r
      have := mergeOne_true E strict w1 w2 (hm j hj) h1
      subst this
      rw [h1] at h
      simp only at h
      obtain ⟨cs, k1, k2, k3⟩ := childrenF w2 E (.inl hj)
      rw [k1] at h
      exact boolFold_true (fun x hx c c' b => ih c x c' b (w2.via_known hj ((k3 x).1 hx)).1) h

end Verif

import Verif.FM.Tree
/-! Lemmas: `getChildren` and `getParentFeature` compute the nearest descendants and ancestors. -/

namespace Verif
open Verif.Spec

/-- The descendants asked for with a depth argument; negative means unlimited. -/
def Reached (m : FModel) (T : NodeData → Bool) (depth : Int) (i x : Id) : Prop :=
  if depth < 0 then Via m T i x else ViaD m T depth.toNat i x

theorem reached_step {m : FModel} {T : NodeData → Bool} {depth : Int} (hd : depth ≠ 0) {i x : Id} :
    Reached m T depth i x ↔ ∃ c ∈ edg m i, ∃ d, data m c = some d ∧
      ((T d = true ∧ x = c) ∨ (T d = false ∧ Reached m T (depth - 1) c x)) := by
  unfold Reached
  by_cases h : depth < 0
  · have h' : depth - 1 < 0 := by omega
    simp only [if_pos h, if_pos h']
    constructor
    · rintro (⟨h1, h2, h3⟩ | ⟨h1, h2, h3, h4⟩)
      · exact ⟨_, h1, _, h2, .inl ⟨h3, rfl⟩⟩
      · exact ⟨_, h1, _, h2, .inr ⟨h3, h4⟩⟩
    · rintro ⟨c, h1, d, h2, ⟨h3, rfl⟩ | ⟨h3, h4⟩⟩
      · exact .here h1 h2 h3
      · exact .skip h1 h2 h3 h4
  · have h' : ¬ depth - 1 < 0 := by omega
    simp only [if_neg h, if_neg h']
    obtain ⟨n, rfl⟩ : ∃ n : Nat, depth = n + 1 := ⟨(depth - 1).toNat, by omega⟩
    have e1 : ((n : Int) + 1).toNat = n + 1 := by omega
    have e2 : ((n : Int) + 1 - 1).toNat = n := by omega
    rw [e1, e2]
    constructor
    · intro hv
      cases hv with
      | here h1 h2 h3 => exact ⟨_, h1, _, h2, .inl ⟨h3, rfl⟩⟩
      | skip h1 h2 h3 h4 => exact ⟨_, h1, _, h2, .inr ⟨h3, h4⟩⟩
    · rintro ⟨c, h1, d, h2, ⟨h3, rfl⟩ | ⟨h3, h4⟩⟩
      · exact .here h1 h2 h3
      · exact .skip h1 h2 h3 h4

theorem reached_zero {m : FModel} {T : NodeData → Bool} {i x : Id} : ¬ Reached m T 0 i x := by
  unfold Reached
  rw [if_neg (by omega)]
  intro h
  cases h

theorem childrenImpl_spec {m : FModel} (w : WF m) {isT : Node → Bool} {T : NodeData → Bool}
    (hT : ∀ n, isT n = T n.data) (fuel : Nat) :
    ∀ (depth : Int) (i : Id) (fs : List Id), Owned m i → m.next < fuel + lvlOf m i →
      ∃ fs', m.childrenImpl isT fuel depth i fs = some fs' ∧ (fs.Nodup → fs'.Nodup) ∧
        ∀ x, x ∈ fs' ↔ x ∈ fs ∨ Reached m T depth i x := by
  induction fuel with
  | zero =>
    intro depth i fs ho hf
    have := w.level_lt ho
    omega
  | succ fuel ih =>
    intro depth i fs ho hf
    by_cases hd : depth = 0
    · subst hd
      refine ⟨fs, by simp [FModel.childrenImpl], id, fun x => ?_⟩
      simp [reached_zero]
    · obtain ⟨d, hdd⟩ := w.owned_data ho
      have hheap := heap_of_data hdd
      have key : ∀ (es : List Id), (∀ c ∈ es, c ∈ edg m i) → ∀ fs : List Id,
          ∃ fs', es.foldlM (fun fs c =>
            match m.heap c with
            | none => none
            | some cn => if isT cn then some (FModel.insertSet fs c)
                else FModel.childrenImpl m isT fuel (depth - 1) c fs) fs = some fs' ∧
            (fs.Nodup → fs'.Nodup) ∧
            ∀ x, x ∈ fs' ↔ x ∈ fs ∨ ∃ c ∈ es, ∃ d, data m c = some d ∧
              ((T d = true ∧ x = c) ∨ (T d = false ∧ Reached m T (depth - 1) c x)) := by
        intro es
        induction es with
        | nil =>
          intro _ fs
          exact ⟨fs, rfl, id, fun x => by simp⟩
        | cons c es ihe =>
          intro hes fs
          have hc := hes c (List.mem_cons_self ..)
          obtain ⟨hoc, hpc⟩ := w.edge_par i c ho hc
          obtain ⟨dc, hdc⟩ := w.owned_data hoc
          have hhc := heap_of_data hdc
          obtain ⟨f1, h1, h2, h3⟩ : ∃ f1, (match m.heap c with
            | none => none
            | some cn => if isT cn then some (FModel.insertSet fs c)
                else FModel.childrenImpl m isT fuel (depth - 1) c fs) = some f1 ∧
              (fs.Nodup → f1.Nodup) ∧ ∀ x, x ∈ f1 ↔ x ∈ fs ∨
                ((T dc = true ∧ x = c) ∨ (T dc = false ∧ Reached m T (depth - 1) c x)) := by
            rw [hhc]
            cases hTd : T dc with
            | true =>
              refine ⟨FModel.insertSet fs c, by simp [hT, hTd], fun h => nodup_insertSet h c, ?_⟩
              intro x; simp [mem_insertSet]
            | false =>
              have hl := w.level_edge ho hc
              obtain ⟨f1, h1, h2, h3⟩ := ih (depth - 1) c fs hoc (by omega)
              refine ⟨f1, by simp [hT, hTd, h1], h2, ?_⟩
              intro x; simp [h3]
          obtain ⟨f2, g1, g2, g3⟩ := ihe (fun c' h => hes c' (List.mem_cons_of_mem _ h)) f1
          refine ⟨f2, ?_, fun h => g2 (h2 h), ?_⟩
          · rw [List.foldlM_cons, h1]; exact g1
          · intro x
            rw [g3, h3, or_assoc]
            apply or_congr Iff.rfl
            constructor
            · rintro (h | ⟨c', hc', d', hd', h⟩)
              · exact ⟨c, List.mem_cons_self .., dc, hdc, h⟩
              · exact ⟨c', List.mem_cons_of_mem _ hc', d', hd', h⟩
            · rintro ⟨c', hc', d', hd', h⟩
              rcases List.mem_cons.1 hc' with rfl | hc'
              · rw [hdc] at hd'; cases hd'; exact .inl h
              · exact .inr ⟨c', hc', d', hd', h⟩
      obtain ⟨fs', h1, h2, h3⟩ := key (edg m i) (fun _ h => h) fs
      refine ⟨fs', ?_, h2, ?_⟩
      · unfold FModel.childrenImpl
        rw [if_neg hd, hheap]
        exact h1
      · intro x
        rw [h3, reached_step hd]

/-- `getChildren` on a well-formed model. -/
theorem children_spec {m : FModel} (w : WF m) (E : Env) {isT : Node → Bool} {T : NodeData → Bool}
    (hT : ∀ n, isT n = T n.data) (depth : Int) {i : Id} (ho : Owned m i) :
    ∃ cs, m.children E isT i depth = some cs ∧ cs.Nodup ∧ ∀ x, x ∈ cs ↔ Reached m T depth i x := by
  obtain ⟨fs, h1, h2, h3⟩ := childrenImpl_spec w hT (m.next + 1) depth i [] ho (by omega)
  refine ⟨E.setOrder fs, by simp [FModel.children, h1], (E.setOrder_perm fs).nodup_iff.2 (h2 (by simp)), ?_⟩
  intro x
  rw [(E.setOrder_perm fs).mem_iff, h3]
  simp

theorem isFeat_T (n : Node) : n.isFeat = isF n.data := by
  unfold Node.isFeat isF; split <;> simp_all
theorem isRel_T (n : Node) : n.isRel = isR n.data := by
  unfold Node.isRel isR; split <;> simp_all

theorem childrenF {m : FModel} (w : WF m) (E : Env) {i : Id} (ho : Owned m i) :
    ∃ cs, m.children E Node.isFeat i = some cs ∧ cs.Nodup ∧ ∀ x, x ∈ cs ↔ Via m isF i x := by
  obtain ⟨cs, h⟩ := children_spec w E isFeat_T (-1) ho
  exact ⟨cs, by simpa [Reached] using h⟩

theorem childrenR {m : FModel} (w : WF m) (E : Env) {i : Id} (ho : Owned m i) :
    ∃ cs, m.children E Node.isRel i = some cs ∧ cs.Nodup ∧ ∀ x, x ∈ cs ↔ Via m isR i x := by
  obtain ⟨cs, h⟩ := children_spec w E isRel_T (-1) ho
  exact ⟨cs, by simpa [Reached] using h⟩

/-! ### The parent feature -/

theorem data_cases {m : FModel} {i : Id} {d : NodeData} (h : data m i = some d) : IsFeat m i ∨ IsRel m i := by
  cases d with
  | feat f => exact .inl ⟨f, h⟩
  | rel k => exact .inr ⟨k, h⟩

theorem parentFeatureFuel_spec {m : FModel} (w : WF m) (fuel : Nat) :
    ∀ i, Owned m i → lvlOf m i < fuel →
      ∃ r, m.parentFeatureFuel fuel i = some r ∧ ∀ p, r = some p ↔ FParent m i p := by
  induction fuel with
  | zero => intro i _ h; omega
  | succ fuel ih =>
    intro i ho hl
    obtain ⟨d, hd⟩ := w.owned_data ho
    cases hp : par m i with
    | none =>
      refine ⟨none, by simp [FModel.parentFeatureFuel, heap_of_data hd, hp], ?_⟩
      intro p
      constructor
      · intro h; cases h
      · intro h
        cases h with
        | direct h _ => rw [hp] at h; cases h
        | skip h _ _ => rw [hp] at h; cases h
    | some q =>
      obtain ⟨hoq, hiq⟩ := w.par_edge i q ho hp
      obtain ⟨dq, hdq⟩ := w.owned_data hoq
      have hlv := w.level_par ho hp
      cases dq with
      | feat f =>
        refine ⟨some q, by simp [FModel.parentFeatureFuel, heap_of_data hd, hp, heap_of_data hdq, Node.isFeat], ?_⟩
        intro p
        constructor
        · intro h; cases h; exact .direct hp ⟨f, hdq⟩
        · intro h
          cases h with
          | direct h _ => rw [hp] at h; exact h
          | skip h h' _ =>
            rw [hp] at h; cases h
            obtain ⟨k, hk⟩ := h'
            rw [hdq] at hk; cases hk
      | rel k =>
        obtain ⟨r, h1, h2⟩ := ih q hoq (by omega)
        refine ⟨r, by simp [FModel.parentFeatureFuel, heap_of_data hd, hp, heap_of_data hdq, Node.isFeat, h1], ?_⟩
        intro p
        rw [h2]
        constructor
        · exact .skip hp ⟨k, hdq⟩
        · intro h
          cases h with
          | direct h h' =>
            rw [hp] at h; cases h
            obtain ⟨f, hf⟩ := h'
            rw [hdq] at hf; cases hf
          | skip h _ h' => rw [hp] at h; cases h; exact h'

/-- `getParentFeature` on a well-formed model. -/
theorem parentFeature_spec {m : FModel} (w : WF m) {i : Id} (ho : Owned m i) :
    ∃ r, m.parentFeature i = some r ∧ ∀ p, r = some p ↔ FParent m i p :=
  parentFeatureFuel_spec w _ i ho (by have := w.level_lt ho; omega)

/-- Every node but the root has a parent feature. -/
theorem Spec.WF.has_fparent {m : FModel} (w : WF m) {i : Id} (ho : Owned m i) (hr : m.root ≠ some i) :
    ∃ p, FParent m i p ∧ Known m p := by
  induction hn : lvlOf m i using Nat.strongRecOn generalizing i with
  | _ n ih =>
    cases hp : par m i with
    | none => exact absurd (w.orphan i ho hp) hr
    | some q =>
      obtain ⟨hoq, _⟩ := w.par_edge i q ho hp
      obtain ⟨dq, hdq⟩ := w.owned_data hoq
      have hlv := w.level_par ho hp
      rcases data_cases hdq with hf | hrel
      · exact ⟨q, .direct hp hf, w.known_feat hoq hf⟩
      · have hnr : m.root ≠ some q := by
          intro h
          have hk := w.root_known h
          exact w.known_not_rel hk (w.owned_rel hoq hrel)
        obtain ⟨p, h1, h2⟩ := ih (lvlOf m q) (by omega) hoq hnr rfl
        exact ⟨p, .skip hp hrel h1, h2⟩

theorem Spec.FParent.functional {m : FModel} {i p q : Id} (h : FParent m i p) (h' : FParent m i q) : p = q := by
  induction h with
  | direct hp hf =>
    cases h' with
    | direct hp' _ => rw [hp] at hp'; exact Option.some.inj hp'
    | skip hp' hr _ =>
      rw [hp] at hp'; cases hp'
      obtain ⟨f, hf⟩ := hf; obtain ⟨k, hk⟩ := hr
      rw [hf] at hk; cases hk
  | skip hp hr _ ih =>
    cases h' with
    | direct hp' hf =>
      rw [hp] at hp'; cases hp'
      obtain ⟨f, hf⟩ := hf; obtain ⟨k, hk⟩ := hr
      rw [hf] at hk; cases hk
    | skip hp' _ h' => rw [hp] at hp'; cases hp'; exact ih h'

theorem isF_iff {m : FModel} {i : Id} {d : NodeData} (h : data m i = some d) : isF d = true ↔ IsFeat m i := by
  cases d with
  | feat f => simp [isF, IsFeat, h]
  | rel k => simp [isF, IsFeat, h]

theorem isR_iff {m : FModel} {i : Id} {d : NodeData} (h : data m i = some d) : isR d = true ↔ IsRel m i := by
  cases d with
  | feat f => simp [isR, IsRel, h]
  | rel k => simp [isR, IsRel, h]

theorem isR_not {d : NodeData} : isR d = !isF d := by cases d <;> rfl

/-- Nearest feature descendants are those with that parent feature. -/
theorem via_iff_fparent {m : FModel} (w : WF m) {i c : Id} (ho : Owned m i) (hi : IsFeat m i) :
    Via m isF i c ↔ Known m c ∧ FParent m c i := by
  constructor
  · intro h
    -- generalise: from any owned start, the result's ancestors lead there through relationships
    have key : ∀ j c, Via m isF j c → Owned m j →
        Known m c ∧ (IsFeat m j → FParent m c j) ∧ (∀ q, IsRel m j → FParent m j q → FParent m c q) := by
      intro j c h
      induction h with
      | @here j c d h1 h2 h3 =>
        intro hoj
        obtain ⟨h4, h5⟩ := w.edge_par _ _ hoj h1
        exact ⟨w.known_feat h4 ((isF_iff h2).1 h3), fun hf => .direct h5 hf, fun q hr hq => .skip h5 hr hq⟩
      | @skip j c d x h1 h2 h3 _ ih =>
        intro hoj
        obtain ⟨h4, h5⟩ := w.edge_par _ _ hoj h1
        have hrc : IsRel m c := by
          rcases data_cases h2 with h | h
          · rw [(isF_iff h2).2 h] at h3; cases h3
          · exact h
        obtain ⟨i1, i2, i3⟩ := ih h4
        exact ⟨i1, fun hf => i3 j hrc (.direct h5 hf), fun q hr hq => i3 q hrc (.skip h5 hr hq)⟩
    obtain ⟨h1, h2, _⟩ := key i c h ho
    exact ⟨h1, h2 hi⟩
  · rintro ⟨hk, hp⟩
    have key : ∀ c p, FParent m c p → Owned m c → ∀ x d, data m c = some d →
        (isF d = true → x = c) → (isF d = false → Via m isF c x) → Via m isF p x := by
      intro c p h
      induction h with
      | @direct c p h1 h2 =>
        intro hoc x d hd hx hv
        obtain ⟨_, h4⟩ := w.par_edge _ _ hoc h1
        cases hdd : isF d with
        | true => rw [hx hdd]; exact .here h4 hd hdd
        | false => exact .skip h4 hd hdd (hv hdd)
      | @skip c r p h1 h2 _ ih =>
        intro hoc x d hd hx hv
        obtain ⟨h3, h4⟩ := w.par_edge _ _ hoc h1
        obtain ⟨k, hk⟩ := h2
        refine ih h3 x (.rel k) hk (by simp [isF]) (fun _ => ?_)
        cases hdd : isF d with
        | true => rw [hx hdd]; exact .here h4 hd hdd
        | false => exact .skip h4 hd hdd (hv hdd)
    obtain ⟨f, hf⟩ := w.known_data hk
    exact key c i hp (.inl hk) c (.feat f) hf (fun _ => rfl) (by simp [isF])

end Verif

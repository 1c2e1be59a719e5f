import Verif.FM.Effects
/-!
# Properties C16, C21, C22, C23, C47: the feature tree

`Added`, `Moved`, `Grouped`, `Ungrouped`, `Without` describe a change of the object graph completely:
kind and attributes, parent pointer and child edges of every node, and every member of the model.
-/

namespace Verif.Props
open Spec

/-! ## C47 -/

/-- `getChildren<T>()` terminates and gives each nearest descendant of kind `T` once, nothing else. -/
theorem C47_children {m : FModel} (w : WF m) (E : Env) (T : NodeData → Bool) {i : Id} (ho : Owned m i) :
    ∃ cs, m.children E (fun n => T n.data) i = some cs ∧ cs.Nodup ∧ ∀ x, x ∈ cs ↔ Via m T i x := by
  obtain ⟨cs, h⟩ := children_spec w E (isT := fun n => T n.data) (T := T) (fun _ => rfl) (-1) ho
  exact ⟨cs, by simpa [Reached] using h⟩

/-- With a depth only those within that many levels. -/
theorem C47_children_depth {m : FModel} (w : WF m) (E : Env) (T : NodeData → Bool) (depth : Nat) {i : Id}
    (ho : Owned m i) :
    ∃ cs, m.children E (fun n => T n.data) i depth = some cs ∧ cs.Nodup ∧ ∀ x, x ∈ cs ↔ ViaD m T depth i x := by
  obtain ⟨cs, h⟩ := children_spec w E (isT := fun n => T n.data) (T := T) (fun _ => rfl) depth ho
  refine ⟨cs, ?_⟩
  have h0 : ¬ ((depth : Int) < 0) := by omega
  simpa [Reached, h0] using h

/-- `getParentFeature()` is the nearest feature ancestor; only the root has none. -/
theorem C47_parent_feature {m : FModel} (w : WF m) {i : Id} (ho : Owned m i) :
    (∀ p, m.parentFeature i = some (some p) ↔ FParent m i p) ∧ (m.parentFeature i = some none ↔ m.root = some i) := by
  obtain ⟨r, h1, h2⟩ := parentFeature_spec w ho
  constructor
  · intro p
    rw [h1, ← h2 p]
    exact ⟨fun h => Option.some.inj h, fun h => by rw [h]⟩
  · rw [h1]
    constructor
    · intro h
      cases h
      apply Classical.byContradiction
      intro hr
      obtain ⟨p, hp, _⟩ := w.has_fparent ho hr
      cases (h2 p).2 hp
    · intro hr
      cases r with
      | none => rfl
      | some p =>
        have := (h2 p).1 rfl
        have hn := w.root_par hr
        cases this with
        | direct h _ => rw [hn] at h; cases h
        | skip h _ _ => rw [hn] at h; cases h

/-- The two agree: a feature's child features are the features whose parent feature it is. -/
theorem C47_converse {m : FModel} (w : WF m) (E : Env) {i c : Id} (hi : Known m i) (hc : Known m c) :
    ∃ cs, m.children E Node.isFeat i = some cs ∧ (c ∈ cs ↔ m.parentFeature c = some (some i)) := by
  obtain ⟨cs, h1, _, h3⟩ := childrenF w E (.inl hi)
  refine ⟨cs, h1, ?_⟩
  rw [h3, via_iff_fparent w (.inl hi) (w.known_data hi), (C47_parent_feature w (.inl hc)).1]
  exact ⟨fun h => h.2, fun h => ⟨hc, h⟩⟩

/-- Not vacuous: in `grouped` the children of the root are found through the relationship, and a
    limit of one level hides them. -/
example : WF grouped ∧ grouped.children (stdEnv true) (fun n => isF n.data) 0 = some [2, 3] ∧
    grouped.children (stdEnv true) (fun n => isF n.data) 0 1 = some [] ∧
    grouped.children (stdEnv true) (fun n => isF n.data) 0 2 = some [2, 3] ∧
    grouped.parentFeature 3 = some (some 0) :=
  ⟨grouped_wf, by decide, by decide, by decide, by decide⟩

/-! ## C16 -/

/-- A model the check accepts although two features are each other's parent. -/
def cyclic : FModel :=
  ofNodes [featNode "root" none [] .root, featNode "A" (some 2) [2], featNode "B" (some 1) [1]]
    (some 0) [(c!"root", 0), (c!"A", 1), (c!"B", 2)] []

/-- The claim is false: the check accepts a model whose parent links form a cycle that never
    reaches the root. -/
theorem C16_cycle_accepted (asserts : Bool) :
    cyclic.consistent (stdEnv asserts) = some true ∧ Known cyclic 1 ∧ ¬ Below cyclic 0 1 ∧ ¬ Below cyclic 0 2 := by
  have key : ∀ i, Below cyclic 0 i → i ≠ 1 ∧ i ≠ 2 := by
    intro i h
    induction h with
    | refl => exact ⟨by decide, by decide⟩
    | @step i p hp _ ih =>
      refine ⟨?_, ?_⟩
      · rintro rfl
        have : par cyclic 1 = some 2 := by decide
        rw [this] at hp; cases hp
        exact ih.2 rfl
      · rintro rfl
        have : par cyclic 2 = some 1 := by decide
        rw [this] at hp; cases hp
        exact ih.1 rfl
  exact ⟨by cases asserts <;> decide, by decide, fun h => (key 1 h).1 rfl, fun h => (key 2 h).2 rfl⟩

/-- What acceptance does give, for every object graph: a root pointer, exactly one entry of root
    kind, and every other feature has a parent node that knows it and a parent feature. -/
theorem C16_check_partial {m : FModel} {E : Env} (h : m.consistent E = some true) :
    m.root ≠ none ∧
    (m.features.countP (fun e => match data m e.2 with
      | some (.feat f) => decide (f.attr.kind = .root) | _ => false) = 1) ∧
    ∀ e ∈ m.features, (∃ f, data m e.2 = some (.feat f) ∧ f.attr.kind = .root) ∨
      ∃ p q, par m e.2 = some p ∧ e.2 ∈ edg m p ∧ FParent m e.2 q := by
  unfold FModel.consistent at h
  by_cases h1 : FModel.exactlyOneRoot E m = true
  · rw [if_pos h1] at h
    unfold FModel.exactlyOneRoot at h1
    rw [Bool.and_eq_true, decide_eq_true_eq] at h1
    cases h2 : FModel.everyFeatureHasParent E m with
    | none => rw [h2] at h; cases h
    | some b =>
      cases b with
      | false => rw [h2] at h; cases h
      | true =>
        rw [h2] at h
        have hroot : m.root ≠ none := by
          intro hn; rw [hn] at h1; exact absurd h1.1 (by simp)
        refine ⟨hroot, ?_, ?_⟩
        · rw [← h1.2, (E.mapOrder_perm m.features).countP_eq]
          apply List.countP_congr
          intro e _
          have hrt : ∀ n, m.heap e.2 = some n → data m e.2 = some n.data := fun n hn => data_of_heap hn
          cases hh : m.heap e.2 with
          | none => rw [data_none.2 hh]
          | some n =>
            rw [hrt n hh]
            cases hd : n.data with
            | feat f => simp [Node.isRoot, hd]
            | rel k => simp [Node.isRoot, hd]
        · intro e he
          have he' := (E.mapOrder_perm m.features).mem_iff.2 he
          have h3 := allM_iff h2 e he'
          have h4 := allM_iff h e he'
          cases hh : m.heap e.2 with
          | none => rw [hh] at h3; cases h3
          | some n =>
            rw [hh] at h3 h4
            simp only at h3 h4
            cases hr : n.isRoot with
            | true =>
              refine .inl ?_
              unfold Node.isRoot at hr
              cases hd : n.data with
              | feat f => exact ⟨f, by rw [data_of_heap hh, hd], by simpa [hd] using hr⟩
              | rel k => simp [hd] at hr
            | false =>
              refine .inr ?_
              rw [hr] at h3 h4
              simp only [Bool.false_eq_true, if_false] at h3 h4
              cases hp : n.parent with
              | none => rw [hp] at h4; cases h4
              | some p =>
                rw [hp] at h4
                simp only at h4
                cases hq : m.heap p with
                | none => rw [hq] at h4; cases h4
                | some pn =>
                  rw [hq] at h4
                  cases hpf : m.parentFeature e.2 with
                  | none => rw [hpf] at h3; cases h3
                  | some r =>
                    cases r with
                    | none => rw [hpf] at h3; cases h3
                    | some q =>
                      refine ⟨p, q, by rw [par_of_heap hh, hp], ?_, parentFeatureFuel_sound hpf⟩
                      rw [edg_of_heap hq]
                      simpa using h4
  · rw [if_neg h1] at h; cases h

/-- With the missing condition (parent links do not run in circles, and parent features are
    features of the model) acceptance means: every feature reaches the root feature. -/
theorem C16_acyclic_partial {m : FModel} {E : Env} (h : m.consistent E = some true)
    (rk : Id → Nat) (hac : ∀ i p, par m i = some p → rk p < rk i)
    (hcl : ∀ i q, Known m i → FParent m i q → Known m q) :
    ∃ r f, Known m r ∧ data m r = some (.feat f) ∧ f.attr.kind = .root ∧ ∀ i, Known m i → Below m r i := by
  obtain ⟨_, h2, h3⟩ := C16_check_partial h
  have hbel : ∀ i q, FParent m i q → Below m q i := fun i q h => fparent_subtree h
  -- the entry of root kind
  have hpos : 0 < m.features.countP (fun e => match data m e.2 with
      | some (.feat f) => decide (f.attr.kind = .root) | _ => false) := by rw [h2]; exact Nat.one_pos
  obtain ⟨e0, he0, hk0⟩ := List.countP_pos_iff.1 hpos
  obtain ⟨f0, hf0, hr0⟩ : ∃ f, data m e0.2 = some (.feat f) ∧ f.attr.kind = .root := by
    cases hd : data m e0.2 with
    | none => simp [hd] at hk0
    | some d =>
      cases d with
      | rel k => simp [hd] at hk0
      | feat f => exact ⟨f, rfl, by simpa [hd] using hk0⟩
  have huniq : ∀ e ∈ m.features, (∃ f, data m e.2 = some (.feat f) ∧ f.attr.kind = .root) → e = e0 := by
    rintro e he ⟨f, hf, hr⟩
    rw [List.countP_eq_length_filter] at h2
    obtain ⟨x, hx⟩ := List.length_eq_one_iff.1 h2
    have m1 : e ∈ [x] := by rw [← hx, List.mem_filter]; exact ⟨he, by simp [hf, hr]⟩
    have m2 : e0 ∈ [x] := by rw [← hx, List.mem_filter]; exact ⟨he0, hk0⟩
    rw [List.mem_singleton] at m1 m2
    rw [m1, m2]
  refine ⟨e0.2, f0, List.mem_map_of_mem he0, hf0, hr0, ?_⟩
  have hrank : ∀ i q, FParent m i q → rk q < rk i := by
    intro i q hf
    induction hf with
    | direct h1 _ => exact hac _ _ h1
    | skip h1 _ _ ih => exact Nat.lt_trans ih (hac _ _ h1)
  intro i hi
  induction hn : rk i using Nat.strongRecOn generalizing i with
  | _ n ih =>
    obtain ⟨e, he, rfl⟩ := List.mem_map.1 hi
    rcases h3 e he with hroot | ⟨p, q, _, _, hq⟩
    · rw [huniq e he hroot]; exact .refl
    · exact (ih (rk q) (hn ▸ hrank _ _ hq) q (hcl _ _ hi hq) rfl).trans (hbel _ _ hq)

/-- Conversely every well-formed model is accepted, whatever the iteration order. -/
theorem C16_wellformed_accepted {m : FModel} (w : WF m) (E : Env) : m.consistent E = some true :=
  consistent_of_WF w E

/-- Not vacuous. -/
example : chain.consistent (revEnv true) = some true ∧ WF chain := ⟨by decide, chain_wf⟩

/-! ## C21 -/

/-- `addFeature` with a new name adds that feature below the parent (or the root), nothing else. -/
theorem C21_add {m : FModel} (w : WF m) (E : Env) {a : Attr} {parent : Option Id}
    (hn : ∀ i, (a.name, i) ∉ m.features) (hp : ∀ i, parent = some i → Known m i) :
    ∃ m' p i, m.exec E (.addFeature a parent) = .ok m' ∧ Added m m' i a p ∧
      (parent = some p ∨ (parent = none ∧ m.root = some p)) := by
  have hn' : a.name ∉ m.features.map Prod.fst := by
    intro h
    obtain ⟨e, he, h1⟩ := List.mem_map.1 h
    exact hn e.2 (by rw [← h1]; exact he)
  obtain ⟨m', p, h1, h2, _, _, h5⟩ := execAddFeature_ok w hn' (fun i hi => .inl (hp i hi))
  exact ⟨m', p, m.next, h1, h2, h5⟩

/-- `addFeature` with a name in use fails without effect, in every model. -/
theorem C21_add_taken (m : FModel) (E : Env) {a : Attr} {parent : Option Id} {i : Id}
    (hn : (a.name, i) ∈ m.features) : m.exec E (.addFeature a parent) = .err .alreadyPresent m :=
  execAddFeature_err (List.mem_map_of_mem (f := Prod.fst) hn)

/-- Recursive `removeFeature` removes the subtree and nothing else.  Missing for the full claim:
    the root (see `C21_remove_root`) and relationships directly below relationships. -/
theorem C21_remove_recursive_partial {m : FModel} (w : WF m) (E : Env) {f : Ref} {i : Id}
    (hres : m.resolve f = some i) (hi : Known m i) (hr : m.root ≠ some i)
    (hflat : ∀ j, Below m i j → IsRel m j → ∀ c ∈ edg m j, IsFeat m c) :
    ∃ m', m.exec E (.removeFeature f true) = .ok m' ∧ Without m m' (fun j => Owned m j ∧ Below m i j) := by
  obtain ⟨m', h1, h2⟩ := removeRec_ok E (m.next + 1) m i w hi hr (fun j _ hb hj c hc => hflat j hb hj c hc) (by omega)
  refine ⟨m', ?_, h2⟩
  show m.execRemoveFeature E f true = _
  unfold FModel.execRemoveFeature; rw [hres]; exact h1

/-- Non-recursive `removeFeature` of a leaf removes it, with its relationship if it has an empty
    one.  Missing: several empty relationships (see `C21_remove_leaks`). -/
theorem C21_remove_leaf_partial {m : FModel} (w : WF m) (E : Env) {f : Ref} {i : Id}
    (hres : m.resolve f = some i) (hi : Known m i) (hr : m.root ≠ some i) (hleaf : ∀ c, ¬ Via m isF i c)
    (he : edg m i = [] ∨ ∃ r, edg m i = [r] ∧ edg m r = []) :
    ∃ m', m.exec E (.removeFeature f false) = .ok m' ∧ Without m m' (fun j => Owned m j ∧ Below m i j) := by
  show ∃ m', m.execRemoveFeature E f false = _ ∧ _
  unfold FModel.execRemoveFeature; rw [hres]; simp only
  have hown : ∀ j, Owned m j → Below m i j → j ≠ i → ∃ c ∈ edg m i, Below m c j := by
    intro j ho hb hne
    rcases w.below_down hb ho with h | h
    · exact absurd h.symm hne
    · exact h
  rcases he with he | ⟨r, he, her⟩
  · obtain ⟨m', h1, h2⟩ := removeRec_leaf w E m.next hi hr he
    refine ⟨m', h1, without_congr h2 (fun j => ⟨?_, ?_⟩)⟩
    rotate_left
    · rintro rfl; exact ⟨.inl hi, .refl⟩
    · rintro ⟨ho, hb⟩
      apply Classical.byContradiction
      intro hne
      obtain ⟨c, hc, _⟩ := hown j ho hb hne
      rw [he] at hc; cases hc
  · have hri : r ∈ edg m i := by rw [he]; simp
    obtain ⟨hor, hpr⟩ := w.edge_par i r (.inl hi) hri
    have hrel : IsRel m r := by
      obtain ⟨d, hd⟩ := w.owned_data hor
      cases d with
      | rel k => exact ⟨k, hd⟩
      | feat f => exact absurd (.here hri hd rfl) (hleaf r)
    obtain ⟨m', h1, h2⟩ := removeRec_oneRel w E m.next hi hr he her hrel
    refine ⟨m', h1, without_congr h2 (fun j => ⟨?_, ?_⟩)⟩
    rotate_left
    · rintro (rfl | rfl)
      · exact ⟨hor, .step hpr .refl⟩
      · exact ⟨.inl hi, .refl⟩
    · rintro ⟨ho, hb⟩
      apply Classical.byContradiction
      intro hne
      obtain ⟨c, hc, hcb⟩ := hown j ho hb (fun h => hne (.inr h))
      rw [he] at hc
      simp only [List.mem_singleton] at hc
      subst hc
      rcases w.below_down hcb ho with h | ⟨x, hx, _⟩
      · exact hne (.inl h.symm)
      · rw [her] at hx; cases hx

/-- A missing feature cannot be removed, in any model; nothing happens. -/
theorem C21_remove_missing (m : FModel) (E : Env) {n : Str} {recursive : Bool} (hn : ∀ i, (n, i) ∉ m.features) :
    m.exec E (.removeFeature (.name n) recursive) = .err .missingFeature m := by
  have : m.getFeature n = none := by
    rw [getFeature_none]
    intro h
    obtain ⟨e, he, h1⟩ := List.mem_map.1 h
    exact hn e.2 (by rw [← h1]; exact he)
  show m.execRemoveFeature E (.name n) recursive = _
  have hr : m.resolve (.name n) = none := this
  unfold FModel.execRemoveFeature
  rw [hr]

/-- A feature with child features cannot be removed non-recursively; nothing happens. -/
theorem C21_remove_nonleaf {m : FModel} (w : WF m) (E : Env) {f : Ref} {i c : Id} (hres : m.resolve f = some i)
    (hi : Known m i) (hc : Known m c) (hp : FParent m c i) :
    m.exec E (.removeFeature f false) = .err .nonLeafNode m := by
  show m.execRemoveFeature E f false = _
  unfold FModel.execRemoveFeature; rw [hres]
  exact removeRec_nonLeaf w E m.next hi ⟨c, (via_iff_fparent w (.inl hi) (w.known_data hi)).2 ⟨hc, hp⟩⟩

/-- The claim is false for the root: removing it follows a null parent pointer. -/
theorem C21_remove_root {m : FModel} (w : WF m) (E : Env) {f : Ref} {i : Id} (hres : m.resolve f = some i)
    (hr : m.root = some i) (hleaf : edg m i = []) : m.exec E (.removeFeature f false) = .ub := by
  have hi := w.root_known hr
  show m.execRemoveFeature E f false = _
  unfold FModel.execRemoveFeature; rw [hres]
  obtain ⟨cs, a1, _, a3⟩ := childrenF w E (.inl hi)
  obtain ⟨rs, b1, _, b3⟩ := childrenR w E (.inl hi)
  have hcs : cs = [] := by
    cases cs with
    | nil => rfl
    | cons c cs =>
      have := (a3 c).1 (List.mem_cons_self ..)
      cases this with
      | here h _ _ => rw [hleaf] at h; cases h
      | skip h _ _ _ => rw [hleaf] at h; cases h
  have hrs : rs = [] := by
    cases rs with
    | nil => rfl
    | cons c cs =>
      have := (b3 c).1 (List.mem_cons_self ..)
      cases this with
      | here h _ _ => rw [hleaf] at h; cases h
      | skip h _ _ _ => rw [hleaf] at h; cases h
  subst hcs hrs
  obtain ⟨d, hd⟩ := w.known_data hi
  simp only [FModel.removeRec, Bool.false_eq_true, if_false, a1, b1]
  unfold FModel.removeFinish
  rw [heap_of_data hd]
  simp only [w.root_par hr]

/-- A leaf with two empty groups. -/
def twoGroups : FModel :=
  ofNodes [featNode "root" none [1] .root, featNode "A" (some 0) [2, 3], ⟨.rel .or, some 1, []⟩, ⟨.rel .or, some 1, []⟩]
    (some 0) [(c!"root", 0), (c!"A", 1)] [2, 3]

/-- Removing a leaf with two empty groups leaves a relationship behind whose parent is deleted:
    the claim is false there, and the model is no longer well-formed. -/
theorem C21_remove_leaks (asserts : Bool) :
    WF twoGroups ∧ ∃ m', twoGroups.exec (stdEnv asserts) (.removeFeature (.name c!"A") false) = .ok m' ∧
      3 ∈ m'.rels ∧ par m' 3 = some 1 ∧ m'.heap 1 = none ∧ ¬ WF m' := by
  have w : WF twoGroups := wf_of_check (fun i => i) (ofNodes_fresh _ _ _ _ _) (by decide)
  refine ⟨w, ?_⟩
  obtain ⟨m', h1, h2⟩ := Out.of_passes
    (show (twoGroups.exec (stdEnv asserts) (.removeFeature (.name c!"A") false)).passes (fun m' =>
      decide (3 ∈ m'.rels) && decide (par m' 3 = some 1) && decide (m'.heap 1 = none)) = true by
      cases asserts <;> decide)
  simp only [Bool.and_eq_true, decide_eq_true_eq] at h2
  obtain ⟨⟨hr, hp⟩, hh⟩ := h2
  refine ⟨m', h1, hr, hp, hh, ?_⟩
  intro w'
  obtain ⟨d, hd⟩ := w'.owned_data (w'.par_edge 3 1 (.inr hr) hp).1
  rw [heap_of_data hd] at hh
  cases hh

/-- Not vacuous: the hypotheses hold for removing `A` with its child from `chain`, for removing the
    leaf `B`, and for adding a feature. -/
example : WF chain ∧ chain.resolve (.name c!"A") = some 1 ∧ Known chain 1 ∧ chain.root ≠ some 1 ∧
    (∀ j, Below chain 1 j → IsRel chain j → ∀ c ∈ edg chain j, IsFeat chain c) ∧
    edg chain 2 = [] ∧ (∀ i, (c!"new", i) ∉ chain.features) := by
  refine ⟨chain_wf, by decide, by decide, by decide, ?_, by decide, ?_⟩
  · rintro j hb ⟨k, hk⟩
    have hj : j < 4 := by
      have := chain_wf.fresh j (by rw [heap_of_data hk]; simp)
      exact this
    match j, hj with
    | 0, _ => cases hk
    | 1, _ => cases hk
    | 2, _ => cases hk
    | 3, _ => cases hk
  · intro i
    simp [chain, ofNodes]

/-! ## C22 -/

/-- `addChild` of a node that is not the root to a node outside its subtree: it becomes the last
    child of the new parent, disappears from the old one, keeps its subtree, and the result is a
    well-formed tree.  Missing for the full claim: rejection, see `C22_descendant_accepted`. -/
theorem C22_move_partial {m : FModel} (w : WF m) (E : Env) {pr cr : Ref} {p c : Id} (hp : m.resolve pr = some p)
    (hc : m.resolve cr = some c) (hop : Owned m p) (hoc : Owned m c) (hr : m.root ≠ some c) (hb : ¬ Below m c p) :
    ∃ m', m.exec E (.addChild pr cr) = .ok m' ∧ Moved m m' p c ∧ WF m' ∧ ∀ x, Below m' c x ↔ Below m c x := by
  obtain ⟨m', h1, h2⟩ := execAddChild_ok w hp hc hop hoc hr (by rintro rfl; exact hb .refl)
  exact ⟨m', h1, h2, wf_of_moved w h2 hop hoc hr hb, moved_below h2⟩

/-- Putting a node below itself is rejected without effect, in every model. -/
theorem C22_self_rejected (m : FModel) (E : Env) {pr cr : Ref} {c : Id} (hp : m.resolve pr = some c)
    (hc : m.resolve cr = some c) : m.exec E (.addChild pr cr) = .err .recursiveEdge m := by
  show m.execAddChild pr cr = _
  unfold FModel.execAddChild
  rw [hc]; simp only; rw [hp]; simp

/-- Missing nodes are reported without effect, in every model. -/
theorem C22_missing_rejected (m : FModel) (E : Env) (pr cr : Ref) :
    (m.resolve cr = none → m.exec E (.addChild pr cr) = .err .missingChild m) ∧
    (m.resolve cr ≠ none → m.resolve pr = none → m.exec E (.addChild pr cr) = .err .missingParent m) := by
  constructor
  · intro h
    show m.execAddChild pr cr = _
    unfold FModel.execAddChild; rw [h]
  · intro h h'
    show m.execAddChild pr cr = _
    cases hc : m.resolve cr with
    | none => exact absurd hc h
    | some c => unfold FModel.execAddChild; rw [hc]; simp only; rw [h']

/-- The claim is false: in every well-formed model, putting a feature below one of its proper
    descendants succeeds and the result is not a tree any more. -/
theorem C22_descendant_accepted {m : FModel} (w : WF m) (E : Env) {pr cr : Ref} {p c : Id}
    (hp : m.resolve pr = some p) (hc : m.resolve cr = some c) (hop : Owned m p) (hoc : Owned m c)
    (hr : m.root ≠ some c) (hne : c ≠ p) (hb : Below m c p) :
    ∃ m', m.exec E (.addChild pr cr) = .ok m' ∧ ¬ WF m' := by
  obtain ⟨m', h1, h2⟩ := execAddChild_ok w hp hc hop hoc hr hne
  refine ⟨m', h1, ?_⟩
  intro w'
  have ho' : Owned m' c := by
    unfold Owned Known at hoc ⊢
    rw [h2.rest.features, h2.rest.rels]; exact hoc
  exact w'.not_below_parent ho' (by rw [h2.par]; simp) ((moved_below h2 p).2 hb)

/-- Not vacuous: `C` can be moved below `B` in `chain`; `A` below `B` is the bad case. -/
example : WF chain ∧ chain.resolve (.name c!"B") = some 2 ∧ chain.resolve (.name c!"C") = some 3 ∧
    Owned chain 2 ∧ Owned chain 3 ∧ chain.root ≠ some 3 ∧ ¬ Below chain 3 2 ∧ Below chain 1 2 := by
  refine ⟨chain_wf, by decide, by decide, .inl (by decide), .inl (by decide), by decide, ?_, .step (by decide) .refl⟩
  intro h
  have h1 := chain_wf.below_down h (.inl (by decide))
  rcases h1 with h | ⟨c, hc, _⟩
  · cases h
  · have : edg chain 3 = [] := by decide
    rw [this] at hc; cases hc

/-! ## C23 -/

/-- `addRelationship` on a feature whose child features are all direct children puts exactly them
    below one new relationship; the model stays well-formed and no feature's parent feature changes. -/
theorem C23_add_partial {m : FModel} (w : WF m) (E : Env) {k : RKind} {pr : Ref} {p : Id}
    (hres : m.resolve pr = some p) (hp : Known m p) (hdir : ∀ c, Via m isF p c → c ∈ edg m p) :
    ∃ m' r cs, m.exec E (.addRelationship k pr) = .ok m' ∧ Grouped m m' r k p cs ∧ WF m' ∧
      ∀ x q, Known m x → (FParent m' x q ↔ FParent m x q) := by
  obtain ⟨m', cs, h1, h2, h3⟩ := execAddRelationship_ok w E (k := k) hres hp hdir
  exact ⟨m', m.next, cs, h1, h2, h3, fun x q hx => grouped_fparent w hp h2 (.inl hx)⟩

/-- `removeRelationship` on a feature whose nearest relationships are all its own: one relationship
    disappears, its children become children of the feature, no feature's parent feature changes. -/
theorem C23_remove_partial {m : FModel} (w : WF m) (E : Env) {pr : Ref} {p : Id}
    (hres : m.resolve pr = some p) (hp : Known m p) (hex : ∃ r, Via m isR p r)
    (hdir : ∀ r, Via m isR p r → r ∈ edg m p ∧ ∀ c ∈ edg m r, IsFeat m c) :
    ∃ m' r cs, m.exec E (.removeRelationship pr) = .ok m' ∧ r ∈ edg m p ∧ IsRel m r ∧ Ungrouped m m' r p cs ∧
      WF m' ∧ ∀ x q, Known m x → (FParent m' x q ↔ FParent m x q) := by
  obtain ⟨m', r, cs, h1, h2, h3, h4, h5⟩ := execRemoveRelationship_ok w E hres hp hex hdir
  exact ⟨m', r, cs, h1, h2, h3, h4, h5, fun x q hx => ungrouped_fparent w hp h2 h3 h4 hx⟩

/-- Adding and then removing restores the model, up to the order of the parent's children, if there
    is no relationship anywhere below the parent. -/
theorem C23_round_trip_partial {m : FModel} (w : WF m) (E E' : Env) {k : RKind} {pr : Ref} {p : Id}
    (hres : m.resolve pr = some p) (hp : Known m p) (hno : ∀ r, ¬ Via m isR p r) :
    ∃ m1 m2, m.exec E (.addRelationship k pr) = .ok m1 ∧ m1.exec E' (.removeRelationship pr) = .ok m2 ∧
      data m2 = data m ∧ par m2 = par m ∧ (∀ j, j ≠ p → edg m2 j = edg m j) ∧ (edg m2 p).Perm (edg m p) ∧
      m2.features = m.features ∧ m2.rels = m.rels ∧ m2.root = m.root ∧ m2.name = m.name ∧ m2.path = m.path ∧
      m2.commit = m.commit ∧ m2.booleans = m.booleans ∧ m2.nonBooleans = m.nonBooleans ∧ m2.mixeds = m.mixeds :=
  group_ungroup w E E' hres hp hno

/-- root -- A -- (group) -- B. -/
def deepGroup : FModel :=
  ofNodes [featNode "root" none [1] .root, featNode "A" (some 0) [2], ⟨.rel .or, some 1, [3]⟩, featNode "B" (some 2) []]
    (some 0) [(c!"root", 0), (c!"A", 1), (c!"B", 3)] [2]

/-- The claim is false: `removeRelationship` on a feature without a relationship of its own takes
    one of a descendant, changes `B`'s parent feature from `A` to the root, and leaves `A` with an
    edge to the deleted relationship. -/
theorem C23_wrong_relationship (asserts : Bool) :
    WF deepGroup ∧ FParent deepGroup 3 1 ∧
    ∃ m', deepGroup.exec (stdEnv asserts) (.removeRelationship (.name c!"root")) = .ok m' ∧
      FParent m' 3 0 ∧ 2 ∈ edg m' 1 ∧ m'.heap 2 = none ∧ ¬ WF m' := by
  have w : WF deepGroup := wf_of_check (fun i => i) (ofNodes_fresh _ _ _ _ _) (by decide)
  refine ⟨w, .skip (r := 2) (by decide) ⟨.or, by decide⟩
    (.direct (by decide) ⟨{ attr := { name := c!"A", kind := .binary } }, by decide⟩), ?_⟩
  obtain ⟨m', h1, h2⟩ := Out.of_passes
    (show (deepGroup.exec (stdEnv asserts) (.removeRelationship (.name c!"root"))).passes (fun m' =>
      decide (Known m' 1) && decide (2 ∈ edg m' 1) && decide (m'.heap 2 = none) && decide (par m' 3 = some 0) &&
      decide (data m' 0 = some (.feat { attr := { name := c!"root", kind := .root } }))) = true by
      cases asserts <;> decide)
  simp only [Bool.and_eq_true, decide_eq_true_eq] at h2
  obtain ⟨⟨⟨⟨hf, he⟩, hh⟩, hp3⟩, hd0⟩ := h2
  refine ⟨m', h1, .direct hp3 ⟨_, hd0⟩, he, hh, ?_⟩
  intro w'
  obtain ⟨d, hd⟩ := w'.owned_data (w'.edge_par 1 2 (.inl hf) he).1
  rw [heap_of_data hd] at hh
  cases hh

/-- A second `addRelationship` on a feature: the children of the first group become children of the
    second while the first keeps its edges (assertions off; with assertions it stops). -/
theorem C23_second_group :
    WF grouped ∧ grouped.exec (stdEnv true) (.addRelationship .or (.name c!"root")) = .ub ∧
    ∃ m', grouped.exec (stdEnv false) (.addRelationship .or (.name c!"root")) = .ok m' ∧
      2 ∈ edg m' 1 ∧ 2 ∈ edg m' 5 ∧ ¬ WF m' := by
  refine ⟨grouped_wf, ?_, ?_⟩
  · have : (grouped.exec (stdEnv true) (.addRelationship .or (.name c!"root"))).tag = .ub := by decide
    cases h : grouped.exec (stdEnv true) (.addRelationship .or (.name c!"root")) with
    | ok m => rw [h] at this; cases this
    | err e m => rw [h] at this; cases this
    | ub => rfl
  · obtain ⟨m', h1, h2⟩ := Out.of_passes
      (show (grouped.exec (stdEnv false) (.addRelationship .or (.name c!"root"))).passes (fun m' =>
        decide (2 ∈ edg m' 1) && decide (2 ∈ edg m' 5) && decide (1 ∈ m'.rels) && decide (5 ∈ m'.rels)) = true by
        decide)
    simp only [Bool.and_eq_true, decide_eq_true_eq] at h2
    obtain ⟨⟨⟨e1, e2⟩, o1⟩, o2⟩ := h2
    refine ⟨m', h1, e1, e2, ?_⟩
    intro w'
    have a := (w'.edge_par 1 2 (.inr o1) e1).2
    have b := (w'.edge_par 5 2 (.inr o2) e2).2
    rw [a] at b
    cases b

/-- Not vacuous: `A` of `chain` can be grouped and ungrouped. -/
example : WF chain ∧ chain.resolve (.name c!"A") = some 1 ∧ Known chain 1 ∧ ∀ r, ¬ Via chain isR 1 r := by
  refine ⟨chain_wf, by decide, by decide, ?_⟩
  intro r hv
  have h1 : edg chain 1 = [2] := by decide
  have h2 : edg chain 2 = [] := by decide
  have h3 : data chain 2 = some (.feat { attr := { name := c!"B", kind := .binary } }) := by decide
  cases hv with
  | here h hd hT =>
    rw [h1] at h; simp at h; subst h
    rw [h3] at hd; cases hd; cases hT
  | skip h hd hT hv =>
    rw [h1] at h; simp at h; subst h
    cases hv with
    | here h _ _ => rw [h2] at h; cases h
    | skip h _ _ _ => rw [h2] at h; cases h

/-- And the group of `grouped` can be removed. -/
example : ∃ m', grouped.exec (stdEnv true) (.removeRelationship (.name c!"root")) = .ok m' ∧ m'.rels = [] := by
  obtain ⟨m', h1, h2⟩ := Out.of_passes
    (show (grouped.exec (stdEnv true) (.removeRelationship (.name c!"root"))).passes (fun m' =>
      decide (m'.rels = [])) = true by decide)
  exact ⟨m', h1, by simpa using h2⟩

end Verif.Props

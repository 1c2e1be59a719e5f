import Verif.FM.LooseGroups
import Verif.FM.Buildable
import Verif.FM.AddMany
/-!
# Building is never undefined

Calls that make features, edges in any shape, one group below each of some of the features made, then
constraints.
-/

namespace Verif
open Verif.Spec

/-! ### The consistency check after constraints -/

theorem parentFeatureFuel_sameTree {m m' : FModel} (h : SameTree m m') : ∀ (fuel : Nat) (i : Id),
    m'.parentFeatureFuel fuel i = m.parentFeatureFuel fuel i
  | 0, _ => rfl
  | fuel + 1, i => by
    have hshape : ∀ j, (∃ n n', m.heap j = some n ∧ m'.heap j = some n' ∧ n'.parent = n.parent ∧ n'.isFeat = n.isFeat) ∨
        (m.heap j = none ∧ m'.heap j = none) := by
      intro j
      have hd := h.data j
      have hp := congrFun h.par j
      cases hh : m.heap j with
      | none =>
        rw [data_none.2 hh] at hd
        cases hh' : m'.heap j with
        | none => exact .inr ⟨rfl, rfl⟩
        | some n' => rw [data_of_heap hh'] at hd; cases hd
      | some n =>
        rw [data_of_heap hh] at hd
        cases hh' : m'.heap j with
        | none => rw [data_none.2 hh'] at hd; cases hx : n.data <;> rw [hx] at hd <;> cases hd
        | some n' =>
          rw [data_of_heap hh'] at hd
          rw [par_of_heap hh, par_of_heap hh'] at hp
          refine .inl ⟨n, n', rfl, rfl, hp, ?_⟩
          unfold Node.isFeat
          cases hx : n.data <;> cases hx' : n'.data <;> rw [hx, hx'] at hd <;> first | rfl | cases hd
    unfold FModel.parentFeatureFuel
    rcases hshape i with ⟨n, n', e1, e2, e3, -⟩ | ⟨e1, e2⟩
    · rw [e1, e2]
      simp only [e3]
      cases n.parent with
      | none => rfl
      | some p =>
        simp only
        rcases hshape p with ⟨q, q', f1, f2, -, f4⟩ | ⟨f1, f2⟩
        · rw [f1, f2]
          simp only [f4, parentFeatureFuel_sameTree h fuel p]
        · rw [f1, f2]
    · rw [e1, e2]

theorem checked_of_sameTree {m m' : FModel} (w : Checked m) (h : SameTree m m') : Checked m' := by
  have hk : ∀ i, Known m' i ↔ Known m i := by intro i; unfold Known; rw [h.features]
  have hn := named_of_sameTree ⟨w.names, w.feat_ok⟩ h
  refine ⟨hn.names, hn.feat_ok, ?_, ?_, ?_⟩
  · obtain ⟨r, f, h1, h2, h3, h4⟩ := w.root_ok
    have hd := h.data r
    rw [h3] at hd
    obtain ⟨g, hg, _, e2⟩ := hd.feat_right
    exact ⟨r, g, by rw [h.root]; exact h1, (hk r).2 h2, hg, by rw [← e2]; exact h4⟩
  · intro i f hi hf hr
    obtain ⟨g, hg⟩ := (Named.mk w.names w.feat_ok).known_data ((hk i).1 hi)
    have hd := h.data i
    rw [hg, hf] at hd
    rw [h.root]
    exact w.one_root i g ((hk i).1 hi) hg (by rw [hd.2]; exact hr)
  · intro i hi hne
    rw [h.root] at hne
    obtain ⟨⟨q, hq⟩, p, d, h1, h2, h3⟩ := w.link i ((hk i).1 hi) hne
    refine ⟨⟨q, ?_⟩, p, ?_⟩
    · unfold FModel.parentFeature at hq ⊢
      rw [parentFeatureFuel_sameTree h, h.next]; exact hq
    · have hd := h.data p
      rw [h2] at hd
      cases hx : data m' p with
      | none => rw [hx] at hd; cases d <;> cases hd
      | some d' => exact ⟨d', by rw [h.par]; exact h1, rfl, by rw [h.edg]; exact h3⟩

theorem addConstraints_checked (E : Env) : ∀ (cs : List (CKind × Constraint)) (m : FModel), Checked m →
    (∃ e m', FModel.outFold (FModel.exec E) m (cs.map fun c => .addConstraint c.1 c.2) = .err e m') ∨
      ∃ m', FModel.outFold (FModel.exec E) m (cs.map fun c => .addConstraint c.1 c.2) = .ok m' ∧ Checked m'
  | [], m, h => .inr ⟨m, rfl, h⟩
  | c :: cs, m, h => by
    have hn : Named m := ⟨h.names, h.feat_ok⟩
    obtain ⟨m1, h1, h2⟩ := execAddConstraint_named hn c.1 c.2
    rw [List.map_cons]
    unfold FModel.outFold
    simp only [FModel.exec]
    by_cases hc : (c.2.features.all fun n => (m.getFeature n).isSome) = true
    · rw [if_pos hc] at h1
      rw [h1]
      exact addConstraints_checked E cs m1 (checked_of_sameTree h (sameTree_of_constraintAdded hn h2))
    · rw [if_neg hc] at h1
      rw [h1]
      exact .inl ⟨_, _, rfl⟩

/-! ### Groups, by name -/

theorem execAddRelationship_name {m : FModel} (E : Env) (k : RKind) {n : Str} {p : Id} (h : m.getFeature n = some p) :
    m.execAddRelationship E k (.name n) = m.execAddRelationship E k (.ptr (some p)) := by
  unfold FModel.execAddRelationship
  have : ∀ (m1 : FModel), m1.features = m.features → m1.resolve (.name n) = m1.resolve (.ptr (some p)) := by
    intro m1 e
    have h' : m1.getFeature n = some p := by unfold FModel.getFeature at h ⊢; rw [e]; exact h
    simp only [FModel.resolve, h']
  simp only
  generalize hm1 : ({ m.put m.next { data := .rel k } with next := m.next + 1, rels := m.rels ++ [m.next] } : FModel) = m1
  rw [this m1 (by rw [← hm1]; rfl)]

theorem addGroups_grouping {m0 : FModel} (w : Loose m0) (E : Env) : ∀ (gs : List (Str × RKind)) (m : FModel) (D : List Id),
    Grouping m0 m D → (gs.map Prod.fst).Nodup → (∀ g ∈ gs, ∃ p, (g.1, p) ∈ m0.features ∧ p ∉ D) →
    ∃ m' D', FModel.outFold (FModel.exec E) m (gs.map fun g => .addRelationship g.2 (.name g.1)) = .ok m' ∧ Grouping m0 m' D'
  | [], m, D, h, _, _ => ⟨m, D, rfl, h⟩
  | g :: gs, m, D, h, hn, hp => by
    rw [List.map_cons, List.nodup_cons] at hn
    obtain ⟨p, p1, p2⟩ := hp g (by simp)
    obtain ⟨m1, h1, h2⟩ := addRelationship_grouping w h E (k := g.2) (List.mem_map_of_mem p1) p2
    have hg : m.getFeature g.1 = some p := getFeature_mem (by rw [h.features]; exact w.names) (by rw [h.features]; exact p1)
    obtain ⟨m', D', h3, h4⟩ := addGroups_grouping w E gs m1 (p :: D) h2 hn.2 (by
      intro g' hg'
      obtain ⟨q, q1, q2⟩ := hp g' (by simp [hg'])
      refine ⟨q, q1, ?_⟩
      rw [List.mem_cons, not_or]
      refine ⟨?_, q2⟩
      rintro rfl
      obtain ⟨f, f1, f2⟩ := w.feat_ok _ q1
      obtain ⟨f', f1', f2'⟩ := w.feat_ok _ p1
      simp only at f1 f2 f1' f2'
      rw [f1] at f1'
      cases f1'
      exact hn.1 (by rw [← f2', f2]; exact List.mem_map_of_mem hg'))
    exact ⟨m', D', by rw [List.map_cons, outFold_cons (by simp only [FModel.exec]; rw [execAddRelationship_name E _ hg]; exact h1)]; exact h3, h4⟩

/-! ### Edges in any shape, by name -/

/-- The modifications of the second phase. -/
theorem modelOp_loose {m : FModel} (E : Env) (h : Loose m) {c : BCall} {o : Op} (ho : c.modelOp = some o) :
    (∃ e m', FModel.exec E m o = .err e m') ∨ ∃ m', FModel.exec E m o = .ok m' ∧ Loose m' ∧ m'.features = m.features := by
  have hren : ∀ n p c, Loose { m with name := n, path := p, commit := c } := fun n p c =>
    loose_of_sameTree h ⟨rfl, rfl, rfl, rfl, rfl, rfl, fun _ => .refl _⟩
  cases c with
  | setVmName n => cases ho; exact .inr ⟨_, rfl, hren _ m.path m.commit, rfl⟩
  | setPath n => cases ho; exact .inr ⟨_, rfl, hren m.name _ m.commit, rfl⟩
  | setCommit n => cases ho; exact .inr ⟨_, rfl, hren m.name m.path _, rfl⟩
  | addEdge p c =>
    cases ho
    simp only [FModel.exec]
    cases hc : m.getFeature c with
    | none => exact .inl ⟨.missingChild, m, by simp only [FModel.execAddChild, FModel.resolve, hc]⟩
    | some ci =>
      cases hp : m.getFeature p with
      | none => exact .inl ⟨.missingParent, m, by simp only [FModel.execAddChild, FModel.resolve, hc, hp]⟩
      | some pi =>
        by_cases hne : ci = pi
        · exact .inl ⟨.recursiveEdge, m, by simp only [FModel.execAddChild, FModel.resolve, hc, hp, if_pos hne]⟩
        · have hkp := getFeature_known hp
          have hkc := getFeature_known hc
          obtain ⟨m', h1, h2⟩ := addChild_loose h (pr := .name p) (cr := .name c) (by simp [FModel.resolve, hp])
            (by simp [FModel.resolve, hc]) hkp hkc hne
          exact .inr ⟨m', h1, loose_of_moved h h2 hkp hkc, h2.rest.features⟩
  | _ => cases ho

theorem modelOps_loose (E : Env) : ∀ (calls : List BCall) {m : FModel}, Loose m →
    (∃ e m', FModel.outFold (FModel.exec E) m (calls.filterMap BCall.modelOp) = .err e m') ∨
      ∃ m', FModel.outFold (FModel.exec E) m (calls.filterMap BCall.modelOp) = .ok m' ∧ Loose m' ∧ m'.features = m.features
  | [], m, h => .inr ⟨m, rfl, h, rfl⟩
  | c :: cs, m, h => by
    rw [List.filterMap_cons]
    cases ho : c.modelOp with
    | none => exact modelOps_loose E cs h
    | some o =>
      simp only
      unfold FModel.outFold
      rcases modelOp_loose E h ho with ⟨e, m', h1⟩ | ⟨m', h1, h2, h3⟩
      · exact .inl ⟨e, m', by rw [h1]⟩
      · rw [h1]
        simp only
        rcases modelOps_loose E cs h2 with h4 | ⟨m'', h4, h5, h6⟩
        · exact .inl h4
        · exact .inr ⟨m'', h4, h5, h6.trans h3⟩

/-- Building is never undefined when groups are below different features made by the calls and
    constraints come after the groups. -/
theorem build_no_ub {calls : List BCall} {world : FModel} (E : Env) (hf : ∀ i, world.heap i ≠ none → i < world.next)
    (hk : ∀ a ∈ attrsOf calls, a.kind ≠ .root) {gs : List (Str × RKind)} {cs : List (CKind × Constraint)}
    (hr : calls.filterMap BCall.relOp = (gs.map fun g => .addRelationship g.2 (.name g.1)) ++ cs.map fun c => .addConstraint c.1 c.2)
    (hg : ((attrsOf calls).map Attr.name).Nodup → (gs.map Prod.fst).Nodup)
    (hm : ∀ g ∈ gs, g.1 ∈ (attrsOf calls).map Attr.name) : world.build E (builderOf calls) ≠ .ub := by
  rw [builderOf_eq]
  unfold FModel.build
  simp only
  rcases phase1 E calls world.fresh freshDesc (describes_fresh hf) rfl rfl rfl hk with ⟨e, m', h1, _⟩ | ⟨m1, h1, h2⟩
  · rw [commitOps_err h1]; nofun
  have l1 : Loose m1 := loose_of_WF h2.wf (h2.no_rels rfl)
  rw [commitOps_loose h1 (checked_of_loose l1)]
  simp only
  rcases modelOps_loose E calls l1 with ⟨e, m', h3⟩ | ⟨m2, h3, l2, hfe⟩
  · rw [commitOps_err h3]; nofun
  rw [commitOps_loose h3 (checked_of_loose l2), hr]
  simp only
  obtain ⟨m3, D, h4, h5⟩ := addGroups_grouping l2 E gs m2 [] (grouping_refl l2)
    (hg (by simpa [freshDesc] using h2.distinct)) (by
      intro g hgm
      obtain ⟨i, hi⟩ := (h2.names g.1).2 (.inr (by simpa [freshDesc] using hm g hgm))
      exact ⟨i, by rw [hfe]; exact hi, by simp⟩)
  rcases addConstraints_checked E cs m3 (checked_of_grouping l2 h5) with ⟨e, m', h6⟩ | ⟨m4, h6, h7⟩
  · rw [commitOps_err ((outFold_append h4).trans h6)]; nofun
  · rw [commitOps_loose ((outFold_append h4).trans h6) h7]; nofun

end Verif

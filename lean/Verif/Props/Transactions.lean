import Verif.FM.Failure
/-!
# Properties C09, C17, C18, C24: modify transactions
-/

namespace Verif.Props
open Spec

/-! ## C09 -/

/-- A successful `addConstraint`: the constraint is stored last in its container, each of its
    feature leaves points to the model's feature of that name, every feature lists exactly the
    leaves that carry its name, implications and exclusions are recorded exactly when the root of
    the constraint is one, and nothing else changes. -/
theorem C09_registered {m : FModel} (w : WF m) (E : Env) {k : CKind} {c : Constraint}
    (hall : ∀ n ∈ c.features, ∃ i, (n, i) ∈ m.features) :
    ∃ m' binds, m.exec E (.addConstraint k c) = .ok m' ∧
      (∀ cl, m'.store cl = if cl = k.cls then m.store cl ++ [⟨c, binds, k.info⟩] else m.store cl) ∧
      binds.length = c.features.length ∧
      (∀ (j : Nat) n, c.features[j]? = some n → ∃ i, binds[j]? = some (some i) ∧ (n, i) ∈ m.features) ∧
      (∀ i f, Known m i → data m i = some (.feat f) → ∃ f', data m' i = some (.feat f') ∧ f'.attr = f.attr ∧
        (∀ l, l ∈ f'.constraints ↔
          l ∈ f.constraints ∨ (l.root = ⟨k.cls, (m.store k.cls).length⟩ ∧ c.features[l.leaf]? = some f.attr.name)) ∧
        (∀ r, r ∈ f'.implications ↔
          r ∈ f.implications ∨ (IsImplies c ∧ r = ⟨k.cls, (m.store k.cls).length⟩ ∧ f.attr.name ∈ c.features)) ∧
        (∀ r, r ∈ f'.excludes ↔
          r ∈ f.excludes ∨ (IsExcludes c ∧ r = ⟨k.cls, (m.store k.cls).length⟩ ∧ f.attr.name ∈ c.features))) ∧
      (∀ i, ¬ Known m i → data m' i = data m i) ∧ par m' = par m ∧ edg m' = edg m ∧ m'.features = m.features ∧
      m'.rels = m.rels ∧ m'.root = m.root ∧ m'.name = m.name ∧ m'.path = m.path ∧ m'.commit = m.commit := by
  obtain ⟨m', h1, h2⟩ := execAddConstraint_spec w k c
  have hget : ∀ n ∈ c.features, ∃ i, m.getFeature n = some i ∧ (n, i) ∈ m.features := by
    intro n hn
    obtain ⟨i, hi⟩ := hall n hn
    cases hg : m.getFeature n with
    | none => exact absurd (List.mem_map_of_mem (f := Prod.fst) hi) (getFeature_none.1 hg)
    | some j => exact ⟨j, rfl, getFeature_some hg⟩
  have hb : (c.features.all fun n => (m.getFeature n).isSome) = true := by
    rw [List.all_eq_true]
    intro n hn
    obtain ⟨i, hi, _⟩ := hget n hn
    rw [hi]; rfl
  rw [if_pos hb] at h1
  refine ⟨m', c.features.map m.getFeature, h1, h2.store, by simp, ?_, ?_, h2.other, h2.par, h2.edg, h2.outer.features,
    h2.outer.rels, h2.outer.root, h2.outer.name, h2.outer.path, h2.outer.commit⟩
  · intro j n hj
    obtain ⟨i, hi, hm⟩ := hget n (List.mem_of_getElem? hj)
    exact ⟨i, by rw [List.getElem?_map, hj]; simp [hi], hm⟩
  · intro i f hk hd
    obtain ⟨a1, a2, a3⟩ := regs_mem c ⟨k.cls, (m.store k.cls).length⟩ (positions f.attr.name 0 c.features) f
    have hne : positions f.attr.name 0 c.features ≠ [] ↔ f.attr.name ∈ c.features := by
      constructor
      · intro h
        obtain ⟨x, hx⟩ := List.exists_mem_of_ne_nil _ h
        exact List.mem_of_getElem? (positions_mem.1 hx).2
      · intro hx
        obtain ⟨x, hx⟩ := List.mem_iff_getElem?.1 hx
        exact List.ne_nil_of_mem (positions_mem.2 ⟨Nat.zero_le x, hx⟩)
    refine ⟨_, h2.known i f hk hd, regs_attr .., fun l => ?_, fun r => ?_, fun r => ?_⟩
    · rw [a1, positions_mem]; simp
    · rw [a2, hne]
    · rw [a3, hne]

/-- The last sentence of the claim is false, always: with a missing feature the call fails and the
    constraint is in the model all the same. -/
theorem C09_missing_changes {m : FModel} (w : WF m) (E : Env) {k : CKind} {c : Constraint} {n : Str}
    (hn : n ∈ c.features) (hmiss : ∀ i, (n, i) ∉ m.features) :
    ∃ m', m.exec E (.addConstraint k c) = .err .missingFeature m' ∧
      (m'.store k.cls).length = (m.store k.cls).length + 1 ∧ m' ≠ m := by
  obtain ⟨m', h1, h2⟩ := execAddConstraint_spec w k c
  have hb : ¬ (c.features.all fun n => (m.getFeature n).isSome) = true := by
    intro h
    have := List.all_eq_true.1 h n hn
    cases hg : m.getFeature n with
    | none => rw [hg] at this; cases this
    | some i => exact hmiss i (getFeature_some hg)
  rw [if_neg hb] at h1
  have hl : (m'.store k.cls).length = (m.store k.cls).length + 1 := by rw [h2.store, if_pos rfl]; simp
  refine ⟨m', h1, hl, ?_⟩
  rintro rfl
  omega

/-- Not vacuous: `A -> B` on `chain`, with the effect computed. -/
example : (∀ n ∈ (Constraint.bin .implies (.feature c!"A") (.feature c!"B")).features, ∃ i, (n, i) ∈ chain.features) ∧
    (chain.exec (stdEnv true) (.addConstraint .boolean (.bin .implies (.feature c!"A") (.feature c!"B")))).passes (fun m' =>
      decide (m'.booleans.map (·.binds) = [[some 1, some 2]]) &&
      decide ((m'.feat? 1).map (·.implications) = some [⟨.boolean, 0⟩]) &&
      decide ((m'.feat? 3).map (·.constraints) = some [])) = true := by
  refine ⟨?_, by decide⟩
  intro n hn
  have : n = c!"A" ∨ n = c!"B" := by simpa [Constraint.features] using hn
  rcases this with rfl | rfl
  · exact ⟨1, by decide⟩
  · exact ⟨2, by decide⟩

/-! ## C17 -/

/-- After every transaction of meaningful modifications (`Legal`) the model is well-formed, however
    the commit ended, and nothing undefined happened.  Missing: the modifications that `Legal`
    rules out, for which the claim is false (`C17_cycle`, `C21_remove_leaks`, `C23_wrong_relationship`,
    `C24_dangling`). -/
theorem C17_transactions_partial (E : Env) {m : FModel} (w : WF m) (b : Bound m) {ops : List Op}
    (hl : LegalRun E m ops) :
    (∃ m', m.commitOps E ops = .ok m' ∧ WF m' ∧ Bound m') ∨
    (∃ e m', m.commitOps E ops = .err e m' ∧ WF m' ∧ Bound m') :=
  commitOps_sound E w b hl

/-- The model every builder starts from is well-formed. -/
theorem C17_initial (m : FModel) (hf : ∀ i, m.heap i ≠ none → i < m.next) : WF m.fresh ∧ Bound m.fresh :=
  ⟨wf_fresh m hf, bound_fresh m⟩

/-- The claim is false: a commit that succeeds and leaves two features that are each other's parent. -/
theorem C17_cycle (asserts : Bool) :
    WF chain ∧ ∃ m', chain.commitOps (stdEnv asserts) [.addChild (.name c!"B") (.name c!"A")] = .ok m' ∧
      par m' 1 = some 2 ∧ par m' 2 = some 1 ∧ ¬ WF m' := by
  refine ⟨chain_wf, ?_⟩
  obtain ⟨m', h1, h2⟩ := Out.of_passes
    (show (chain.commitOps (stdEnv asserts) [.addChild (.name c!"B") (.name c!"A")]).passes (fun m' =>
      decide (Known m' 1) && decide (par m' 1 = some 2) && decide (par m' 2 = some 1)) = true by
      cases asserts <;> decide)
  simp only [Bool.and_eq_true, decide_eq_true_eq] at h2
  obtain ⟨⟨hk, h3⟩, h4⟩ := h2
  exact ⟨m', h1, h3, h4, not_wf_cycle (.inl hk) h3 h4⟩

/-- Not vacuous: a transaction of five different modifications meets the hypotheses. -/
example : LegalRun (stdEnv true) chain
    [.addRelationship .or (.name c!"A"), .setRoot c!"base", .addConstraint .boolean (.feature c!"A"),
     .removeFeature (.name c!"nope") true, .setName c!"x"] := by
  refine ⟨⟨1, by decide, by decide, ?_⟩, ?_⟩
  · intro c hv
    have h1 : edg chain 1 = [2] := by decide
    have h3 : data chain 2 = some (.feat { attr := { name := c!"B", kind := .binary } }) := by decide
    cases hv with
    | here h _ _ => exact h
    | skip h hd hT _ =>
      rw [h1] at h; simp at h; subst h
      rw [h3] at hd; cases hd; cases hT
  · intro m1 h1
    refine ⟨?_, ?_⟩
    · intro i ft _ _
      right
      rintro ⟨s, hs, _⟩
      have : ((chain.exec (stdEnv true) (.addRelationship .or (.name c!"A"))).passes fun m =>
        decide (m.booleans = []) && decide (m.nonBooleans = []) && decide (m.mixeds = [])) = true := by decide
      rw [h1] at this
      simp [Out.passes] at this
      simp [allStored, this] at hs
    · intro m2 h2
      refine ⟨trivial, fun m3 h3 => ⟨?_, fun m4 _ => ⟨trivial, fun _ _ => trivial⟩⟩⟩
      intro i hres
      have h : ((FModel.outFold (FModel.exec (stdEnv true)) chain
        [.addRelationship .or (.name c!"A"), .setRoot c!"base", .addConstraint .boolean (.feature c!"A")]).passes fun m =>
        decide (m.getFeature c!"nope" = none)) = true := by decide
      simp only [FModel.outFold, h1, h2, h3, Out.passes, decide_eq_true_eq] at h
      have hres : m3.getFeature c!"nope" = some i := hres
      rw [h] at hres; cases hres

/-! ## C18 -/

/-- Aborting: whatever was queued before and is called afterwards, the model is what it was and
    every later commit reports `ABORTED`. -/
theorem C18_abort (E : Env) (m : FModel) (ops : List Op) (later : List TxCall) :
    ∃ rs, m.txRun E ⟨true, []⟩ (ops.map .op ++ .abort :: later) = some (m, rs) ∧
      ∀ k : Nat, later[k]? = some .commit → rs[ops.length + 1 + k]? = some (.err .aborted) := by
  rw [txRun_queue]
  obtain ⟨rs, h1, _, h3⟩ := txRun_closed E later m { opened := false, ops := [] ++ ops } rfl
  refine ⟨_, by simp only [FModel.txRun, FModel.txStep, h1]; rfl, ?_⟩
  intro k hk
  rw [List.getElem?_append_right (by simp; omega)]
  have e : ops.length + 1 + k - (ops.map fun _ => TxRes.none).length = k + 1 := by simp; omega
  rw [e]
  exact h3 k hk

/-- One failing modification, other than `addConstraint`: the model is exactly what it was.
    Missing: several modifications and constraints, where the claim is false (`C18_not_rolled_back`,
    `C18_constraint_stays`). -/
theorem C18_single_partial {E : Env} {m m' : FModel} {op : Op} {e : FTErr}
    (h : m.commitOps E [op] = .err e m') (hc : ∀ k c, op ≠ .addConstraint k c) (he : e ≠ .inconsistent) : m' = m := by
  have h2 : ∀ o, m.exec E op = o → FModel.outFold (FModel.exec E) m [op] = o := by
    intro o ho
    cases o <;> simp only [FModel.outFold, ho]
  unfold FModel.commitOps at h
  cases ho : m.exec E op with
  | ub => rw [h2 _ ho] at h; cases h
  | err e1 m1 =>
    rw [h2 _ ho] at h
    cases h
    exact exec_err ho hc
  | ok m1 =>
    rw [h2 _ ho] at h
    simp only at h
    cases hcons : m1.consistent E with
    | none => rw [hcons] at h; cases h
    | some b =>
      rw [hcons] at h
      cases b with
      | true => cases h
      | false => cases h; exact absurd rfl he

/-- In general the model is left as the modifications before the failing one made it: nothing is
    rolled back.  (`addConstraint` additionally leaves its constraint.) -/
theorem C18_prefix_partial {E : Env} {m m' : FModel} {ops : List Op} {e : FTErr}
    (h : m.commitOps E ops = .err e m') :
    (e = .inconsistent ∧ FModel.outFold (FModel.exec E) m ops = .ok m') ∨
    ∃ pre op post m1, ops = pre ++ op :: post ∧ FModel.outFold (FModel.exec E) m pre = .ok m1 ∧
      m1.exec E op = .err e m' ∧ ((∀ k c, op ≠ .addConstraint k c) → m' = m1) := by
  unfold FModel.commitOps at h
  cases ho : FModel.outFold (FModel.exec E) m ops with
  | ub => rw [ho] at h; cases h
  | err e1 m1 =>
    rw [ho] at h
    cases h
    obtain ⟨pre, x, post, m2, h1, h2, h3⟩ := outFold_err ho
    exact .inr ⟨pre, x, post, m2, h1, h2, h3, fun hc => exec_err h3 hc⟩
  | ok m1 =>
    rw [ho] at h
    simp only at h
    cases hcons : m1.consistent E with
    | none => rw [hcons] at h; cases h
    | some b =>
      rw [hcons] at h
      cases b with
      | true => cases h
      | false => cases h; exact .inl ⟨rfl, rfl⟩

/-- The claim is false, for every well-formed model: adding the same new feature twice fails and
    the feature stays. -/
theorem C18_not_rolled_back {m : FModel} (w : WF m) (E : Env) {a : Attr} (hn : ∀ i, (a.name, i) ∉ m.features) :
    ∃ m' i, m.commitOps E [.addFeature a none, .addFeature a none] = .err .alreadyPresent m' ∧
      (a.name, i) ∈ m'.features := by
  have hn' : a.name ∉ m.features.map Prod.fst := by
    intro h
    obtain ⟨e, he, h1⟩ := List.mem_map.1 h
    exact hn e.2 (by rw [← h1]; exact he)
  obtain ⟨m', p, h1, h2, _⟩ := execAddFeature_ok w hn' (parent := none) (by intro i h; cases h)
  have h1' : m.exec E (.addFeature a none) = .ok m' := h1
  have hmem : (a.name, m.next) ∈ m'.features := by rw [h2.features]; simp
  have h3 : m'.exec E (.addFeature a none) = .err .alreadyPresent m' :=
    execAddFeature_err (parent := none) (List.mem_map_of_mem (f := Prod.fst) hmem)
  refine ⟨m', m.next, ?_, hmem⟩
  simp only [FModel.commitOps, FModel.outFold, h1', h3]

/-- And for every well-formed model: a constraint with a missing feature stays. -/
theorem C18_constraint_stays {m : FModel} (w : WF m) (E : Env) {k : CKind} {c : Constraint} {n : Str}
    (hn : n ∈ c.features) (hmiss : ∀ i, (n, i) ∉ m.features) :
    ∃ m', m.commitOps E [.addConstraint k c] = .err .missingFeature m' ∧
      (m'.store k.cls).length = (m.store k.cls).length + 1 := by
  obtain ⟨m', h1, h2, _⟩ := C09_missing_changes w E (k := k) hn hmiss
  refine ⟨m', ?_, h2⟩
  simp only [FModel.commitOps, FModel.outFold, h1]

/-- Not vacuous. -/
example : (chain.commitOps (stdEnv true) [.removeFeature (.name c!"A") false]).tag = .err .nonLeafNode ∧
    (∀ i, (c!"new", i) ∉ chain.features) ∧
    (chain.commitOps (stdEnv true) [.addFeature { name := c!"N", kind := .binary } none,
      .addChild (.name c!"N") (.name c!"N")]).tag = .err .recursiveEdge := by
  refine ⟨by decide, ?_, by decide⟩
  intro i
  simp [chain, ofNodes]

/-! ## C24 -/

/-- Removing a subtree no feature of which is mentioned by a constraint leaves no constraint that
    refers to a removed feature.  Missing: mentioned features, where the claim is always false. -/
theorem C24_unmentioned_partial {m : FModel} (w : WF m) (E : Env) {f : Ref} {i : Id}
    (hres : m.resolve f = some i) (hi : Known m i) (hr : m.root ≠ some i)
    (hflat : ∀ j, Below m i j → IsRel m j → ∀ c ∈ edg m j, IsFeat m c) (hm : ∀ j, Below m i j → ¬ Mentioned m j) :
    ∃ m', m.exec E (.removeFeature f true) = .ok m' ∧ ∀ j, Owned m j → m'.heap j = none → ¬ Mentioned m' j := by
  obtain ⟨m', h1, h2⟩ := removeRec_ok E (m.next + 1) m i w hi hr (fun j _ hb hj c hc => hflat j hb hj c hc) (by omega)
  refine ⟨m', ?_, ?_⟩
  · show m.execRemoveFeature E f true = _
    unfold FModel.execRemoveFeature; rw [hres]; exact h1
  · intro j ho hj hmj
    have hS : Owned m j ∧ Below m i j := by
      apply Classical.byContradiction
      intro hS
      obtain ⟨d, hd⟩ := w.owned_data ho
      have := h2.data j hS
      rw [hd] at this
      rw [heap_of_data this] at hj
      cases hj
    apply hm j hS.2
    unfold Mentioned at hmj ⊢
    rwa [allStored_eq h2.booleans h2.nonBooleans h2.mixeds] at hmj

/-- The claim is false whenever it matters: removing a mentioned leaf succeeds, and the constraint
    then refers to a deleted object. -/
theorem C24_dangling {m : FModel} (w : WF m) (E : Env) {f : Ref} {i : Id} (hres : m.resolve f = some i)
    (hi : Known m i) (hr : m.root ≠ some i) (he : edg m i = []) (hm : Mentioned m i) (recursive : Bool) :
    ∃ m', m.exec E (.removeFeature f recursive) = .ok m' ∧ m'.heap i = none ∧ Mentioned m' i := by
  have key : ∃ m' S, m.exec E (.removeFeature f recursive) = .ok m' ∧ Without m m' S ∧ S i := by
    cases recursive with
    | false =>
      obtain ⟨m', h1, h2⟩ := removeRec_leaf w E m.next hi hr he
      refine ⟨m', _, ?_, h2, rfl⟩
      show m.execRemoveFeature E f false = _
      unfold FModel.execRemoveFeature; rw [hres]; exact h1
    | true =>
      have hflat : ∀ j, Owned m j → Below m i j → IsRel m j → ∀ c ∈ edg m j, IsFeat m c := by
        intro j ho hb hj c hc
        rcases w.below_down hb ho with h | ⟨x, hx, _⟩
        · subst h; rw [he] at hc; cases hc
        · rw [he] at hx; cases hx
      obtain ⟨m', h1, h2⟩ := removeRec_ok E (m.next + 1) m i w hi hr hflat (by omega)
      refine ⟨m', _, ?_, h2, .inl hi, .refl⟩
      show m.execRemoveFeature E f true = _
      unfold FModel.execRemoveFeature; rw [hres]; exact h1
  obtain ⟨m', S, h1, h2, h3⟩ := key
  refine ⟨m', h1, h2.gone i h3, ?_⟩
  unfold Mentioned
  rw [allStored_eq h2.booleans h2.nonBooleans h2.mixeds]
  exact hm

/-- `chain` with the constraint `A -> C`. -/
def chainC : FModel := { chain with booleans := [⟨.bin .implies (.feature c!"A") (.feature c!"C"), [some 1, some 3], none⟩] }

/-- Not vacuous, both: `B` is not mentioned, the leaf `C` is. -/
example : WF chainC ∧ Known chainC 3 ∧ chainC.root ≠ some 3 ∧ edg chainC 3 = [] ∧ Mentioned chainC 3 ∧
    Known chainC 2 ∧ (∀ j, Below chainC 2 j → ¬ Mentioned chainC j) := by
  have w : WF chainC := wf_of_sameTree chain_wf ⟨rfl, rfl, rfl, rfl, rfl, rfl, fun _ => .refl _⟩
  refine ⟨w, by decide, by decide, by decide, ⟨_, List.mem_singleton.2 rfl, by decide⟩, by decide, ?_⟩
  rintro j hb ⟨s, hs, hj⟩
  have : s = ⟨.bin .implies (.feature c!"A") (.feature c!"C"), [some 1, some 3], none⟩ := by
    simpa [allStored, chainC, chain, ofNodes] using hs
  subst this
  have hj' : j = 1 ∨ j = 3 := by simpa using hj
  have hown : Owned chainC j := by rcases hj' with rfl | rfl <;> exact .inl (by decide)
  rcases w.below_down hb hown with h | ⟨c, hc, _⟩
  · subst h; rcases hj' with h | h <;> cases h
  · have : edg chainC 2 = [] := by decide
    rw [this] at hc; cases hc

end Verif.Props

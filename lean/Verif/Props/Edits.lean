import Verif.Solver.EditsGroup
import Verif.Props.Enumeration
import Verif.Props.FeatureTree
import Verif.Props.TransactionEffects
import Verif.Props.Transactions
import Verif.Solver.EditsMove
/-!
# C76-C81: what modifications do to the valid configurations
-/

namespace Verif.Props
open Verif Verif.Spec Verif.FModel Verif.Z3Solver

/-! ## C76 -/

/-- A constraint over features of the model is added, and the valid configurations are those from before
    that satisfy it. -/
theorem C76_constraint {m : FModel} (w : WF m) (E : Env) {k : CKind} {c : Constraint}
    (hall : ∀ n ∈ c.features, ∃ i, (n, i) ∈ m.features) :
    ∃ m', m.exec E (.addConstraint k c) = .ok m' ∧ ∀ F a, Valid F m' a ↔ Valid F m a ∧ Satisfies m a k c := by
  obtain ⟨m', h1, h2⟩ := execAddConstraint_spec w k c
  have hb : (c.features.all fun n => (m.getFeature n).isSome) = true := by
    rw [List.all_eq_true]
    intro n hn
    obtain ⟨i, hi⟩ := hall n hn
    rw [getFeature_mem w.names hi]; rfl
  rw [if_pos hb] at h1
  exact ⟨m', h1, fun F a => valid_constraintAdded w h2⟩

/-- If a feature is missing the same happens, although the modification reports an error: from then on the
    constraint restricts the configurations. -/
theorem C76_missing_restricts {m : FModel} (w : WF m) (E : Env) {k : CKind} {c : Constraint} {n : Str}
    (hn : n ∈ c.features) (hmiss : ∀ i, (n, i) ∉ m.features) :
    ∃ m', m.exec E (.addConstraint k c) = .err .missingFeature m' ∧ ∀ F a, Valid F m' a ↔ Valid F m a ∧ Satisfies m a k c := by
  obtain ⟨m', h1, h2⟩ := execAddConstraint_spec w k c
  have hb : ¬ (c.features.all fun n => (m.getFeature n).isSome) = true := by
    intro h
    have := List.all_eq_true.1 h n hn
    cases hg : m.getFeature n with
    | none => rw [hg] at this; cases this
    | some i => exact hmiss i (getFeature_some hg)
  rw [if_neg hb] at h1
  exact ⟨m', h1, fun F a => valid_constraintAdded w h2⟩

/-- So after adding it, `getAllConfigs` lists exactly the configurations from before that satisfy it, each
    once, or reports that there is none. -/
theorem C76_all_configs {F : IntFloats} {m : FModel} (w : WF m) (L : Loadable F m) (E E' : Env) (O : Oracle)
    (hO : ∀ k ts, O.check k ts ≠ .unknown) {k : CKind} {c : Constraint} (hc : FitsIn m k c)
    (hall : ∀ n ∈ c.features, ∃ i, (n, i) ∈ m.features) :
    ∃ m', m.exec E (.addConstraint k c) = .ok m' ∧ ∃ b, ∀ fuel, b ≤ fuel →
      ((¬ ∃ a, Valid F m a ∧ Satisfies m a k c) ∧ getAllConfigs E' F O fuel m' = .err .unsat) ∨
      ∃ cs, getAllConfigs E' F O fuel m' = .ok cs ∧ cs.Pairwise Differ ∧
        (∀ cf ∈ cs, ∃ a, Valid F m a ∧ Satisfies m a k c ∧ Shows m a cf) ∧
        ∀ a, Valid F m a → Satisfies m a k c → ∃ cf ∈ cs, Shows m a cf := by
  obtain ⟨m', h1, h2⟩ := execAddConstraint_spec w k c
  have hb : (c.features.all fun n => (m.getFeature n).isSome) = true := by
    rw [List.all_eq_true]
    intro n hn
    obtain ⟨i, hi⟩ := hall n hn
    rw [getFeature_mem w.names hi]; rfl
  rw [if_pos hb] at h1
  have hv : ∀ a, Valid F m' a ↔ Valid F m a ∧ Satisfies m a k c := fun a => valid_constraintAdded w h2
  have hs := sameChoices_of_constraintAdded w h2
  obtain ⟨b, h3⟩ := C40_every_valid_once_partial (wf_of_constraintAdded w h2) (loadable_constraintAdded w L hc hall h2) E' O hO
  refine ⟨m', h1, b, fun fuel hf => ?_⟩
  rcases h3 fuel hf with ⟨h4, h5⟩ | ⟨_, cs, h5, h6⟩
  · refine .inl ⟨?_, h5⟩
    rintro ⟨a, ha⟩
    exact h4 ⟨a, (hv a).2 ha⟩
  · refine .inr ⟨cs, h5, h6.differ, ?_, ?_⟩
    · intro cf hcf
      obtain ⟨a, h7, h8⟩ := h6.valid cf hcf
      obtain ⟨h9, h10⟩ := (hv a).1 h7
      exact ⟨a, h9, h10, (shows_sameChoices hs).1 h8⟩
    · intro a h7 h8
      obtain ⟨cf, h9, h10⟩ := h6.all a ((hv a).2 ⟨h7, h8⟩)
      exact ⟨cf, h9, (shows_sameChoices hs).1 h10⟩

/-- Not vacuous: in `shop` the constraint `A` keeps a configuration that the constraint `B` rules out. -/
example : WF shop ∧ Loadable exactFloats shop ∧ (∀ n ∈ (Constraint.feature c!"A").features, ∃ i, (n, i) ∈ shop.features) ∧
    (∀ n ∈ (Constraint.feature c!"B").features, ∃ i, (n, i) ∈ shop.features) ∧ FitsIn shop .boolean (.feature c!"A") ∧
    Valid exactFloats shop (shopChoice true false true 3) ∧
    Satisfies shop (shopChoice true false true 3) .boolean (.feature c!"A") ∧
    ¬ Satisfies shop (shopChoice true false true 3) .boolean (.feature c!"B") := by
  obtain ⟨n1, n2, n3⟩ := shop_num
  have nB : ¬ IsNum shop c!"B" := by
    rintro ⟨i, f, vs, st, hi, hf, hk⟩
    have : (c!"B", i) ∈ [(c!"root", 0), (c!"A", 2), (c!"B", 3), (c!"O", 4), (c!"N", 5)] := hi
    simp at this
    subst this
    cases hf; cases hk
  refine ⟨shop_wf, shop_loadable, ?_, ?_, ⟨trivial, ?_⟩, shopChoice_valid, ?_, ?_⟩
  · intro n hn; simp [Constraint.features] at hn; subst hn; exact ⟨2, by decide⟩
  · intro n hn; simp [Constraint.features] at hn; subst hn; exact ⟨3, by decide⟩
  · simp only [sortOf, sortIn, if_neg n3]
  · simp only [Satisfies, meaning, value, if_neg n3]; rfl
  · simp only [Satisfies, meaning, value, if_neg nB]
    intro h; cases h

/-! ## C77 -/

/-- A feature with a new name is added below a feature: the valid configurations are those from before in which
    the new feature is selected only with its parent, is selected with it if mandatory, and has one of its values if
    numeric; nothing changes for the other features.  (A numeric feature must not have a name that a constraint
    already used for a missing Boolean one.) -/
theorem C77_add {m : FModel} (w : WF m) (E : Env) {x : Attr} {parent : Option Id} (hn : ∀ i, (x.name, i) ∉ m.features)
    (hp : ∀ i, parent = some i → Known m i)
    (hm : (∀ vs st, x.kind ≠ .numeric vs st) ∨ ∀ c ∈ allStored m, x.name ∉ c.tree.features) :
    ∃ m' p, m.exec E (.addFeature x parent) = .ok m' ∧ (parent = some p ∨ (parent = none ∧ m.root = some p)) ∧
      ∀ F a, Valid F m' a ↔ Valid F m a ∧ Joins F m a x p := by
  obtain ⟨m', p, i, h1, h2, h3⟩ := C21_add w E hn hp
  refine ⟨m', p, h1, h3, fun F a => valid_added w h2 ?_ hm⟩
  rcases h3 with h3 | ⟨_, h3⟩
  · exact hp p h3
  · exact w.root_known h3

/-- An optional Boolean feature can be selected or not, as far as its parent allows. -/
theorem C77_optional {m : FModel} (w : WF m) (E : Env) {n : Str} {p : Id} (hn : ∀ i, (n, i) ∉ m.features) (hp : Known m p) :
    ∃ m', m.exec E (.addFeature { name := n, kind := .binary, opt := true } (some p)) = .ok m' ∧
      ∀ F a, Valid F m' a ↔ Valid F m a ∧ (a.bool n = true → Selected m a p) := by
  obtain ⟨m', q, h1, h2, h3⟩ := C77_add w E (x := { name := n, kind := .binary, opt := true }) (parent := some p) hn
    (fun i hi => by cases hi; exact hp) (.inl (fun vs st h => by cases h))
  have : q = p := by
    rcases h2 with h2 | ⟨h2, _⟩
    · exact (Option.some.inj h2).symm
    · cases h2
  subst this
  refine ⟨m', h1, fun F a => ?_⟩
  rw [h3]
  constructor
  · rintro ⟨v, j⟩; exact ⟨v, fun hb => j.child rfl hb⟩
  · rintro ⟨v, j⟩; exact ⟨v, ⟨fun _ hb => j hb, fun _ ho => (by cases ho), fun vs st hk => by cases hk⟩⟩

/-- A mandatory one is selected exactly with its parent. -/
theorem C77_mandatory {m : FModel} (w : WF m) (E : Env) {n : Str} {p : Id} (hn : ∀ i, (n, i) ∉ m.features) (hp : Known m p) :
    ∃ m', m.exec E (.addFeature { name := n, kind := .binary, opt := false } (some p)) = .ok m' ∧
      ∀ F a, Valid F m' a ↔ Valid F m a ∧ (a.bool n = true ↔ Selected m a p) := by
  obtain ⟨m', q, h1, h2, h3⟩ := C77_add w E (x := { name := n, kind := .binary, opt := false }) (parent := some p) hn
    (fun i hi => by cases hi; exact hp) (.inl (fun vs st h => by cases h))
  have : q = p := by
    rcases h2 with h2 | ⟨h2, _⟩
    · exact (Option.some.inj h2).symm
    · cases h2
  subst this
  refine ⟨m', h1, fun F a => ?_⟩
  rw [h3]
  constructor
  · rintro ⟨v, j⟩; exact ⟨v, fun hb => j.child rfl hb, fun hs => j.mandatory rfl rfl hs⟩
  · rintro ⟨v, j⟩; exact ⟨v, ⟨fun _ hb => j.1 hb, fun _ _ hs => j.2 hs, fun vs st hk => by cases hk⟩⟩

/-- Not vacuous, with the parent selected and not selected. -/
example : WF shop ∧ (∀ i, (c!"P", i) ∉ shop.features) ∧ Known shop 2 ∧ Known shop 3 ∧
    Valid exactFloats shop (shopChoice true false true 3) ∧ Selected shop (shopChoice true false true 3) 2 ∧
    ¬ Selected shop (shopChoice true false true 3) 3 := by
  refine ⟨shop_wf, ?_, by decide, by decide, shopChoice_valid, shopChoice_selected.2 (by simp), ?_⟩
  · intro i hi
    have : (c!"P", i) ∈ [(c!"root", 0), (c!"A", 2), (c!"B", 3), (c!"O", 4), (c!"N", 5)] := hi
    simp at this
  · intro h; simp [shopChoice_selected] at h

/-! ## C78 -/

/-- Removing a feature that is not a member of a group, with everything below it, if no constraint mentions any of that:
    the valid configurations are those from before without the removed features, provided the feature was selected in
    some.  Missing for the full claim: relationships directly below relationships (see C21). -/
theorem C78_remove_partial {F : IntFloats} {m : FModel} (w : WF m) (E : Env) {f : Ref} {i : Id} (hres : m.resolve f = some i)
    (hi : Known m i) (hr : m.root ≠ some i) (hflat : ∀ j, Below m i j → IsRel m j → ∀ c ∈ edg m j, IsFeat m c)
    (hpf : ∀ p, par m i = some p → IsFeat m p)
    (hm : ∀ s ∈ allStored m, ∀ n ∈ s.tree.features, ∀ j, (n, j) ∈ m.features → ¬ Below m i j)
    (hex : ∃ b, Valid F m b ∧ Selected m b i) :
    ∃ m', m.exec E (.removeFeature f true) = .ok m' ∧
      ∀ a, Valid F m' a ↔ ∃ b, Valid F m b ∧ AgreeOff m (Below m i) a b := by
  obtain ⟨m', h1, h2⟩ := C21_remove_recursive_partial w E hres hi hr hflat
  refine ⟨m', h1, fun a => ?_⟩
  have hname : ∀ n, NameIn m (fun j => Owned m j ∧ Below m i j) n ↔ NameIn m (Below m i) n := fun n =>
    ⟨fun ⟨j, hj, hb⟩ => ⟨j, hj, hb.2⟩, fun ⟨j, hj, hb⟩ => ⟨j, hj, .inl (List.mem_map_of_mem (f := Prod.snd) hj), hb⟩⟩
  rw [valid_without_all w h2 (cut_below w hi hr) (w.known_data hi) hpf (fun s hs n hn ⟨j, hj, hb⟩ => hm s hs n hn j hj hb.2) hex]
  constructor
  · rintro ⟨b, v, g⟩; exact ⟨b, v, fun n hn => g.bool n (fun x => hn ((hname n).1 x)), fun n hn => g.int n (fun x => hn ((hname n).1 x)), g.div0⟩
  · rintro ⟨b, v, g⟩; exact ⟨b, v, fun n hn => g.bool n (fun x => hn ((hname n).2 x)), fun n hn => g.int n (fun x => hn ((hname n).2 x)), g.div0⟩

/-- Removing a feature that need not be selected (an optional one, or a member of a group) in the same way: the valid
    configurations are those from before in which it was not selected, without the removed features, provided there are
    any valid ones. -/
theorem C78_remove_free_partial {F : IntFloats} {m : FModel} (w : WF m) (E : Env) {f : Ref} {i : Id} (hres : m.resolve f = some i)
    (hi : Known m i) (hr : m.root ≠ some i) (hflat : ∀ j, Below m i j → IsRel m j → ∀ c ∈ edg m j, IsFeat m c)
    (hopt : (∃ r, par m i = some r ∧ IsRel m r) ∨ ∃ g, data m i = some (.feat g) ∧ (g.attr.opt = true ∨ g.attr.kind ≠ .binary))
    (hm : ∀ s ∈ allStored m, ∀ n ∈ s.tree.features, ∀ j, (n, j) ∈ m.features → ¬ Below m i j)
    (hex : ∃ b, Valid F m b) :
    ∃ m', m.exec E (.removeFeature f true) = .ok m' ∧
      ∀ a, Valid F m' a ↔ ∃ b, Valid F m b ∧ AgreeOff m (Below m i) a b ∧ ¬ Selected m b i := by
  obtain ⟨m', h1, h2⟩ := C21_remove_recursive_partial w E hres hi hr hflat
  refine ⟨m', h1, fun a => ?_⟩
  have hname : ∀ n, NameIn m (fun j => Owned m j ∧ Below m i j) n ↔ NameIn m (Below m i) n := fun n =>
    ⟨fun ⟨j, hj, hb⟩ => ⟨j, hj, hb.2⟩, fun ⟨j, hj, hb⟩ => ⟨j, hj, .inl (List.mem_map_of_mem (f := Prod.snd) hj), hb⟩⟩
  have hopt' : ∀ g, data m i = some (.feat g) → g.attr.kind = .binary → g.attr.opt = false → ∀ q, par m i = some q → ¬ IsFeat m q := by
    rintro g hg hk ho q hq ⟨g', hg'⟩
    rcases hopt with ⟨r, hr', k, hk'⟩ | ⟨g'', hg'', h | h⟩
    · rw [hq] at hr'; cases hr'
      rw [hg'] at hk'; cases hk'
    · rw [hg] at hg''; cases hg''
      rw [h] at ho; cases ho
    · rw [hg] at hg''; cases hg''
      exact h hk
  rw [valid_without_free w h2 (cut_below w hi hr) (w.known_data hi) hopt' (fun s hs n hn ⟨j, hj, hb⟩ => hm s hs n hn j hj hb.2) hex]
  constructor
  · rintro ⟨b, v, g, ns⟩
    exact ⟨b, v, ⟨fun n hn => g.bool n (fun x => hn ((hname n).1 x)), fun n hn => g.int n (fun x => hn ((hname n).1 x)), g.div0⟩, ns⟩
  · rintro ⟨b, v, g, ns⟩
    exact ⟨b, v, ⟨fun n hn => g.bool n (fun x => hn ((hname n).2 x)), fun n hn => g.int n (fun x => hn ((hname n).2 x)), g.div0⟩, ns⟩

/-- Everything selected. -/
def allOn : Assign := { bool := fun _ => true, int := fun _ => 0, div0 := fun _ => 0 }

/-- In a model without groups, numeric features and constraints everything may be selected. -/
theorem allOn_valid {F : IntFloats} {m : FModel} (w : WF m) (hr : m.rels = []) (hc : allStored m = [])
    (hn : ∀ i f, Known m i → data m i = some (.feat f) → ∀ vs st, f.attr.kind ≠ .numeric vs st) : Valid F m allOn := by
  have hs : ∀ i, Known m i → Selected m allOn i := by
    intro i hi
    obtain ⟨f, hf⟩ := w.known_data hi
    exact ⟨f, hf, rfl⟩
  have hb : m.booleans ++ m.nonBooleans = [] ∧ m.mixeds = [] := by
    have := hc; simp only [allStored, List.append_eq_nil_iff] at this
    exact ⟨by simp [this.1.1, this.1.2], this.2⟩
  refine ⟨fun r hr => hs r (w.root_known hr), ?_, fun i f p hi _ _ _ _ _ _ => hs i hi, ?_, ?_, ?_, ?_, ?_⟩
  · intro i f p hi _ _ hp _
    exact hs p (w.known_feat (fparent_owned w (.inl hi) hp) (fparent_isFeat hp))
  · intro r p h; rw [hr] at h; cases h
  · intro r p h; rw [hr] at h; cases h
  · intro i f vs st hi hf hk; exact absurd hk (hn i f hi hf vs st)
  · intro c h; rw [hb.1] at h; cases h
  · intro c h; rw [hb.2] at h; cases h

theorem chain_allOn : Valid exactFloats chain allOn := by
  refine allOn_valid chain_wf (by decide) (by decide) ?_
  intro i f hi hf vs st hk
  have : i ∈ [0, 1, 2, 3] := hi
  simp only [List.mem_cons, List.not_mem_nil, or_false] at this
  rcases this with rfl | rfl | rfl | rfl <;> cases hf <;> cases hk

/-- Not vacuous: `A`, mandatory, with its child. -/
example : WF chain ∧ chain.resolve (.name c!"A") = some 1 ∧ Known chain 1 ∧ chain.root ≠ some 1 ∧
    (∀ j, Below chain 1 j → IsRel chain j → ∀ c ∈ edg chain j, IsFeat chain c) ∧ (∀ p, par chain 1 = some p → IsFeat chain p) ∧
    (∀ s ∈ allStored chain, ∀ n ∈ s.tree.features, ∀ j, (n, j) ∈ chain.features → ¬ Below chain 1 j) ∧
    ∃ b, Valid exactFloats chain b ∧ Selected chain b 1 := by
  refine ⟨chain_wf, by decide, by decide, by decide, ?_, ?_, ?_, allOn, chain_allOn, ⟨_, rfl, rfl⟩⟩
  · rintro j _ ⟨k, hk⟩ c hc
    rcases j with _ | _ | _ | _ | j <;> cases hk
  · intro p hp
    have : some p = some 0 := hp ▸ rfl
    cases this
    exact ⟨_, rfl⟩
  · intro s hs
    have : allStored chain = [] := by decide
    rw [this] at hs; cases hs

/-! ## C79 -/

/-- Putting the children of a feature in a group, if all nearest features below it are its children: the valid
    configurations are those that are valid except that the children need not be selected with the feature, and in
    which exactly one of them (at least one, for an or group) is selected if the feature is.  Missing for the full
    claim: features that already have groups (see C23). -/
theorem C79_group_partial {m : FModel} (w : WF m) (E : Env) {k : RKind} {pr : Ref} {p : Id}
    (hres : m.resolve pr = some p) (hp : Known m p) (hdir : ∀ c, Via m isF p c → c ∈ edg m p) :
    ∃ m', m.exec E (.addRelationship k pr) = .ok m' ∧
      ∀ F a, Valid F m' a ↔ ValidBut F m (fun _ => False) (fun c => c ∈ edg m p ∧ IsFeat m c) a ∧
        GroupHolds m a p (fun c => c ∈ edg m p ∧ IsFeat m c) k := by
  obtain ⟨m', r, cs, h1, h2, _, _⟩ := C23_add_partial w E (k := k) hres hp hdir
  refine ⟨m', h1, fun F a => ?_⟩
  rw [valid_inGroup w (inGroup_of_grouped w hp h2)]
  have : (· ∈ cs) = fun c => c ∈ edg m p ∧ IsFeat m c := by funext c; exact propext (h2.mem c)
  rw [this]

/-- If the children are optional, the group only adds its own condition. -/
theorem C79_group_optional_partial {m : FModel} (w : WF m) (E : Env) {k : RKind} {pr : Ref} {p : Id}
    (hres : m.resolve pr = some p) (hp : Known m p) (hdir : ∀ c, Via m isF p c → c ∈ edg m p)
    (hopt : ∀ c ∈ edg m p, ∀ f, data m c = some (.feat f) → f.attr.opt = true) :
    ∃ m', m.exec E (.addRelationship k pr) = .ok m' ∧
      ∀ F a, Valid F m' a ↔ Valid F m a ∧ GroupHolds m a p (fun c => c ∈ edg m p ∧ IsFeat m c) k := by
  obtain ⟨m', h1, h2⟩ := C79_group_partial w E (k := k) hres hp hdir
  refine ⟨m', h1, fun F a => ?_⟩
  rw [h2, validBut_optional]
  intro i f hi hf
  exact hopt i hi.1 f hf

/-- Dissolving a group: what was valid before is what is valid afterwards, except that the members need not be
    selected with the feature, and that fulfils the group. -/
theorem C79_ungroup_partial {m : FModel} (w : WF m) (E : Env) {pr : Ref} {p : Id}
    (hres : m.resolve pr = some p) (hp : Known m p) (hex : ∃ r, Via m isR p r)
    (hdir : ∀ r, Via m isR p r → r ∈ edg m p ∧ ∀ c ∈ edg m r, IsFeat m c) :
    ∃ m' r k, m.exec E (.removeRelationship pr) = .ok m' ∧ r ∈ edg m p ∧ data m r = some (.rel k) ∧ WF m' ∧
      ∀ F a, Valid F m a ↔ ValidBut F m' (fun _ => False) (· ∈ edg m r) a ∧ GroupHolds m' a p (· ∈ edg m r) k := by
  obtain ⟨m', r, cs, h1, h2, ⟨k, hk⟩, h4, h5, _⟩ := C23_remove_partial w E hres hp hex hdir
  refine ⟨m', r, k, h1, h2, hk, h5, fun F a => ?_⟩
  have hf : ∀ c ∈ edg m r, IsFeat m c := (hdir r (.here h2 hk rfl)).2
  rw [valid_inGroup h5 (inGroup_of_ungrouped w hp h2 hk hf h4)]
  have : (· ∈ cs) = (· ∈ edg m r) := by funext c; exact propext h4.perm.mem_iff
  rw [this]

/-- If the members are optional, dissolving the group only drops its condition. -/
theorem C79_ungroup_optional_partial {m : FModel} (w : WF m) (E : Env) {pr : Ref} {p : Id}
    (hres : m.resolve pr = some p) (hp : Known m p) (hex : ∃ r, Via m isR p r)
    (hdir : ∀ r, Via m isR p r → r ∈ edg m p ∧ ∀ c ∈ edg m r, IsFeat m c)
    (hopt : ∀ r, Via m isR p r → ∀ c ∈ edg m r, ∀ f, data m c = some (.feat f) → f.attr.opt = true) :
    ∃ m' r k, m.exec E (.removeRelationship pr) = .ok m' ∧ r ∈ edg m p ∧ data m r = some (.rel k) ∧
      ∀ F a, Valid F m a ↔ Valid F m' a ∧ GroupHolds m a p (· ∈ edg m r) k := by
  obtain ⟨m', r, cs, h1, h2, ⟨k, hk⟩, h4, h5, _⟩ := C23_remove_partial w E hres hp hex hdir
  have hv := (Via.here h2 hk rfl : Via m isR p r)
  have hf : ∀ c ∈ edg m r, IsFeat m c := (hdir r hv).2
  have g := inGroup_of_ungrouped w hp h2 hk hf h4
  refine ⟨m', r, k, h1, h2, hk, fun F a => ?_⟩
  have e : (· ∈ cs) = (· ∈ edg m r) := by funext c; exact propext h4.perm.mem_iff
  have hcd : ∀ c ∈ cs, data m c = data m' c := fun c hc => g.data c (.inl (g.members c hc).1)
  rw [valid_inGroup h5 g, validBut_optional]
  · have hp' : Selected m a p ↔ Selected m' a p := selected_congr (g.data p (.inl g.owner))
    have hc' : ∀ c ∈ cs, (Selected m a c ↔ Selected m' a c) := fun c hc => selected_congr (hcd c hc)
    have : GroupHolds m' a p (· ∈ cs) k ↔ GroupHolds m a p (· ∈ edg m r) k := by
      rw [← e]
      cases k with
      | alternative =>
        simp only [GroupHolds, hp']
        constructor
        · intro h hs
          obtain ⟨c, k1, k2, k3⟩ := h hs
          exact ⟨c, k1, (hc' c k1).2 k2, fun c' k4 k5 => k3 c' k4 ((hc' c' k4).1 k5)⟩
        · intro h hs
          obtain ⟨c, k1, k2, k3⟩ := h hs
          exact ⟨c, k1, (hc' c k1).1 k2, fun c' k4 k5 => k3 c' k4 ((hc' c' k4).2 k5)⟩
      | or =>
        simp only [GroupHolds, hp']
        constructor
        · intro h hs
          obtain ⟨c, k1, k2⟩ := h hs
          exact ⟨c, k1, (hc' c k1).2 k2⟩
        · intro h hs
          obtain ⟨c, k1, k2⟩ := h hs
          exact ⟨c, k1, (hc' c k1).1 k2⟩
    rw [this]
  · intro i f hi hfi
    refine hopt r hv i (h4.perm.mem_iff.1 hi) f ?_
    rw [hcd i hi]; exact hfi

/-- Not vacuous: the children of the root of `chain` can be grouped, the group of `shop` be dissolved. -/
example : WF chain ∧ chain.resolve (.name c!"root") = some 0 ∧ Known chain 0 ∧ (∀ c, Via chain isF 0 c → c ∈ edg chain 0) ∧
    WF shop ∧ shop.resolve (.name c!"root") = some 0 ∧ Known shop 0 ∧ Via shop isR 0 1 := by
  refine ⟨chain_wf, by decide, by decide, ?_, shop_wf, by decide, by decide, .here (c := 1) (by decide) rfl rfl⟩
  intro c hc
  cases hc with
  | here h _ _ => exact h
  | skip h hd hT _ =>
    have : ∀ c ∈ edg chain 0, ∀ d, data chain c = some d → isF d = true := by decide
    rw [this _ h _ hd] at hT; cases hT

/-! ## C80 -/

/-- Changing the name, the commit or the path of a model keeps its valid configurations. -/
theorem C80_metadata (m : FModel) (E : Env) (s : Str) (op : Op) (h : op = .setName s ∨ op = .setCommit s ∨ op = .setPath s) :
    ∃ m', m.exec E op = .ok m' ∧ ∀ F a, Valid F m' a ↔ Valid F m a := by
  rcases h with rfl | rfl | rfl
  · exact ⟨_, rfl, fun F a => SameChoices.valid_iff (m := m) ⟨rfl, rfl, rfl, rfl, rfl, fun _ => rfl⟩ rfl rfl rfl⟩
  · exact ⟨_, rfl, fun F a => SameChoices.valid_iff (m := m) ⟨rfl, rfl, rfl, rfl, rfl, fun _ => rfl⟩ rfl rfl rfl⟩
  · exact ⟨_, rfl, fun F a => SameChoices.valid_iff (m := m) ⟨rfl, rfl, rfl, rfl, rfl, fun _ => rfl⟩ rfl rfl rfl⟩

theorem valid_relocated {F : IntFloats} {m m' : FModel} {i : Id} {ft : Feat} {ls : List Range} {a : Assign} (h : Relocated m m' i ft ls) :
    Valid F m' a ↔ Valid F m a := by
  obtain ⟨h1, h2, h3, _, _, _, h7⟩ := h.outer
  refine SameChoices.valid_iff ⟨h3, h1, h2, h.par, h.edg, ?_⟩ (h7 .boolean) (h7 .nonBoolean) (h7 .mixed)
  intro j
  by_cases hj : j = i
  · subst hj; rw [h.before, h.after]; rfl
  · rw [h.data j hj]

/-- Adding a location to a feature keeps them. -/
theorem C80_add_location {m : FModel} (E : Env) {f : Ref} {i : Id} {ft : Feat} (hf : m.resolve f = some i)
    (hd : data m i = some (.feat ft)) (r : Range) :
    ∃ m', m.exec E (.addLocation f r) = .ok m' ∧ ∀ F a, Valid F m' a ↔ Valid F m a := by
  obtain ⟨m', h1, h2⟩ := C51_add E hf hd r
  exact ⟨m', h1, fun F a => valid_relocated h2⟩

/-- Removing one it has keeps them. -/
theorem C80_remove_location_partial {m : FModel} (E : Env) {f : Ref} {i : Id} {ft : Feat} (hf : m.resolve f = some i)
    (hd : data m i = some (.feat ft)) {r x : Range} (hx : x ∈ ft.attr.locs) (hxr : x.eq r = true) :
    ∃ m', m.exec E (.removeLocation f r) = .ok m' ∧ ∀ F a, Valid F m' a ↔ Valid F m a := by
  have : ∀ ls : List Range, x ∈ ls → ∃ pre y post, ls = pre ++ y :: post ∧ y.eq r = true ∧ ∀ z ∈ pre, z.eq r = false := by
    intro ls
    induction ls with
    | nil => intro h; cases h
    | cons z ls ih =>
      intro h
      cases hz : z.eq r with
      | true => exact ⟨[], z, ls, rfl, hz, fun _ h => by cases h⟩
      | false =>
        rcases List.mem_cons.1 h with rfl | h
        · rw [hxr] at hz; cases hz
        · obtain ⟨pre, y, post, h1, h2, h3⟩ := ih h
          refine ⟨z :: pre, y, post, by rw [h1]; rfl, h2, ?_⟩
          intro u hu
          rcases List.mem_cons.1 hu with rfl | hu
          · exact hz
          · exact h3 u hu
  obtain ⟨pre, y, post, h1, h2, h3⟩ := this _ hx
  obtain ⟨m', h4, h5⟩ := C51_remove_partial E hf hd h1 h2 h3
  exact ⟨m', h4, fun F a => valid_relocated h5⟩

/-- A new root takes over the role of the old one, if no constraint mentions that. -/
theorem C80_set_root_partial {m : FModel} (w : WF m) (E : Env) {r : Id} {f : Feat} (hr : m.root = some r)
    (hf : data m r = some (.feat f)) {n : Str} (hn : ∀ i, (n, i) ∉ m.features)
    (hm : ∀ s ∈ allStored m, f.attr.name ∉ s.tree.features) :
    ∃ m', m.exec E (.setRoot n) = .ok m' ∧ ∀ F a, Valid F m' a ↔ a.bool n = true ∧ Valid F m (a.select f.attr.name) := by
  obtain ⟨m', i, h1, h2⟩ := C52_set_root w E hr hn
  exact ⟨m', h1, fun F a => valid_rerooted w h2 hr hf hm⟩

/-- Not vacuous. -/
example : WF shop ∧ shop.root = some 0 ∧ (∀ i, (c!"top", i) ∉ shop.features) ∧ ∀ s ∈ allStored shop, c!"root" ∉ s.tree.features := by
  refine ⟨shop_wf, rfl, ?_, by decide⟩
  intro i hi
  have : (c!"top", i) ∈ [(c!"root", 0), (c!"A", 2), (c!"B", 3), (c!"O", 4), (c!"N", 5)] := hi
  simp at this

/-! ## C81 -/

/-- Moving any node that is not the root, a feature or a group, from below any node to below any other that is not
    in its subtree: everything that does not concern the link to the parent stays as it was (`ValidOff`); the node,
    or its members if it is a group, is tied to the new parent instead of the old one, and of the two parents only
    the new one, if it is a group, counts the node as a member (`TiedTo`). -/
theorem C81_move {m : FModel} (w : WF m) (E : Env) {pr cr : Ref} {p q c : Id} (hp : m.resolve pr = some p)
    (hc : m.resolve cr = some c) (hop : Owned m p) (hoc : Owned m c) (hq : par m c = some q) (hb : ¬ Below m c p) :
    ∃ m', m.exec E (.addChild pr cr) = .ok m' ∧ ∀ F a,
      (Valid F m a ↔ ValidOff F m c (fun r => r = q ∨ r = p) a ∧ TiedTo m a c q (fun r => r = q ∨ r = p)) ∧
      (Valid F m' a ↔ ValidOff F m c (fun r => r = q ∨ r = p) a ∧ TiedTo m a c p (fun r => r = q ∨ r = p)) := by
  have hr : m.root ≠ some c := by
    intro h
    rw [w.root_par h] at hq; cases hq
  obtain ⟨m', h1, h2, _⟩ := C22_move_partial w E hp hc hop hoc hr hb
  refine ⟨m', h1, fun F a => ⟨?_, ?_⟩⟩
  · exact valid_placed w hoc hq (placed_here w hoc hq) (fun h => w.not_below_parent hoc hq (hangs_below h))
      (by rintro r (h | h) <;> exact .inl h)
  · exact valid_placed w hoc hq (placed_moved w h2) (fun h => hb (hangs_below h)) (fun r h => h)

/-- Not vacuous: in `grouped`, `C` can be moved from below `A` into the group, `B` out of the group to below `A`,
    and the group to the end of the root's children. -/
example : WF grouped ∧ Owned grouped 1 ∧ Owned grouped 2 ∧ Owned grouped 3 ∧ Owned grouped 4 ∧ Owned grouped 0 ∧
    (par grouped 4 = some 2 ∧ ¬ Below grouped 4 1) ∧ (par grouped 3 = some 1 ∧ ¬ Below grouped 3 2) ∧
    (par grouped 1 = some 0 ∧ ¬ Below grouped 1 0) := by
  have hleaf : ∀ i j, Owned grouped j → edg grouped i = [] → i ≠ j → ¬ Below grouped i j := by
    intro i j hj he hne h
    rcases grouped_wf.below_down h hj with h | ⟨c, hc, _⟩
    · exact hne h
    · rw [he] at hc; cases hc
  have o1 : Owned grouped 1 := .inr (by decide)
  have o2 : Owned grouped 2 := .inl (by decide)
  refine ⟨grouped_wf, o1, o2, .inl (by decide), .inl (by decide), .inl (by decide),
    ⟨by decide, hleaf 4 1 o1 (by decide) (by decide)⟩, ⟨by decide, hleaf 3 2 o2 (by decide) (by decide)⟩, by decide, ?_⟩
  exact grouped_wf.not_below_parent o1 (by decide)

/-- A feature moved into an alternative group: it is a member from then on, so with the group's feature selected
    exactly one of the members from before and the feature is. -/
theorem C81_into_alternative {m : FModel} (w : WF m) (E : Env) {pr cr : Ref} {p o c : Id} (hp : m.resolve pr = some p)
    (hc : m.resolve cr = some c) (hkp : p ∈ m.rels) (hk : data m p = some (.rel .alternative)) (ho : par m p = some o)
    (hkc : Known m c) (hroot : m.root ≠ some c) (hb : ¬ Below m c p) :
    ∃ m', m.exec E (.addChild pr cr) = .ok m' ∧ ∀ F a, Valid F m' a → Selected m a o →
      ∃ x, (x = c ∨ x ∈ edg m p) ∧ Selected m a x ∧ ∀ y, y = c ∨ y ∈ edg m p → Selected m a y → y = x := by
  obtain ⟨q, hq⟩ : ∃ q, par m c = some q := by
    cases h : par m c with
    | none => exact absurd (w.orphan c (.inl hkc) h) hroot
    | some q => exact ⟨q, rfl⟩
  obtain ⟨m', h1, h2⟩ := C81_move w E hp hc (.inr hkp) (.inl hkc) hq hb
  refine ⟨m', h1, fun F a v hs => ?_⟩
  have t := ((h2 F a).2.1 v).2
  obtain ⟨x, hx, hsx, hun⟩ := t.group p .alternative o (by rintro rfl; exact w.known_not_rel hkc hkp) (.inr rfl) hkp hk ho hs
  refine ⟨x, ?_, hsx, ?_⟩
  · rcases hx with ⟨h, _⟩ | ⟨_, h⟩
    · exact .inl h
    · exact .inr h
  · intro y hy hsy
    refine hun y ?_ hsy
    by_cases hyc : y = c
    · exact .inl ⟨hyc, rfl⟩
    · exact .inr ⟨hyc, hy.resolve_left hyc⟩

/-- Moving a feature from below one feature to below another that is not in its subtree: what tied it to its old
    parent is replaced by what ties it to the new one, and nothing else changes. -/
theorem C81_between_features {m : FModel} (w : WF m) (E : Env) {pr cr : Ref} {p q c : Id} {f : Feat} (hp : m.resolve pr = some p)
    (hc : m.resolve cr = some c) (hkp : Known m p) (hkc : Known m c) (hf : data m c = some (.feat f))
    (hq : par m c = some q) (hqf : IsFeat m q) (hb : ¬ Below m c p) :
    ∃ m', m.exec E (.addChild pr cr) = .ok m' ∧ ∀ F a,
      (Valid F m a ↔ ValidBut F m (· = c) (· = c) a ∧ Joins F m a f.attr q) ∧
      (Valid F m' a ↔ ValidBut F m (· = c) (· = c) a ∧ Joins F m a f.attr p) := by
  have hr : m.root ≠ some c := by
    intro h
    rw [w.root_par h] at hq; cases hq
  obtain ⟨m', h1, h2, _⟩ := C22_move_partial w E hp hc (.inl hkp) (.inl hkc) hr hb
  exact ⟨m', h1, fun F a => ⟨valid_joins hkc hf hq hqf, valid_moved w h2 hkc hf hkp hq hqf⟩⟩

/-- Not vacuous: `C` can be moved from the root to `B` in `chain`. -/
example : WF chain ∧ chain.resolve (.name c!"B") = some 2 ∧ chain.resolve (.name c!"C") = some 3 ∧ Known chain 2 ∧ Known chain 3 ∧
    par chain 3 = some 0 ∧ IsFeat chain 0 ∧ ¬ Below chain 3 2 := by
  refine ⟨chain_wf, by decide, by decide, by decide, by decide, by decide, ⟨_, rfl⟩, ?_⟩
  intro h
  have h1 := chain_wf.below_down h (.inl (by decide))
  rcases h1 with h | ⟨c, hc, _⟩
  · cases h
  · have : edg chain 3 = [] := by decide
    rw [this] at hc; cases hc

end Verif.Props

import Verif.Solver.Kept
import Verif.FM.AddMany
import Verif.FM.SetRoot
/-!
# How modifications change the valid configurations
-/

namespace Verif.Spec
open Verif

/-- A constraint of a kind holds in a configuration of a model; a mixed one may ask for all its Boolean
    features, and may be meant negatively. -/
def Satisfies (m : FModel) (a : Assign) : CKind → Constraint → Prop
  | .mixed i, c => (i.reqAll = true → ∀ n ∈ c.features, ¬ IsNum m n → a.bool n = true) →
      meaning (value01 m a) a.div0 c = some (.bool i.positive)
  | _, c => meaning (value m a) a.div0 c = some (.bool true)

/-- The constraint makes sense as one of its kind, and has no exclusive or. -/
structure FitsIn (m : FModel) (k : CKind) (c : Constraint) : Prop where
  noXor : NoXor c
  sort : match k with
    | .mixed _ => sortOf (fun _ => .int) c = some .bool
    | _ => sortOf (sortIn m) c = some .bool

end Verif.Spec

namespace Verif
open Verif.Spec

variable {F : IntFloats} {m m' : FModel} {a : Assign}

/-! ## Models with the same choices -/

/-- What of a node matters to configurations. -/
def choiceOf : NodeData → (Str × FKind × Bool) ⊕ RKind
  | .feat f => .inl (f.attr.name, f.attr.kind, f.attr.opt)
  | .rel k => .inr k

structure SameChoices (m m' : FModel) : Prop where
  root : m'.root = m.root
  features : m'.features = m.features
  rels : m'.rels = m.rels
  par : par m' = par m
  edg : edg m' = edg m
  data : ∀ i, (data m' i).map choiceOf = (data m i).map choiceOf

theorem SameChoices.symm (h : SameChoices m m') : SameChoices m' m :=
  ⟨h.root.symm, h.features.symm, h.rels.symm, h.par.symm, h.edg.symm, fun i => (h.data i).symm⟩

theorem SameChoices.feat (h : SameChoices m m') {i : Id} {f : Feat} (hd : Spec.data m i = some (.feat f)) :
    ∃ f', Spec.data m' i = some (.feat f') ∧ f'.attr.name = f.attr.name ∧ f'.attr.kind = f.attr.kind ∧ f'.attr.opt = f.attr.opt := by
  have h1 := h.data i
  rw [hd] at h1
  cases h2 : Spec.data m' i with
  | none => rw [h2] at h1; cases h1
  | some d =>
    rw [h2] at h1
    cases d with
    | rel k => simp [choiceOf] at h1
    | feat f' =>
      simp only [Option.map_some, choiceOf, Option.some.injEq, Sum.inl.injEq, Prod.mk.injEq] at h1
      exact ⟨f', rfl, h1.1, h1.2.1, h1.2.2⟩

theorem SameChoices.rel (h : SameChoices m m') {i : Id} {k : RKind} (hd : Spec.data m i = some (.rel k)) :
    Spec.data m' i = some (.rel k) := by
  have h1 := h.data i
  rw [hd] at h1
  cases h2 : Spec.data m' i with
  | none => rw [h2] at h1; cases h1
  | some d =>
    rw [h2] at h1
    cases d with
    | feat f' => simp [choiceOf] at h1
    | rel k' => simp only [Option.map_some, choiceOf, Option.some.injEq, Sum.inr.injEq] at h1; rw [h1]

theorem SameChoices.known (h : SameChoices m m') {i : Id} : Known m' i ↔ Known m i := by unfold Known; rw [h.features]

theorem SameChoices.fparent (h : SameChoices m m') {i p : Id} (hp : FParent m i p) : FParent m' i p := by
  induction hp with
  | direct hp hf =>
    obtain ⟨f, hf⟩ := hf
    obtain ⟨f', hf', _⟩ := h.feat hf
    exact .direct (by rw [h.par]; exact hp) ⟨f', hf'⟩
  | skip hp hr _ ih =>
    obtain ⟨k, hk⟩ := hr
    exact .skip (by rw [h.par]; exact hp) ⟨k, h.rel hk⟩ ih

theorem SameChoices.selected (h : SameChoices m m') {i : Id} (hs : Selected m a i) : Selected m' a i := by
  obtain ⟨f, hf, hb⟩ := hs
  obtain ⟨f', hf', hn, _⟩ := h.feat hf
  exact ⟨f', hf', by rw [hn]; exact hb⟩

theorem SameChoices.isNum (h : SameChoices m m') {n : Str} (hn : IsNum m n) : IsNum m' n := by
  obtain ⟨i, f, vs, st, hi, hf, hk⟩ := hn
  obtain ⟨f', hf', _, hk', _⟩ := h.feat hf
  exact ⟨i, f', vs, st, by rw [h.features]; exact hi, hf', hk'.trans hk⟩

theorem SameChoices.isNum_iff (h : SameChoices m m') {n : Str} : IsNum m' n ↔ IsNum m n := ⟨h.symm.isNum, h.isNum⟩

theorem value_congr (h : ∀ n, IsNum m' n ↔ IsNum m n) : value m' a = value m a := by
  funext n
  unfold value
  by_cases hn : IsNum m n
  · rw [if_pos hn, if_pos ((h n).2 hn)]
  · rw [if_neg hn, if_neg (fun x => hn ((h n).1 x))]

theorem value01_congr (h : ∀ n, IsNum m' n ↔ IsNum m n) : value01 m' a = value01 m a := by
  funext n
  unfold value01
  by_cases hn : IsNum m n
  · rw [if_pos hn, if_pos ((h n).2 hn)]
  · rw [if_neg hn, if_neg (fun x => hn ((h n).1 x))]

theorem SameChoices.tree (h : SameChoices m m') (v : TreeValid F m a) : TreeValid F m' a where
  root r hr := h.selected (v.root r (by rw [← h.root]; exact hr))
  parent i f p hi hf hk hp hs := by
    obtain ⟨f', hf', _, hk', _⟩ := h.symm.feat hf
    exact h.selected (v.parent i f' p (h.known.1 hi) hf' (hk'.trans hk) (h.symm.fparent hp) (h.symm.selected hs))
  mandatory i f p hi hf hk ho hp hpf hs := by
    obtain ⟨f', hf', _, hk', ho'⟩ := h.symm.feat hf
    obtain ⟨g, hg⟩ := hpf
    obtain ⟨g', hg', _⟩ := h.symm.feat hg
    exact h.selected (v.mandatory i f' p (h.known.1 hi) hf' (hk'.trans hk) (ho'.trans ho) (by rw [← h.par]; exact hp) ⟨g', hg'⟩
      (h.symm.selected hs))
  alternative r p hr hd hp hs := by
    obtain ⟨c, hc, h1, h2⟩ := v.alternative r p (by rw [← h.rels]; exact hr) (h.symm.rel hd) (by rw [← h.par]; exact hp)
      (h.symm.selected hs)
    exact ⟨c, by rw [h.edg]; exact hc, h.selected h1, fun c' hc' hs' => h2 c' (by rw [← h.edg]; exact hc') (h.symm.selected hs')⟩
  or r p hr hd hp hs := by
    obtain ⟨c, hc, h1⟩ := v.or r p (by rw [← h.rels]; exact hr) (h.symm.rel hd) (by rw [← h.par]; exact hp) (h.symm.selected hs)
    exact ⟨c, by rw [h.edg]; exact hc, h.selected h1⟩
  numeric i f vs st hi hf hk := by
    obtain ⟨f', hf', hn', hk', _⟩ := h.symm.feat hf
    have := v.numeric i f' vs st (h.known.1 hi) hf' (hk'.trans hk)
    rwa [hn'] at this

theorem SameChoices.tree_iff (h : SameChoices m m') : TreeValid F m' a ↔ TreeValid F m a := ⟨h.symm.tree, h.tree⟩

/-- Constraints of models in which the same names are numeric. -/
theorem mixedHolds_congr (h : ∀ n, IsNum m' n ↔ IsNum m n) (c : Stored) : MixedHolds m' a c ↔ MixedHolds m a c := by
  unfold MixedHolds
  simp only [value01_congr h, h]

/-- A modification that touches neither choices nor constraints keeps the valid configurations. -/
theorem SameChoices.valid_iff (h : SameChoices m m') (hb : m'.booleans = m.booleans) (hn : m'.nonBooleans = m.nonBooleans)
    (hm : m'.mixeds = m.mixeds) : Valid F m' a ↔ Valid F m a := by
  rw [valid_tree, valid_tree, h.tree_iff, hb, hn, hm]
  simp only [value_congr (fun n => h.isNum_iff (n := n)), mixedHolds_congr (fun n => h.isNum_iff (n := n))]

/-! ## Adding a constraint -/

theorem sameChoices_of_constraintAdded {k : CKind} {c : Constraint} (w : WF m) (h : ConstraintAdded m m' k c) : SameChoices m m' := by
  refine ⟨h.outer.root, h.outer.features, h.outer.rels, h.par, h.edg, ?_⟩
  intro i
  by_cases hk : Known m i
  · obtain ⟨f, hf⟩ := w.known_data hk
    rw [h.known i f hk hf, hf]
    simp [choiceOf, regs_attr]
  · rw [h.other i hk]

theorem valid_constraintAdded {k : CKind} {c : Constraint} (w : WF m) (h : ConstraintAdded m m' k c) :
    Valid F m' a ↔ Valid F m a ∧ Satisfies m a k c := by
  have hs := sameChoices_of_constraintAdded w h
  rw [valid_tree, valid_tree, hs.tree_iff]
  simp only [value_congr (fun n => hs.isNum_iff (n := n)), mixedHolds_congr (fun n => hs.isNum_iff (n := n))]
  have e1 := h.store .boolean
  have e2 := h.store .nonBoolean
  have e3 := h.store .mixed
  simp only [FModel.store] at e1 e2 e3
  rw [e1, e2, e3]
  cases k with
  | boolean =>
    simp only [CKind.cls, if_true, reduceCtorEq, if_false, List.mem_append, List.mem_singleton, Satisfies]
    constructor
    · rintro ⟨h1, h2, h3⟩
      exact ⟨⟨h1, fun c hc => h2 c (hc.imp .inl id), h3⟩, h2 _ (.inl (.inr rfl))⟩
    · rintro ⟨⟨h1, h2, h3⟩, h4⟩
      refine ⟨h1, ?_, h3⟩
      rintro c ((hc | rfl) | hc)
      · exact h2 c (.inl hc)
      · exact h4
      · exact h2 c (.inr hc)
  | nonBoolean =>
    simp only [CKind.cls, if_true, reduceCtorEq, if_false, List.mem_append, List.mem_singleton, Satisfies]
    constructor
    · rintro ⟨h1, h2, h3⟩
      exact ⟨⟨h1, fun c hc => h2 c (hc.imp id .inl), h3⟩, h2 _ (.inr (.inr rfl))⟩
    · rintro ⟨⟨h1, h2, h3⟩, h4⟩
      refine ⟨h1, ?_, h3⟩
      rintro c (hc | hc | rfl)
      · exact h2 c (.inl hc)
      · exact h2 c (.inr hc)
      · exact h4
  | mixed i =>
    simp only [CKind.cls, if_true, reduceCtorEq, if_false, List.mem_append, List.mem_singleton, Satisfies]
    constructor
    · rintro ⟨h1, h2, h3⟩
      exact ⟨⟨h1, h2, fun c hc => h3 c (.inl hc)⟩, h3 _ (.inr rfl) i rfl⟩
    · rintro ⟨⟨h1, h2, h3⟩, h4⟩
      refine ⟨h1, h2, ?_⟩
      rintro c (hc | rfl)
      · exact h3 c hc
      · intro j hj; cases hj; exact h4

theorem loadable_constraintAdded {k : CKind} {c : Constraint} (w : WF m) (L : Loadable F m) (hc : FitsIn m k c)
    (hall : ∀ n ∈ c.features, ∃ i, (n, i) ∈ m.features) (h : ConstraintAdded m m' k c) : Loadable F m' := by
  have hs := sameChoices_of_constraintAdded w h
  have hnum : ∀ n, IsNum m' n ↔ IsNum m n := fun n => hs.isNum_iff
  have hsort : sortIn m' = sortIn m := by
    funext n
    unfold sortIn
    by_cases hn : IsNum m n
    · rw [if_pos hn, if_pos ((hnum n).2 hn)]
    · rw [if_neg hn, if_neg (fun x => hn ((hnum n).1 x))]
  have hbinds : ∀ (ns : List Str) (bs : List (Option Id)), BindsOk m ns bs → BindsOk m' ns bs := by
    intro ns
    induction ns with
    | nil => intro bs hb; cases bs with | nil => trivial | cons => exact hb.elim
    | cons n ns ih =>
      intro bs hb
      cases bs with
      | nil => exact hb.elim
      | cons b bs =>
        refine ⟨?_, ih bs hb.2⟩
        have := hb.1
        cases b with
        | some i => simp only at this ⊢; rw [hs.features]; exact this
        | none => simp only at this ⊢; rw [hnum]; exact this
  have hst : ∀ s ∈ allStored m', s ∈ allStored m ∨ s = ⟨c, c.features.map m.getFeature, k.info⟩ := by
    intro s hsm
    have e1 := h.store .boolean
    have e2 := h.store .nonBoolean
    have e3 := h.store .mixed
    simp only [FModel.store] at e1 e2 e3
    simp only [allStored, List.mem_append, e1, e2, e3] at hsm ⊢
    cases k with
    | boolean =>
      simp [CKind.cls] at hsm
      rcases hsm with ((hsm | hsm) | hsm) | hsm
      · exact .inl (.inl (.inl hsm))
      · exact .inr hsm
      · exact .inl (.inl (.inr hsm))
      · exact .inl (.inr hsm)
    | nonBoolean =>
      simp [CKind.cls] at hsm
      rcases hsm with (hsm | hsm | hsm) | hsm
      · exact .inl (.inl (.inl hsm))
      · exact .inl (.inl (.inr hsm))
      · exact .inr hsm
      · exact .inl (.inr hsm)
    | mixed i =>
      simp [CKind.cls] at hsm
      rcases hsm with (hsm | hsm) | hsm | hsm
      · exact .inl (.inl (.inl hsm))
      · exact .inl (.inl (.inr hsm))
      · exact .inl (.inr hsm)
      · exact .inr hsm
  have hcb : ∀ s ∈ m'.booleans ++ m'.nonBooleans, s ∈ m.booleans ++ m.nonBooleans ∨ (s.tree = c ∧ sortOf (sortIn m) c = some .bool) := by
    intro s hsm
    have e1 := h.store .boolean
    have e2 := h.store .nonBoolean
    simp only [FModel.store] at e1 e2
    simp only [List.mem_append, e1, e2] at hsm ⊢
    have hsort' := hc.sort
    cases k with
    | boolean =>
      simp [CKind.cls] at hsm
      rcases hsm with (hsm | rfl) | hsm
      · exact .inl (.inl hsm)
      · exact .inr ⟨rfl, hsort'⟩
      · exact .inl (.inr hsm)
    | nonBoolean =>
      simp [CKind.cls] at hsm
      rcases hsm with hsm | hsm | rfl
      · exact .inl (.inl hsm)
      · exact .inl (.inr hsm)
      · exact .inr ⟨rfl, hsort'⟩
    | mixed i =>
      simp [CKind.cls] at hsm
      exact .inl hsm
  have hcm : ∀ s ∈ m'.mixeds, s ∈ m.mixeds ∨ (s.tree = c ∧ s.info ≠ none ∧ sortOf (fun _ => .int) c = some .bool) := by
    intro s hsm
    have e3 := h.store .mixed
    simp only [FModel.store] at e3
    rw [e3] at hsm
    have hsort' := hc.sort
    cases k with
    | boolean => simp [CKind.cls] at hsm; exact .inl hsm
    | nonBoolean => simp [CKind.cls] at hsm; exact .inl hsm
    | mixed i =>
      simp [CKind.cls] at hsm
      rcases hsm with hsm | rfl
      · exact .inl hsm
      · exact .inr ⟨rfl, by simp [CKind.info], hsort'⟩
  refine
    { names := fun n i hn => L.names n i (by rw [← hs.features]; exact hn)
      leaves := ?_
      known := ?_
      ranges := ?_
      parents := ?_
      owner := ?_
      members := ?_
      nonempty := ?_
      binds := ?_
      sorts := ?_
      mixedSorts := ?_
      infos := ?_
      noXor := ?_ }
  · intro s hsm n hn
    rcases hst s hsm with hsm | rfl
    · exact L.leaves s hsm n hn
    · obtain ⟨i, hi⟩ := hall n hn
      exact L.names n i hi
  · intro i f hi hf
    obtain ⟨f', h1, _, h2, _⟩ := hs.symm.feat hf
    rw [← h2]; exact L.known i f' (hs.known.1 hi) h1
  · intro i f lo hi st hk hf hkd
    obtain ⟨f', h1, _, h2, _⟩ := hs.symm.feat hf
    exact L.ranges i f' lo hi st (hs.known.1 hk) h1 (h2.trans hkd)
  · intro i f p g vs st hi hf hk hp hg
    obtain ⟨f', h1, _, h2, _⟩ := hs.symm.feat hf
    obtain ⟨g', h3, _, h4, _⟩ := hs.symm.feat hg
    rw [← h4]
    exact L.parents i f' p g' vs st (hs.known.1 hi) h1 (h2.trans hk) (hs.symm.fparent hp) h3
  · intro r p hr hp
    obtain ⟨g, h1, h2⟩ := L.owner r p (by rw [← hs.rels]; exact hr) (by rw [← hs.par]; exact hp)
    obtain ⟨g', h3, _, h4, _⟩ := hs.feat h1
    exact ⟨g', h3, fun vs st => by rw [h4]; exact h2 vs st⟩
  · intro r d hr hd
    obtain ⟨g, h1, h2⟩ := L.members r d (by rw [← hs.rels]; exact hr) (by rw [← hs.edg]; exact hd)
    obtain ⟨g', h3, _, h4, _⟩ := hs.feat h1
    exact ⟨g', h3, h4.trans h2⟩
  · intro r hr hd
    rw [hs.edg]
    exact L.nonempty r (by rw [← hs.rels]; exact hr) (hs.symm.rel hd)
  · intro s hsm
    rcases hst s hsm with hsm | rfl
    · exact hbinds _ _ (L.binds s hsm)
    · exact hbinds _ _ (bindsOk_getFeature w _)
  · intro s hsm
    rw [hsort]
    rcases hcb s hsm with hsm | ⟨h1, h2⟩
    · exact L.sorts s hsm
    · rw [h1]; exact h2
  · intro s hsm
    rcases hcm s hsm with hsm | ⟨h1, _, h2⟩
    · exact L.mixedSorts s hsm
    · rw [h1]; exact h2
  · intro s hsm
    rcases hcm s hsm with hsm | ⟨_, h1, _⟩
    · exact L.infos s hsm
    · exact h1
  · intro s hsm
    rcases hst s hsm with hsm | rfl
    · exact L.noXor s hsm
    · exact hc.noXor

theorem shows_sameChoices (h : SameChoices m m') {c : Config} : Shows m' a c ↔ Shows m a c := by
  have key : ∀ {m m' : FModel}, SameChoices m m' → Shows m a c → Shows m' a c := by
    intro m m' h s
    refine ⟨?_, ?_⟩
    · intro i f hi hf
      obtain ⟨f', h1, h2, h3, _⟩ := h.symm.feat hf
      have := s.has i f' (h.known.1 hi) h1
      simp only [valueOf, h2, h3] at this ⊢
      exact this
    · intro n hn
      obtain ⟨i, f, h1, h2, h3⟩ := s.only n hn
      obtain ⟨f', h4, h5, _⟩ := h.feat h2
      exact ⟨i, f', h.known.2 h1, h4, h5.trans h3⟩
  exact ⟨key h.symm, key h⟩

/-! ## Constraints -/

/-- The constraints of a model hold. -/
def ConsHold (m : FModel) (a : Assign) : Prop :=
  (∀ c ∈ m.booleans ++ m.nonBooleans, meaning (value m a) a.div0 c.tree = some (.bool true)) ∧ ∀ c ∈ m.mixeds, MixedHolds m a c

theorem valid_cons : Valid F m a ↔ TreeValid F m a ∧ ConsHold m a := valid_tree

theorem meaning_congr {ρ ρ' : Str → ZVal} (q : Int → Int) : ∀ c : Constraint, (∀ n ∈ c.features, ρ n = ρ' n) →
    meaning ρ q c = meaning ρ' q c
  | .int _, _ => rfl
  | .feature n, h => by simp only [meaning]; rw [h n (by simp [Constraint.features])]
  | .un .not c, h => by simp only [meaning]; rw [meaning_congr q c h]
  | .un .neg c, h => by simp only [meaning]; rw [meaning_congr q c h]
  | .bin op l r, h => by
    simp only [meaning]
    rw [meaning_congr q l (fun n hn => h n (by simp [Constraint.features, hn])),
      meaning_congr q r (fun n hn => h n (by simp [Constraint.features, hn]))]

/-- The same constraints hold in configurations that agree on what they mention. -/
theorem consHold_congr {b : Assign} (hb : m'.booleans = m.booleans) (hn : m'.nonBooleans = m.nonBooleans) (hm : m'.mixeds = m.mixeds)
    (hq : b.div0 = a.div0)
    (hv : ∀ c ∈ allStored m, ∀ n ∈ c.tree.features, (IsNum m' n ↔ IsNum m n) ∧ b.bool n = a.bool n ∧ b.int n = a.int n) :
    ConsHold m' b ↔ ConsHold m a := by
  have h1 : ∀ c ∈ allStored m, meaning (value m' b) b.div0 c.tree = meaning (value m a) a.div0 c.tree := by
    intro c hc
    rw [hq]
    refine meaning_congr _ _ ?_
    intro n hn
    obtain ⟨e1, e2, e3⟩ := hv c hc n hn
    unfold value
    by_cases hx : IsNum m n
    · rw [if_pos hx, if_pos (e1.2 hx), e3]
    · rw [if_neg hx, if_neg (fun y => hx (e1.1 y)), e2]
  have h2 : ∀ c ∈ allStored m, meaning (value01 m' b) b.div0 c.tree = meaning (value01 m a) a.div0 c.tree := by
    intro c hc
    rw [hq]
    refine meaning_congr _ _ ?_
    intro n hn
    obtain ⟨e1, e2, e3⟩ := hv c hc n hn
    unfold value01
    by_cases hx : IsNum m n
    · rw [if_pos hx, if_pos (e1.2 hx), e3]
    · rw [if_neg hx, if_neg (fun y => hx (e1.1 y)), e2]
  have h3 : ∀ c ∈ allStored m, MixedHolds m' b c ↔ MixedHolds m a c := by
    intro c hc
    unfold MixedHolds
    rw [h2 c hc]
    have : (∀ n ∈ c.tree.features, ¬ IsNum m' n → b.bool n = true) ↔ ∀ n ∈ c.tree.features, ¬ IsNum m n → a.bool n = true := by
      constructor
      · intro h n hn hx
        obtain ⟨e1, e2, _⟩ := hv c hc n hn
        rw [← e2]; exact h n hn (fun y => hx (e1.1 y))
      · intro h n hn hx
        obtain ⟨e1, e2, _⟩ := hv c hc n hn
        rw [e2]; exact h n hn (fun y => hx (e1.2 y))
    rw [this]
  unfold ConsHold
  rw [hb, hn, hm]
  constructor
  · rintro ⟨k1, k2⟩
    refine ⟨fun c hc => ?_, fun c hc => (h3 c (by simp [allStored, hc])).1 (k2 c hc)⟩
    rw [← h1 c (by simp only [allStored, List.mem_append] at *; exact .inl hc)]
    exact k1 c hc
  · rintro ⟨k1, k2⟩
    refine ⟨fun c hc => ?_, fun c hc => (h3 c (by simp [allStored, hc])).2 (k2 c hc)⟩
    rw [h1 c (by simp only [allStored, List.mem_append] at *; exact .inl hc)]
    exact k1 c hc

/-! ## Parts of models -/

theorem selected_congr {i : Id} (h : Spec.data m' i = Spec.data m i) : Selected m' a i ↔ Selected m a i := by
  unfold Selected; rw [h]

/-- Parent features in a model and in a part of it. -/
theorem fparent_part {m m' : FModel} (w : WF m) (hp : ∀ x, Owned m x → Spec.par m' x = Spec.par m x)
    (hd : ∀ x, Owned m x → Spec.data m' x = Spec.data m x) {x q : Id} (hx : Owned m x) : FParent m' x q ↔ FParent m x q := by
  refine fparent_transfer w ?_ ?_ hx
  · intro r hr
    rw [hp r (.inl (w.root_known hr))]; exact w.root_par hr
  · intro x q hx h
    refine fparent_mono w hp ?_ ?_ hx h
    · rintro y hy ⟨f, hf⟩; exact ⟨f, by rw [hd y hy]; exact hf⟩
    · rintro y hy ⟨f, hf⟩; exact ⟨f, by rw [hd y hy]; exact hf⟩

theorem fparent_owned {m : FModel} (w : WF m) {x q : Id} (hx : Owned m x) (h : FParent m x q) : Owned m q := by
  induction h with
  | direct h1 _ => exact (w.par_edge _ _ hx h1).1
  | skip h1 _ _ ih => exact ih (w.par_edge _ _ hx h1).1

/-! ## Adding a feature -/

namespace Spec
open Verif

/-- What a feature with the given properties below `p` asks of a configuration. -/
structure Joins (F : IntFloats) (m : FModel) (s : Assign) (a : Attr) (p : Id) : Prop where
  /-- it is selected only together with its parent -/
  child : a.kind = .binary → s.bool a.name = true → Selected m s p
  /-- with its parent if it is mandatory -/
  mandatory : a.kind = .binary → a.opt = false → Selected m s p → s.bool a.name = true
  /-- a numeric one has one of its values -/
  number : ∀ vs st, a.kind = .numeric vs st → Allowed F vs st (s.int a.name)

end Spec

theorem added_ne {i p : Id} {x : Attr} (w : WF m) (h : Added m m' i x p) : ∀ y, Owned m y → y ≠ i := by
  rintro y ho rfl
  obtain ⟨d, hd⟩ := w.owned_data ho
  have := h.new
  rw [heap_of_data hd] at this
  cases this

theorem tree_added {i p : Id} {x : Attr} (w : WF m) (h : Added m m' i x p) (hp : Known m p) :
    TreeValid F m' a ↔ TreeValid F m a ∧ Joins F m a x p := by
  have hne := added_ne w h
  have hd : ∀ y, Owned m y → Spec.data m' y = Spec.data m y := fun y hy => by rw [h.data, upd_ne _ _ (hne y hy)]
  have hpar : ∀ y, Owned m y → Spec.par m' y = Spec.par m y := fun y hy => by rw [h.par, upd_ne _ _ (hne y hy)]
  have hsel : ∀ y, Owned m y → (Selected m' a y ↔ Selected m a y) := fun y hy => selected_congr (hd y hy)
  have hi : Spec.data m' i = some (.feat { attr := x }) := by rw [h.data]; simp
  have hpi : Spec.par m' i = some p := by rw [h.par]; simp
  have hfp : ∀ y q, Owned m y → (FParent m' y q ↔ FParent m y q) := fun y q hy => fparent_part w hpar hd hy
  have hpf : IsFeat m' p := by
    obtain ⟨f, hf⟩ := w.known_data hp
    exact ⟨f, by rw [hd p (.inl hp)]; exact hf⟩
  have hseli : Selected m' a i ↔ a.bool x.name = true := by
    constructor
    · rintro ⟨f, hf, hb⟩; rw [hi] at hf; cases hf; exact hb
    · intro hb; exact ⟨_, hi, hb⟩
  have hrel : ∀ r ∈ m.rels, Spec.edg m' r = Spec.edg m r := by
    intro r hr
    rw [h.edg, upd_ne]
    rintro rfl
    exact w.known_not_rel hp hr
  constructor
  · intro v
    refine ⟨⟨?_, ?_, ?_, ?_, ?_, ?_⟩, ?_, ?_, ?_⟩
    · intro r hr
      exact (hsel r (.inl (w.root_known hr))).1 (v.root r (by rw [h.root]; exact hr))
    · intro y f q hy hf hk hq hs
      exact (hsel q (fparent_owned w (.inl hy) hq)).1 (v.parent y f q ((h.known y).2 (.inl hy)) (by rw [hd y (.inl hy)]; exact hf) hk
        ((hfp y q (.inl hy)).2 hq) ((hsel y (.inl hy)).2 hs))
    · intro y f q hy hf hk ho hq hqf hs
      have hoq := (w.par_edge _ _ (.inl hy) hq).1
      obtain ⟨g, hg⟩ := hqf
      exact (hsel y (.inl hy)).1 (v.mandatory y f q ((h.known y).2 (.inl hy)) (by rw [hd y (.inl hy)]; exact hf) hk ho
        (by rw [hpar y (.inl hy)]; exact hq) ⟨g, by rw [hd q hoq]; exact hg⟩ ((hsel q hoq).2 hs))
    · intro r q hr hk hq hs
      have hoq := (w.par_edge _ _ (.inr hr) hq).1
      obtain ⟨c, h1, h2, h3⟩ := v.alternative r q (by rw [h.rels]; exact hr) (by rw [hd r (.inr hr)]; exact hk)
        (by rw [hpar r (.inr hr)]; exact hq) ((hsel q hoq).2 hs)
      rw [hrel r hr] at h1
      refine ⟨c, h1, (hsel c (w.edge_par r c (.inr hr) h1).1).1 h2, ?_⟩
      intro c' hc' hs'
      exact h3 c' (by rw [hrel r hr]; exact hc') ((hsel c' (w.edge_par r c' (.inr hr) hc').1).2 hs')
    · intro r q hr hk hq hs
      have hoq := (w.par_edge _ _ (.inr hr) hq).1
      obtain ⟨c, h1, h2⟩ := v.or r q (by rw [h.rels]; exact hr) (by rw [hd r (.inr hr)]; exact hk)
        (by rw [hpar r (.inr hr)]; exact hq) ((hsel q hoq).2 hs)
      rw [hrel r hr] at h1
      exact ⟨c, h1, (hsel c (w.edge_par r c (.inr hr) h1).1).1 h2⟩
    · intro y f vs st hy hf hk
      exact v.numeric y f vs st ((h.known y).2 (.inl hy)) (by rw [hd y (.inl hy)]; exact hf) hk
    · intro hk hs
      exact (hsel p (.inl hp)).1 (v.parent i _ p ((h.known i).2 (.inr rfl)) hi hk (.direct hpi hpf) (hseli.2 hs))
    · intro hk ho hs
      exact hseli.1 (v.mandatory i _ p ((h.known i).2 (.inr rfl)) hi hk ho hpi hpf ((hsel p (.inl hp)).2 hs))
    · intro vs st hk
      exact v.numeric i _ vs st ((h.known i).2 (.inr rfl)) hi hk
  · rintro ⟨v, j⟩
    refine ⟨?_, ?_, ?_, ?_, ?_, ?_⟩
    · intro r hr
      rw [h.root] at hr
      exact (hsel r (.inl (w.root_known hr))).2 (v.root r hr)
    · intro y f q hy hf hk hq hs
      rcases (h.known y).1 hy with hy | rfl
      · rw [hd y (.inl hy)] at hf
        rw [hfp y q (.inl hy)] at hq
        exact (hsel q (fparent_owned w (.inl hy) hq)).2 (v.parent y f q hy hf hk hq ((hsel y (.inl hy)).1 hs))
      · rw [hi] at hf; cases hf
        have : q = p := hq.functional (.direct hpi hpf)
        subst this
        exact (hsel q (.inl hp)).2 (j.child hk (hseli.1 hs))
    · intro y f q hy hf hk ho hq hqf hs
      rcases (h.known y).1 hy with hy | rfl
      · rw [hd y (.inl hy)] at hf
        rw [hpar y (.inl hy)] at hq
        have hoq := (w.par_edge _ _ (.inl hy) hq).1
        obtain ⟨g, hg⟩ := hqf
        exact (hsel y (.inl hy)).2 (v.mandatory y f q hy hf hk ho hq ⟨g, by rw [← hd q hoq]; exact hg⟩ ((hsel q hoq).1 hs))
      · rw [hi] at hf; cases hf
        rw [hpi] at hq; cases hq
        exact hseli.2 (j.mandatory hk ho ((hsel p (.inl hp)).1 hs))
    · intro r q hr hk hq hs
      rw [h.rels] at hr
      rw [hpar r (.inr hr)] at hq
      have hoq := (w.par_edge _ _ (.inr hr) hq).1
      obtain ⟨c, h1, h2, h3⟩ := v.alternative r q hr (by rw [← hd r (.inr hr)]; exact hk) hq ((hsel q hoq).1 hs)
      refine ⟨c, by rw [hrel r hr]; exact h1, (hsel c (w.edge_par r c (.inr hr) h1).1).2 h2, ?_⟩
      intro c' hc' hs'
      rw [hrel r hr] at hc'
      exact h3 c' hc' ((hsel c' (w.edge_par r c' (.inr hr) hc').1).1 hs')
    · intro r q hr hk hq hs
      rw [h.rels] at hr
      rw [hpar r (.inr hr)] at hq
      have hoq := (w.par_edge _ _ (.inr hr) hq).1
      obtain ⟨c, h1, h2⟩ := v.or r q hr (by rw [← hd r (.inr hr)]; exact hk) hq ((hsel q hoq).1 hs)
      exact ⟨c, by rw [hrel r hr]; exact h1, (hsel c (w.edge_par r c (.inr hr) h1).1).2 h2⟩
    · intro y f vs st hy hf hk
      rcases (h.known y).1 hy with hy | rfl
      · rw [hd y (.inl hy)] at hf
        exact v.numeric y f vs st hy hf hk
      · rw [hi] at hf; cases hf
        exact j.number vs st hk

theorem isNum_added {i p : Id} {x : Attr} (w : WF m) (h : Added m m' i x p) {n : Str}
    (hn : n ≠ x.name ∨ ∀ vs st, x.kind ≠ .numeric vs st) : IsNum m' n ↔ IsNum m n := by
  have hne := added_ne w h
  constructor
  · rintro ⟨j, f, vs, st, hj, hf, hk⟩
    rw [h.features, List.mem_append, List.mem_singleton] at hj
    rcases hj with hj | hj
    · have ho : Owned m j := .inl (List.mem_map_of_mem (f := Prod.snd) hj)
      rw [h.data, upd_ne _ _ (hne j ho)] at hf
      exact ⟨j, f, vs, st, hj, hf, hk⟩
    · cases hj
      rw [h.data] at hf
      simp only [upd_same, Option.some.injEq, NodeData.feat.injEq] at hf
      subst hf
      rcases hn with hn | hn
      · exact absurd rfl hn
      · exact absurd hk (hn vs st)
  · rintro ⟨j, f, vs, st, hj, hf, hk⟩
    have ho : Owned m j := .inl (List.mem_map_of_mem (f := Prod.snd) hj)
    exact ⟨j, f, vs, st, by rw [h.features]; exact List.mem_append_left _ hj, by rw [h.data, upd_ne _ _ (hne j ho)]; exact hf, hk⟩

/-- A feature that no constraint mentions, unless it is a Boolean one. -/
theorem valid_added {i p : Id} {x : Attr} (w : WF m) (h : Added m m' i x p) (hp : Known m p)
    (hn : (∀ vs st, x.kind ≠ .numeric vs st) ∨ ∀ c ∈ allStored m, x.name ∉ c.tree.features) :
    Valid F m' a ↔ Valid F m a ∧ Joins F m a x p := by
  rw [valid_cons, valid_cons, tree_added w h hp, consHold_congr (b := a) h.booleans h.nonBooleans h.mixeds rfl]
  · exact ⟨fun ⟨⟨x, y⟩, z⟩ => ⟨⟨x, z⟩, y⟩, fun ⟨⟨x, z⟩, y⟩ => ⟨⟨x, y⟩, z⟩⟩
  · intro c hc n hn'
    refine ⟨isNum_added w h ?_, rfl, rfl⟩
    rcases hn with hn | hn
    · exact .inr hn
    · refine .inl ?_
      rintro rfl
      exact hn c hc hn'

end Verif

import Verif.Xml.DeskLemmas
import Verif.Props.Script
/-!
# Property C97: models edited side by side do not influence each other

A program has any number of models at a time, all on one heap, and builds, loads, clones, edits and destroys them in any
order (`Desk`).
-/

namespace Verif.Props
open Spec Xml Desk

variable {D : Desk}

/-- An operation on one model leaves all others alone, whether it succeeds or not and whatever it is, as long as its pointers
    are to features of its own model: they have the same members, and each node of them is as it was. -/
theorem C97_untouched (t : Tidy D) {sci : Str → Option Str} {E : Env} {o : DeskOp} (ho : Own D o) {D' : Desk}
    (hs : step sci E D o = some D') {j : Nat} (hj : o.target ≠ some j) : Desk.Same D D' j := untouched t ho hs hj

/-- A program that builds, loads, clones, edits and destroys models as their descriptions allow runs through, and each variable
    has in the end the model described by the operations on it alone; models well-formed and without common nodes. -/
theorem C97_histories (sci : Str → Option Str) (E : Env) {os : List DeskOp} {ds : List (Option Desc)} (h : GoesAll sci [] os ds) :
    ∃ D, run sci E empty os = some D ∧ Matches D ds ∧ Tidy D := by
  obtain ⟨D, h1, h2⟩ := deskOk_run (E := E) h deskOk_empty
  exact ⟨D, h1, h2.is, h2.tidy⟩

/-- Nothing else is needed to go on from there. -/
theorem C97_continued (sci : Str → Option Str) (E : Env) {ds ds' : List (Option Desc)} {o : DeskOp} (t : Tidy D) (hm : Matches D ds)
    (hk : ∀ (k : Nat) (d : Desc), ds[k]? = some (some d) → ConstraintsKnown d) (h : Goes sci ds o ds') :
    ∃ D', step sci E D o = some D' ∧ Matches D' ds' ∧ Tidy D' := by
  obtain ⟨D', h1, h2⟩ := deskOk_step (E := E) ⟨t, hm, hk⟩ h
  exact ⟨D', h1, h2.is, h2.tidy⟩

/-! ### Pointers into another model -/

theorem outFold_one {E : Env} {m m' : FModel} {o : Op} (h : FModel.exec E m o = .ok m') : FModel.outFold (FModel.exec E) m [o] = .ok m' := by
  simp only [FModel.outFold, h]

theorem foldlM_fails {α : Type} {f : List Id → α → Option (List Id)} {x : α} (hx : ∀ a, f a x = none) :
    ∀ {l : List α} {a : List Id}, x ∈ l → l.foldlM f a = none
  | y :: l, a, h => by
    rw [List.foldlM_cons]
    rcases List.mem_cons.1 h with rfl | h
    · rw [hx]; rfl
    · cases f a y with
      | none => rfl
      | some b => exact foldlM_fails hx h

/-- A feature of another model is accepted as the parent of a new feature, without an error: the other model then has a child
    it does not own, and after its owner is gone, a dangling pointer that every query for children runs into. -/
theorem C97_foreign_parent (t : Tidy D) (sci : Str → Option Str) (E : Env) {j k : Nat} (hjk : j ≠ k) {x m : FModel} (hx : get D j = some x)
    (hm : get D k = some m) {p : Id} (hp : Known x p) {a : Attr} (ha : m.getFeature a.name = none) (hr : a.kind ≠ .root) :
    ∃ m' x' i, m.commitOps E [.addFeature a (some p)] = .ok m' ∧
      step sci E D (.modify k [.addFeature a (some p)]) = some (put D k m') ∧
      get (put D k m') j = some x' ∧ (a.name, i) ∈ m'.features ∧ i ∈ edg x' p ∧ ¬ Owned x' i ∧ ¬ WF x' ∧ ¬ Desk.Same D (put D k m') j ∧
      ∃ D'' x'', step sci E (put D k m') (.delete k) = some D'' ∧ get D'' j = some x'' ∧
        ∀ isT, x''.children E isT p = none := by
  have w := t.wf k m hm
  have wx := t.wf j x hx
  have hpo : Owned x p := .inl hp
  have hpm : ¬ Owned m p := t.apart j k x m hjk hx hm p hpo
  obtain ⟨e, he, rfl⟩ := List.mem_map.1 hp
  obtain ⟨f, hf, hfn⟩ := wx.feat_ok e he
  have hheap : x.heap = m.heap := (get_heap hx).1.trans (get_heap hm).1.symm
  have hnext : x.next = m.next := (get_heap hx).2.trans (get_heap hm).2.symm
  have hpd : m.heap e.2 = some ⟨.feat f, par x e.2, edg x e.2⟩ := by rw [← hheap]; exact heap_of_data hf
  have hplt : e.2 < m.next := w.fresh e.2 (by rw [hpd]; simp)
  have hnp : m.next ≠ e.2 := fun h => Nat.lt_irrefl _ (h ▸ hplt)
  have hnin : m.next ∉ edg x e.2 := by
    intro h
    obtain ⟨d, hd⟩ := wx.owned_data (wx.edge_par e.2 _ hpo h).1
    have := wx.fresh _ (by rw [heap_of_data hd]; simp)
    rw [hnext] at this
    exact Nat.lt_irrefl _ this
  -- the model afterwards
  let H : Id → Option Node := fun i => if i = e.2 then some ⟨.feat f, par x e.2, edg x e.2 ++ [m.next]⟩
    else if i = m.next then some ⟨.feat { attr := a }, some e.2, []⟩ else m.heap i
  let m0 : FModel := { m with heap := H, next := m.next + 1 }
  let m' : FModel := { m0 with features := m.features ++ [(a.name, m.next)] }
  have hlow : ∀ i, Owned m i → H i = m.heap i := by
    intro i hi
    have h1 : i ≠ e.2 := fun h => hpm (h ▸ hi)
    obtain ⟨d, hd⟩ := w.owned_data hi
    have h2 : i ≠ m.next := fun h => Nat.lt_irrefl _ (h ▸ w.fresh i (by rw [heap_of_data hd]; simp))
    show (if i = e.2 then _ else if i = m.next then _ else _) = _
    rw [if_neg h1, if_neg h2]
  have hfresh : ∀ i, H i ≠ none → i < m.next + 1 := by
    intro i hi
    by_cases h1 : i = e.2
    · subst h1; exact Nat.lt_succ_of_lt hplt
    · by_cases h2 : i = m.next
      · subst h2; exact Nat.lt_succ_self _
      · refine Nat.lt_succ_of_lt (w.fresh i ?_)
        have : H i = m.heap i := by
          show (if i = e.2 then _ else if i = m.next then _ else _) = _
          rw [if_neg h1, if_neg h2]
        rwa [this] at hi
  have hH1 : H m.next = some ⟨.feat { attr := a }, some e.2, []⟩ := by
    show (if m.next = e.2 then _ else if m.next = m.next then _ else _) = _
    rw [if_neg hnp, if_pos rfl]
  have hH2 : H e.2 = some ⟨.feat f, par x e.2, edg x e.2 ++ [m.next]⟩ := by
    show (if e.2 = e.2 then _ else _) = _
    rw [if_pos rfl]
  have hex : FModel.exec E m (.addFeature a (some e.2)) = .ok m' := by
    show m.execAddFeature a (some e.2) = .ok m'
    have h1 : ({ m.put m.next { data := .feat { attr := a } } with next := m.next + 1, features := m.features ++ [(a.name, m.next)] } : FModel).link
        e.2 m.next = some m' := by
      unfold FModel.link FModel.setParent
      simp only [FModel.put, if_true, Option.map_some]
      unfold FModel.addEdge
      simp only [FModel.put, if_neg (Ne.symm hnp), hpd, Option.map_some, Option.some.injEq]
      show FModel.mk _ _ _ _ _ _ _ _ _ _ _ = FModel.mk _ _ _ _ _ _ _ _ _ _ _
      congr 1
      funext i
      show _ = (if i = e.2 then _ else if i = m.next then _ else m.heap i)
      by_cases h1 : i = e.2
      · rw [if_pos h1, if_pos h1]
        simp only [FModel.insertSet, if_neg hnin]
      · by_cases h2 : i = m.next
        · simp [h2, hnp]
        · simp [h1, h2]
    unfold FModel.execAddFeature FModel.insertFeature
    simp only [ha, h1, FModel.outOf]
  -- the consistency check
  have c0 : Copy m m0 := ⟨rfl, hlow, hfresh⟩
  have k0 := (c0.wf w).checked
  have hpf : ∀ fuel i, m'.parentFeatureFuel fuel i = m0.parentFeatureFuel fuel i := by
    intro fuel
    induction fuel with
    | zero => exact fun _ => rfl
    | succ n ih =>
      intro i
      unfold FModel.parentFeatureFuel
      show (match H i with | none => _ | some n => _) = (match H i with | none => _ | some n => _)
      cases H i with
      | none => rfl
      | some n =>
        simp only
        cases n.parent with
        | none => rfl
        | some q =>
          simp only
          show (match H q with | none => _ | some n => _) = (match H q with | none => _ | some n => _)
          cases H q with
          | none => rfl
          | some _ => simp only [ih]
  have hknown : ∀ i, Known m' i → Known m0 i ∨ i = m.next := by
    intro i hi
    simp only [m', Known, List.map_append, List.map_cons, List.map_nil, List.mem_append, List.mem_singleton] at hi
    exact hi
  have hc : Checked m' := by
    refine ⟨?_, ?_, ?_, ?_, ?_⟩
    · show ((m.features ++ [(a.name, m.next)]).map Prod.fst).Nodup
      rw [List.map_append, List.nodup_append]
      refine ⟨w.names, by simp, ?_⟩
      intro y hy z hz hyz
      simp at hz
      subst hyz; subst hz
      obtain ⟨e', he', h⟩ := List.mem_map.1 hy
      have := getFeature_mem w.names (n := e'.1) (i := e'.2) he'
      rw [h, ha] at this; cases this
    · intro e' he'
      rcases List.mem_append.1 he' with h | h
      · exact k0.feat_ok e' h
      · simp at h; subst h
        exact ⟨{ attr := a }, by simp [Spec.data, m', m0, hH1], rfl⟩
    · obtain ⟨r, fr, h1, h2, h3, h4⟩ := k0.root_ok
      refine ⟨r, fr, h1, ?_, h3, h4⟩
      simp only [m', Known, List.map_append, List.mem_append]
      exact .inl h2
    · intro i fi hi hd hk
      rcases hknown i hi with h | rfl
      · exact k0.one_root i fi h hd hk
      · have : data m' m.next = some (.feat { attr := a }) := by simp [Spec.data, m', m0, hH1]
        rw [this] at hd; cases hd
        exact absurd hk hr
    · intro i hi hne
      rcases hknown i hi with h | rfl
      · obtain ⟨⟨q, hq⟩, h2⟩ := k0.link i h hne
        exact ⟨⟨q, by unfold FModel.parentFeature at hq ⊢; rw [hpf]; exact hq⟩, h2⟩
      · refine ⟨⟨e.2, ?_⟩, e.2, .feat f, ?_, ?_, ?_⟩
        · unfold FModel.parentFeature
          show m'.parentFeatureFuel (m.next + 1 + 1) m.next = _
          unfold FModel.parentFeatureFuel
          show (match H m.next with | none => _ | some n => _) = _
          rw [hH1]
          simp only
          show (match H e.2 with | none => _ | some n => _) = _
          rw [hH2]
          rfl
        · simp [Spec.par, m', m0, hH1]
        · simp [Spec.data, m', m0, hH2]
        · simp [Spec.edg, m', m0, hH2]
  have hcommit : m.commitOps E [.addFeature a (some e.2)] = .ok m' := by
    simp only [FModel.commitOps, outFold_one hex, consistent_of_checked hc]
  have hstep : step sci E D (.modify k [.addFeature a (some e.2)]) = some (put D k m') := by
    simp only [step, hm, Option.bind_some, hcommit, done]
  have hget : get (put D k m') j = some { x with heap := H, next := m.next + 1 } := by
    rw [get_put_ne hjk, hx]; rfl
  have hno : ¬ Owned ({ x with heap := H, next := m.next + 1 } : FModel) m.next := by
    intro h
    have h' : Owned x m.next := h
    obtain ⟨d, hd⟩ := wx.owned_data h'
    have := wx.fresh _ (by rw [heap_of_data hd]; simp)
    rw [hnext] at this
    exact Nat.lt_irrefl _ this
  have hed : m.next ∈ edg ({ x with heap := H, next := m.next + 1 } : FModel) e.2 := by simp [Spec.edg, hH2]
  refine ⟨m', { x with heap := H, next := m.next + 1 }, m.next, hcommit, hstep, hget, by simp [m'], hed, hno, ?_, ?_, ?_⟩
  · exact fun w' => hno (w'.edge_par e.2 _ (.inl hp) hed).1
  · intro hs
    obtain ⟨y, h1, _, h2⟩ := hs x hx
    rw [hget] at h1; cases h1
    have := h2 e.2 hpo
    simp only [hH2, hheap, hpd, Option.some.injEq, Node.mk.injEq, true_and] at this
    have := congrArg List.length this
    simp at this
  · have hk' : get (put D k m') k = some m' := get_put hm
    refine ⟨freeAll (put D k m') k m', { x with heap := (freeAll (put D k m') k m').heap, next := m.next + 1 },
      by simp only [step, hk', Option.map_some], by rw [get_freeAll hjk, hget]; rfl, ?_⟩
    intro isT
    have hfree : ∀ i, (freeAll (put D k m') k m').heap i = if i ∈ m'.features.map Prod.snd ++ m'.rels then none else H i := fun _ => rfl
    have h1 : (freeAll (put D k m') k m').heap m.next = none := by
      rw [hfree, if_pos (by simp [m'])]
    have h2 : (freeAll (put D k m') k m').heap e.2 = some ⟨.feat f, par x e.2, edg x e.2 ++ [m.next]⟩ := by
      rw [hfree, if_neg, hH2]
      intro h
      rcases List.mem_append.1 h with h | h
      · rcases hknown e.2 h with h | h
        · exact hpm (.inl h)
        · exact hnp h.symm
      · exact hpm (.inr h)
    unfold FModel.children
    rw [Option.map_eq_none_iff]
    unfold FModel.childrenImpl
    simp only [h2]
    rw [if_neg (by decide)]
    refine foldlM_fails (x := m.next) ?_ (by simp)
    intro acc
    simp only [h1]

/-! ### A program -/

/-- A model is built and one is loaded, a clone is made of the first; they are edited in turns, and the first is destroyed
    while its clone is still edited.  A copy transaction on the clone adds a feature and one below it. -/
def turns : List DeskOp :=
  [.build (pairCalls false false (some .alternative) false), .load [] baseDoc.toXml, .clone 0,
   .edit 0 [.add { name := c!"C", kind := .binary } c!"A"], .edit 1 [.add { name := c!"C", kind := .binary } c!"B"],
   .delete 0, .edit 2 [.name c!"Second", .add { name := c!"D", kind := .binary } c!"B"],
   .copyEdit 2 [.add { name := c!"F", kind := .binary } c!"D", .add { name := c!"G", kind := .binary } c!"F", .move c!"A" c!"G"]]

/-- The clone in the end. -/
noncomputable def turnedClone : Desc :=
  ((pairDesc false false (some .alternative) false).cloned.edit (.name c!"Second")).edit (.add { name := c!"D", kind := .binary } c!"B")

/-- What they make: nothing in the first variable, `C` below `B` in the second model, `D` in the clone, and a copy of that
    with `F` and `G`. -/
noncomputable def turned : List (Option Desc) :=
  [none, some (baseDesc.edit (.add { name := c!"C", kind := .binary } c!"B")), some turnedClone,
   some ((turnedClone.cloned.edit (.add { name := c!"F", kind := .binary } c!"D")).edit (.add { name := c!"G", kind := .binary } c!"F"))]

theorem turns_go (sci : Str → Option Str) : GoesAll sci [] turns turned := by
  refine .cons (.build (pair_buildable false false (some .alternative) false) (pair_known _ _ _ _)) ?_
  refine .cons (.load (gs := []) (base_ok sci) base_says (by unfold ConstraintsKnown; decide) ?_) ?_
  · intro n k
    exact ⟨fun h => (by cases h), fun h => absurd h.2 (base_exclusive n)⟩
  refine .cons (.clone (d := pairDesc false false (some .alternative) false) rfl (by decide)) ?_
  refine .cons (.edit (d := pairDesc false false (some .alternative) false) rfl ?_) ?_
  · simp [Desc.CanAll, Desc.Can, Desc.Has, pairDesc, pairCalls, attrsOf, groupsOf]
  refine .cons (.edit (d := baseDesc) rfl ?_) ?_
  · simp [Desc.CanAll, Desc.Can, Desc.Has, baseDesc]
  refine .cons (.delete (d := (pairDesc false false (some .alternative) false).edit (.add { name := c!"C", kind := .binary } c!"A")) rfl) ?_
  refine .cons (.edit (d := (pairDesc false false (some .alternative) false).cloned) rfl ?_) ?_
  · simp [Desc.CanAll, Desc.Can, Desc.edit, Desc.cloned, Desc.Has, pairDesc, pairCalls, attrsOf, groupsOf, clonedAttr]
  refine .cons (.copyEdit (d := turnedClone) rfl ?_ ?_) .nil
  · simp [turnedClone, Desc.edit, Desc.cloned, pairDesc, pairCalls, attrsOf, clonedAttr]
  · simp [turnedClone, Desc.CanCopy, Desc.inCopy, Desc.Can, Desc.edit, Desc.cloned, Desc.Has, pairDesc, pairCalls, attrsOf, groupsOf,
      clonedAttr]

/-- `C97_histories` applies to it. -/
example (sci : Str → Option Str) (E : Env) : ∃ D m1 m2, run sci E empty turns = some D ∧ get D 0 = none ∧ get D 1 = some m1 ∧
    get D 2 = some m2 ∧ m1.getFeature c!"D" = none ∧ m2.getFeature c!"C" = none ∧ m2.name = c!"Second" := by
  obtain ⟨D, h1, h2, _⟩ := C97_histories sci E (turns_go sci)
  obtain ⟨m1, a1, b1⟩ := (h2.2 1).1 _ rfl
  obtain ⟨m2, a2, b2⟩ := (h2.2 2).1 _ rfl
  refine ⟨D, m1, m2, h1, (h2.2 0).2 rfl, a1, a2, ?_, ?_, b2.name⟩
  · cases h : m1.getFeature c!"D" with
    | none => rfl
    | some i => exact absurd ((b1.names _).1 ⟨i, getFeature_some h⟩) (by simp [Desc.edit, baseDesc])
  · cases h : m2.getFeature c!"C" with
    | none => rfl
    | some i => exact absurd ((b2.names _).1 ⟨i, getFeature_some h⟩) (by simp [turnedClone, Desc.edit, Desc.cloned, pairDesc, pairCalls, attrsOf, clonedAttr])

/-- So do `C97_untouched`, to removing `A` from the second of its models by pointer, and `C97_foreign_parent`. -/
example (sci : Str → Option Str) (E : Env) : ∃ D m1 m2 i p, Tidy D ∧ get D 1 = some m1 ∧ get D 2 = some m2 ∧
    (c!"A", i) ∈ m1.features ∧ Own D (.modify 1 [.removeFeature (.ptr (some i)) false]) ∧ Known m2 p ∧
    m1.getFeature c!"Z" = none := by
  obtain ⟨D, h1, h2, t⟩ := C97_histories sci E (turns_go sci)
  obtain ⟨m1, a1, b1⟩ := (h2.2 1).1 _ rfl
  obtain ⟨m2, a2, b2⟩ := (h2.2 2).1 _ rfl
  obtain ⟨i, hi⟩ := (b1.names c!"A").2 (by simp [Desc.edit, baseDesc])
  obtain ⟨p, hp⟩ := (b2.names c!"A").2 (by simp [turnedClone, Desc.edit, Desc.cloned, pairDesc, pairCalls, attrsOf, clonedAttr])
  refine ⟨D, m1, m2, i, p, t, a1, a2, hi, ?_, List.mem_map.2 ⟨_, hp, rfl⟩, ?_⟩
  · intro m hm o ho
    rw [a1] at hm; cases hm
    rcases List.mem_singleton.1 ho with rfl
    intro q hq
    cases hq
    exact .inl (List.mem_map.2 ⟨_, hi, rfl⟩)
  · cases h : m1.getFeature c!"Z" with
    | none => rfl
    | some i => exact absurd ((b1.names _).1 ⟨i, getFeature_some h⟩) (by simp [Desc.edit, baseDesc])

/-! ### Merging -/

/-- What `mergeFeatureModels` makes of two models with roots of the same name: null if they conflict; otherwise a new model that
    has the features of the first with the locations of the second, then the other features of the second, in the groups and
    with the constraints of the first. -/
theorem C30_described (E : Env) (strict : Bool) {d d2 : Desc} {m m2 : FModel} (h : Describes d m) (h2 : Describes d2 m2)
    (hk : ConstraintsKnown d) (hh : SameHeap m m2) (hn : c!"root" ∉ d.attrs.map Attr.name) (hr : d.root = d2.root) :
    (m.mergeFeatureModels E m2 strict = some none ↔ ¬ Desc.Takes strict d d2) ∧
    (Desc.Takes strict d d2 → d.OutsideGroups d2 →
      ∃ c, m.mergeFeatureModels E m2 strict = some (some c) ∧ Describes (d.merged d2) c ∧ ConstraintsKnown (d.merged d2)) := by
  rcases merge_describes h E strict hn hk h2 hh hr with ⟨a, b⟩ | ⟨a, c, b, _, e⟩
  · exact ⟨⟨fun _ => a, fun _ => b⟩, fun x => absurd x a⟩
  · refine ⟨⟨fun x => ?_, fun x => absurd a x⟩, fun _ ho => ⟨c, b, e ho⟩⟩
    rw [b] at x; cases x

/-- Two models are merged in both directions, and the merged one is edited when an input is gone. -/
def joins : List DeskOp :=
  [.load [] baseDoc.toXml, .build (pairCalls false false (some .alternative) false),
   .edit 0 [.add { name := c!"C", kind := .binary } c!"B", .locate c!"A" ⟨[c!"a.cpp"], none, none, .necessary, none, none⟩],
   .merge 1 0 false, .merge 0 1 true, .delete 0, .edit 2 [.add { name := c!"D", kind := .binary } c!"C"]]

noncomputable def joinedFirst : Desc :=
  (baseDesc.edit (.add { name := c!"C", kind := .binary } c!"B")).edit (.locate c!"A" ⟨[c!"a.cpp"], none, none, .necessary, none, none⟩)

noncomputable def joined : Desc := (pairDesc false false (some .alternative) false).merged joinedFirst

/-- `A` and `B` are in a group in one of the models, so that they conflict strictly. -/
theorem joins_go (sci : Str → Option Str) : GoesAll sci [] joins [none, some (pairDesc false false (some .alternative) false),
    some (joined.edit (.add { name := c!"D", kind := .binary } c!"C")), none] := by
  have n1 : joined.attrs.map Attr.name = [c!"A", c!"B", c!"C"] := by
    unfold joined
    rw [merged_attr_names]
    rfl
  refine .cons (.load (gs := []) (base_ok sci) base_says (by unfold ConstraintsKnown; decide) ?_) ?_
  · intro n k
    exact ⟨fun h => (by cases h), fun h => absurd h.2 (base_exclusive n)⟩
  refine .cons (.build (pair_buildable false false (some .alternative) false) (pair_known _ _ _ _)) ?_
  refine .cons (.edit (d := baseDesc) rfl ?_) ?_
  · simp [Desc.CanAll, Desc.Can, Desc.Has, Desc.edit, baseDesc]
  refine .cons (.merge (d := pairDesc false false (some .alternative) false) (d2 := joinedFirst) rfl rfl (by decide) rfl ?_ ?_) ?_
  · simp [Desc.Takes, joinedFirst, Desc.edit, baseDesc, pairDesc, pairCalls, attrsOf]
  · simp [Desc.OutsideGroups, Desc.Grouped, joinedFirst, Desc.edit, baseDesc, pairDesc, pairCalls, attrsOf, groupsOf]
  refine .cons (.conflict (d := joinedFirst) (d2 := pairDesc false false (some .alternative) false) rfl rfl ?_ rfl ?_) ?_
  · simp [joinedFirst, Desc.edit, baseDesc]
  · simp [Desc.Takes, Desc.Grouped, joinedFirst, Desc.edit, baseDesc, pairDesc, pairCalls, attrsOf, groupsOf, SameKind]
  refine .cons (.delete (d := joinedFirst) rfl) ?_
  refine .cons (.edit (d := joined) rfl ?_) .nil
  have hg : joined.groups = [(c!"root", .alternative)] := rfl
  simp [Desc.CanAll, Desc.Can, Desc.Has, n1, hg]
  exact (by decide : c!"D" ≠ c!"root")

/-- `C97_histories` and `C30_described` apply to it. -/
example (sci : Str → Option Str) (E : Env) : ∃ D m, run sci E empty joins = some D ∧ get D 0 = none ∧ get D 3 = none ∧
    get D 2 = some m ∧ (∃ i f, (c!"A", i) ∈ m.features ∧ data m i = some (.feat f) ∧ f.attr.locs.length = 1) ∧
    (∃ i, (c!"C", i) ∈ m.features) ∧ ∃ i, (c!"D", i) ∈ m.features := by
  obtain ⟨D, h1, h2, _⟩ := C97_histories sci E (joins_go sci)
  obtain ⟨m, a, b⟩ := (h2.2 2).1 _ rfl
  refine ⟨D, m, h1, (h2.2 0).2 rfl, (h2.2 3).2 rfl, a, ?_, ?_, ?_⟩
  · obtain ⟨i, f, p, c1, c2, c3, _⟩ := b.feat (withLocs { name := c!"A", kind := .binary }
        { name := c!"A", kind := .binary, output := c!"-a", locs := [⟨[c!"a.cpp"], none, none, .necessary, none, none⟩] }) (by
      simp [joined, joinedFirst, Desc.merged, Desc.gives, Desc.edit, baseDesc, pairDesc, pairCalls, attrsOf])
    exact ⟨i, f, c1, c2, by rw [c3]; rfl⟩
  · exact (b.names _).2 (.inr (by simp [joined, joinedFirst, Desc.merged, Desc.edit, baseDesc, pairDesc, pairCalls, attrsOf, clonedAttr]))
  · exact (b.names _).2 (.inr (by simp [joined, joinedFirst, Desc.merged, Desc.edit, baseDesc, pairDesc, pairCalls, attrsOf, clonedAttr]))

end Verif.Props

import Verif.FM.Buildable
/-! What `clone` returns. -/

namespace Verif
open Verif.Spec

namespace Spec

/-- What `clone` passes on of the members of a feature (FeatureModel.cpp:55-76): the output string
    and the step function are left out; of a feature of unknown kind only the name is passed on. -/
def clonedAttr (a : Attr) : Attr :=
  match a.kind with
  | .unknown => { name := a.name, kind := .unknown }
  | .root => { name := a.name, kind := .root }
  | .binary => { a with output := [] }
  | .numeric v _ => { a with kind := .numeric v none, output := [] }

/-- The description with the members that `clone` passes on. -/
def Desc.cloned (d : Desc) : Desc := { d with attrs := d.attrs.map clonedAttr }

end Spec

theorem clonedAttr_name (a : Attr) : (clonedAttr a).name = a.name := by unfold clonedAttr; split <;> rfl

theorem clonedAttr_kind {a : Attr} (h : a.kind ≠ .root) : (clonedAttr a).kind ≠ .root := by
  unfold clonedAttr; split
  · simp
  · contradiction
  · next h' => simp [h']
  · simp

theorem cloned_names (d : Desc) : d.cloned.attrs.map Attr.name = d.attrs.map Attr.name := by
  simp [Desc.cloned, Function.comp_def, clonedAttr_name]

theorem builderOf_append (cs ds : List BCall) : builderOf (cs ++ ds) = ds.foldl BCall.apply (builderOf cs) := by
  simp [builderOf, List.foldl_append]

/-- A loop of builder calls. -/
theorem foldlM_calls {α : Type} {f : ModelBuilder → α → Option ModelBuilder} {g : α → List BCall} :
    ∀ {l : List α}, (∀ x ∈ l, ∀ cs, f (builderOf cs) x = some (builderOf (cs ++ g x))) → ∀ cs,
      l.foldlM f (builderOf cs) = some (builderOf (cs ++ l.flatMap g))
  | [], _, cs => by simp
  | x :: xs, h, cs => by
    simp only [List.foldlM_cons, h x (List.mem_cons_self ..), Option.bind_eq_bind, Option.bind_some]
    rw [foldlM_calls (fun y hy => h y (List.mem_cons_of_mem _ hy))]
    simp [List.append_assoc]

theorem filter_eq_singleton {α : Type} {p : α → Bool} : ∀ {l : List α} {e : α}, l.Nodup → e ∈ l →
    (∀ x ∈ l, p x = true ↔ x = e) → l.filter p = [e]
  | [], _, _, h, _ => by cases h
  | x :: xs, e, hn, hm, hp => by
    rw [List.nodup_cons] at hn
    by_cases hx : x = e
    · subst hx
      have : xs.filter p = [] := by
        rw [List.filter_eq_nil_iff]
        intro y hy h
        have := (hp y (List.mem_cons_of_mem _ hy)).1 h
        subst this; exact hn.1 hy
      rw [List.filter_cons, if_pos ((hp x (List.mem_cons_self ..)).2 rfl), this]
    · have hm : e ∈ xs := by
        rcases List.mem_cons.1 hm with h | h
        · exact absurd h.symm hx
        · exact h
      rw [List.filter_cons, if_neg (fun h => hx ((hp x (List.mem_cons_self ..)).1 h)),
        filter_eq_singleton hn.2 hm (fun y hy => hp y (List.mem_cons_of_mem _ hy))]

/-! ### The calls -/

/-- The call that makes a copy of the feature. -/
def makeCall (a : Attr) : BCall := if a.kind = .root then .makeRoot a.name else .makeFeature (clonedAttr a)

/-- The calls for one feature. -/
def featCalls (m : FModel) (i : Id) : List BCall :=
  match m.feat? i with
  | none => []
  | some f =>
    makeCall f.attr ::
      (match m.parentFeature i with
       | some (some p) => (match m.nameOf p with | some pn => [.addEdge pn f.attr.name] | none => [])
       | _ => [])

/-- The calls for one relationship. -/
def relCalls (m : FModel) (r : Id) : List BCall :=
  match data m r, par m r with
  | some (.rel k), some p => (match m.nameOf p with | some n => [.emplaceRelationship k n] | none => [])
  | _, _ => []

theorem feat?_of_data {m : FModel} {i : Id} {f : Feat} (h : data m i = some (.feat f)) : m.feat? i = some f := by
  simp [FModel.feat?, heap_of_data h]

theorem nameOf_of_data {m : FModel} {i : Id} {f : Feat} (h : data m i = some (.feat f)) : m.nameOf i = some f.attr.name := by
  simp [FModel.nameOf, feat?_of_data h]

theorem fparent_isFeat {m : FModel} {i p : Id} (h : FParent m i p) : IsFeat m p := by
  induction h with
  | direct _ h => exact h
  | skip _ _ _ ih => exact ih

theorem cloneFeature_calls {m : FModel} (w : WF m) {i : Id} (hk : Known m i) (cs : List BCall) :
    m.cloneFeature (builderOf cs) i = some (builderOf (cs ++ featCalls m i)) := by
  obtain ⟨f, hf⟩ := w.known_data hk
  obtain ⟨r, h1, h2⟩ := parentFeature_spec w (.inl hk)
  have hmake : ∀ rest, builderOf (cs ++ makeCall f.attr :: rest) =
      rest.foldl BCall.apply (match f.attr.kind with
      | .unknown => (builderOf cs).makeFeature { name := f.attr.name, kind := .unknown }
      | .root => (builderOf cs).makeRoot f.attr.name
      | .binary => (builderOf cs).makeFeature { name := f.attr.name, kind := .binary, opt := f.attr.opt, locs := f.attr.locs }
      | .numeric v _ => (builderOf cs).makeFeature
          { name := f.attr.name, kind := .numeric v none, opt := f.attr.opt, locs := f.attr.locs }) := by
    intro rest
    rw [builderOf_append]
    simp only [List.foldl_cons]
    congr 1
    unfold makeCall clonedAttr
    cases hkd : f.attr.kind <;> simp [BCall.apply]
  unfold FModel.cloneFeature featCalls
  simp only [feat?_of_data hf, h1]
  cases r with
  | none => rw [hmake]; rfl
  | some p =>
    have hfp := (h2 p).1 rfl
    obtain ⟨pf, hpf⟩ := fparent_isFeat hfp
    simp only [nameOf_of_data hpf]
    rw [hmake]
    rfl

theorem cloneRel_calls {m : FModel} (w : WF m) {r : Id} (hr : r ∈ m.rels) (cs : List BCall) :
    m.cloneRel (builderOf cs) r = some (builderOf (cs ++ relCalls m r)) := by
  obtain ⟨k, hk⟩ := w.rel_ok r hr
  unfold FModel.cloneRel relCalls
  simp only [heap_of_data hk, hk]
  cases hp : par m r with
  | none => simp
  | some p =>
    have ho := (w.par_edge r p (.inr hr) hp).1
    obtain ⟨dt, hd⟩ := w.owned_data ho
    simp only [heap_of_data hd]
    cases dt with
    | feat f => simp only [nameOf_of_data hd]; rw [builderOf_append]; rfl
    | rel k' =>
      have : m.nameOf p = none := by simp [FModel.nameOf, FModel.feat?, heap_of_data hd]
      simp [this]

theorem cloneStored_known {m : FModel} (w : WF m) {s : Stored} {ns : List Str} (hs : s.binds = ns.map m.getFeature) :
    m.cloneStored s = some s.tree := by
  unfold FModel.cloneStored
  rw [if_pos]
  rw [List.all_eq_true]
  intro b hb
  rw [hs] at hb
  obtain ⟨n, _, rfl⟩ := List.mem_map.1 hb
  cases hg : m.getFeature n with
  | none => rfl
  | some i =>
    obtain ⟨f, hf⟩ := w.known_data (known_of_mem (getFeature_some hg))
    simp [feat?_of_data hf]

theorem cloneConstraints_calls {m : FModel} (w : WF m) {kind : Stored → CKind} {l : List (CKind × Constraint)}
    (hk : ∀ x ∈ l, kind ⟨x.2, x.2.features.map m.getFeature, x.1.info⟩ = x.1) (cs : List BCall) :
    m.cloneConstraints kind (builderOf cs) (l.map fun x => ⟨x.2, x.2.features.map m.getFeature, x.1.info⟩) =
      some (builderOf (cs ++ l.map fun x => .addConstraint x.1 x.2)) := by
  unfold FModel.cloneConstraints
  rw [List.foldlM_map]
  rw [foldlM_calls (g := fun x => [.addConstraint x.1 x.2])]
  · congr 3
    clear hk
    induction l with
    | nil => rfl
    | cons x xs ih => simp [ih]
  · intro x hx cs
    rw [cloneStored_known w (ns := x.2.features) rfl]
    simp only [Option.map_some, hk x hx]
    rw [builderOf_append]; rfl

/-- The calls of `clone`. -/
def allCalls (E : Env) (m : FModel) (d : Desc) : List BCall :=
  [.setVmName m.name, .setCommit m.commit, .setPath m.path] ++
    (E.mapOrder m.features).flatMap (fun e => featCalls m e.2) ++ m.rels.flatMap (relCalls m) ++
    (d.ofClass .boolean).map (fun x => .addConstraint x.1 x.2) ++
    (d.ofClass .nonBoolean).map (fun x => .addConstraint x.1 x.2) ++
    (d.ofClass .mixed).map (fun x => .addConstraint x.1 x.2)

theorem cloneCalls_eq {d : Desc} {m : FModel} (h : Describes d m) (E : Env) :
    m.cloneCalls E = some (builderOf (allCalls E m d)) := by
  have w := h.wf
  have hcls : ∀ cl, ∀ x ∈ d.ofClass cl, x.1.cls = cl := by
    intro cl x hx
    unfold Desc.ofClass at hx
    simpa using (List.mem_filter.1 hx).2
  unfold FModel.cloneCalls
  have h0 : ((((({} : ModelBuilder).setVmName m.name).setCommit m.commit).setPath m.path)) =
      builderOf [.setVmName m.name, .setCommit m.commit, .setPath m.path] := rfl
  simp only [h0]
  rw [foldlM_calls (g := fun e => featCalls m e.2)
    (fun e he cs => cloneFeature_calls w (List.mem_map_of_mem ((E.mapOrder_perm _).mem_iff.1 he)) cs)]
  simp only [Option.bind_eq_bind, Option.bind_some]
  rw [foldlM_calls (g := relCalls m) (fun r hr cs => cloneRel_calls w hr cs)]
  simp only [Option.bind_some]
  rw [show m.booleans = m.store .boolean from rfl, show m.nonBooleans = m.store .nonBoolean from rfl,
    show m.mixeds = m.store .mixed from rfl, h.store, h.store, h.store]
  rw [cloneConstraints_calls w (by
    intro x hx
    have := hcls _ x hx
    cases hk : x.1 <;> rw [hk] at this <;> cases this <;> rfl)]
  simp only [Option.bind_some]
  rw [cloneConstraints_calls w (by
    intro x hx
    have := hcls _ x hx
    cases hk : x.1 <;> rw [hk] at this <;> cases this <;> rfl)]
  simp only [Option.bind_some]
  rw [cloneConstraints_calls w (by
    intro x hx
    have := hcls _ x hx
    cases hk : x.1 <;> rw [hk] at this <;> cases this
    rfl)]
  rfl

/-! ### What the calls describe -/

theorem rel_calls {d : Desc} {m : FModel} (h : Describes d m) {r : Id} (hr : r ∈ m.rels) :
    ∃ n k i, (n, k) ∈ d.groups ∧ (n, i) ∈ m.features ∧ edg m i = [r] ∧ data m r = some (.rel k) ∧
      relCalls m r = [.emplaceRelationship k n] := by
  obtain ⟨n, k, i, h1, h2, h3⟩ := h.rels r hr
  obtain ⟨r', g1, g2, _⟩ := h.grouped n k i h1 h2
  have hin := (h.wf.par_edge r i (.inr hr) h3).2
  rw [g1] at hin
  have := List.mem_singleton.1 hin
  subst this
  obtain ⟨f, f1, f2⟩ := h.wf.feat_ok _ h2
  refine ⟨n, k, i, h1, h2, g1, g2, ?_⟩
  unfold relCalls
  simp only [g2, h3, nameOf_of_data f1, f2]

theorem feat_calls {d : Desc} {m : FModel} (h : Describes d m) {n : Str} {i : Id} (hi : (n, i) ∈ m.features) :
    (n = d.root ∧ featCalls m i = [.makeRoot d.root]) ∨
    (n ≠ d.root ∧ ∃ a ∈ d.attrs, a.name = n ∧ a.kind ≠ .root ∧
      featCalls m i = [.makeFeature (clonedAttr a), .addEdge (d.parent n) n]) := by
  have w := h.wf
  obtain ⟨r, rf, r1, r2, r3, r4⟩ := h.root
  obtain ⟨q, h1, h2⟩ := parentFeature_spec w (.inl (known_of_mem hi))
  rcases (h.names n).1 ⟨i, hi⟩ with rfl | hn
  · left
    refine ⟨rfl, ?_⟩
    have := w.entry_unique hi r2
    subst this
    have hq : q = none := by
      cases q with
      | none => rfl
      | some p =>
        have hp := (h2 p).1 rfl
        have hr := w.root_par r1
        cases hp with
        | direct hp _ => rw [hr] at hp; cases hp
        | skip hp _ _ => rw [hr] at hp; cases hp
    unfold featCalls
    simp only [feat?_of_data r3, h1, hq, makeCall, r4, if_true]
  · right
    have hne : n ≠ d.root := by rintro rfl; exact h.root_new hn
    obtain ⟨a, ha, rfl⟩ := List.mem_map.1 hn
    obtain ⟨j, f, p, f1, f2, f3, f4, f5⟩ := h.feat a ha
    have := w.entry_unique hi f1
    subst this
    have hk : a.kind ≠ .root := by
      intro hk
      have hr := w.one_root i f (known_of_mem hi) f2 (by rw [f3]; exact hk)
      rw [r1] at hr; cases hr
      exact hne (w.id_unique hi r2)
    obtain ⟨pf, g1, g2⟩ := w.feat_ok _ f4
    refine ⟨hne, a, ha, rfl, hk, ?_⟩
    unfold featCalls
    simp only [feat?_of_data f2, h1, (h2 p).2 f5, nameOf_of_data g1, g2, makeCall, f3, if_neg hk]

section
variable {d : Desc} {m : FModel}

theorem flat_attrs (h : Describes d m) : ∀ {l : List (Str × Id)}, (∀ e ∈ l, e ∈ m.features) →
    (attrsOf (l.flatMap fun e => featCalls m e.2)).map Attr.name = (l.map Prod.fst).filter (fun n => n ≠ d.root) ∧
    (∀ a', a' ∈ attrsOf (l.flatMap fun e => featCalls m e.2) ↔ ∃ a ∈ d.attrs, a.name ∈ l.map Prod.fst ∧ a' = clonedAttr a) ∧
    rootsOf (l.flatMap fun e => featCalls m e.2) = (l.map Prod.fst).filter (fun n => n = d.root) ∧
    (∀ p c, .addEdge p c ∈ (l.flatMap fun e => featCalls m e.2) ↔ c ∈ l.map Prod.fst ∧ c ≠ d.root ∧ p = d.parent c) ∧
    groupsOf (l.flatMap fun e => featCalls m e.2) = [] ∧ constraintsOf (l.flatMap fun e => featCalls m e.2) = [] ∧
    namesOf (l.flatMap fun e => featCalls m e.2) = [] ∧ pathsOf (l.flatMap fun e => featCalls m e.2) = [] ∧
    commitsOf (l.flatMap fun e => featCalls m e.2) = []
  | [], _ => by simp [attrsOf, rootsOf, groupsOf, constraintsOf, namesOf, pathsOf, commitsOf]
  | (n, i) :: l, hl => by
    obtain ⟨i1, i2, i3, i4, i5, i6, i7, i8, i9⟩ := flat_attrs h (fun e he => hl e (List.mem_cons_of_mem _ he))
    rcases feat_calls h (hl _ (List.mem_cons_self ..)) with ⟨h1, h2⟩ | ⟨h1, a, a1, a2, a3, h2⟩
    · subst h1
      simp only [List.flatMap_cons, h2]
      refine ⟨?_, ?_, ?_, ?_, ?_, ?_, ?_, ?_, ?_⟩
      · simpa [attrsOf] using i1
      · intro a'
        simp only [List.map_cons, List.mem_cons]
        have : attrsOf ([BCall.makeRoot d.root] ++ l.flatMap fun e => featCalls m e.2) =
          attrsOf (l.flatMap fun e => featCalls m e.2) := by simp [attrsOf]
        rw [this, i2]
        constructor
        · rintro ⟨a, b1, b2, b3⟩; exact ⟨a, b1, .inr b2, b3⟩
        · rintro ⟨a, b1, b2 | b2, b3⟩
          · exact absurd (b2 ▸ List.mem_map_of_mem (f := Attr.name) b1) h.root_new
          · exact ⟨a, b1, b2, b3⟩
      · simp only [List.map_cons, List.filter_cons, decide_true, if_true, ← i3]
        simp [rootsOf]
      · intro p c
        simp only [List.map_cons, List.mem_cons, List.cons_append, List.nil_append, reduceCtorEq, false_or, i4]
        constructor
        · rintro ⟨b1, b2, b3⟩; exact ⟨.inr b1, b2, b3⟩
        · rintro ⟨b1 | b1, b2, b3⟩
          · exact absurd b1 b2
          · exact ⟨b1, b2, b3⟩
      · exact i5
      · exact i6
      · exact i7
      · exact i8
      · exact i9
    · simp only [List.flatMap_cons, h2]
      refine ⟨?_, ?_, ?_, ?_, ?_, ?_, ?_, ?_, ?_⟩
      · rw [List.map_cons, List.filter_cons, if_pos (by simpa using h1), ← i1]
        simp [attrsOf, clonedAttr_name, a2]
      · intro a'
        simp only [List.map_cons, List.mem_cons]
        have : attrsOf ([BCall.makeFeature (clonedAttr a), BCall.addEdge (d.parent n) n] ++ l.flatMap fun e => featCalls m e.2) =
          clonedAttr a :: attrsOf (l.flatMap fun e => featCalls m e.2) := by simp [attrsOf]
        rw [this, List.mem_cons, i2]
        constructor
        · rintro (rfl | ⟨b, b1, b2, b3⟩)
          · exact ⟨a, a1, .inl a2, rfl⟩
          · exact ⟨b, b1, .inr b2, b3⟩
        · rintro ⟨b, b1, b2 | b2, b3⟩
          · left
            rw [b3]
            obtain ⟨j, f, p, f1, f2, f3, _⟩ := h.feat a a1
            obtain ⟨j', f', p', f1', f2', f3', _⟩ := h.feat b b1
            rw [b2] at f1'; rw [a2] at f1
            have := h.wf.entry_unique f1 f1'
            subst this
            rw [f2] at f2'; cases f2'
            rw [← f3, ← f3']
          · exact .inr ⟨b, b1, b2, b3⟩
      · rw [List.map_cons, List.filter_cons, if_neg (by simpa using h1), ← i3]
        simp [rootsOf]
      · intro p c
        simp only [List.map_cons, List.mem_cons, List.cons_append, List.nil_append, reduceCtorEq, false_or, i4,
          BCall.addEdge.injEq]
        constructor
        · rintro (⟨rfl, rfl⟩ | ⟨b1, b2, b3⟩)
          · exact ⟨.inl rfl, h1, rfl⟩
          · exact ⟨.inr b1, b2, b3⟩
        · rintro ⟨rfl | b1, b2, b3⟩
          · exact .inl ⟨b3, rfl⟩
          · exact .inr ⟨b1, b2, b3⟩
      · exact i5
      · exact i6
      · exact i7
      · exact i8
      · exact i9

theorem flat_rels (h : Describes d m) : ∀ {l : List Id}, l.Nodup → (∀ r ∈ l, r ∈ m.rels) →
    attrsOf (l.flatMap (relCalls m)) = [] ∧ rootsOf (l.flatMap (relCalls m)) = [] ∧
    (∀ p c, .addEdge p c ∉ (l.flatMap (relCalls m))) ∧
    (∀ g, g ∈ groupsOf (l.flatMap (relCalls m)) ↔
      ∃ r ∈ l, ∃ i, (g.1, i) ∈ m.features ∧ edg m i = [r] ∧ data m r = some (.rel g.2)) ∧
    ((groupsOf (l.flatMap (relCalls m))).map Prod.fst).Nodup ∧
    constraintsOf (l.flatMap (relCalls m)) = [] ∧
    namesOf (l.flatMap (relCalls m)) = [] ∧ pathsOf (l.flatMap (relCalls m)) = [] ∧
    commitsOf (l.flatMap (relCalls m)) = []
  | [], _, _ => by simp [attrsOf, rootsOf, groupsOf, constraintsOf, namesOf, pathsOf, commitsOf]
  | r :: l, hn, hl => by
    rw [List.nodup_cons] at hn
    obtain ⟨i1, i2, i3, i4, i5, i6, i7, i8, i9⟩ := flat_rels h hn.2 (fun e he => hl e (List.mem_cons_of_mem _ he))
    obtain ⟨n, k, i, h1, h2, h3, h4, h5⟩ := rel_calls h (hl r (List.mem_cons_self ..))
    simp only [List.flatMap_cons, h5]
    have hg : groupsOf ([BCall.emplaceRelationship k n] ++ l.flatMap (relCalls m)) = (n, k) :: groupsOf (l.flatMap (relCalls m)) := rfl
    refine ⟨i1, i2, ?_, ?_, ?_, i6, i7, i8, i9⟩
    · intro p c hx
      rcases List.mem_cons.1 hx with hx | hx
      · cases hx
      · exact i3 p c hx
    · intro g
      rw [hg, List.mem_cons, i4]
      constructor
      · rintro (rfl | ⟨r', b1, b2⟩)
        · exact ⟨r, List.mem_cons_self .., i, h2, h3, h4⟩
        · exact ⟨r', List.mem_cons_of_mem _ b1, b2⟩
      · rintro ⟨r', b1, j, b2, b3, b4⟩
        rcases List.mem_cons.1 b1 with rfl | b1
        · left
          obtain ⟨g1, g2⟩ := g
          simp only at b2 b4
          rw [h4] at b4; cases b4
          have e1 := (h.wf.edge_par i r' (.inl (known_of_mem h2)) (by rw [h3]; exact List.mem_singleton.2 rfl)).2
          have e2 := (h.wf.edge_par j r' (.inl (known_of_mem b2)) (by rw [b3]; exact List.mem_singleton.2 rfl)).2
          rw [e1] at e2; cases e2
          rw [h.wf.id_unique b2 h2]
        · exact .inr ⟨r', b1, j, b2, b3, b4⟩
    · rw [hg, List.map_cons, List.nodup_cons]
      refine ⟨?_, i5⟩
      intro hx
      obtain ⟨g, hg1, hg2⟩ := List.mem_map.1 hx
      obtain ⟨r', b1, j, b2, b3, b4⟩ := (i4 g).1 hg1
      rw [hg2] at b2
      have := h.wf.entry_unique b2 h2
      subst this
      rw [h3] at b3
      cases b3
      exact hn.1 b1

theorem flat_cons (l : List (CKind × Constraint)) :
    attrsOf (l.map fun x => BCall.addConstraint x.1 x.2) = [] ∧ rootsOf (l.map fun x => BCall.addConstraint x.1 x.2) = [] ∧
    (∀ p c, .addEdge p c ∉ (l.map fun x => BCall.addConstraint x.1 x.2)) ∧
    groupsOf (l.map fun x => BCall.addConstraint x.1 x.2) = [] ∧
    constraintsOf (l.map fun x => BCall.addConstraint x.1 x.2) = l ∧
    namesOf (l.map fun x => BCall.addConstraint x.1 x.2) = [] ∧ pathsOf (l.map fun x => BCall.addConstraint x.1 x.2) = [] ∧
    commitsOf (l.map fun x => BCall.addConstraint x.1 x.2) = [] := by
  induction l with
  | nil => simp [attrsOf, rootsOf, groupsOf, constraintsOf, namesOf, pathsOf, commitsOf]
  | cons x xs ih =>
    obtain ⟨i1, i2, i3, i4, i5, i6, i7, i8⟩ := ih
    refine ⟨i1, i2, ?_, i4, ?_, i6, i7, i8⟩
    · intro p c hx
      rcases List.mem_cons.1 hx with hx | hx
      · cases hx
      · exact i3 p c hx
    · show (x.1, x.2) :: constraintsOf (xs.map fun x => BCall.addConstraint x.1 x.2) = x :: xs
      rw [i5]

/-- The description the calls of `clone` give. -/
def cloneDesc (E : Env) (m : FModel) (d : Desc) : Desc :=
  { d with attrs := attrsOf (allCalls E m d), groups := groupsOf (allCalls E m d),
           constraints := d.ofClass .boolean ++ d.ofClass .nonBoolean ++ d.ofClass .mixed }

/-- Level of the feature of a name. -/
noncomputable def nameRank (m : FModel) (n : Str) : Nat := match m.getFeature n with | some i => lvlOf m i | none => 0

theorem fparent_level {i p : Id} (w : WF m) (ho : Owned m i) (h : FParent m i p) : lvlOf m p < lvlOf m i := by
  induction h with
  | direct hp _ => have := w.level_par ho hp; omega
  | skip hp _ _ ih =>
    have h1 := w.level_par ho hp
    have := ih (w.par_edge _ _ ho hp).1
    omega

theorem clone_buildable (h : Describes d m) (E : Env) (hroot : c!"root" ∉ d.attrs.map Attr.name) :
    Buildable (allCalls E m d) (cloneDesc E m d) ∧
    (∀ a, a ∈ attrsOf (allCalls E m d) ↔ a ∈ d.attrs.map clonedAttr) ∧
    (∀ g, g ∈ groupsOf (allCalls E m d) ↔ g ∈ d.groups) := by
  have w := h.wf
  have hperm := E.mapOrder_perm m.features
  have hmem : ∀ n, n ∈ (E.mapOrder m.features).map Prod.fst ↔ n = d.root ∨ n ∈ d.attrs.map Attr.name := by
    intro n
    rw [(hperm.map Prod.fst).mem_iff, mem_features_fst, h.names]
  have hnd : ((E.mapOrder m.features).map Prod.fst).Nodup := (hperm.map Prod.fst).nodup_iff.2 w.names
  obtain ⟨a1, a2, a3, a4, a5, a6, a7, a8, a9⟩ := flat_attrs h (l := E.mapOrder m.features) (fun e he => hperm.mem_iff.1 he)
  obtain ⟨r1, r2, r3, r4, r5, r6, r7, r8, r9⟩ := flat_rels h w.rels_nodup (fun r hr => hr)
  obtain ⟨b1, b2, b3, b4, b5, b6, b7, b8⟩ := flat_cons (d.ofClass .boolean)
  obtain ⟨n1, n2, n3, n4, n5, n6, n7, n8⟩ := flat_cons (d.ofClass .nonBoolean)
  obtain ⟨x1, x2, x3, x4, x5, x6, x7, x8⟩ := flat_cons (d.ofClass .mixed)
  have app : ∀ a b : List BCall, attrsOf (a ++ b) = attrsOf a ++ attrsOf b ∧ rootsOf (a ++ b) = rootsOf a ++ rootsOf b ∧
      groupsOf (a ++ b) = groupsOf a ++ groupsOf b ∧ constraintsOf (a ++ b) = constraintsOf a ++ constraintsOf b ∧
      namesOf (a ++ b) = namesOf a ++ namesOf b ∧ pathsOf (a ++ b) = pathsOf a ++ pathsOf b ∧
      commitsOf (a ++ b) = commitsOf a ++ commitsOf b := by
    intro a b
    simp [attrsOf, rootsOf, groupsOf, constraintsOf, namesOf, pathsOf, commitsOf]
  have eattrs : attrsOf (allCalls E m d) = attrsOf ((E.mapOrder m.features).flatMap fun e => featCalls m e.2) := by
    unfold allCalls
    simp only [(app _ _).1, r1, b1, n1, x1, List.append_nil]
    simp [attrsOf]
  have eroots : rootsOf (allCalls E m d) = [d.root] := by
    unfold allCalls
    simp only [(app _ _).2.1, r2, b2, n2, x2, List.append_nil, a3]
    rw [filter_eq_singleton hnd ((hmem _).2 (.inl rfl)) (by intro x _; simp)]
    simp [rootsOf]
  have egroups : groupsOf (allCalls E m d) = groupsOf (m.rels.flatMap (relCalls m)) := by
    unfold allCalls
    simp only [(app _ _).2.2.1, a5, b4, n4, x4, List.append_nil]
    simp [groupsOf]
  have econs : constraintsOf (allCalls E m d) = d.ofClass .boolean ++ d.ofClass .nonBoolean ++ d.ofClass .mixed := by
    unfold allCalls
    simp only [(app _ _).2.2.2.1, a6, r6, b5, n5, x5, List.append_nil]
    simp [constraintsOf]
  have enames : namesOf (allCalls E m d) = [d.name] := by
    unfold allCalls
    simp only [(app _ _).2.2.2.2.1, a7, r7, b6, n6, x6, List.append_nil]
    simp [namesOf, h.name]
  have epaths : pathsOf (allCalls E m d) = [d.path] := by
    unfold allCalls
    simp only [(app _ _).2.2.2.2.2.1, a8, r8, b7, n7, x7, List.append_nil]
    simp [pathsOf, h.path]
  have ecommits : commitsOf (allCalls E m d) = [d.commit] := by
    unfold allCalls
    simp only [(app _ _).2.2.2.2.2.2, a9, r9, b8, n8, x8, List.append_nil]
    simp [commitsOf, h.commit]
  have eedges : ∀ p c, .addEdge p c ∈ allCalls E m d ↔ c ∈ d.attrs.map Attr.name ∧ p = d.parent c := by
    intro p c
    have : (.addEdge p c ∈ allCalls E m d) ↔ .addEdge p c ∈ ((E.mapOrder m.features).flatMap fun e => featCalls m e.2) := by
      unfold allCalls
      constructor
      · intro hx
        rcases List.mem_append.1 hx with hx | hx
        · rcases List.mem_append.1 hx with hx | hx
          · rcases List.mem_append.1 hx with hx | hx
            · rcases List.mem_append.1 hx with hx | hx
              · rcases List.mem_append.1 hx with hx | hx
                · simp at hx
                · exact hx
              · exact absurd hx (r3 p c)
            · exact absurd hx (b3 p c)
          · exact absurd hx (n3 p c)
        · exact absurd hx (x3 p c)
      · intro hx
        exact List.mem_append_left _ (List.mem_append_left _ (List.mem_append_left _ (List.mem_append_left _
          (List.mem_append_right _ hx))))
    rw [this, a4, hmem]
    constructor
    · rintro ⟨c1 | c1, c2, c3⟩
      · exact absurd c1 c2
      · exact ⟨c1, c3⟩
    · rintro ⟨c1, c3⟩
      exact ⟨.inr c1, by rintro rfl; exact h.root_new c1, c3⟩
  have mattrs : ∀ a, a ∈ attrsOf (allCalls E m d) ↔ a ∈ d.attrs.map clonedAttr := by
    intro a'
    rw [eattrs, a2, List.mem_map]
    constructor
    · rintro ⟨a, c1, _, c3⟩; exact ⟨a, c1, c3.symm⟩
    · rintro ⟨a, c1, c3⟩
      exact ⟨a, c1, (hmem _).2 (.inr (List.mem_map_of_mem c1)), c3.symm⟩
  have mnames : ∀ n, n ∈ (attrsOf (allCalls E m d)).map Attr.name ↔ n ∈ d.attrs.map Attr.name := by
    intro n
    rw [eattrs, a1, List.mem_filter, hmem]
    constructor
    · rintro ⟨c1 | c1, c2⟩
      · simp [c1] at c2
      · exact c1
    · intro c1
      exact ⟨.inr c1, by simp only [decide_eq_true_eq]; rintro rfl; exact h.root_new c1⟩
  have mgroups : ∀ g, g ∈ groupsOf (allCalls E m d) ↔ g ∈ d.groups := by
    intro g
    rw [egroups, r4]
    constructor
    · rintro ⟨r, c1, i, c2, c3, c4⟩
      obtain ⟨n, k, j, e1, e2, e3, e4, _⟩ := rel_calls h c1
      have p1 := (w.edge_par i r (.inl (known_of_mem c2)) (by rw [c3]; exact List.mem_singleton.2 rfl)).2
      have p2 := (w.edge_par j r (.inl (known_of_mem e2)) (by rw [e3]; exact List.mem_singleton.2 rfl)).2
      rw [p1] at p2; cases p2
      rw [c4] at e4; cases e4
      have := w.id_unique c2 e2
      subst this
      exact e1
    · intro hg
      obtain ⟨i, hi⟩ := (h.names g.1).2 (h.groups_known g hg)
      obtain ⟨r, e1, e2, _⟩ := h.grouped g.1 g.2 i hg hi
      have ho := (w.edge_par i r (.inl (known_of_mem hi)) (by rw [e1]; exact List.mem_singleton.2 rfl)).1
      exact ⟨r, w.owned_rel ho ⟨_, e2⟩, i, hi, e1, e2⟩
  refine ⟨?_, mattrs, mgroups⟩
  exact
    { attrs := rfl
      kinds := by
        intro a' ha'
        obtain ⟨a, c1, rfl⟩ := List.mem_map.1 ((mattrs a').1 ha')
        obtain ⟨i, hi⟩ := (h.names a.name).2 (.inr (List.mem_map_of_mem c1))
        rcases feat_calls h hi with ⟨e1, _⟩ | ⟨_, b, e1, e2, e3, _⟩
        · exact absurd (e1 ▸ List.mem_map_of_mem (f := Attr.name) c1) h.root_new
        · obtain ⟨j, f, p, f1, f2, f3, _⟩ := h.feat a c1
          obtain ⟨j', f', p', f1', f2', f3', _⟩ := h.feat b e1
          rw [e2] at f1'
          have := w.entry_unique f1 f1'
          subst this
          rw [f2] at f2'; cases f2'
          refine clonedAttr_kind ?_
          rw [← f3, f3']; exact e3
      distinct := by rw [eattrs, a1]; exact hnd.filter _
      root := .inr eroots
      root_new := by rw [mnames]; exact h.root_new
      default_root := by rw [mnames]; exact hroot
      edges := by
        intro p c hx
        obtain ⟨c1, c2⟩ := (eedges p c).1 hx
        refine ⟨(mnames c).2 c1, ?_, c2.symm⟩
        rw [mnames, c2]
        obtain ⟨a, ha, rfl⟩ := List.mem_map.1 c1
        obtain ⟨i, f, q, _, _, _, f4, _⟩ := h.feat a ha
        exact (h.names _).1 ⟨q, f4⟩
      no_edge := by
        intro a ha hx
        exact absurd ((eedges _ _).2 ⟨(mnames _).1 (List.mem_map_of_mem ha), rfl⟩) (hx (d.parent a.name))
      acyclic := by
        refine ⟨nameRank m, ?_⟩
        intro a' ha'
        obtain ⟨a, c1, rfl⟩ := List.mem_map.1 ((mattrs a').1 ha')
        rw [clonedAttr_name]
        obtain ⟨i, f, p, f1, f2, f3, f4, f5⟩ := h.feat a c1
        show nameRank m (d.parent a.name) < nameRank m a.name
        unfold nameRank
        rw [getFeature_mem w.names f1, getFeature_mem w.names f4]
        exact fparent_level w (.inl (known_of_mem f1)) f5
      groups := rfl
      one_group := by rw [egroups]; exact r5
      groups_known := by
        intro g hg
        rw [mnames]
        exact h.groups_known g ((mgroups g).1 hg)
      constraints := econs.symm
      name := .inr enames
      path := .inr epaths
      commit := .inr ecommits }

theorem ofClass_parts (d : Desc) (cl : CClass) (e : Desc)
    (he : e.constraints = d.ofClass .boolean ++ d.ofClass .nonBoolean ++ d.ofClass .mixed) : e.ofClass cl = d.ofClass cl := by
  have same : ∀ c : CClass, (d.ofClass c).filter (fun x => decide (x.1.cls = cl)) = if c = cl then d.ofClass c else [] := by
    intro c
    split
    · next h => subst h; unfold Desc.ofClass; rw [List.filter_filter]; simp
    · next h =>
      rw [List.filter_eq_nil_iff]
      intro x hx
      have := (List.mem_filter.1 hx).2
      simp only [decide_eq_true_eq] at this ⊢
      rw [this]; exact h
  show e.constraints.filter _ = _
  rw [he, List.filter_append, List.filter_append, same, same, same]
  cases cl <;> simp

/-- The calls for the clone of a described model build a model that is described in the same way,
    except for the members that are not passed on. -/
theorem clone_builds (h : Describes d m) (E : Env) (hroot : c!"root" ∉ d.attrs.map Attr.name) (hk : ConstraintsKnown d)
    {world : FModel} (hf : ∀ i, world.heap i ≠ none → i < world.next) :
    ∃ c, world.build E (builderOf (allCalls E m d)) = .built c ∧ Describes d.cloned c := by
  obtain ⟨hb, ma, mg⟩ := clone_buildable h E hroot
  have mn : ∀ n, n ∈ (attrsOf (allCalls E m d)).map Attr.name ↔ n ∈ d.attrs.map Attr.name := by
    intro n
    rw [← cloned_names]
    simp only [List.mem_map]
    constructor
    · rintro ⟨a, h1, h2⟩; exact ⟨a, (ma a).1 h1, h2⟩
    · rintro ⟨a, h1, h2⟩; exact ⟨a, (ma a).2 h1, h2⟩
  have hk' : ConstraintsKnown (cloneDesc E m d) := by
    intro x hx n hn
    show n = d.root ∨ n ∈ (attrsOf (allCalls E m d)).map Attr.name
    rw [mn]
    have hx : x ∈ d.ofClass .boolean ++ d.ofClass .nonBoolean ++ d.ofClass .mixed := hx
    have : x ∈ d.constraints := by
      rcases List.mem_append.1 hx with hx | hx
      · rcases List.mem_append.1 hx with hx | hx <;> exact (List.mem_filter.1 hx).1
      · exact (List.mem_filter.1 hx).1
    exact hk x this n hn
  obtain ⟨c, h1, h2⟩ := build_ok hf E hb hk'
  refine ⟨c, h1, h2.congr rfl rfl rfl rfl ?_ ?_ ?_ ?_ ?_⟩
  · rw [cloned_names]; exact h.distinct
  · intro a; exact (ma a).symm
  · intro a _; rfl
  · intro g; exact (mg g).symm
  · intro cl; exact (ofClass_parts d cl _ rfl).symm

/-- The clone of a described model. -/
theorem clone_describes (h : Describes d m) (E : Env) (hroot : c!"root" ∉ d.attrs.map Attr.name) (hk : ConstraintsKnown d) :
    ∃ c, m.clone E = .built c ∧ Describes d.cloned c := by
  obtain ⟨c, h1, h2⟩ := clone_builds h E hroot hk h.wf.fresh
  exact ⟨c, by simp only [FModel.clone, cloneCalls_eq h E, h1], h2⟩

/-- A constraint with a feature the model does not have makes `clone` fail. -/
theorem clone_fails (h : Describes d m) (E : Env) (hroot : c!"root" ∉ d.attrs.map Attr.name) (hk : ¬ ConstraintsKnown d) :
    m.clone E = if E.asserts then .ub else .null := by
  obtain ⟨hb, ma, mg⟩ := clone_buildable h E hroot
  have mn : ∀ n, n ∈ (attrsOf (allCalls E m d)).map Attr.name ↔ n ∈ d.attrs.map Attr.name := by
    intro n
    rw [← cloned_names]
    simp only [List.mem_map]
    constructor
    · rintro ⟨a, h1, h2⟩; exact ⟨a, (ma a).1 h1, h2⟩
    · rintro ⟨a, h1, h2⟩; exact ⟨a, (ma a).2 h1, h2⟩
  have hk' : ¬ ConstraintsKnown (cloneDesc E m d) := by
    intro hk'
    apply hk
    intro x hx n hn
    have hx' : x ∈ d.ofClass .boolean ++ d.ofClass .nonBoolean ++ d.ofClass .mixed := by
      simp only [List.mem_append, Desc.ofClass, List.mem_filter, decide_eq_true_eq]
      cases hc : x.1.cls <;> simp [hx]
    have := hk' x hx' n hn
    have this : n = d.root ∨ n ∈ (attrsOf (allCalls E m d)).map Attr.name := this
    rw [mn] at this
    exact this
  have h1 := build_constraint_missing h.wf.fresh E hb hk'
  simp only [FModel.clone, cloneCalls_eq h E, h1]

end

end Verif

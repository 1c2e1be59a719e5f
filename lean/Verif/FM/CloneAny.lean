import Verif.FM.DescOf
import Verif.FM.BuildOrder

/-!
# Cloning any well-formed model

`Describes` wants groups to hold all children of their feature and the root to have nothing but a name.  `clone` does not read
either: its calls are the same for every model with these features, parents and groups.
-/

namespace Verif
open Verif.Spec

namespace Spec

/-- What `clone` reads of a model.  Groups may hold some children of their feature only and be nested in one another; of those
    only the ones directly below a feature are told, at most one for each feature. -/
structure Outlines (d : Desc) (m : FModel) : Prop where
  wf : WF m
  name : m.name = d.name
  path : m.path = d.path
  commit : m.commit = d.commit
  distinct : (d.attrs.map Attr.name).Nodup
  root_new : d.root ∉ d.attrs.map Attr.name
  names : ∀ n, (∃ i, (n, i) ∈ m.features) ↔ n = d.root ∨ n ∈ d.attrs.map Attr.name
  root : ∃ i f, m.root = some i ∧ (d.root, i) ∈ m.features ∧ data m i = some (.feat f) ∧ f.attr.name = d.root ∧ f.attr.kind = .root
  feat : ∀ a ∈ d.attrs, ∃ i f p, (a.name, i) ∈ m.features ∧ data m i = some (.feat f) ∧ f.attr = a ∧
    (d.parent a.name, p) ∈ m.features ∧ FParent m i p
  groups : ∀ g, g ∈ d.groups ↔ ∃ r ∈ m.rels, ∃ i, (g.1, i) ∈ m.features ∧ par m r = some i ∧ data m r = some (.rel g.2)
  one : ∀ r r' i, r ∈ m.rels → r' ∈ m.rels → Known m i → par m r = some i → par m r' = some i → r = r'
  store : ∀ cl, m.store cl = (d.ofClass cl).map fun x => ⟨x.2, x.2.features.map m.getFeature, x.1.info⟩

end Spec

theorem cloneCalls_eq_any {d : Desc} {m : FModel} (h : Outlines d m) (E : Env) :
    m.cloneCalls E = some (builderOf (allCalls E m d)) := by
  have w := h.wf
  have hcls : ∀ cl, ∀ x ∈ d.ofClass cl, x.1.cls = cl := by
    intro cl x hx
    unfold Desc.ofClass at hx
    simpa using (List.mem_filter.1 hx).2
  unfold FModel.cloneCalls
  have h0 : ((((({} : ModelBuilder).setVmName m.name).setCommit m.commit).setPath m.path)) =
      builderOf [.setVmName m.name, .setCommit m.commit, .setPath m.path] := rfl
  simp only [h0]
  rw [foldlM_calls (g := fun e => featCalls m e.2)
    (fun e he cs => cloneFeature_calls w (List.mem_map_of_mem ((E.mapOrder_perm _).mem_iff.1 he)) cs)]
  simp only [Option.bind_eq_bind, Option.bind_some]
  rw [foldlM_calls (g := relCalls m) (fun r hr cs => cloneRel_calls w hr cs)]
  simp only [Option.bind_some]
  rw [show m.booleans = m.store .boolean from rfl, show m.nonBooleans = m.store .nonBoolean from rfl,
    show m.mixeds = m.store .mixed from rfl, h.store, h.store, h.store]
  rw [cloneConstraints_calls w (by
    intro x hx
    have := hcls _ x hx
    cases hk : x.1 <;> rw [hk] at this <;> cases this <;> rfl)]
  simp only [Option.bind_some]
  rw [cloneConstraints_calls w (by
    intro x hx
    have := hcls _ x hx
    cases hk : x.1 <;> rw [hk] at this <;> cases this <;> rfl)]
  simp only [Option.bind_some]
  rw [cloneConstraints_calls w (by
    intro x hx
    have := hcls _ x hx
    cases hk : x.1 <;> rw [hk] at this <;> cases this
    rfl)]
  rfl

theorem rel_calls_any {m : FModel} (w : WF m) {r : Id} (hr : r ∈ m.rels) :
    (∃ n k i, (n, i) ∈ m.features ∧ par m r = some i ∧ data m r = some (.rel k) ∧ relCalls m r = [.emplaceRelationship k n]) ∨
    (relCalls m r = [] ∧ ∀ i, par m r = some i → ¬ Known m i) := by
  obtain ⟨k, hk⟩ := w.rel_ok r hr
  cases hp : par m r with
  | none => exact .inr ⟨by unfold relCalls; simp only [hk, hp], fun i hi => by cases hi⟩
  | some p =>
    have ho := (w.par_edge r p (.inr hr) hp).1
    rcases ho with hkn | hrel
    · obtain ⟨n, hn⟩ := known_name hkn
      obtain ⟨f, f1, f2⟩ := w.feat_ok _ hn
      simp only at f1 f2
      exact .inl ⟨n, k, p, hn, rfl, hk, by unfold relCalls; simp only [hk, hp, nameOf_of_data f1, f2]⟩
    · obtain ⟨k', hk'⟩ := w.rel_ok p hrel
      have : m.nameOf p = none := by simp [FModel.nameOf, FModel.feat?, heap_of_data hk']
      refine .inr ⟨by unfold relCalls; simp only [hk, hp, this], ?_⟩
      intro i hi hkn
      cases hi
      obtain ⟨f, hf⟩ := w.known_data hkn
      rw [hf] at hk'; cases hk'

theorem feat_calls_any {d : Desc} {m : FModel} (h : Outlines d m) {n : Str} {i : Id} (hi : (n, i) ∈ m.features) :
    (n = d.root ∧ featCalls m i = [.makeRoot d.root]) ∨
    (n ≠ d.root ∧ ∃ a ∈ d.attrs, a.name = n ∧ a.kind ≠ .root ∧
      featCalls m i = [.makeFeature (clonedAttr a), .addEdge (d.parent n) n]) := by
  have w := h.wf
  obtain ⟨r, rf, r1, r2, r3, r4, r5⟩ := h.root
  obtain ⟨q, h1, h2⟩ := parentFeature_spec w (.inl (known_of_mem hi))
  rcases (h.names n).1 ⟨i, hi⟩ with rfl | hn
  · left
    refine ⟨rfl, ?_⟩
    have := w.entry_unique hi r2
    subst this
    have hq : q = none := by
      cases q with
      | none => rfl
      | some p =>
        have hp := (h2 p).1 rfl
        have hr := w.root_par r1
        cases hp with
        | direct hp _ => rw [hr] at hp; cases hp
        | skip hp _ _ => rw [hr] at hp; cases hp
    unfold featCalls
    simp only [feat?_of_data r3, h1, hq, makeCall, r4, r5, if_true]
  · right
    have hne : n ≠ d.root := by rintro rfl; exact h.root_new hn
    obtain ⟨a, ha, rfl⟩ := List.mem_map.1 hn
    obtain ⟨j, f, p, f1, f2, f3, f4, f5⟩ := h.feat a ha
    have := w.entry_unique hi f1
    subst this
    have hk : a.kind ≠ .root := by
      intro hk
      have hr := w.one_root i f (known_of_mem hi) f2 (by rw [f3]; exact hk)
      rw [r1] at hr; cases hr
      exact hne (w.id_unique hi r2)
    obtain ⟨pf, g1, g2⟩ := w.feat_ok _ f4
    refine ⟨hne, a, ha, rfl, hk, ?_⟩
    unfold featCalls
    simp only [feat?_of_data f2, h1, (h2 p).2 f5, nameOf_of_data g1, g2, makeCall, f3, if_neg hk]

section
variable {d : Desc} {m : FModel}

theorem flat_attrs_any (h : Outlines d m) : ∀ {l : List (Str × Id)}, (∀ e ∈ l, e ∈ m.features) →
    (attrsOf (l.flatMap fun e => featCalls m e.2)).map Attr.name = (l.map Prod.fst).filter (fun n => n ≠ d.root) ∧
    (∀ a', a' ∈ attrsOf (l.flatMap fun e => featCalls m e.2) ↔ ∃ a ∈ d.attrs, a.name ∈ l.map Prod.fst ∧ a' = clonedAttr a) ∧
    rootsOf (l.flatMap fun e => featCalls m e.2) = (l.map Prod.fst).filter (fun n => n = d.root) ∧
    (∀ p c, .addEdge p c ∈ (l.flatMap fun e => featCalls m e.2) ↔ c ∈ l.map Prod.fst ∧ c ≠ d.root ∧ p = d.parent c) ∧
    groupsOf (l.flatMap fun e => featCalls m e.2) = [] ∧ constraintsOf (l.flatMap fun e => featCalls m e.2) = [] ∧
    namesOf (l.flatMap fun e => featCalls m e.2) = [] ∧ pathsOf (l.flatMap fun e => featCalls m e.2) = [] ∧
    commitsOf (l.flatMap fun e => featCalls m e.2) = []
  | [], _ => by simp [attrsOf, rootsOf, groupsOf, constraintsOf, namesOf, pathsOf, commitsOf]
  | (n, i) :: l, hl => by
    obtain ⟨i1, i2, i3, i4, i5, i6, i7, i8, i9⟩ := flat_attrs_any h (fun e he => hl e (List.mem_cons_of_mem _ he))
    rcases feat_calls_any h (hl _ (List.mem_cons_self ..)) with ⟨h1, h2⟩ | ⟨h1, a, a1, a2, a3, h2⟩
    · subst h1
      simp only [List.flatMap_cons, h2]
      refine ⟨?_, ?_, ?_, ?_, ?_, ?_, ?_, ?_, ?_⟩
      · simpa [attrsOf] using i1
      · intro a'
        simp only [List.map_cons, List.mem_cons]
        have : attrsOf ([BCall.makeRoot d.root] ++ l.flatMap fun e => featCalls m e.2) =
          attrsOf (l.flatMap fun e => featCalls m e.2) := by simp [attrsOf]
        rw [this, i2]
        constructor
        · rintro ⟨a, b1, b2, b3⟩; exact ⟨a, b1, .inr b2, b3⟩
        · rintro ⟨a, b1, b2 | b2, b3⟩
          · exact absurd (b2 ▸ List.mem_map_of_mem (f := Attr.name) b1) h.root_new
          · exact ⟨a, b1, b2, b3⟩
      · simp only [List.map_cons, List.filter_cons, decide_true, if_true, ← i3]
        simp [rootsOf]
      · intro p c
        simp only [List.map_cons, List.mem_cons, List.cons_append, List.nil_append, reduceCtorEq, false_or, i4]
        constructor
        · rintro ⟨b1, b2, b3⟩; exact ⟨.inr b1, b2, b3⟩
        · rintro ⟨b1 | b1, b2, b3⟩
          · exact absurd b1 b2
          · exact ⟨b1, b2, b3⟩
      · exact i5
      · exact i6
      · exact i7
      · exact i8
      · exact i9
    · simp only [List.flatMap_cons, h2]
      refine ⟨?_, ?_, ?_, ?_, ?_, ?_, ?_, ?_, ?_⟩
      · rw [List.map_cons, List.filter_cons, if_pos (by simpa using h1), ← i1]
        simp [attrsOf, clonedAttr_name, a2]
      · intro a'
        simp only [List.map_cons, List.mem_cons]
        have : attrsOf ([BCall.makeFeature (clonedAttr a), BCall.addEdge (d.parent n) n] ++ l.flatMap fun e => featCalls m e.2) =
          clonedAttr a :: attrsOf (l.flatMap fun e => featCalls m e.2) := by simp [attrsOf]
        rw [this, List.mem_cons, i2]
        constructor
        · rintro (rfl | ⟨b, b1, b2, b3⟩)
          · exact ⟨a, a1, .inl a2, rfl⟩
          · exact ⟨b, b1, .inr b2, b3⟩
        · rintro ⟨b, b1, b2 | b2, b3⟩
          · left
            rw [b3]
            obtain ⟨j, f, p, f1, f2, f3, _⟩ := h.feat a a1
            obtain ⟨j', f', p', f1', f2', f3', _⟩ := h.feat b b1
            rw [b2] at f1'; rw [a2] at f1
            have := h.wf.entry_unique f1 f1'
            subst this
            rw [f2] at f2'; cases f2'
            rw [← f3, ← f3']
          · exact .inr ⟨b, b1, b2, b3⟩
      · rw [List.map_cons, List.filter_cons, if_neg (by simpa using h1), ← i3]
        simp [rootsOf]
      · intro p c
        simp only [List.map_cons, List.mem_cons, List.cons_append, List.nil_append, reduceCtorEq, false_or, i4,
          BCall.addEdge.injEq]
        constructor
        · rintro (⟨rfl, rfl⟩ | ⟨b1, b2, b3⟩)
          · exact ⟨.inl rfl, h1, rfl⟩
          · exact ⟨.inr b1, b2, b3⟩
        · rintro ⟨rfl | b1, b2, b3⟩
          · exact .inl ⟨b3, rfl⟩
          · exact .inr ⟨b1, b2, b3⟩
      · exact i5
      · exact i6
      · exact i7
      · exact i8
      · exact i9

theorem flat_rels_any (h : Outlines d m) : ∀ {l : List Id}, l.Nodup → (∀ r ∈ l, r ∈ m.rels) →
    attrsOf (l.flatMap (relCalls m)) = [] ∧ rootsOf (l.flatMap (relCalls m)) = [] ∧
    (∀ p c, .addEdge p c ∉ (l.flatMap (relCalls m))) ∧
    (∀ g, g ∈ groupsOf (l.flatMap (relCalls m)) ↔
      ∃ r ∈ l, ∃ i, (g.1, i) ∈ m.features ∧ par m r = some i ∧ data m r = some (.rel g.2)) ∧
    ((groupsOf (l.flatMap (relCalls m))).map Prod.fst).Nodup ∧
    constraintsOf (l.flatMap (relCalls m)) = [] ∧
    namesOf (l.flatMap (relCalls m)) = [] ∧ pathsOf (l.flatMap (relCalls m)) = [] ∧
    commitsOf (l.flatMap (relCalls m)) = []
  | [], _, _ => by simp [attrsOf, rootsOf, groupsOf, constraintsOf, namesOf, pathsOf, commitsOf]
  | r :: l, hn, hl => by
    rw [List.nodup_cons] at hn
    obtain ⟨i1, i2, i3, i4, i5, i6, i7, i8, i9⟩ := flat_rels_any h hn.2 (fun e he => hl e (List.mem_cons_of_mem _ he))
    rcases rel_calls_any h.wf (hl r (List.mem_cons_self ..)) with ⟨n, k, i, h2, h3, h4, h5⟩ | ⟨h5, h6⟩
    · simp only [List.flatMap_cons, h5]
      have hg : groupsOf ([BCall.emplaceRelationship k n] ++ l.flatMap (relCalls m)) = (n, k) :: groupsOf (l.flatMap (relCalls m)) := rfl
      refine ⟨i1, i2, ?_, ?_, ?_, i6, i7, i8, i9⟩
      · intro p c hx
        rcases List.mem_cons.1 hx with hx | hx
        · cases hx
        · exact i3 p c hx
      · intro g
        rw [hg, List.mem_cons, i4]
        constructor
        · rintro (rfl | ⟨r', b1, b2⟩)
          · exact ⟨r, List.mem_cons_self .., i, h2, h3, h4⟩
          · exact ⟨r', List.mem_cons_of_mem _ b1, b2⟩
        · rintro ⟨r', b1, j, b2, b3, b4⟩
          rcases List.mem_cons.1 b1 with rfl | b1
          · left
            obtain ⟨g1, g2⟩ := g
            simp only at b2 b4
            rw [h4] at b4; cases b4
            rw [h3] at b3; cases b3
            rw [h.wf.id_unique b2 h2]
          · exact .inr ⟨r', b1, j, b2, b3, b4⟩
      · rw [hg, List.map_cons, List.nodup_cons]
        refine ⟨?_, i5⟩
        intro hx
        obtain ⟨g, hg1, hg2⟩ := List.mem_map.1 hx
        obtain ⟨r', b1, j, b2, b3, b4⟩ := (i4 g).1 hg1
        rw [hg2] at b2
        have := h.wf.entry_unique b2 h2
        subst this
        have := h.one r r' j (hl r (List.mem_cons_self ..)) (hl r' (List.mem_cons_of_mem _ b1)) (known_of_mem h2) h3 b3
        subst this
        exact hn.1 b1
    · simp only [List.flatMap_cons, h5, List.nil_append]
      refine ⟨i1, i2, i3, ?_, i5, i6, i7, i8, i9⟩
      intro g
      rw [i4]
      constructor
      · rintro ⟨r', b1, b2⟩; exact ⟨r', List.mem_cons_of_mem _ b1, b2⟩
      · rintro ⟨r', b1, j, b2, b3, b4⟩
        rcases List.mem_cons.1 b1 with rfl | b1
        · exact absurd (known_of_mem b2) (h6 j b3)
        · exact ⟨r', b1, j, b2, b3, b4⟩

theorem clone_buildable_any (h : Outlines d m) (E : Env) (hfree : NamesFree c!"root" [] (allCalls E m d)) :
    BuildableInOrder (allCalls E m d) (cloneDesc E m d) ∧
    (∀ a, a ∈ attrsOf (allCalls E m d) ↔ a ∈ d.attrs.map clonedAttr) ∧
    (∀ g, g ∈ groupsOf (allCalls E m d) ↔ g ∈ d.groups) := by
  have w := h.wf
  have hperm := E.mapOrder_perm m.features
  have hmem : ∀ n, n ∈ (E.mapOrder m.features).map Prod.fst ↔ n = d.root ∨ n ∈ d.attrs.map Attr.name := by
    intro n
    rw [(hperm.map Prod.fst).mem_iff, mem_features_fst, h.names]
  have hnd : ((E.mapOrder m.features).map Prod.fst).Nodup := (hperm.map Prod.fst).nodup_iff.2 w.names
  obtain ⟨a1, a2, a3, a4, a5, a6, a7, a8, a9⟩ := flat_attrs_any h (l := E.mapOrder m.features) (fun e he => hperm.mem_iff.1 he)
  obtain ⟨r1, r2, r3, r4, r5, r6, r7, r8, r9⟩ := flat_rels_any h w.rels_nodup (fun r hr => hr)
  obtain ⟨b1, b2, b3, b4, b5, b6, b7, b8⟩ := flat_cons (d.ofClass .boolean)
  obtain ⟨n1, n2, n3, n4, n5, n6, n7, n8⟩ := flat_cons (d.ofClass .nonBoolean)
  obtain ⟨x1, x2, x3, x4, x5, x6, x7, x8⟩ := flat_cons (d.ofClass .mixed)
  have app : ∀ a b : List BCall, attrsOf (a ++ b) = attrsOf a ++ attrsOf b ∧ rootsOf (a ++ b) = rootsOf a ++ rootsOf b ∧
      groupsOf (a ++ b) = groupsOf a ++ groupsOf b ∧ constraintsOf (a ++ b) = constraintsOf a ++ constraintsOf b ∧
      namesOf (a ++ b) = namesOf a ++ namesOf b ∧ pathsOf (a ++ b) = pathsOf a ++ pathsOf b ∧
      commitsOf (a ++ b) = commitsOf a ++ commitsOf b := by
    intro a b
    simp [attrsOf, rootsOf, groupsOf, constraintsOf, namesOf, pathsOf, commitsOf]
  have eattrs : attrsOf (allCalls E m d) = attrsOf ((E.mapOrder m.features).flatMap fun e => featCalls m e.2) := by
    unfold allCalls
    simp only [(app _ _).1, r1, b1, n1, x1, List.append_nil]
    simp [attrsOf]
  have eroots : rootsOf (allCalls E m d) = [d.root] := by
    unfold allCalls
    simp only [(app _ _).2.1, r2, b2, n2, x2, List.append_nil, a3]
    rw [filter_eq_singleton hnd ((hmem _).2 (.inl rfl)) (by intro x _; simp)]
    simp [rootsOf]
  have egroups : groupsOf (allCalls E m d) = groupsOf (m.rels.flatMap (relCalls m)) := by
    unfold allCalls
    simp only [(app _ _).2.2.1, a5, b4, n4, x4, List.append_nil]
    simp [groupsOf]
  have econs : constraintsOf (allCalls E m d) = d.ofClass .boolean ++ d.ofClass .nonBoolean ++ d.ofClass .mixed := by
    unfold allCalls
    simp only [(app _ _).2.2.2.1, a6, r6, b5, n5, x5, List.append_nil]
    simp [constraintsOf]
  have enames : namesOf (allCalls E m d) = [d.name] := by
    unfold allCalls
    simp only [(app _ _).2.2.2.2.1, a7, r7, b6, n6, x6, List.append_nil]
    simp [namesOf, h.name]
  have epaths : pathsOf (allCalls E m d) = [d.path] := by
    unfold allCalls
    simp only [(app _ _).2.2.2.2.2.1, a8, r8, b7, n7, x7, List.append_nil]
    simp [pathsOf, h.path]
  have ecommits : commitsOf (allCalls E m d) = [d.commit] := by
    unfold allCalls
    simp only [(app _ _).2.2.2.2.2.2, a9, r9, b8, n8, x8, List.append_nil]
    simp [commitsOf, h.commit]
  have eedges : ∀ p c, .addEdge p c ∈ allCalls E m d ↔ c ∈ d.attrs.map Attr.name ∧ p = d.parent c := by
    intro p c
    have : (.addEdge p c ∈ allCalls E m d) ↔ .addEdge p c ∈ ((E.mapOrder m.features).flatMap fun e => featCalls m e.2) := by
      unfold allCalls
      constructor
      · intro hx
        rcases List.mem_append.1 hx with hx | hx
        · rcases List.mem_append.1 hx with hx | hx
          · rcases List.mem_append.1 hx with hx | hx
            · rcases List.mem_append.1 hx with hx | hx
              · rcases List.mem_append.1 hx with hx | hx
                · simp at hx
                · exact hx
              · exact absurd hx (r3 p c)
            · exact absurd hx (b3 p c)
          · exact absurd hx (n3 p c)
        · exact absurd hx (x3 p c)
      · intro hx
        exact List.mem_append_left _ (List.mem_append_left _ (List.mem_append_left _ (List.mem_append_left _
          (List.mem_append_right _ hx))))
    rw [this, a4, hmem]
    constructor
    · rintro ⟨c1 | c1, c2, c3⟩
      · exact absurd c1 c2
      · exact ⟨c1, c3⟩
    · rintro ⟨c1, c3⟩
      exact ⟨.inr c1, by rintro rfl; exact h.root_new c1, c3⟩
  have mattrs : ∀ a, a ∈ attrsOf (allCalls E m d) ↔ a ∈ d.attrs.map clonedAttr := by
    intro a'
    rw [eattrs, a2, List.mem_map]
    constructor
    · rintro ⟨a, c1, _, c3⟩; exact ⟨a, c1, c3.symm⟩
    · rintro ⟨a, c1, c3⟩
      exact ⟨a, c1, (hmem _).2 (.inr (List.mem_map_of_mem c1)), c3.symm⟩
  have mnames : ∀ n, n ∈ (attrsOf (allCalls E m d)).map Attr.name ↔ n ∈ d.attrs.map Attr.name := by
    intro n
    rw [eattrs, a1, List.mem_filter, hmem]
    constructor
    · rintro ⟨c1 | c1, c2⟩
      · simp [c1] at c2
      · exact c1
    · intro c1
      exact ⟨.inr c1, by simp only [decide_eq_true_eq]; rintro rfl; exact h.root_new c1⟩
  have mgroups : ∀ g, g ∈ groupsOf (allCalls E m d) ↔ g ∈ d.groups := by
    intro g
    rw [egroups, r4, h.groups]
  refine ⟨?_, mattrs, mgroups⟩
  exact
    { attrs := rfl
      kinds := by
        intro a' ha'
        obtain ⟨a, c1, rfl⟩ := List.mem_map.1 ((mattrs a').1 ha')
        obtain ⟨i, hi⟩ := (h.names a.name).2 (.inr (List.mem_map_of_mem c1))
        rcases feat_calls_any h hi with ⟨e1, _⟩ | ⟨_, b, e1, e2, e3, _⟩
        · exact absurd (e1 ▸ List.mem_map_of_mem (f := Attr.name) c1) h.root_new
        · obtain ⟨j, f, p, f1, f2, f3, _⟩ := h.feat a c1
          obtain ⟨j', f', p', f1', f2', f3', _⟩ := h.feat b e1
          rw [e2] at f1'
          have := w.entry_unique f1 f1'
          subst this
          rw [f2] at f2'; cases f2'
          refine clonedAttr_kind ?_
          rw [← f3, f3']; exact e3
      free := hfree
      root := by rw [eroots]; rfl
      edges := by
        intro p c hx
        obtain ⟨c1, c2⟩ := (eedges p c).1 hx
        refine ⟨(mnames c).2 c1, ?_, c2.symm⟩
        rw [mnames, c2]
        obtain ⟨a, ha, rfl⟩ := List.mem_map.1 c1
        obtain ⟨i, f, q, _, _, _, f4, _⟩ := h.feat a ha
        exact (h.names _).1 ⟨q, f4⟩
      no_edge := by
        intro a ha hx
        exact absurd ((eedges _ _).2 ⟨(mnames _).1 (List.mem_map_of_mem ha), rfl⟩) (hx (d.parent a.name))
      acyclic := by
        refine ⟨nameRank m, ?_⟩
        intro a' ha'
        obtain ⟨a, c1, rfl⟩ := List.mem_map.1 ((mattrs a').1 ha')
        rw [clonedAttr_name]
        obtain ⟨i, f, p, f1, f2, f3, f4, f5⟩ := h.feat a c1
        show nameRank m (d.parent a.name) < nameRank m a.name
        unfold nameRank
        rw [getFeature_mem w.names f1, getFeature_mem w.names f4]
        exact fparent_level w (.inl (known_of_mem f1)) f5
      groups := rfl
      one_group := by rw [egroups]; exact r5
      groups_known := by
        intro g hg
        rw [mnames]
        obtain ⟨_, _, i, hi, _⟩ := (h.groups g).1 ((mgroups g).1 hg)
        exact (h.names g.1).1 ⟨i, hi⟩
      constraints := econs.symm
      name := by rw [enames]; rfl
      path := by rw [epaths]; rfl
      commit := by rw [ecommits]; rfl }

/-- The calls for the clone of any such model build a model that is described in the same way,
    except for the members that are not passed on. -/
theorem clone_builds_any (h : Outlines d m) (E : Env) (hfree : NamesFree c!"root" [] (allCalls E m d)) (hk : ConstraintsKnown d)
    {world : FModel} (hf : ∀ i, world.heap i ≠ none → i < world.next) :
    ∃ c, world.build E (builderOf (allCalls E m d)) = .built c ∧ Describes d.cloned c := by
  obtain ⟨hb, ma, mg⟩ := clone_buildable_any h E hfree
  have mn : ∀ n, n ∈ (attrsOf (allCalls E m d)).map Attr.name ↔ n ∈ d.attrs.map Attr.name := by
    intro n
    rw [← cloned_names]
    simp only [List.mem_map]
    constructor
    · rintro ⟨a, h1, h2⟩; exact ⟨a, (ma a).1 h1, h2⟩
    · rintro ⟨a, h1, h2⟩; exact ⟨a, (ma a).2 h1, h2⟩
  have hk' : ConstraintsKnown (cloneDesc E m d) := by
    intro x hx n hn
    show n = d.root ∨ n ∈ (attrsOf (allCalls E m d)).map Attr.name
    rw [mn]
    have hx : x ∈ d.ofClass .boolean ++ d.ofClass .nonBoolean ++ d.ofClass .mixed := hx
    have : x ∈ d.constraints := by
      rcases List.mem_append.1 hx with hx | hx
      · rcases List.mem_append.1 hx with hx | hx <;> exact (List.mem_filter.1 hx).1
      · exact (List.mem_filter.1 hx).1
    exact hk x this n hn
  obtain ⟨c, h1, h2⟩ := build_ok_order hf E hb hk'
  refine ⟨c, h1, h2.congr rfl rfl rfl rfl ?_ ?_ ?_ ?_ ?_⟩
  · rw [cloned_names]; exact h.distinct
  · intro a; exact (ma a).symm
  · intro a _; rfl
  · intro g; exact (mg g).symm
  · intro cl; exact (ofClass_parts d cl _ rfl).symm

/-- The clone of any such model. -/
theorem clone_describes_any (h : Outlines d m) (E : Env) (hfree : NamesFree c!"root" [] (allCalls E m d)) (hk : ConstraintsKnown d) :
    ∃ c, m.clone E = .built c ∧ Describes d.cloned c := by
  obtain ⟨c, h1, h2⟩ := clone_builds_any h E hfree hk h.wf.fresh
  exact ⟨c, by simp only [FModel.clone, cloneCalls_eq_any h E, h1], h2⟩

/-- A constraint with a feature the model does not have makes `clone` fail. -/
theorem clone_fails_any (h : Outlines d m) (E : Env) (hfree : NamesFree c!"root" [] (allCalls E m d)) (hk : ¬ ConstraintsKnown d) :
    m.clone E = if E.asserts then .ub else .null := by
  obtain ⟨hb, ma, mg⟩ := clone_buildable_any h E hfree
  have mn : ∀ n, n ∈ (attrsOf (allCalls E m d)).map Attr.name ↔ n ∈ d.attrs.map Attr.name := by
    intro n
    rw [← cloned_names]
    simp only [List.mem_map]
    constructor
    · rintro ⟨a, h1, h2⟩; exact ⟨a, (ma a).1 h1, h2⟩
    · rintro ⟨a, h1, h2⟩; exact ⟨a, (ma a).2 h1, h2⟩
  have hk' : ¬ ConstraintsKnown (cloneDesc E m d) := by
    intro hk'
    apply hk
    intro x hx n hn
    have hx' : x ∈ d.ofClass .boolean ++ d.ofClass .nonBoolean ++ d.ofClass .mixed := by
      simp only [List.mem_append, Desc.ofClass, List.mem_filter, decide_eq_true_eq]
      cases hc : x.1.cls <;> simp [hx]
    have := hk' x hx' n hn
    have this : n = d.root ∨ n ∈ (attrsOf (allCalls E m d)).map Attr.name := this
    rw [mn] at this
    exact this
  have h1 := build_constraint_missing_order h.wf.fresh E hb hk'
  simp only [FModel.clone, cloneCalls_eq_any h E, h1]

end

/-- The calls for the clone are never for a second root kind. -/
theorem clone_kinds_any {d : Desc} {m : FModel} (h : Outlines d m) (E : Env) : ∀ a ∈ attrsOf (allCalls E m d), a.kind ≠ .root := by
  intro a' ha'
  have hperm := E.mapOrder_perm m.features
  obtain ⟨_, a2, _⟩ := flat_attrs_any h (l := E.mapOrder m.features) (fun e he => hperm.mem_iff.1 he)
  obtain ⟨r1, _⟩ := flat_rels_any h h.wf.rels_nodup (fun r hr => hr)
  have e : attrsOf (allCalls E m d) = attrsOf ((E.mapOrder m.features).flatMap fun e => featCalls m e.2) := by
    have app : ∀ a b : List BCall, attrsOf (a ++ b) = attrsOf a ++ attrsOf b := by intro a b; simp [attrsOf]
    unfold allCalls
    simp only [app, r1, (flat_cons _).1, List.append_nil]
    simp [attrsOf]
  rw [e, a2] at ha'
  obtain ⟨a, c1, _, rfl⟩ := ha'
  obtain ⟨i, f, p, f1, f2, f3, _⟩ := h.feat a c1
  refine clonedAttr_kind fun hk => ?_
  have hr := h.wf.one_root i f (known_of_mem f1) f2 (by rw [f3]; exact hk)
  obtain ⟨r, rf, r1, r2, _⟩ := h.root
  rw [r1] at hr; cases hr
  exact h.root_new (h.wf.id_unique r2 f1 ▸ List.mem_map_of_mem c1)

/-- Without features and roots there is nothing to take a name. -/
theorem namesFree_rest : ∀ {calls : List BCall} {r : Str} {ns : List Str}, attrsOf calls = [] → rootsOf calls = [] → NamesFree r ns calls
  | [], _, _, _, _ => trivial
  | .makeFeature a :: cs, _, _, h, _ => by simp [attrsOf] at h
  | .makeRoot n :: cs, _, _, _, h => by simp [rootsOf] at h
  | .addEdge _ _ :: cs, _, _, h1, h2 => namesFree_rest (calls := cs) h1 h2
  | .emplaceRelationship _ _ :: cs, _, _, h1, h2 => namesFree_rest (calls := cs) h1 h2
  | .addConstraint _ _ :: cs, _, _, h1, h2 => namesFree_rest (calls := cs) h1 h2
  | .setVmName _ :: cs, _, _, h1, h2 => namesFree_rest (calls := cs) h1 h2
  | .setPath _ :: cs, _, _, h1, h2 => namesFree_rest (calls := cs) h1 h2
  | .setCommit _ :: cs, _, _, h1, h2 => namesFree_rest (calls := cs) h1 h2

/-- A root of this name comes before what is called `root`. -/
def RootFirst (r : Str) : List Str → Prop
  | [] => True
  | n :: l => n = r ∨ (n ≠ c!"root" ∧ RootFirst r l)

theorem rootFirst_iff (r : Str) : ∀ l : List Str, RootFirst r l ↔ ∀ pre post, l = pre ++ c!"root" :: post → c!"root" = r ∨ r ∈ pre
  | [] => ⟨fun _ pre post h => by simp at h, fun _ => trivial⟩
  | n :: l => by
    constructor
    · rintro h pre post e
      cases pre with
      | nil =>
        simp only [List.nil_append, List.cons.injEq] at e
        rcases h with h | ⟨h, _⟩
        · exact .inl (e.1 ▸ h)
        · exact absurd e.1 h
      | cons x pre =>
        simp only [List.cons_append, List.cons.injEq] at e
        rcases h with h | ⟨_, h⟩
        · exact .inr (by rw [← e.1, h]; exact List.mem_cons_self ..)
        · rcases (rootFirst_iff r l).1 h pre post e.2 with h | h
          · exact .inl h
          · exact .inr (List.mem_cons_of_mem _ h)
    · intro h
      by_cases e : n = r
      · exact .inl e
      · refine .inr ⟨?_, (rootFirst_iff r l).2 ?_⟩
        · rintro rfl
          rcases h [] l rfl with h | h
          · exact e h
          · cases h
        · intro pre post hl
          rcases h (n :: pre) post (by rw [hl]; rfl) with h | h
          · exact .inl h
          · rcases List.mem_cons.1 h with h | h
            · exact absurd h.symm e
            · exact .inr h

theorem namesFree_after {d : Desc} {m : FModel} (h : Outlines d m) {rest : List BCall} (h1 : attrsOf rest = []) (h2 : rootsOf rest = []) :
    ∀ {l : List (Str × Id)} {ns : List Str}, (∀ e ∈ l, e ∈ m.features) → (l.map Prod.fst).Nodup → d.root ∉ l.map Prod.fst →
      (∀ n ∈ ns, n ∉ l.map Prod.fst) → NamesFree d.root ns ((l.flatMap fun e => featCalls m e.2) ++ rest)
  | [], ns, _, _, _, _ => namesFree_rest h1 h2
  | (n, i) :: l, ns, hl, hd, hr, hn => by
    simp only [List.map_cons, List.nodup_cons, List.mem_cons, not_or] at hd hr hn
    rcases feat_calls_any h (hl _ (List.mem_cons_self ..)) with ⟨e, _⟩ | ⟨h3, a, a1, a2, a3, e⟩
    · exact absurd e.symm hr.1
    · simp only [List.flatMap_cons, e]
      refine ⟨by rw [clonedAttr_name, a2]; exact h3, by rw [clonedAttr_name, a2]; exact fun hx => (hn n hx).1 rfl, ?_⟩
      refine namesFree_after h h1 h2 (fun e he => hl e (List.mem_cons_of_mem _ he)) hd.2 hr.2 ?_
      intro x hx
      rcases List.mem_append.1 hx with hx | hx
      · exact (hn x hx).2
      · rw [List.mem_singleton.1 hx, clonedAttr_name, a2]; exact hd.1

theorem namesFree_before {d : Desc} {m : FModel} (h : Outlines d m) {rest : List BCall} (h1 : attrsOf rest = []) (h2 : rootsOf rest = []) :
    ∀ {l : List (Str × Id)} {ns : List Str}, (∀ e ∈ l, e ∈ m.features) → (l.map Prod.fst).Nodup →
      (∀ n ∈ ns, n ∉ l.map Prod.fst) →
      (NamesFree c!"root" ns ((l.flatMap fun e => featCalls m e.2) ++ rest) ↔ RootFirst d.root (l.map Prod.fst))
  | [], ns, _, _, _ => ⟨fun _ => trivial, fun _ => namesFree_rest h1 h2⟩
  | (n, i) :: l, ns, hl, hd, hn => by
    simp only [List.map_cons, List.nodup_cons, List.mem_cons, not_or] at hd hn
    rcases feat_calls_any h (hl _ (List.mem_cons_self ..)) with ⟨e1, e⟩ | ⟨h3, a, a1, a2, a3, e⟩
    · subst e1
      refine ⟨fun _ => .inl rfl, fun _ => ?_⟩
      simp only [List.flatMap_cons, e]
      exact ⟨fun hx => (hn _ hx).1 rfl, namesFree_after h h1 h2 (fun e he => hl e (List.mem_cons_of_mem _ he)) hd.2 hd.1
        (fun x hx => (hn x hx).2)⟩
    · simp only [List.flatMap_cons, e, List.map_cons]
      have ih := namesFree_before h h1 h2 (l := l) (ns := ns ++ [n]) (fun e he => hl e (List.mem_cons_of_mem _ he)) hd.2 (by
        intro x hx
        rcases List.mem_append.1 hx with hx | hx
        · exact (hn x hx).2
        · rw [List.mem_singleton.1 hx]; exact hd.1)
      show (_ ∧ _ ∧ NamesFree _ _ _) ↔ _
      rw [clonedAttr_name, a2]
      constructor
      · rintro ⟨g1, _, g2⟩; exact .inr ⟨g1, ih.1 g2⟩
      · rintro (g | ⟨g1, g2⟩)
        · exact absurd g h3
        · exact ⟨g1, fun hx => (hn n hx).1 rfl, ih.2 g2⟩

/-- When the names are free in the calls of `clone`. -/
theorem clone_free_any {d : Desc} {m : FModel} (h : Outlines d m) (E : Env) :
    NamesFree c!"root" [] (allCalls E m d) ↔ RootFirst d.root ((E.mapOrder m.features).map Prod.fst) := by
  have hperm := E.mapOrder_perm m.features
  obtain ⟨r1, r2, _⟩ := flat_rels_any h h.wf.rels_nodup (fun r hr => hr)
  rw [← namesFree_before h (rest := m.rels.flatMap (relCalls m) ++ ((d.ofClass .boolean).map (fun x => BCall.addConstraint x.1 x.2) ++
      ((d.ofClass .nonBoolean).map (fun x => BCall.addConstraint x.1 x.2) ++ (d.ofClass .mixed).map (fun x => BCall.addConstraint x.1 x.2))))
    (by
      have app : ∀ a b : List BCall, attrsOf (a ++ b) = attrsOf a ++ attrsOf b := by intro a b; simp [attrsOf]
      simp only [app, r1, (flat_cons _).1, List.append_nil])
    (by
      have app : ∀ a b : List BCall, rootsOf (a ++ b) = rootsOf a ++ rootsOf b := by intro a b; simp [rootsOf]
      simp only [app, r2, (flat_cons _).2.1, List.append_nil])
    (ns := []) (fun e he => hperm.mem_iff.1 he) ((hperm.map Prod.fst).nodup_iff.2 h.wf.names) (by simp)]
  unfold allCalls
  simp only [List.append_assoc, List.cons_append, List.nil_append]
  exact Iff.rfl

/-- A name that is taken in the calls of `clone` makes it fail. -/
theorem clone_taken_any {d : Desc} {m : FModel} (h : Outlines d m) (E : Env) (hn : ¬ NamesFree c!"root" [] (allCalls E m d)) :
    m.clone E = if E.asserts then .ub else .null := by
  have h1 := build_taken h.wf.fresh E (clone_kinds_any h E) hn
  simp only [FModel.clone, cloneCalls_eq_any h E, h1]

/-- Every well-formed model with at most one group directly below each feature has an outline. -/
theorem outlines_descOf {m : FModel} (w : WF m)
    (hone : ∀ r r' i, r ∈ m.rels → r' ∈ m.rels → Known m i → par m r = some i → par m r' = some i → r = r') (hf : Filed m) :
    Outlines (descOf m) m := by
  obtain ⟨r, rf, r1, r2, r3, r4, r5⟩ := w.root_ok
  obtain ⟨rn, hrn⟩ := known_name r2
  have hrf : rf.attr.name = rn := by
    obtain ⟨f, f1, f2⟩ := w.feat_ok _ hrn
    simp only at f1 f2
    rw [r3] at f1; cases f1; exact f2
  have hroot : (descOf m).root = rn := by simp [descOf, r1, nameOf_of_data r3, hrf]
  have hnames : (descOf m).attrs.map Attr.name = (m.features.filter fun e => m.root ≠ some e.2).map Prod.fst :=
    attrs_names w (fun e he => he)
  have hmem : ∀ n, n ∈ (descOf m).attrs.map Attr.name ↔ ∃ i, (n, i) ∈ m.features ∧ i ≠ r := by
    intro n
    rw [hnames]
    simp only [List.mem_map, List.mem_filter, r1, ne_eq, decide_eq_true_eq, Option.some.injEq]
    constructor
    · rintro ⟨⟨n', i⟩, ⟨h1, h2⟩, rfl⟩; exact ⟨i, h1, fun h => h2 h.symm⟩
    · rintro ⟨i, h1, h2⟩; exact ⟨(n, i), ⟨h1, fun h => h2 h.symm⟩, rfl⟩
  have hgroup : ∀ n k, (n, k) ∈ (descOf m).groups ↔ ∃ r ∈ m.rels, ∃ i, (n, i) ∈ m.features ∧ par m r = some i ∧ data m r = some (.rel k) := by
    intro n k
    show (n, k) ∈ m.rels.filterMap (groupOf m) ↔ _
    rw [List.mem_filterMap]
    constructor
    · rintro ⟨q, q1, q2⟩
      obtain ⟨k', hk'⟩ := w.rel_ok q q1
      cases hp : par m q with
      | none => simp [groupOf, hk', hp] at q2
      | some i =>
        rcases (w.par_edge q i (.inr q1) hp).1 with i1 | i1
        · obtain ⟨n', hn'⟩ := known_name i1
          obtain ⟨f, f1, f2⟩ := w.feat_ok _ hn'
          simp only [groupOf, hk', hp, nameOf_of_data f1, f2, Option.map_some] at q2
          cases q2
          exact ⟨q, q1, i, hn', hp, hk'⟩
        · obtain ⟨k2, hk2⟩ := w.rel_ok i i1
          have : m.nameOf i = none := by simp [FModel.nameOf, FModel.feat?, heap_of_data hk2]
          simp [groupOf, hk', hp, this] at q2
    · rintro ⟨q, q1, i, i1, i2, i3⟩
      obtain ⟨f, f1, f2⟩ := w.feat_ok _ i1
      exact ⟨q, q1, by simp [groupOf, i3, i2, nameOf_of_data f1, f2]⟩
  refine
    { wf := w
      name := rfl
      path := rfl
      commit := rfl
      distinct := ?_
      root_new := ?_
      names := ?_
      root := ⟨r, rf, r1, by rw [hroot]; exact hrn, r3, by rw [hroot, hrf], r4⟩
      feat := ?_
      groups := fun g => hgroup g.1 g.2
      one := hone
      store := ?_ }
  · rw [hnames]
    exact (List.Sublist.map Prod.fst List.filter_sublist).nodup w.names
  · rw [hroot, hmem]
    rintro ⟨i, h1, h2⟩
    exact h2 (w.entry_unique h1 hrn)
  · intro n
    rw [hroot, hmem]
    constructor
    · rintro ⟨i, hi⟩
      by_cases hir : i = r
      · subst hir; exact .inl (w.id_unique hi hrn)
      · exact .inr ⟨i, hi, hir⟩
    · rintro (rfl | ⟨i, hi, _⟩)
      · exact ⟨r, hrn⟩
      · exact ⟨i, hi⟩
  · intro a ha
    obtain ⟨⟨n, i⟩, he, ha⟩ := List.mem_filterMap.1 ha
    obtain ⟨f, f1, f2⟩ := w.feat_ok _ he
    simp only at f1 f2
    have hir : m.root ≠ some i := by
      intro h
      simp [attrOf, h] at ha
    have hfa : f.attr = a := by
      simp only [attrOf, if_neg hir, feat?_of_data f1, Option.map_some] at ha
      exact Option.some.inj ha
    obtain ⟨p, p1, p2⟩ := w.has_fparent (.inl (known_of_mem he)) hir
    obtain ⟨pn, hpn⟩ := known_name p2
    obtain ⟨pf, g1, g2⟩ := w.feat_ok _ hpn
    simp only at g1 g2
    obtain ⟨q, q1, q2⟩ := parentFeature_spec w (.inl (known_of_mem he))
    have hn : a.name = n := by rw [← hfa, f2]
    have : parentOf m a.name = pn := by
      rw [hn]
      simp only [parentOf, getFeature_mem w.names he, q1, (q2 p).2 p1, nameOf_of_data g1, g2, Option.getD_some]
    refine ⟨i, f, p, by rw [hn]; exact he, f1, hfa, ?_, p1⟩
    show (parentOf m a.name, p) ∈ m.features
    rw [this]; exact hpn
  · intro cl
    rw [descOf_ofClass hf, List.map_map]
    conv => lhs; rw [← List.map_id (m.store cl)]
    apply List.map_congr_left
    intro s hs
    obtain ⟨h1, _⟩ := hf cl s hs
    obtain ⟨_, h3⟩ := kindOf_cls hf hs
    obtain ⟨t, bs, inf⟩ := s
    simp only at h1 h3
    subst h1
    simp only [Function.comp, constraintOf, id, h3]


end Verif

import Verif.FM.Move
/-! Lemmas: `addConstraint`. -/

namespace Verif
open Verif.Spec

/-- Positions of a name in a list of names, counted from `k`. -/
def Spec.positions (n : Str) : Nat → List Str → List Nat
  | _, [] => []
  | k, x :: xs => if x = n then k :: positions n (k + 1) xs else positions n (k + 1) xs

/-- A feature after its leaves of a constraint have been registered one after the other. -/
def regs (tree : Constraint) (root : CRoot) (ks : List Nat) (f : Feat) : Feat :=
  ks.foldl (fun f k => f.register tree ⟨root, k⟩) f

/-- The feature pointers of the leaves after binding. -/
def bindsUpd (get : Str → Option Id) : Nat → List Str → List (Option Id) → List (Option Id)
  | _, [], b => b
  | k, n :: ns, b =>
    bindsUpd get (k + 1) ns (match get n with | some i => b.set k (some i) | none => b)

theorem register_attr (tree : Constraint) (l : CLeaf) (f : Feat) : (f.register tree l).attr = f.attr := by
  unfold Feat.register
  split <;> rfl

theorem regs_attr (tree : Constraint) (root : CRoot) (ks : List Nat) (f : Feat) :
    (regs tree root ks f).attr = f.attr := by
  unfold regs
  induction ks generalizing f with
  | nil => rfl
  | cons k ks ih => rw [List.foldl_cons, ih, register_attr]

theorem store_setStore (m : FModel) (c c' : CClass) (l : List Stored) :
    (m.setStore c l).store c' = if c' = c then l else m.store c' := by
  cases c <;> cases c' <;> rfl

theorem setStore_tree (m : FModel) (c : CClass) (l : List Stored) :
    (m.setStore c l).heap = m.heap ∧ (m.setStore c l).next = m.next ∧ (m.setStore c l).root = m.root ∧
    (m.setStore c l).features = m.features ∧ (m.setStore c l).rels = m.rels ∧
    (m.setStore c l).name = m.name ∧ (m.setStore c l).path = m.path ∧ (m.setStore c l).commit = m.commit := by
  cases c <;> exact ⟨rfl, rfl, rfl, rfl, rfl, rfl, rfl, rfl⟩

/-- Everything but the heap and the constraint containers. -/
structure SameOuter (m m' : FModel) : Prop where
  next : m'.next = m.next
  root : m'.root = m.root
  features : m'.features = m.features
  rels : m'.rels = m.rels
  name : m'.name = m.name
  path : m'.path = m.path
  commit : m'.commit = m.commit

theorem SameOuter.trans {a b c : FModel} (h : SameOuter a b) (h' : SameOuter b c) : SameOuter a c :=
  ⟨h'.next.trans h.next, h'.root.trans h.root, h'.features.trans h.features, h'.rels.trans h.rels,
   h'.name.trans h.name, h'.path.trans h.path, h'.commit.trans h.commit⟩

theorem SameMeta.outer {m m' : FModel} (h : SameMeta m m') : SameOuter m m' :=
  ⟨h.next, h.root, h.features, h.rels, h.name, h.path, h.commit⟩

theorem SameMeta.store {m m' : FModel} (h : SameMeta m m') (c : CClass) : m'.store c = m.store c := by
  cases c
  · exact h.booleans
  · exact h.nonBooleans
  · exact h.mixeds

theorem setStore_outer (m : FModel) (c : CClass) (l : List Stored) : SameOuter m (m.setStore c l) := by
  obtain ⟨_, h2, h3, h4, h5, h6, h7, h8⟩ := setStore_tree m c l
  exact ⟨h2, h3, h4, h5, h6, h7, h8⟩

theorem getFeature_congr {m m' : FModel} (h : m'.features = m.features) : m'.getFeature = m.getFeature := by
  funext n; unfold FModel.getFeature; rw [h]

/-- Names are unique and the entry of a name is a feature of that name; nothing about the tree. -/
structure Named (m : FModel) : Prop where
  names : (m.features.map Prod.fst).Nodup
  feat_ok : ∀ e ∈ m.features, ∃ f, data m e.2 = some (.feat f) ∧ f.attr.name = e.1

theorem Spec.WF.named {m : FModel} (w : WF m) : Named m := ⟨w.names, w.feat_ok⟩

theorem named_of_sameTree {m m' : FModel} (w : Named m) (h : SameTree m m') : Named m' := by
  refine ⟨by rw [h.features]; exact w.names, ?_⟩
  intro e he
  rw [h.features] at he
  obtain ⟨f, hf, hn⟩ := w.feat_ok e he
  have := h.data e.2
  rw [hf] at this
  obtain ⟨g, hg, h1, h2⟩ := this.feat_right
  exact ⟨g, hg, by rw [← h1]; exact hn⟩

theorem Named.known_data {m : FModel} (w : Named m) {i : Id} (h : Known m i) : IsFeat m i := by
  obtain ⟨e, he, rfl⟩ := List.mem_map.1 h
  obtain ⟨f, hf, _⟩ := w.feat_ok e he
  exact ⟨f, hf⟩

/-- The name under which the model knows a feature. -/
theorem Named.name_unique {m : FModel} (w : Named m) {n : Str} {i : Id} {f : Feat}
    (h : (n, i) ∈ m.features) (hd : data m i = some (.feat f)) : f.attr.name = n := by
  obtain ⟨g, hg, hn⟩ := w.feat_ok (n, i) h
  rw [hd] at hg; cases hg; exact hn

theorem Spec.WF.name_unique {m : FModel} (w : WF m) {n : Str} {i : Id} {f : Feat}
    (h : (n, i) ∈ m.features) (hd : data m i = some (.feat f)) : f.attr.name = n := w.named.name_unique h hd

structure BindRes (tree : Constraint) (root : CRoot) (m m' : FModel) (k : Nat) (ns : List Str) : Prop where
  outer : SameOuter m m'
  par : par m' = par m
  edg : edg m' = edg m
  store : ∀ c, m'.store c = if c = root.cls
    then (m.store c).modify root.idx (fun s => { s with binds := bindsUpd m.getFeature k ns s.binds })
    else m.store c
  known : ∀ i f, Known m i → data m i = some (.feat f) →
    data m' i = some (.feat (regs tree root (positions f.attr.name k ns) f))
  other : ∀ i, ¬ Known m i → data m' i = data m i

theorem bindRes_tree {tree : Constraint} {root : CRoot} {m m' : FModel} {k : Nat} {ns : List Str} (w : Named m)
    (h : BindRes tree root m m' k ns) : SameTree m m' := by
  refine ⟨h.outer.next, h.outer.root, h.outer.features, h.outer.rels, h.par, h.edg, ?_⟩
  intro i
  by_cases hk : Known m i
  · obtain ⟨f, hf⟩ := w.known_data hk
    rw [h.known i f hk hf, hf]
    simp [SameShape, regs_attr]
  · rw [h.other i hk]; exact .refl _

theorem bindLeaves_ok (tree : Constraint) (root : CRoot) (ns : List Str) :
    ∀ (m : FModel) (k : Nat), Named m →
      ∃ m', m.bindLeaves tree root k ns = some (m', ns.all fun n => (m.getFeature n).isSome) ∧
        BindRes tree root m m' k ns := by
  induction ns with
  | nil =>
    intro m k w
    refine ⟨m, rfl, ⟨rfl, rfl, rfl, rfl, rfl, rfl, rfl⟩, rfl, rfl, ?_, ?_, fun _ _ => rfl⟩
    · intro c
      split
      · have : (fun s : Stored => { s with binds := bindsUpd m.getFeature k [] s.binds }) = id := by
          funext s; rfl
        rw [this, List.modify_id]
      · rfl
    · intro i f _ hd; simp [positions, regs, hd]
  | cons n ns ih =>
    intro m k w
    cases hg : m.getFeature n with
    | none =>
      obtain ⟨m', h1, h2⟩ := ih m (k + 1) w
      refine ⟨m', ?_, h2.outer, h2.par, h2.edg, ?_, ?_, h2.other⟩
      · unfold FModel.bindLeaves
        rw [hg]
        simp [h1, hg]
      · intro c
        rw [h2.store c]
        simp only [bindsUpd, hg]
      · intro i f hk hd
        rw [h2.known i f hk hd]
        have hne : n ≠ f.attr.name := by
          rintro rfl
          obtain ⟨e, he, rfl⟩ := List.mem_map.1 hk
          have := w.name_unique (n := e.1) (i := e.2) he hd
          rw [this] at hg
          exact absurd (List.mem_map_of_mem he) (getFeature_none.1 hg)
        simp [positions, hne]
    | some i =>
      have hmem := getFeature_some hg
      have hki : Known m i := getFeature_known hg
      obtain ⟨f, hf, hfn⟩ := w.feat_ok (n, i) hmem
      simp only at hf hfn
      -- the state with the leaf bound
      generalize hmb : m.bindLeaf ⟨root, k⟩ i = mb
      have hst : ∀ c, mb.store c = if c = root.cls
          then (m.store c).modify root.idx (fun s => { s with binds := s.binds.set k (some i) }) else m.store c := by
        intro c
        rw [← hmb]
        unfold FModel.bindLeaf
        rw [store_setStore]
        simp only
        split
        · rename_i h; rw [h]
        · rfl
      have hout : SameOuter m mb := by rw [← hmb]; exact setStore_outer ..
      have hheap : mb.heap = m.heap := by rw [← hmb]; exact (setStore_tree ..).1
      have hdb : data mb = data m := by funext j; simp only [data, hheap]
      have hpb : par mb = par m := by funext j; simp only [par, hheap]
      have heb : edg mb = edg m := by funext j; simp only [edg, hheap]
      obtain ⟨m1, h1, h2, h3, h4, h5⟩ := updFeat_ok (Feat.register tree ⟨root, k⟩) (by rw [hdb]; exact hf : data mb i = _)
      have htree : SameTree m m1 := by
        refine SameTree.trans (b := mb) ⟨hout.next, hout.root, hout.features, hout.rels, hpb, heb, ?_⟩ ?_
        · intro j; rw [hdb]; exact .refl _
        · exact sameTree_updFeat (by rw [hdb]; exact hf) (by rw [register_attr]) (by rw [register_attr]) h2 h3 h4 h5
      have w1 := named_of_sameTree w htree
      obtain ⟨m', g1, g2⟩ := ih m1 (k + 1) w1
      have hgf : m1.getFeature = m.getFeature := getFeature_congr htree.features
      have hkn : ∀ j, Known m1 j ↔ Known m j := by intro j; unfold Known; rw [htree.features]
      refine ⟨m', ?_, hout.trans (h2.outer.trans g2.outer), ?_, ?_, ?_, ?_, ?_⟩
      · unfold FModel.bindLeaves
        rw [hg]
        simp only
        rw [hmb, h1]
        simp only
        rw [g1]
        simp [hgf, hg]
      · rw [g2.par, htree.par]
      · rw [g2.edg, htree.edg]
      · intro c
        rw [g2.store c, h2.store c, hst c]
        split
        · rw [List.modify_modify_eq]
          congr 1
          funext s
          simp [bindsUpd, hgf, hg]
        · rfl
      · intro j fj hkj hdj
        by_cases hji : j = i
        · subst hji
          rw [hf] at hdj; cases hdj
          have hd1 : data m1 j = some (.feat (f.register tree ⟨root, k⟩)) := by rw [h5]; simp
          rw [g2.known j _ ((hkn j).2 hkj) hd1, register_attr, hfn]
          simp [positions, regs]
        · have hd1 : data m1 j = some (.feat fj) := by rw [h5, upd_ne _ _ hji, hdb]; exact hdj
          rw [g2.known j _ ((hkn j).2 hkj) hd1]
          have hne : n ≠ fj.attr.name := by
            rintro rfl
            obtain ⟨e, he, rfl⟩ := List.mem_map.1 hkj
            have := w.name_unique (n := e.1) (i := e.2) he hdj
            rw [this] at hmem
            have h1 := getFeature_mem w.names hmem
            have h2 := getFeature_mem w.names (n := e.1) (i := e.2) he
            rw [h1] at h2
            exact hji (Option.some.inj h2).symm
          simp [positions, hne]
      · intro j hj
        rw [g2.other j (fun h => hj ((hkn j).1 h)), h5, upd_ne _ _ (by rintro rfl; exact hj hki), hdb]

theorem bindsUpd_append (get : Str → Option Id) (ns : List Str) :
    ∀ (pre : List (Option Id)), bindsUpd get pre.length ns (pre ++ ns.map fun _ => none) = pre ++ ns.map get := by
  induction ns with
  | nil => intro pre; simp [bindsUpd]
  | cons n ns ih =>
    intro pre
    unfold bindsUpd
    have h1 : (match get n with
        | some i => (pre ++ (n :: ns).map fun _ => none).set pre.length (some i)
        | none => (pre ++ (n :: ns).map fun _ => none)) = (pre ++ [get n]) ++ ns.map fun _ => none := by
      cases get n with
      | none => simp
      | some i => simp
    rw [h1]
    have := ih (pre ++ [get n])
    rw [List.length_append, List.length_singleton] at this
    rw [this]
    simp

/-- What `addConstraint` does to a model. -/
structure ConstraintAdded (m m' : FModel) (k : CKind) (c : Constraint) : Prop where
  outer : SameOuter m m'
  par : par m' = par m
  edg : edg m' = edg m
  store : ∀ cl, m'.store cl = if cl = k.cls
    then m.store cl ++ [⟨c, c.features.map m.getFeature, k.info⟩] else m.store cl
  known : ∀ i f, Known m i → data m i = some (.feat f) →
    data m' i = some (.feat (regs c ⟨k.cls, (m.store k.cls).length⟩ (positions f.attr.name 0 c.features) f))
  other : ∀ i, ¬ Known m i → data m' i = data m i

theorem execAddConstraint_named {m : FModel} (w : Named m) (k : CKind) (c : Constraint) :
    ∃ m', m.execAddConstraint k c = (if (c.features.all fun n => (m.getFeature n).isSome) = true then .ok m'
      else .err .missingFeature m') ∧ ConstraintAdded m m' k c := by
  generalize hm0 : m.setStore k.cls (m.store k.cls ++ [⟨c, c.features.map fun _ => none, k.info⟩]) = m0
  have hout : SameOuter m m0 := by rw [← hm0]; exact setStore_outer ..
  have hheap : m0.heap = m.heap := by rw [← hm0]; exact (setStore_tree ..).1
  have hdb : data m0 = data m := by funext j; simp only [data, hheap]
  have hpb : par m0 = par m := by funext j; simp only [par, hheap]
  have heb : edg m0 = edg m := by funext j; simp only [edg, hheap]
  have w0 : Named m0 := named_of_sameTree w ⟨hout.next, hout.root, hout.features, hout.rels, hpb, heb,
    fun j => by rw [hdb]; exact .refl _⟩
  have hgf : m0.getFeature = m.getFeature := getFeature_congr hout.features
  have hkn : ∀ j, Known m0 j ↔ Known m j := by intro j; unfold Known; rw [hout.features]
  obtain ⟨m', h1, h2⟩ := bindLeaves_ok c ⟨k.cls, (m.store k.cls).length⟩ c.features m0 0 w0
  refine ⟨m', ?_, hout.trans h2.outer, by rw [h2.par, hpb], by rw [h2.edg, heb], ?_, ?_, ?_⟩
  · unfold FModel.execAddConstraint
    simp only
    rw [hm0, h1, hgf]
    cases hb : (c.features.all fun n => (m.getFeature n).isSome) <;> simp
  · intro cl
    rw [h2.store cl, ← hm0, store_setStore]
    simp only
    by_cases hcl : cl = k.cls
    · subst hcl
      rw [if_pos rfl, if_pos rfl, if_pos rfl, hm0, hgf]
      have : ∀ (l : List Stored) (s : Stored) (g : Stored → Stored), (l ++ [s]).modify l.length g = l ++ [g s] := by
        intro l s g
        induction l with
        | nil => rfl
        | cons x xs ih => simp [List.modify_succ_cons, ih]
      rw [this]
      have hb := bindsUpd_append m.getFeature c.features []
      simp only [List.length_nil, List.nil_append] at hb
      simp only [hb]
    · rw [if_neg hcl, if_neg hcl, if_neg hcl]
  · intro i f hk hd
    exact h2.known i f ((hkn i).2 hk) (by rw [hdb]; exact hd)
  · intro i hk
    rw [h2.other i (fun h => hk ((hkn i).1 h)), hdb]

theorem execAddConstraint_spec {m : FModel} (w : WF m) (k : CKind) (c : Constraint) :
    ∃ m', m.execAddConstraint k c = (if (c.features.all fun n => (m.getFeature n).isSome) = true then .ok m'
      else .err .missingFeature m') ∧ ConstraintAdded m m' k c := execAddConstraint_named w.named k c

theorem sameTree_of_constraintAdded {m m' : FModel} {k : CKind} {c : Constraint} (w : Named m)
    (h : ConstraintAdded m m' k c) : SameTree m m' := by
  refine ⟨h.outer.next, h.outer.root, h.outer.features, h.outer.rels, h.par, h.edg, ?_⟩
  intro i
  by_cases hk : Known m i
  · obtain ⟨f, hf⟩ := w.known_data hk
    rw [h.known i f hk hf, hf]
    simp [SameShape, regs_attr]
  · rw [h.other i hk]; exact .refl _

theorem wf_of_constraintAdded {m m' : FModel} {k : CKind} {c : Constraint} (w : WF m)
    (h : ConstraintAdded m m' k c) : WF m' := wf_of_sameTree w (sameTree_of_constraintAdded w.named h)

theorem mem_allStored {m : FModel} {s : Stored} : s ∈ allStored m ↔ ∃ c, s ∈ m.store c := by
  unfold allStored
  simp only [List.mem_append]
  constructor
  · rintro ((h | h) | h)
    · exact ⟨.boolean, h⟩
    · exact ⟨.nonBoolean, h⟩
    · exact ⟨.mixed, h⟩
  · rintro ⟨c, h⟩
    cases c
    · exact .inl (.inl h)
    · exact .inl (.inr h)
    · exact .inr h

theorem bound_of_constraintAdded {m m' : FModel} {k : CKind} {c : Constraint} (b : Bound m)
    (h : ConstraintAdded m m' k c) : Bound m' := by
  have hcase : ∀ s, s ∈ allStored m' → s ∈ allStored m ∨ s = ⟨c, c.features.map m.getFeature, k.info⟩ := by
    intro s hs
    obtain ⟨cl, hs⟩ := mem_allStored.1 hs
    rw [h.store] at hs
    split at hs
    · rcases List.mem_append.1 hs with hs | hs
      · exact .inl (mem_allStored.2 ⟨cl, hs⟩)
      · exact .inr (List.mem_singleton.1 hs)
    · exact .inl (mem_allStored.2 ⟨cl, hs⟩)
  constructor
  · intro s hs
    rcases hcase s hs with hs | rfl
    · exact b.len s hs
    · simp
  · intro s hs j i hj
    rw [h.outer.features]
    rcases hcase s hs with hs | rfl
    · exact b.bind s hs j i hj
    · simp only [List.getElem?_map] at hj
      cases hn : c.features[j]? with
      | none => rw [hn] at hj; cases hj
      | some n =>
        rw [hn] at hj
        simp only [Option.map_some, Option.some.injEq] at hj
        exact ⟨n, rfl, getFeature_some hj⟩

end Verif

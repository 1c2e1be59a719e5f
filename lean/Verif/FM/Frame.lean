import Verif.FM.Failure
/-! Lemmas: operations on one model do not reach objects outside it. -/

namespace Verif
open Verif.Spec

/-- All pointers of a model that lives at addresses from `base` on stay there, and the objects below
    `base` are `H`. -/
structure Frame (base : Nat) (H : Id → Option Node) (m : FModel) : Prop where
  low : ∀ i, i < base → m.heap i = H i
  next : base ≤ m.next
  par : ∀ i n, base ≤ i → m.heap i = some n → ∀ p, n.parent = some p → base ≤ p
  edg : ∀ i n, base ≤ i → m.heap i = some n → ∀ c ∈ n.edges, base ≤ c
  features : ∀ e ∈ m.features, base ≤ e.2
  rels : ∀ r ∈ m.rels, base ≤ r
  root : ∀ r, m.root = some r → base ≤ r
  binds : ∀ s ∈ allStored m, ∀ i, some i ∈ s.binds → base ≤ i

/-- The same for the model an operation leaves. -/
def FrameOut (base : Nat) (H : Id → Option Node) : Out → Prop
  | .ok m => Frame base H m
  | .err _ m => Frame base H m
  | .ub => True

section
variable {base : Nat} {H : Id → Option Node}

theorem Frame.put {m : FModel} (h : Frame base H m) {i : Id} (hi : base ≤ i) {n : Node}
    (hp : ∀ p, n.parent = some p → base ≤ p) (he : ∀ c ∈ n.edges, base ≤ c) : Frame base H (m.put i n) := by
  refine { h with low := ?_, par := ?_, edg := ?_ }
  · intro j hj
    have : j ≠ i := by rintro rfl; exact Nat.not_lt.2 hi hj
    simp only [FModel.put, if_neg this]; exact h.low j hj
  · intro j n' hj hn
    by_cases hji : j = i
    · simp only [FModel.put, if_pos hji] at hn; cases hn; exact hp
    · simp only [FModel.put, if_neg hji] at hn; exact h.par j n' hj hn
  · intro j n' hj hn
    by_cases hji : j = i
    · simp only [FModel.put, if_pos hji] at hn; cases hn; exact he
    · simp only [FModel.put, if_neg hji] at hn; exact h.edg j n' hj hn

theorem Frame.free {m : FModel} (h : Frame base H m) {i : Id} (hi : base ≤ i) : Frame base H (m.free i) := by
  refine { h with low := ?_, par := ?_, edg := ?_ }
  · intro j hj
    have : j ≠ i := by rintro rfl; exact Nat.not_lt.2 hi hj
    simp only [FModel.free, if_neg this]; exact h.low j hj
  · intro j n' hj hn
    by_cases hji : j = i
    · simp only [FModel.free, if_pos hji] at hn; cases hn
    · simp only [FModel.free, if_neg hji] at hn; exact h.par j n' hj hn
  · intro j n' hj hn
    by_cases hji : j = i
    · simp only [FModel.free, if_pos hji] at hn; cases hn
    · simp only [FModel.free, if_neg hji] at hn; exact h.edg j n' hj hn

theorem Frame.setParent {m m' : FModel} (h : Frame base H m) {i : Id} {p : Option Id} (hi : base ≤ i)
    (hp : ∀ q, p = some q → base ≤ q) (e : m.setParent i p = some m') : Frame base H m' := by
  unfold FModel.setParent at e
  cases hn : m.heap i with
  | none => rw [hn] at e; cases e
  | some n =>
    rw [hn] at e; cases e
    exact h.put hi hp (h.edg i n hi hn)

theorem Frame.addEdge {m m' : FModel} (h : Frame base H m) {p c : Id} (hp : base ≤ p) (hc : base ≤ c)
    (e : m.addEdge p c = some m') : Frame base H m' := by
  unfold FModel.addEdge at e
  cases hn : m.heap p with
  | none => rw [hn] at e; cases e
  | some n =>
    rw [hn] at e; cases e
    refine h.put hp (h.par p n hp hn) ?_
    intro x hx
    simp only [FModel.insertSet] at hx
    split at hx
    · exact h.edg p n hp hn x hx
    · rcases List.mem_append.1 hx with hx | hx
      · exact h.edg p n hp hn x hx
      · simp at hx; subst hx; exact hc

theorem Frame.removeEdge {m m' : FModel} (h : Frame base H m) {p c : Id} (hp : base ≤ p)
    (e : m.removeEdge p c = some m') : Frame base H m' := by
  unfold FModel.removeEdge at e
  cases hn : m.heap p with
  | none => rw [hn] at e; cases e
  | some n =>
    rw [hn] at e; cases e
    exact h.put hp (h.par p n hp hn) (fun x hx => h.edg p n hp hn x (List.mem_of_mem_erase hx))

theorem Frame.link {m m' : FModel} (h : Frame base H m) {p c : Id} (hp : base ≤ p) (hc : base ≤ c)
    (e : m.link p c = some m') : Frame base H m' := by
  unfold FModel.link at e
  cases h1 : m.setParent c (some p) with
  | none => rw [h1] at e; cases e
  | some m1 =>
    rw [h1] at e
    exact (h.setParent hc (by intro q hq; cases hq; exact hp) h1).addEdge hp hc e

theorem Frame.outOf {o : Option FModel} (h : ∀ m, o = some m → Frame base H m) : FrameOut base H (FModel.outOf o) := by
  cases o with
  | none => trivial
  | some m => exact h m rfl

theorem Frame.outFold {α} {f : FModel → α → Out} : ∀ {l : List α} {m : FModel}, Frame base H m →
    (∀ m x, x ∈ l → Frame base H m → FrameOut base H (f m x)) → FrameOut base H (FModel.outFold f m l)
  | [], m, h, _ => h
  | x :: xs, m, h, hf => by
    unfold FModel.outFold
    have h1 := hf m x (List.mem_cons_self ..) h
    cases hx : f m x with
    | ub => trivial
    | err e m1 => rw [hx] at h1; exact h1
    | ok m1 =>
      rw [hx] at h1
      exact Frame.outFold (l := xs) h1 (fun m y hy => hf m y (List.mem_cons_of_mem _ hy))

theorem Frame.getFeature {m : FModel} (h : Frame base H m) {n : Str} {i : Id} (e : m.getFeature n = some i) : base ≤ i :=
  h.features _ (getFeature_some e)

theorem Frame.childrenImpl {m : FModel} (h : Frame base H m) (isT : Node → Bool) :
    ∀ (fuel : Nat) (depth : Int) (i : Id) (fs cs : List Id), base ≤ i → (∀ x ∈ fs, base ≤ x) →
      m.childrenImpl isT fuel depth i fs = some cs → ∀ x ∈ cs, base ≤ x
  | 0, depth, i, fs, cs, _, _, e => by cases e
  | fuel + 1, depth, i, fs, cs, hi, hfs, e => by
    unfold FModel.childrenImpl at e
    by_cases hd : depth = 0
    · rw [if_pos hd] at e; cases e; exact hfs
    · rw [if_neg hd] at e
      cases hn : m.heap i with
      | none => rw [hn] at e; cases e
      | some n =>
        rw [hn] at e
        simp only at e
        have hed := h.edg i n hi hn
        generalize n.edges = es at e hed
        clear hn
        induction es generalizing fs with
        | nil => simp at e; subst e; exact hfs
        | cons c es ih =>
          rw [List.foldlM_cons] at e
          have hc := hed c (List.mem_cons_self ..)
          cases hcn : m.heap c with
          | none => rw [hcn] at e; cases e
          | some cn =>
            rw [hcn] at e
            simp only at e
            by_cases ht : isT cn = true
            · rw [if_pos ht] at e
              refine ih (FModel.insertSet fs c) ?_ e (fun x hx => hed x (List.mem_cons_of_mem _ hx))
              intro x hx
              simp only [FModel.insertSet] at hx
              split at hx
              · exact hfs x hx
              · rcases List.mem_append.1 hx with hx | hx
                · exact hfs x hx
                · simp at hx; subst hx; exact hc
            · rw [if_neg ht] at e
              cases hr : m.childrenImpl isT fuel (depth - 1) c fs with
              | none => rw [hr] at e; cases e
              | some fs' =>
                rw [hr] at e
                exact ih fs' (Frame.childrenImpl h isT fuel (depth - 1) c fs fs' hc hfs hr) e
                  (fun x hx => hed x (List.mem_cons_of_mem _ hx))

theorem Frame.children {m : FModel} (h : Frame base H m) {E : Env} {isT : Node → Bool} {i : Id} {depth : Int}
    {cs : List Id} (hi : base ≤ i) (e : m.children E isT i depth = some cs) : ∀ x ∈ cs, base ≤ x := by
  unfold FModel.children at e
  cases hc : m.childrenImpl isT (m.next + 1) depth i [] with
  | none => rw [hc] at e; cases e
  | some fs =>
    rw [hc] at e; cases e
    intro x hx
    exact h.childrenImpl isT _ _ i [] fs hi (by intro x hx; cases hx) hc x ((E.setOrder_perm fs).mem_iff.1 hx)

theorem Frame.insertFeature {m m' : FModel} (h : Frame base H m) {a : Attr} {i : Id}
    (e : m.insertFeature a = some (m', i)) : Frame base H m' ∧ base ≤ i := by
  unfold FModel.insertFeature at e
  cases hg : m.getFeature a.name with
  | some j => rw [hg] at e; cases e
  | none =>
    rw [hg] at e
    simp only [Option.some.injEq, Prod.mk.injEq] at e
    obtain ⟨e1, e2⟩ := e
    subst e1 e2
    have hp := h.put (i := m.next) h.next (n := { data := .feat { attr := a } }) (by intro p hp; cases hp)
      (by intro c hc; cases hc)
    refine ⟨{ hp with next := Nat.le_succ_of_le h.next, features := ?_ }, h.next⟩
    intro e he
    rcases List.mem_append.1 he with he | he
    · exact h.features e he
    · simp at he; subst he; exact h.next

theorem Frame.eraseFeature {m m' : FModel} (h : Frame base H m) {i : Id} (e : m.eraseFeature i = some m') :
    Frame base H m' := by
  unfold FModel.eraseFeature at e
  cases hn : m.nameOf i with
  | none => rw [hn] at e; cases e
  | some n =>
    rw [hn] at e
    simp only at e
    have h1 : Frame base H (if m.root = some i then { m with root := none } else m) := by
      split
      · exact { h with root := by intro r hr; cases hr }
      · exact h
    generalize (if m.root = some i then { m with root := none } else m) = m1 at e h1
    cases hg : m1.getFeature n with
    | none => rw [hg] at e; cases e; exact h1
    | some j =>
      rw [hg] at e; cases e
      exact { h1.free (h1.getFeature hg) with features := fun e he => h1.features e (List.mem_filter.1 he).1 }

theorem Frame.dropRel {m m' : FModel} (h : Frame base H m) {r : Id} (e : m.dropRel r = some m') : Frame base H m' := by
  unfold FModel.dropRel at e
  split at e
  · rename_i hr
    cases e
    exact { h.free (h.rels r hr) with rels := fun x hx => h.rels x (List.mem_of_mem_erase hx) }
  · cases e

theorem Frame.updFeat {m m' : FModel} (h : Frame base H m) {i : Id} {g : Feat → Feat} (hi : base ≤ i)
    (e : m.updFeat i g = some m') : Frame base H m' := by
  unfold FModel.updFeat at e
  cases hn : m.heap i with
  | none => rw [hn] at e; cases e
  | some n =>
    rw [hn] at e
    simp only at e
    cases hd : n.data with
    | rel k => rw [hd] at e; cases e
    | feat f =>
      rw [hd] at e; cases e
      exact h.put hi (h.par i n hi hn) (h.edg i n hi hn)

theorem Frame.removeFinish {m : FModel} (h : Frame base H m) {i : Id} (hi : base ≤ i) :
    FrameOut base H (m.removeFinish i) := by
  unfold FModel.removeFinish
  cases hn : m.heap i with
  | none => trivial
  | some n =>
    simp only
    cases hp : n.parent with
    | none => trivial
    | some p =>
      simp only
      cases hr : m.removeEdge p i with
      | none => trivial
      | some m1 =>
        simp only
        exact Frame.outOf fun m' e => (h.removeEdge (h.par i n hi hn p hp) hr).eraseFeature e

theorem Frame.removeRec {E : Env} : ∀ {fuel : Nat} {recursive : Bool} {m : FModel} {i : Id}, Frame base H m → base ≤ i →
    FrameOut base H (FModel.removeRec E fuel recursive m i)
  | 0, _, m, i, _, _ => trivial
  | fuel + 1, recursive, m, i, h, hi => by
    cases recursive with
    | true =>
      simp only [FModel.removeRec, if_true]
      cases h1 : m.children E Node.isFeat i with
      | none => trivial
      | some cs =>
        simp only
        have h2 := Frame.outFold (f := fun m c => FModel.removeRec E fuel true m c) (l := cs) h
          (fun m x hx hm => Frame.removeRec hm (h.children hi h1 x hx))
        cases h3 : FModel.outFold (fun m c => FModel.removeRec E fuel true m c) m cs with
        | ub => trivial
        | err e m1 => rw [h3] at h2; exact h2
        | ok m1 =>
          rw [h3] at h2
          simp only
          have h2 : Frame base H m1 := h2
          cases h4 : m1.children E Node.isRel i with
          | none => trivial
          | some rs =>
            simp only
            have h5 := Frame.outFold (f := fun m r => FModel.outOf (m.dropRelOf i r)) (l := rs) h2 (by
              intro m x _ hm
              refine Frame.outOf fun m' e => ?_
              unfold FModel.dropRelOf at e
              cases h6 : m.removeEdge i x with
              | none => rw [h6] at e; cases e
              | some m2 => rw [h6] at e; exact (hm.removeEdge hi h6).dropRel e)
            cases h6 : FModel.outFold (fun m r => FModel.outOf (m.dropRelOf i r)) m1 rs with
            | ub => trivial
            | err e m2 => rw [h6] at h5; exact h5
            | ok m2 => rw [h6] at h5; exact Frame.removeFinish h5 hi
    | false =>
      simp only [FModel.removeRec, Bool.false_eq_true, if_false]
      cases h1 : m.children E Node.isFeat i with
      | none => trivial
      | some cs =>
        cases cs with
        | cons c cs => exact h
        | nil =>
          simp only
          cases h2 : m.children E Node.isRel i with
          | none => trivial
          | some rs =>
            cases rs with
            | nil => exact h.removeFinish hi
            | cons r rs =>
              simp only
              cases h3 : m.dropRel r with
              | none => trivial
              | some m1 => exact (h.dropRel h3).removeFinish hi

theorem Frame.regroup {E : Env} {m m' : FModel} (h : Frame base H m) {p r c : Id} (hp : base ≤ p) (hr : base ≤ r)
    (hc : base ≤ c) (e : FModel.regroup E p r m c = some m') : Frame base H m' := by
  unfold FModel.regroup at e
  cases h1 : m.heap p with
  | none => rw [h1] at e; cases e
  | some pn =>
    cases h2 : m.heap c with
    | none => rw [h1, h2] at e; cases e
    | some cn =>
      rw [h1, h2] at e
      simp only at e
      split at e
      · cases e
      · cases h3 : m.removeEdge p c with
        | none => rw [h3] at e; cases e
        | some m1 =>
          rw [h3] at e
          simp only at e
          cases h4 : m1.addEdge r c with
          | none => rw [h4] at e; cases e
          | some m2 =>
            rw [h4] at e
            exact ((h.removeEdge hp h3).addEdge hr hc h4).setParent hc (by intro q hq; cases hq; exact hr) e

/-- The references of a modification denote objects of the model. -/
def RefOk (base : Nat) (r : Ref) : Prop := ∀ i, r = .ptr (some i) → base ≤ i

theorem Frame.resolve {m : FModel} (h : Frame base H m) {r : Ref} (hr : RefOk base r) {i : Id}
    (e : m.resolve r = some i) : base ≤ i := by
  cases r with
  | name n => exact h.getFeature e
  | ptr j =>
    have e : j = some i := e
    exact hr i (by rw [e])

/-- The same for a modification. -/
def OpOk (base : Nat) : Op → Prop
  | .addFeature _ p => ∀ i, p = some i → base ≤ i
  | .removeFeature f _ => RefOk base f
  | .addRelationship _ p => RefOk base p
  | .removeRelationship p => RefOk base p
  | .addLocation f _ => RefOk base f
  | .removeLocation f _ => RefOk base f
  | .addChild p c => RefOk base p ∧ RefOk base c
  | _ => True

theorem Frame.execAddFeature {m : FModel} (h : Frame base H m) {a : Attr} {p : Option Id}
    (hp : ∀ i, p = some i → base ≤ i) : FrameOut base H (m.execAddFeature a p) := by
  unfold FModel.execAddFeature
  cases h1 : m.insertFeature a with
  | none => exact h
  | some r =>
    obtain ⟨m1, i⟩ := r
    obtain ⟨h2, h3⟩ := h.insertFeature h1
    simp only
    cases p with
    | some p => exact Frame.outOf fun m' e => h2.link (hp p rfl) h3 e
    | none =>
      simp only
      cases h4 : m1.root with
      | none => exact h2
      | some r => exact Frame.outOf fun m' e => h2.link (h2.root r h4) h3 e

theorem Frame.setStore {m : FModel} (h : Frame base H m) {c : CClass} {l : List Stored}
    (hl : ∀ s ∈ l, ∀ i, some i ∈ s.binds → base ≤ i) : Frame base H (m.setStore c l) := by
  have hb : ∀ s ∈ allStored (m.setStore c l), ∀ i, some i ∈ s.binds → base ≤ i := by
    intro s hs
    obtain ⟨c', hs⟩ := mem_allStored.1 hs
    rw [store_setStore] at hs
    split at hs
    · exact hl s hs
    · exact h.binds s (mem_allStored.2 ⟨c', hs⟩)
  cases c <;> exact { h with binds := hb }

theorem Frame.bindLeaf {m : FModel} (h : Frame base H m) {l : CLeaf} {i : Id} (hi : base ≤ i) :
    Frame base H (m.bindLeaf l i) := by
  unfold FModel.bindLeaf
  refine h.setStore ?_
  intro s hs j hj
  rw [List.mem_iff_getElem?] at hs
  obtain ⟨k, hk⟩ := hs
  rw [List.getElem?_modify] at hk
  cases ho : (m.store l.root.cls)[k]? with
  | none => rw [ho] at hk; simp at hk
  | some s0 =>
    have hb := h.binds s0 (mem_allStored.2 ⟨_, List.mem_of_getElem? ho⟩)
    rw [ho] at hk
    simp only [Option.map_eq_map, Option.map_some, Option.some.injEq] at hk
    by_cases hki : l.root.idx = k
    · rw [if_pos hki] at hk
      subst hk
      rcases List.mem_or_eq_of_mem_set hj with hj | hj
      · exact hb j hj
      · cases hj; exact hi
    · rw [if_neg hki] at hk
      subst hk
      exact hb j hj

theorem Frame.bindLeaves {tree : Constraint} {root : CRoot} : ∀ {ns : List Str} {m m' : FModel} {k : Nat} {b : Bool},
    Frame base H m → FModel.bindLeaves tree root m k ns = some (m', b) → Frame base H m'
  | [], m, m', k, b, h, e => by simp only [FModel.bindLeaves] at e; cases e; exact h
  | n :: ns, m, m', k, b, h, e => by
    unfold FModel.bindLeaves at e
    cases hg : m.getFeature n with
    | none =>
      rw [hg] at e
      simp only at e
      cases hr : FModel.bindLeaves tree root m (k + 1) ns with
      | none => rw [hr] at e; cases e
      | some r => rw [hr] at e; cases e; exact Frame.bindLeaves (m' := r.1) (b := r.2) h hr
    | some i =>
      rw [hg] at e
      simp only at e
      have hi := h.getFeature hg
      cases hu : (m.bindLeaf ⟨root, k⟩ i).updFeat i (Feat.register tree ⟨root, k⟩) with
      | none => rw [hu] at e; cases e
      | some m1 => rw [hu] at e; exact Frame.bindLeaves ((h.bindLeaf hi).updFeat hi hu) e

theorem Frame.execAddConstraint {m : FModel} (h : Frame base H m) {k : CKind} {c : Constraint} :
    FrameOut base H (m.execAddConstraint k c) := by
  unfold FModel.execAddConstraint
  simp only
  have h1 : Frame base H (m.setStore k.cls (m.store k.cls ++ [⟨c, c.features.map fun _ => none, k.info⟩])) := by
    refine h.setStore ?_
    intro s hs i hi
    rcases List.mem_append.1 hs with hs | hs
    · exact h.binds s (mem_allStored.2 ⟨_, hs⟩) i hi
    · simp only [List.mem_singleton] at hs
      subst hs
      simp at hi
  generalize m.setStore k.cls (m.store k.cls ++ [⟨c, c.features.map fun _ => none, k.info⟩]) = m1 at h1
  cases hb : FModel.bindLeaves c ⟨k.cls, (m.store k.cls).length⟩ m1 0 c.features with
  | none => trivial
  | some r =>
    obtain ⟨m2, b⟩ := r
    cases b <;> exact h1.bindLeaves hb

theorem Frame.execSetRoot {m : FModel} (h : Frame base H m) {n : Str} : FrameOut base H (m.execSetRoot n) := by
  have key : FrameOut base H (match m.insertFeature { name := n, kind := .root } with
        | none => Out.err .alreadyPresent m
        | some (m, i) =>
          match m.root with
          | none => .ok { m with root := some i }
          | some r =>
            match m.heap r with
            | none => .ub
            | some rn =>
              match FModel.outFold (fun m c => FModel.outOf (m.link i c)) m rn.edges with
              | .ok m =>
                match FModel.outFold (fun m c => FModel.outOf (m.removeEdge r c)) m rn.edges with
                | .ok m =>
                  match m.eraseFeature r with
                  | none => .ub
                  | some m => .ok { m with root := some i }
                | o => o
              | o => o) := by
    cases h1 : m.insertFeature { name := n, kind := .root } with
    | none => exact h
    | some r =>
      obtain ⟨m1, i⟩ := r
      obtain ⟨h2, h3⟩ := h.insertFeature h1
      simp only
      cases h4 : m1.root with
      | none => exact { h2 with root := by intro r hr; cases hr; exact h3 }
      | some x =>
        simp only
        have hx := h2.root x h4
        cases h5 : m1.heap x with
        | none => trivial
        | some xn =>
          simp only
          have h6 := Frame.outFold (f := fun m c => FModel.outOf (m.link i c)) (l := xn.edges) h2
            (fun m c hc hm => Frame.outOf fun m' e => hm.link h3 (h2.edg x xn hx h5 c hc) e)
          cases h7 : FModel.outFold (fun m c => FModel.outOf (m.link i c)) m1 xn.edges with
          | ub => trivial
          | err e m2 => rw [h7] at h6; exact h6
          | ok m2 =>
            rw [h7] at h6
            simp only
            have h8 := Frame.outFold (f := fun m c => FModel.outOf (m.removeEdge x c)) (l := xn.edges) h6
              (fun m c _ hm => Frame.outOf fun m' e => hm.removeEdge hx e)
            cases h9 : FModel.outFold (fun m c => FModel.outOf (m.removeEdge x c)) m2 xn.edges with
            | ub => trivial
            | err e m3 => rw [h9] at h8; exact h8
            | ok m3 =>
              rw [h9] at h8
              simp only
              cases h10 : m3.eraseFeature x with
              | none => trivial
              | some m4 =>
                exact { Frame.eraseFeature h8 h10 with root := by intro r hr; cases hr; exact h3 }
  unfold FModel.execSetRoot
  cases h1 : m.root with
  | none => exact key
  | some r =>
    simp only
    cases h2 : m.nameOf r with
    | none => trivial
    | some rn =>
      simp only
      by_cases h3 : rn = n
      · rw [if_pos h3]; exact h
      · rw [if_neg h3]; exact key

theorem Frame.exec {E : Env} {m : FModel} (h : Frame base H m) {op : Op} (ho : OpOk base op) :
    FrameOut base H (m.exec E op) := by
  cases op with
  | addFeature a p => exact h.execAddFeature ho
  | removeFeature f r =>
    show FrameOut base H (m.execRemoveFeature E f r)
    unfold FModel.execRemoveFeature
    cases h1 : m.resolve f with
    | none => exact h
    | some i => exact h.removeRec (h.resolve ho h1)
  | addRelationship k p =>
    show FrameOut base H (m.execAddRelationship E k p)
    unfold FModel.execAddRelationship
    simp only
    have h0 : Frame base H { m.put m.next { data := .rel k } with next := m.next + 1, rels := m.rels ++ [m.next] } := by
      refine { h.put (i := m.next) h.next (n := { data := .rel k }) (by intro p hp; cases hp) (by intro c hc; cases hc) with
        next := Nat.le_succ_of_le h.next, rels := ?_ }
      intro r hr
      rcases List.mem_append.1 hr with hr | hr
      · exact h.rels r hr
      · simp at hr; subst hr; exact h.next
    generalize ({ m.put m.next { data := .rel k } with next := m.next + 1, rels := m.rels ++ [m.next] } : FModel) = m1 at h0
    cases h1 : m1.resolve p with
    | none => trivial
    | some i =>
      have hi := h0.resolve ho h1
      simp only
      cases h2 : m1.link i m.next with
      | none => trivial
      | some m2 =>
        simp only
        have h3 := h0.link hi h.next h2
        cases h4 : m2.children E Node.isFeat i with
        | none => trivial
        | some cs =>
          exact Frame.outFold h3 (fun m' c hc hm => Frame.outOf fun m'' e => hm.regroup hi h.next (h3.children hi h4 c hc) e)
  | removeRelationship p =>
    show FrameOut base H (m.execRemoveRelationship E p)
    unfold FModel.execRemoveRelationship
    cases h1 : m.resolve p with
    | none => exact h
    | some i =>
      have hi := h.resolve ho h1
      simp only
      cases h2 : m.children E Node.isRel i with
      | none => trivial
      | some rs =>
        cases rs with
        | nil => trivial
        | cons r rs =>
          have hr := h.children hi h2 r (List.mem_cons_self ..)
          simp only
          cases h3 : m.removeEdge i r with
          | none => trivial
          | some m1 =>
            have h4 := h.removeEdge hi h3
            simp only
            cases h5 : m1.children E Node.isFeat r with
            | none => trivial
            | some cs =>
              simp only
              have h6 := Frame.outFold (f := fun m c => FModel.outOf (FModel.regroup E r i m c)) (l := cs) h4
                (fun m' c hc hm => Frame.outOf fun m'' e => hm.regroup hr hi (h4.children hr h5 c hc) e)
              cases h7 : FModel.outFold (fun m c => FModel.outOf (FModel.regroup E r i m c)) m1 cs with
              | ub => trivial
              | err e m2 => rw [h7] at h6; exact h6
              | ok m2 =>
                rw [h7] at h6
                exact Frame.outOf fun m' e => Frame.dropRel h6 e
  | addLocation f r =>
    show FrameOut base H (m.execAddLocation f r)
    unfold FModel.execAddLocation
    cases h1 : m.resolve f with
    | none => trivial
    | some i => exact Frame.outOf fun m' e => h.updFeat (h.resolve ho h1) e
  | removeLocation f r =>
    show FrameOut base H (m.execRemoveLocation f r)
    unfold FModel.execRemoveLocation
    cases h1 : m.resolve f with
    | none => trivial
    | some i =>
      simp only
      cases h2 : m.feat? i with
      | none => trivial
      | some ft =>
        simp only
        cases h3 : FModel.eraseLoc r ft.attr.locs with
        | none => trivial
        | some ls => exact Frame.outOf fun m' e => h.updFeat (h.resolve ho h1) e
  | addConstraint k c => exact h.execAddConstraint
  | setName n => exact { h with }
  | setCommit n => exact { h with }
  | setPath n => exact { h with }
  | setRoot n => exact h.execSetRoot
  | addChild p c =>
    show FrameOut base H (m.execAddChild p c)
    unfold FModel.execAddChild
    cases h1 : m.resolve c with
    | none => exact h
    | some ci =>
      have hci := h.resolve ho.2 h1
      simp only
      cases h2 : m.resolve p with
      | none => exact h
      | some pi =>
        have hpi := h.resolve ho.1 h2
        simp only
        by_cases h3 : ci = pi
        · rw [if_pos h3]; exact h
        · rw [if_neg h3]
          cases h4 : m.heap ci with
          | none => trivial
          | some cn =>
            simp only
            have fin : ∀ m1 : FModel, Frame base H m1 → FrameOut base H (match m1.addEdge pi ci with
                | none => Out.ub | some m => FModel.outOf (m.setParent ci (some pi))) := by
              intro m1 hm
              cases h6 : m1.addEdge pi ci with
              | none => trivial
              | some m2 =>
                exact Frame.outOf fun m' e => (hm.addEdge hpi hci h6).setParent hci (by intro q hq; cases hq; exact hpi) e
            cases h5 : cn.parent with
            | none => exact fin m h
            | some q =>
              simp only
              cases h6 : m.removeEdge q ci with
              | none => trivial
              | some m1 => exact fin m1 (h.removeEdge (h.par ci cn hci h4 q h5) h6)

theorem Frame.commitOps {E : Env} {m : FModel} (h : Frame base H m) {ops : List Op} (ho : ∀ o ∈ ops, OpOk base o) :
    FrameOut base H (m.commitOps E ops) := by
  unfold FModel.commitOps
  have h1 := Frame.outFold (f := FModel.exec E) (l := ops) h (fun m x hx hm => hm.exec (ho x hx))
  cases h2 : FModel.outFold (FModel.exec E) m ops with
  | ub => trivial
  | err e m1 => rw [h2] at h1; exact h1
  | ok m1 =>
    rw [h2] at h1
    simp only
    cases h3 : m1.consistent E with
    | none => trivial
    | some b => cases b <;> exact h1

/-- One call on a copy transaction, whatever its references are. -/
theorem Frame.copyExec {E : Env} {m : FModel} (h : Frame base H m) (op : Op) : FrameOut base H (m.copyExec E op) := by
  have ht : ∀ {o : Option Id} {r : Option Id}, m.translate o = some r → ∀ i, r = some i → base ≤ i := by
    intro o r e i hi
    cases o with
    | none => cases e
    | some j =>
      simp only [FModel.translate] at e
      cases hn : m.nameOf j with
      | none => rw [hn] at e; cases e
      | some n =>
        rw [hn] at e
        simp only [Option.map_some, Option.some.injEq] at e
        rw [hi] at e
        exact h.getFeature e
  have hr : ∀ {o : Option Id} {r : Option Id}, m.translate o = some r → RefOk base (.ptr r) := by
    intro o r e i hi
    cases hi
    exact ht e i rfl
  cases op with
  | addFeature a p =>
    cases p with
    | none => exact h.execAddFeature (p := none) (by intro i hi; cases hi)
    | some p =>
      simp only [FModel.copyExec]
      cases h1 : m.translate (some p) with
      | none => trivial
      | some r => exact h.execAddFeature (ht h1)
  | removeFeature f r =>
    simp only [FModel.copyExec]
    cases h1 : m.translate (m.resolve f) with
    | none => trivial
    | some i => exact h.exec (E := E) (op := .removeFeature (.ptr i) r) (hr h1)
  | addRelationship k f =>
    simp only [FModel.copyExec]
    cases h1 : m.translate (m.resolve f) with
    | none => trivial
    | some i => exact h.exec (E := E) (op := .addRelationship k (.ptr i)) (hr h1)
  | removeRelationship f =>
    simp only [FModel.copyExec]
    cases h1 : m.translate (m.resolve f) with
    | none => trivial
    | some i => exact h.exec (E := E) (op := .removeRelationship (.ptr i)) (hr h1)
  | addLocation f r =>
    simp only [FModel.copyExec]
    cases h1 : m.translate (m.resolve f) with
    | none => trivial
    | some i => exact h.exec (E := E) (op := .addLocation (.ptr i) r) (hr h1)
  | removeLocation f r =>
    simp only [FModel.copyExec]
    cases h1 : m.translate (m.resolve f) with
    | none => trivial
    | some i => exact h.exec (E := E) (op := .removeLocation (.ptr i) r) (hr h1)
  | addChild p c => exact h
  | addConstraint k c => exact h.execAddConstraint
  | setName n => exact { h with }
  | setCommit n => exact { h with }
  | setPath n => exact { h with }
  | setRoot n => exact h.execSetRoot

theorem Frame.copyRun {E : Env} : ∀ {ops : List Op} {m m' : FModel}, Frame base H m →
    FModel.copyRun E m ops = some m' → Frame base H m'
  | [], m, m', h, e => by cases e; exact h
  | o :: os, m, m', h, e => by
    unfold FModel.copyRun at e
    have h1 := h.copyExec (E := E) o
    cases h2 : m.copyExec E o with
    | ub => rw [h2] at e; cases e
    | ok m1 => rw [h2] at e h1; exact Frame.copyRun (m := m1) h1 e
    | err x m1 => rw [h2] at e h1; exact Frame.copyRun (m := m1) h1 e

end

/-! ## The builder and `clone` -/

theorem frame_fresh {m : FModel} (hf : ∀ i, m.heap i ≠ none → i < m.next) : Frame m.next m.heap m.fresh := by
  have hn : ∀ i n, m.next ≤ i → m.fresh.heap i = some n →
      n = { data := .feat { attr := { name := c!"root", kind := .root } } } := by
    intro i n hi hn
    by_cases h : i = m.next
    · simp only [FModel.fresh, if_pos h] at hn; cases hn; rfl
    · simp only [FModel.fresh, if_neg h] at hn
      exact absurd (hf i (by rw [hn]; simp)) (Nat.not_lt.2 hi)
  refine ⟨?_, Nat.le_succ m.next, ?_, ?_, ?_, ?_, ?_, ?_⟩
  · intro i hi
    have : i ≠ m.next := Nat.ne_of_lt hi
    simp [FModel.fresh, this]
  · intro i n hi h p hp
    rw [hn i n hi h] at hp; cases hp
  · intro i n hi h c hc
    rw [hn i n hi h] at hc; cases hc
  · intro e he; simp [FModel.fresh] at he; subst he; exact Nat.le_refl _
  · intro r hr; cases hr
  · intro r hr; cases hr; exact Nat.le_refl _
  · intro s hs; simp [allStored, FModel.fresh] at hs

/-- All queued modifications of a builder refer to features by name. -/
def ByName (b : ModelBuilder) : Prop :=
  ∀ base, (∀ o ∈ b.feats, OpOk base o) ∧ (∀ o ∈ b.model, OpOk base o) ∧ (∀ o ∈ b.rels, OpOk base o)

theorem refOk_name (base : Nat) (n : Str) : RefOk base (.name n) := by intro i h; cases h

theorem opOk_snoc {base : Nat} {l : List Op} {o : Op} (h : ∀ o ∈ l, OpOk base o) (ho : OpOk base o) :
    ∀ x ∈ l ++ [o], OpOk base x := by
  intro x hx
  rcases List.mem_append.1 hx with hx | hx
  · exact h x hx
  · simp at hx; subst hx; exact ho

theorem ByName.makeFeature {b : ModelBuilder} (h : ByName b) (a : Attr) : ByName (b.makeFeature a) :=
  fun base => ⟨opOk_snoc (h base).1 (by intro i hi; cases hi), (h base).2.1, (h base).2.2⟩

theorem ByName.makeRoot {b : ModelBuilder} (h : ByName b) (n : Str) : ByName (b.makeRoot n) :=
  fun base => ⟨opOk_snoc (h base).1 trivial, (h base).2.1, (h base).2.2⟩

theorem ByName.addEdge {b : ModelBuilder} (h : ByName b) (p c : Str) : ByName (b.addEdge p c) :=
  fun base => ⟨(h base).1, opOk_snoc (h base).2.1 ⟨refOk_name base p, refOk_name base c⟩, (h base).2.2⟩

theorem ByName.emplaceRelationship {b : ModelBuilder} (h : ByName b) (k : RKind) (p : Str) :
    ByName (b.emplaceRelationship k p) :=
  fun base => ⟨(h base).1, (h base).2.1, opOk_snoc (h base).2.2 (refOk_name base p)⟩

theorem ByName.addConstraint {b : ModelBuilder} (h : ByName b) (k : CKind) (c : Constraint) :
    ByName (b.addConstraint k c) :=
  fun base => ⟨(h base).1, (h base).2.1, opOk_snoc (h base).2.2 trivial⟩

theorem foldlM_inv {α β} {P : β → Prop} {f : β → α → Option β} (hf : ∀ b a b', P b → f b a = some b' → P b') :
    ∀ {l : List α} {b b' : β}, P b → l.foldlM f b = some b' → P b'
  | [], b, b', h, e => by simp at e; subst e; exact h
  | x :: xs, b, b', h, e => by
    rw [List.foldlM_cons] at e
    cases hx : f b x with
    | none => rw [hx] at e; cases e
    | some b1 => rw [hx] at e; exact foldlM_inv hf (hf b x b1 h hx) e

theorem ByName.cloneFeature {m : FModel} {b b' : ModelBuilder} {i : Id} (h : ByName b)
    (e : m.cloneFeature b i = some b') : ByName b' := by
  unfold FModel.cloneFeature at e
  cases h1 : m.feat? i with
  | none => rw [h1] at e; cases e
  | some f =>
    rw [h1] at e
    simp only at e
    have hb : ByName (match f.attr.kind with
      | .unknown => b.makeFeature { name := f.attr.name, kind := .unknown }
      | .root => b.makeRoot f.attr.name
      | .binary => b.makeFeature { name := f.attr.name, kind := .binary, opt := f.attr.opt, locs := f.attr.locs }
      | .numeric v _ => b.makeFeature { name := f.attr.name, kind := .numeric v none, opt := f.attr.opt, locs := f.attr.locs }) := by
      cases f.attr.kind
      · exact h.makeFeature _
      · exact h.makeFeature _
      · exact h.makeRoot _
      · exact h.makeFeature _
    cases h2 : m.parentFeature i with
    | none => rw [h2] at e; cases e
    | some r =>
      cases r with
      | none => rw [h2] at e; cases e; exact hb
      | some p =>
        rw [h2] at e
        simp only at e
        cases h3 : m.nameOf p with
        | none => rw [h3] at e; cases e
        | some pn => rw [h3] at e; cases e; exact hb.addEdge _ _

theorem ByName.cloneRel {m : FModel} {b b' : ModelBuilder} {r : Id} (h : ByName b)
    (e : m.cloneRel b r = some b') : ByName b' := by
  unfold FModel.cloneRel at e
  cases h1 : m.heap r with
  | none => rw [h1] at e; cases e
  | some n =>
    obtain ⟨d, p, es⟩ := n
    rw [h1] at e
    cases d with
    | feat f => simp at e
    | rel k =>
      cases p with
      | none => simp at e; subst e; exact h
      | some p =>
        simp only at e
        cases h2 : m.heap p with
        | none => rw [h2] at e; cases e
        | some pn =>
          rw [h2] at e
          simp only at e
          cases h3 : pn.data with
          | feat f => rw [h3] at e; cases e; exact h.emplaceRelationship _ _
          | rel k => rw [h3] at e; cases e; exact h

theorem ByName.cloneConstraints {m : FModel} {kind : Stored → CKind} {b b' : ModelBuilder} {l : List Stored} (h : ByName b)
    (e : m.cloneConstraints kind b l = some b') : ByName b' := by
  unfold FModel.cloneConstraints at e
  refine foldlM_inv (P := ByName) ?_ h e
  intro b s b' hb e
  cases h1 : m.cloneStored s with
  | none => rw [h1] at e; cases e
  | some c => rw [h1] at e; cases e; exact hb.addConstraint _ _

theorem byName_cloneCalls {E : Env} {m : FModel} {b : ModelBuilder} (e : m.cloneCalls E = some b) : ByName b := by
  unfold FModel.cloneCalls at e
  have h0 : ByName (((({} : ModelBuilder).setVmName m.name).setCommit m.commit).setPath m.path) := by
    intro base
    refine ⟨(by intro o ho; cases ho), ?_, (by intro o ho; cases ho)⟩
    intro o ho
    simp [ModelBuilder.setVmName, ModelBuilder.setCommit, ModelBuilder.setPath] at ho
    rcases ho with rfl | rfl | rfl <;> trivial
  simp only [Option.bind_eq_bind, Option.bind_eq_some_iff] at e
  obtain ⟨b1, h1, b2, h2, b3, h3, b4, h4, h5⟩ := e
  have k1 := foldlM_inv (P := ByName) (fun b e b' hb e' => hb.cloneFeature e') h0 h1
  have k2 := foldlM_inv (P := ByName) (fun b r b' hb e' => hb.cloneRel e') k1 h2
  exact ((k2.cloneConstraints h3).cloneConstraints h4).cloneConstraints h5

theorem frame_build {E : Env} {m c : FModel} {b : ModelBuilder} (hf : ∀ i, m.heap i ≠ none → i < m.next)
    (hb : ByName b) (e : m.build E b = .built c) : Frame m.next m.heap c := by
  unfold FModel.build at e
  obtain ⟨b1, b2, b3⟩ := hb m.next
  have h1 := (frame_fresh hf).commitOps (E := E) b1
  cases e1 : m.fresh.commitOps E b.feats with
  | ub => rw [e1] at e; cases e
  | err x m1 => rw [e1] at e; cases e
  | ok m1 =>
    rw [e1] at e h1
    simp only at e
    have h2 := Frame.commitOps (E := E) (m := m1) h1 b2
    cases e2 : m1.commitOps E b.model with
    | ub => rw [e2] at e; cases e
    | err x m1 => rw [e2] at e; cases e
    | ok m2 =>
      rw [e2] at e h2
      simp only at e
      have h3 := Frame.commitOps (E := E) (m := m2) h2 b3
      cases e3 : m2.commitOps E b.rels with
      | ub => rw [e3] at e; cases e
      | err x m1 => rw [e3] at e; cases e
      | ok m3 => rw [e3] at e h3; cases e; exact h3

theorem frame_clone {E : Env} {m c : FModel} (hf : ∀ i, m.heap i ≠ none → i < m.next) (e : m.clone E = .built c) :
    Frame m.next m.heap c := by
  unfold FModel.clone at e
  cases h1 : m.cloneCalls E with
  | none => rw [h1] at e; cases e
  | some b =>
    rw [h1] at e
    simp only at e
    cases h2 : m.build E b with
    | ub => rw [h2] at e; cases e
    | null =>
      rw [h2] at e
      simp only at e
      split at e <;> cases e
    | built c' => rw [h2] at e; cases e; exact frame_build hf (byName_cloneCalls h1) h2

end Verif

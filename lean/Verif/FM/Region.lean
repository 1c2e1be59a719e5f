import Verif.FM.Failure
/-! Lemmas: operations on one model do not reach objects outside it. -/

namespace Verif
open Verif.Spec

/-- A model that keeps out of the addresses in `X`: none of its pointers, nor those of any other object outside `X`, leads
    there, and the objects there are `H`.  This is `Frame` for any set of addresses. -/
structure Region (X : Id → Prop) (H : Id → Option Node) (m : FModel) : Prop where
  low : ∀ i, X i → m.heap i = H i
  next : ∀ i, X i → i < m.next
  par : ∀ i n, ¬ X i → m.heap i = some n → ∀ p, n.parent = some p → ¬ X p
  edg : ∀ i n, ¬ X i → m.heap i = some n → ∀ c ∈ n.edges, ¬ X c
  features : ∀ e ∈ m.features, ¬ X e.2
  rels : ∀ r ∈ m.rels, ¬ X r
  root : ∀ r, m.root = some r → ¬ X r
  binds : ∀ s ∈ allStored m, ∀ i, some i ∈ s.binds → ¬ X i

/-- The same for the model an operation leaves. -/
def RegionOut (X : Id → Prop) (H : Id → Option Node) : Out → Prop
  | .ok m => Region X H m
  | .err _ m => Region X H m
  | .ub => True

section
variable {X : Id → Prop} {H : Id → Option Node}

theorem Region.new {m : FModel} (h : Region X H m) : ¬ X m.next := fun hx => Nat.lt_irrefl _ (h.next _ hx)

theorem Region.put {m : FModel} (h : Region X H m) {i : Id} (hi : ¬ X i) {n : Node}
    (hp : ∀ p, n.parent = some p → ¬ X p) (he : ∀ c ∈ n.edges, ¬ X c) : Region X H (m.put i n) := by
  refine { h with low := ?_, par := ?_, edg := ?_ }
  · intro j hj
    have : j ≠ i := by rintro rfl; exact hi hj
    simp only [FModel.put, if_neg this]; exact h.low j hj
  · intro j n' hj hn
    by_cases hji : j = i
    · simp only [FModel.put, if_pos hji] at hn; cases hn; exact hp
    · simp only [FModel.put, if_neg hji] at hn; exact h.par j n' hj hn
  · intro j n' hj hn
    by_cases hji : j = i
    · simp only [FModel.put, if_pos hji] at hn; cases hn; exact he
    · simp only [FModel.put, if_neg hji] at hn; exact h.edg j n' hj hn

theorem Region.free {m : FModel} (h : Region X H m) {i : Id} (hi : ¬ X i) : Region X H (m.free i) := by
  refine { h with low := ?_, par := ?_, edg := ?_ }
  · intro j hj
    have : j ≠ i := by rintro rfl; exact hi hj
    simp only [FModel.free, if_neg this]; exact h.low j hj
  · intro j n' hj hn
    by_cases hji : j = i
    · simp only [FModel.free, if_pos hji] at hn; cases hn
    · simp only [FModel.free, if_neg hji] at hn; exact h.par j n' hj hn
  · intro j n' hj hn
    by_cases hji : j = i
    · simp only [FModel.free, if_pos hji] at hn; cases hn
    · simp only [FModel.free, if_neg hji] at hn; exact h.edg j n' hj hn

theorem Region.setParent {m m' : FModel} (h : Region X H m) {i : Id} {p : Option Id} (hi : ¬ X i)
    (hp : ∀ q, p = some q → ¬ X q) (e : m.setParent i p = some m') : Region X H m' := by
  unfold FModel.setParent at e
  cases hn : m.heap i with
  | none => rw [hn] at e; cases e
  | some n =>
    rw [hn] at e; cases e
    exact h.put hi hp (h.edg i n hi hn)

theorem Region.addEdge {m m' : FModel} (h : Region X H m) {p c : Id} (hp : ¬ X p) (hc : ¬ X c)
    (e : m.addEdge p c = some m') : Region X H m' := by
  unfold FModel.addEdge at e
  cases hn : m.heap p with
  | none => rw [hn] at e; cases e
  | some n =>
    rw [hn] at e; cases e
    refine h.put hp (h.par p n hp hn) ?_
    intro x hx
    simp only [FModel.insertSet] at hx
    split at hx
    · exact h.edg p n hp hn x hx
    · rcases List.mem_append.1 hx with hx | hx
      · exact h.edg p n hp hn x hx
      · simp at hx; subst hx; exact hc

theorem Region.removeEdge {m m' : FModel} (h : Region X H m) {p c : Id} (hp : ¬ X p)
    (e : m.removeEdge p c = some m') : Region X H m' := by
  unfold FModel.removeEdge at e
  cases hn : m.heap p with
  | none => rw [hn] at e; cases e
  | some n =>
    rw [hn] at e; cases e
    exact h.put hp (h.par p n hp hn) (fun x hx => h.edg p n hp hn x (List.mem_of_mem_erase hx))

theorem Region.link {m m' : FModel} (h : Region X H m) {p c : Id} (hp : ¬ X p) (hc : ¬ X c)
    (e : m.link p c = some m') : Region X H m' := by
  unfold FModel.link at e
  cases h1 : m.setParent c (some p) with
  | none => rw [h1] at e; cases e
  | some m1 =>
    rw [h1] at e
    exact (h.setParent hc (by intro q hq; cases hq; exact hp) h1).addEdge hp hc e

theorem Region.outOf {o : Option FModel} (h : ∀ m, o = some m → Region X H m) : RegionOut X H (FModel.outOf o) := by
  cases o with
  | none => trivial
  | some m => exact h m rfl

theorem Region.outFold {α} {f : FModel → α → Out} : ∀ {l : List α} {m : FModel}, Region X H m →
    (∀ m x, x ∈ l → Region X H m → RegionOut X H (f m x)) → RegionOut X H (FModel.outFold f m l)
  | [], m, h, _ => h
  | x :: xs, m, h, hf => by
    unfold FModel.outFold
    have h1 := hf m x (List.mem_cons_self ..) h
    cases hx : f m x with
    | ub => trivial
    | err e m1 => rw [hx] at h1; exact h1
    | ok m1 =>
      rw [hx] at h1
      exact Region.outFold (l := xs) h1 (fun m y hy => hf m y (List.mem_cons_of_mem _ hy))

theorem Region.getFeature {m : FModel} (h : Region X H m) {n : Str} {i : Id} (e : m.getFeature n = some i) : ¬ X i :=
  h.features _ (getFeature_some e)

theorem Region.childrenImpl {m : FModel} (h : Region X H m) (isT : Node → Bool) :
    ∀ (fuel : Nat) (depth : Int) (i : Id) (fs cs : List Id), ¬ X i → (∀ x ∈ fs, ¬ X x) →
      m.childrenImpl isT fuel depth i fs = some cs → ∀ x ∈ cs, ¬ X x
  | 0, depth, i, fs, cs, _, _, e => by cases e
  | fuel + 1, depth, i, fs, cs, hi, hfs, e => by
    unfold FModel.childrenImpl at e
    by_cases hd : depth = 0
    · rw [if_pos hd] at e; cases e; exact hfs
    · rw [if_neg hd] at e
      cases hn : m.heap i with
      | none => rw [hn] at e; cases e
      | some n =>
        rw [hn] at e
        simp only at e
        have hed := h.edg i n hi hn
        generalize n.edges = es at e hed
        clear hn
        induction es generalizing fs with
        | nil => simp at e; subst e; exact hfs
        | cons c es ih =>
          rw [List.foldlM_cons] at e
          have hc := hed c (List.mem_cons_self ..)
          cases hcn : m.heap c with
          | none => rw [hcn] at e; cases e
          | some cn =>
            rw [hcn] at e
            simp only at e
            by_cases ht : isT cn = true
            · rw [if_pos ht] at e
              refine ih (FModel.insertSet fs c) ?_ e (fun x hx => hed x (List.mem_cons_of_mem _ hx))
              intro x hx
              simp only [FModel.insertSet] at hx
              split at hx
              · exact hfs x hx
              · rcases List.mem_append.1 hx with hx | hx
                · exact hfs x hx
                · simp at hx; subst hx; exact hc
            · rw [if_neg ht] at e
              cases hr : m.childrenImpl isT fuel (depth - 1) c fs with
              | none => rw [hr] at e; cases e
              | some fs' =>
                rw [hr] at e
                exact ih fs' (Region.childrenImpl h isT fuel (depth - 1) c fs fs' hc hfs hr) e
                  (fun x hx => hed x (List.mem_cons_of_mem _ hx))

theorem Region.children {m : FModel} (h : Region X H m) {E : Env} {isT : Node → Bool} {i : Id} {depth : Int}
    {cs : List Id} (hi : ¬ X i) (e : m.children E isT i depth = some cs) : ∀ x ∈ cs, ¬ X x := by
  unfold FModel.children at e
  cases hc : m.childrenImpl isT (m.next + 1) depth i [] with
  | none => rw [hc] at e; cases e
  | some fs =>
    rw [hc] at e; cases e
    intro x hx
    exact h.childrenImpl isT _ _ i [] fs hi (by intro x hx; cases hx) hc x ((E.setOrder_perm fs).mem_iff.1 hx)

theorem Region.insertFeature {m m' : FModel} (h : Region X H m) {a : Attr} {i : Id}
    (e : m.insertFeature a = some (m', i)) : Region X H m' ∧ ¬ X i := by
  unfold FModel.insertFeature at e
  cases hg : m.getFeature a.name with
  | some j => rw [hg] at e; cases e
  | none =>
    rw [hg] at e
    simp only [Option.some.injEq, Prod.mk.injEq] at e
    obtain ⟨e1, e2⟩ := e
    subst e1 e2
    have hp := h.put (i := m.next) h.new (n := { data := .feat { attr := a } }) (by intro p hp; cases hp)
      (by intro c hc; cases hc)
    refine ⟨{ hp with next := fun i hi => Nat.lt_succ_of_lt (h.next i hi), features := ?_ }, h.new⟩
    intro e he
    rcases List.mem_append.1 he with he | he
    · exact h.features e he
    · simp at he; subst he; exact h.new

theorem Region.eraseFeature {m m' : FModel} (h : Region X H m) {i : Id} (e : m.eraseFeature i = some m') :
    Region X H m' := by
  unfold FModel.eraseFeature at e
  cases hn : m.nameOf i with
  | none => rw [hn] at e; cases e
  | some n =>
    rw [hn] at e
    simp only at e
    have h1 : Region X H (if m.root = some i then { m with root := none } else m) := by
      split
      · exact { h with root := by intro r hr; cases hr }
      · exact h
    generalize (if m.root = some i then { m with root := none } else m) = m1 at e h1
    cases hg : m1.getFeature n with
    | none => rw [hg] at e; cases e; exact h1
    | some j =>
      rw [hg] at e; cases e
      exact { h1.free (h1.getFeature hg) with features := fun e he => h1.features e (List.mem_filter.1 he).1 }

theorem Region.dropRel {m m' : FModel} (h : Region X H m) {r : Id} (e : m.dropRel r = some m') : Region X H m' := by
  unfold FModel.dropRel at e
  split at e
  · rename_i hr
    cases e
    exact { h.free (h.rels r hr) with rels := fun x hx => h.rels x (List.mem_of_mem_erase hx) }
  · cases e

theorem Region.updFeat {m m' : FModel} (h : Region X H m) {i : Id} {g : Feat → Feat} (hi : ¬ X i)
    (e : m.updFeat i g = some m') : Region X H m' := by
  unfold FModel.updFeat at e
  cases hn : m.heap i with
  | none => rw [hn] at e; cases e
  | some n =>
    rw [hn] at e
    simp only at e
    cases hd : n.data with
    | rel k => rw [hd] at e; cases e
    | feat f =>
      rw [hd] at e; cases e
      exact h.put hi (h.par i n hi hn) (h.edg i n hi hn)

theorem Region.removeFinish {m : FModel} (h : Region X H m) {i : Id} (hi : ¬ X i) :
    RegionOut X H (m.removeFinish i) := by
  unfold FModel.removeFinish
  cases hn : m.heap i with
  | none => trivial
  | some n =>
    simp only
    cases hp : n.parent with
    | none => trivial
    | some p =>
      simp only
      cases hr : m.removeEdge p i with
      | none => trivial
      | some m1 =>
        simp only
        exact Region.outOf fun m' e => (h.removeEdge (h.par i n hi hn p hp) hr).eraseFeature e

theorem Region.removeRec {E : Env} : ∀ {fuel : Nat} {recursive : Bool} {m : FModel} {i : Id}, Region X H m → ¬ X i →
    RegionOut X H (FModel.removeRec E fuel recursive m i)
  | 0, _, m, i, _, _ => trivial
  | fuel + 1, recursive, m, i, h, hi => by
    cases recursive with
    | true =>
      simp only [FModel.removeRec, if_true]
      cases h1 : m.children E Node.isFeat i with
      | none => trivial
      | some cs =>
        simp only
        have h2 := Region.outFold (f := fun m c => FModel.removeRec E fuel true m c) (l := cs) h
          (fun m x hx hm => Region.removeRec hm (h.children hi h1 x hx))
        cases h3 : FModel.outFold (fun m c => FModel.removeRec E fuel true m c) m cs with
        | ub => trivial
        | err e m1 => rw [h3] at h2; exact h2
        | ok m1 =>
          rw [h3] at h2
          simp only
          have h2 : Region X H m1 := h2
          cases h4 : m1.children E Node.isRel i with
          | none => trivial
          | some rs =>
            simp only
            have h5 := Region.outFold (f := fun m r => FModel.outOf (m.dropRelOf i r)) (l := rs) h2 (by
              intro m x _ hm
              refine Region.outOf fun m' e => ?_
              unfold FModel.dropRelOf at e
              cases h6 : m.removeEdge i x with
              | none => rw [h6] at e; cases e
              | some m2 => rw [h6] at e; exact (hm.removeEdge hi h6).dropRel e)
            cases h6 : FModel.outFold (fun m r => FModel.outOf (m.dropRelOf i r)) m1 rs with
            | ub => trivial
            | err e m2 => rw [h6] at h5; exact h5
            | ok m2 => rw [h6] at h5; exact Region.removeFinish h5 hi
    | false =>
      simp only [FModel.removeRec, Bool.false_eq_true, if_false]
      cases h1 : m.children E Node.isFeat i with
      | none => trivial
      | some cs =>
        cases cs with
        | cons c cs => exact h
        | nil =>
          simp only
          cases h2 : m.children E Node.isRel i with
          | none => trivial
          | some rs =>
            cases rs with
            | nil => exact h.removeFinish hi
            | cons r rs =>
              simp only
              cases h3 : m.dropRel r with
              | none => trivial
              | some m1 => exact (h.dropRel h3).removeFinish hi

theorem Region.regroup {E : Env} {m m' : FModel} (h : Region X H m) {p r c : Id} (hp : ¬ X p) (hr : ¬ X r)
    (hc : ¬ X c) (e : FModel.regroup E p r m c = some m') : Region X H m' := by
  unfold FModel.regroup at e
  cases h1 : m.heap p with
  | none => rw [h1] at e; cases e
  | some pn =>
    cases h2 : m.heap c with
    | none => rw [h1, h2] at e; cases e
    | some cn =>
      rw [h1, h2] at e
      simp only at e
      split at e
      · cases e
      · cases h3 : m.removeEdge p c with
        | none => rw [h3] at e; cases e
        | some m1 =>
          rw [h3] at e
          simp only at e
          cases h4 : m1.addEdge r c with
          | none => rw [h4] at e; cases e
          | some m2 =>
            rw [h4] at e
            exact ((h.removeEdge hp h3).addEdge hr hc h4).setParent hc (by intro q hq; cases hq; exact hr) e

/-- The references of a modification denote objects of the model. -/
def RefIn (X : Id → Prop) (r : Ref) : Prop := ∀ i, r = .ptr (some i) → ¬ X i

theorem Region.resolve {m : FModel} (h : Region X H m) {r : Ref} (hr : RefIn X r) {i : Id}
    (e : m.resolve r = some i) : ¬ X i := by
  cases r with
  | name n => exact h.getFeature e
  | ptr j =>
    have e : j = some i := e
    exact hr i (by rw [e])

/-- The same for a modification. -/
def OpIn (X : Id → Prop) : Op → Prop
  | .addFeature _ p => ∀ i, p = some i → ¬ X i
  | .removeFeature f _ => RefIn X f
  | .addRelationship _ p => RefIn X p
  | .removeRelationship p => RefIn X p
  | .addLocation f _ => RefIn X f
  | .removeLocation f _ => RefIn X f
  | .addChild p c => RefIn X p ∧ RefIn X c
  | _ => True

theorem Region.execAddFeature {m : FModel} (h : Region X H m) {a : Attr} {p : Option Id}
    (hp : ∀ i, p = some i → ¬ X i) : RegionOut X H (m.execAddFeature a p) := by
  unfold FModel.execAddFeature
  cases h1 : m.insertFeature a with
  | none => exact h
  | some r =>
    obtain ⟨m1, i⟩ := r
    obtain ⟨h2, h3⟩ := h.insertFeature h1
    simp only
    cases p with
    | some p => exact Region.outOf fun m' e => h2.link (hp p rfl) h3 e
    | none =>
      simp only
      cases h4 : m1.root with
      | none => exact h2
      | some r => exact Region.outOf fun m' e => h2.link (h2.root r h4) h3 e

theorem Region.setStore {m : FModel} (h : Region X H m) {c : CClass} {l : List Stored}
    (hl : ∀ s ∈ l, ∀ i, some i ∈ s.binds → ¬ X i) : Region X H (m.setStore c l) := by
  have hb : ∀ s ∈ allStored (m.setStore c l), ∀ i, some i ∈ s.binds → ¬ X i := by
    intro s hs
    obtain ⟨c', hs⟩ := mem_allStored.1 hs
    rw [store_setStore] at hs
    split at hs
    · exact hl s hs
    · exact h.binds s (mem_allStored.2 ⟨c', hs⟩)
  cases c <;> exact { h with binds := hb }

theorem Region.bindLeaf {m : FModel} (h : Region X H m) {l : CLeaf} {i : Id} (hi : ¬ X i) :
    Region X H (m.bindLeaf l i) := by
  unfold FModel.bindLeaf
  refine h.setStore ?_
  intro s hs j hj
  rw [List.mem_iff_getElem?] at hs
  obtain ⟨k, hk⟩ := hs
  rw [List.getElem?_modify] at hk
  cases ho : (m.store l.root.cls)[k]? with
  | none => rw [ho] at hk; simp at hk
  | some s0 =>
    have hb := h.binds s0 (mem_allStored.2 ⟨_, List.mem_of_getElem? ho⟩)
    rw [ho] at hk
    simp only [Option.map_eq_map, Option.map_some, Option.some.injEq] at hk
    by_cases hki : l.root.idx = k
    · rw [if_pos hki] at hk
      subst hk
      rcases List.mem_or_eq_of_mem_set hj with hj | hj
      · exact hb j hj
      · cases hj; exact hi
    · rw [if_neg hki] at hk
      subst hk
      exact hb j hj

theorem Region.bindLeaves {tree : Constraint} {root : CRoot} : ∀ {ns : List Str} {m m' : FModel} {k : Nat} {b : Bool},
    Region X H m → FModel.bindLeaves tree root m k ns = some (m', b) → Region X H m'
  | [], m, m', k, b, h, e => by simp only [FModel.bindLeaves] at e; cases e; exact h
  | n :: ns, m, m', k, b, h, e => by
    unfold FModel.bindLeaves at e
    cases hg : m.getFeature n with
    | none =>
      rw [hg] at e
      simp only at e
      cases hr : FModel.bindLeaves tree root m (k + 1) ns with
      | none => rw [hr] at e; cases e
      | some r => rw [hr] at e; cases e; exact Region.bindLeaves (m' := r.1) (b := r.2) h hr
    | some i =>
      rw [hg] at e
      simp only at e
      have hi := h.getFeature hg
      cases hu : (m.bindLeaf ⟨root, k⟩ i).updFeat i (Feat.register tree ⟨root, k⟩) with
      | none => rw [hu] at e; cases e
      | some m1 => rw [hu] at e; exact Region.bindLeaves ((h.bindLeaf hi).updFeat hi hu) e

theorem Region.execAddConstraint {m : FModel} (h : Region X H m) {k : CKind} {c : Constraint} :
    RegionOut X H (m.execAddConstraint k c) := by
  unfold FModel.execAddConstraint
  simp only
  have h1 : Region X H (m.setStore k.cls (m.store k.cls ++ [⟨c, c.features.map fun _ => none, k.info⟩])) := by
    refine h.setStore ?_
    intro s hs i hi
    rcases List.mem_append.1 hs with hs | hs
    · exact h.binds s (mem_allStored.2 ⟨_, hs⟩) i hi
    · simp only [List.mem_singleton] at hs
      subst hs
      simp at hi
  generalize m.setStore k.cls (m.store k.cls ++ [⟨c, c.features.map fun _ => none, k.info⟩]) = m1 at h1
  cases hb : FModel.bindLeaves c ⟨k.cls, (m.store k.cls).length⟩ m1 0 c.features with
  | none => trivial
  | some r =>
    obtain ⟨m2, b⟩ := r
    cases b <;> exact h1.bindLeaves hb

theorem Region.execSetRoot {m : FModel} (h : Region X H m) {n : Str} : RegionOut X H (m.execSetRoot n) := by
  have key : RegionOut X H (match m.insertFeature { name := n, kind := .root } with
        | none => Out.err .alreadyPresent m
        | some (m, i) =>
          match m.root with
          | none => .ok { m with root := some i }
          | some r =>
            match m.heap r with
            | none => .ub
            | some rn =>
              match FModel.outFold (fun m c => FModel.outOf (m.link i c)) m rn.edges with
              | .ok m =>
                match FModel.outFold (fun m c => FModel.outOf (m.removeEdge r c)) m rn.edges with
                | .ok m =>
                  match m.eraseFeature r with
                  | none => .ub
                  | some m => .ok { m with root := some i }
                | o => o
              | o => o) := by
    cases h1 : m.insertFeature { name := n, kind := .root } with
    | none => exact h
    | some r =>
      obtain ⟨m1, i⟩ := r
      obtain ⟨h2, h3⟩ := h.insertFeature h1
      simp only
      cases h4 : m1.root with
      | none => exact { h2 with root := by intro r hr; cases hr; exact h3 }
      | some x =>
        simp only
        have hx := h2.root x h4
        cases h5 : m1.heap x with
        | none => trivial
        | some xn =>
          simp only
          have h6 := Region.outFold (f := fun m c => FModel.outOf (m.link i c)) (l := xn.edges) h2
            (fun m c hc hm => Region.outOf fun m' e => hm.link h3 (h2.edg x xn hx h5 c hc) e)
          cases h7 : FModel.outFold (fun m c => FModel.outOf (m.link i c)) m1 xn.edges with
          | ub => trivial
          | err e m2 => rw [h7] at h6; exact h6
          | ok m2 =>
            rw [h7] at h6
            simp only
            have h8 := Region.outFold (f := fun m c => FModel.outOf (m.removeEdge x c)) (l := xn.edges) h6
              (fun m c _ hm => Region.outOf fun m' e => hm.removeEdge hx e)
            cases h9 : FModel.outFold (fun m c => FModel.outOf (m.removeEdge x c)) m2 xn.edges with
            | ub => trivial
            | err e m3 => rw [h9] at h8; exact h8
            | ok m3 =>
              rw [h9] at h8
              simp only
              cases h10 : m3.eraseFeature x with
              | none => trivial
              | some m4 =>
                exact { Region.eraseFeature h8 h10 with root := by intro r hr; cases hr; exact h3 }
  unfold FModel.execSetRoot
  cases h1 : m.root with
  | none => exact key
  | some r =>
    simp only
    cases h2 : m.nameOf r with
    | none => trivial
    | some rn =>
      simp only
      by_cases h3 : rn = n
      · rw [if_pos h3]; exact h
      · rw [if_neg h3]; exact key

theorem Region.exec {E : Env} {m : FModel} (h : Region X H m) {op : Op} (ho : OpIn X op) :
    RegionOut X H (m.exec E op) := by
  cases op with
  | addFeature a p => exact h.execAddFeature ho
  | removeFeature f r =>
    show RegionOut X H (m.execRemoveFeature E f r)
    unfold FModel.execRemoveFeature
    cases h1 : m.resolve f with
    | none => exact h
    | some i => exact h.removeRec (h.resolve ho h1)
  | addRelationship k p =>
    show RegionOut X H (m.execAddRelationship E k p)
    unfold FModel.execAddRelationship
    simp only
    have h0 : Region X H { m.put m.next { data := .rel k } with next := m.next + 1, rels := m.rels ++ [m.next] } := by
      refine { h.put (i := m.next) h.new (n := { data := .rel k }) (by intro p hp; cases hp) (by intro c hc; cases hc) with
        next := fun i hi => Nat.lt_succ_of_lt (h.next i hi), rels := ?_ }
      intro r hr
      rcases List.mem_append.1 hr with hr | hr
      · exact h.rels r hr
      · simp at hr; subst hr; exact h.new
    generalize ({ m.put m.next { data := .rel k } with next := m.next + 1, rels := m.rels ++ [m.next] } : FModel) = m1 at h0
    cases h1 : m1.resolve p with
    | none => trivial
    | some i =>
      have hi := h0.resolve ho h1
      simp only
      cases h2 : m1.link i m.next with
      | none => trivial
      | some m2 =>
        simp only
        have h3 := h0.link hi h.new h2
        cases h4 : m2.children E Node.isFeat i with
        | none => trivial
        | some cs =>
          exact Region.outFold h3 (fun m' c hc hm => Region.outOf fun m'' e => hm.regroup hi h.new (h3.children hi h4 c hc) e)
  | removeRelationship p =>
    show RegionOut X H (m.execRemoveRelationship E p)
    unfold FModel.execRemoveRelationship
    cases h1 : m.resolve p with
    | none => exact h
    | some i =>
      have hi := h.resolve ho h1
      simp only
      cases h2 : m.children E Node.isRel i with
      | none => trivial
      | some rs =>
        cases rs with
        | nil => trivial
        | cons r rs =>
          have hr := h.children hi h2 r (List.mem_cons_self ..)
          simp only
          cases h3 : m.removeEdge i r with
          | none => trivial
          | some m1 =>
            have h4 := h.removeEdge hi h3
            simp only
            cases h5 : m1.children E Node.isFeat r with
            | none => trivial
            | some cs =>
              simp only
              have h6 := Region.outFold (f := fun m c => FModel.outOf (FModel.regroup E r i m c)) (l := cs) h4
                (fun m' c hc hm => Region.outOf fun m'' e => hm.regroup hr hi (h4.children hr h5 c hc) e)
              cases h7 : FModel.outFold (fun m c => FModel.outOf (FModel.regroup E r i m c)) m1 cs with
              | ub => trivial
              | err e m2 => rw [h7] at h6; exact h6
              | ok m2 =>
                rw [h7] at h6
                exact Region.outOf fun m' e => Region.dropRel h6 e
  | addLocation f r =>
    show RegionOut X H (m.execAddLocation f r)
    unfold FModel.execAddLocation
    cases h1 : m.resolve f with
    | none => trivial
    | some i => exact Region.outOf fun m' e => h.updFeat (h.resolve ho h1) e
  | removeLocation f r =>
    show RegionOut X H (m.execRemoveLocation f r)
    unfold FModel.execRemoveLocation
    cases h1 : m.resolve f with
    | none => trivial
    | some i =>
      simp only
      cases h2 : m.feat? i with
      | none => trivial
      | some ft =>
        simp only
        cases h3 : FModel.eraseLoc r ft.attr.locs with
        | none => trivial
        | some ls => exact Region.outOf fun m' e => h.updFeat (h.resolve ho h1) e
  | addConstraint k c => exact h.execAddConstraint
  | setName n => exact { h with }
  | setCommit n => exact { h with }
  | setPath n => exact { h with }
  | setRoot n => exact h.execSetRoot
  | addChild p c =>
    show RegionOut X H (m.execAddChild p c)
    unfold FModel.execAddChild
    cases h1 : m.resolve c with
    | none => exact h
    | some ci =>
      have hci := h.resolve ho.2 h1
      simp only
      cases h2 : m.resolve p with
      | none => exact h
      | some pi =>
        have hpi := h.resolve ho.1 h2
        simp only
        by_cases h3 : ci = pi
        · rw [if_pos h3]; exact h
        · rw [if_neg h3]
          cases h4 : m.heap ci with
          | none => trivial
          | some cn =>
            simp only
            have fin : ∀ m1 : FModel, Region X H m1 → RegionOut X H (match m1.addEdge pi ci with
                | none => Out.ub | some m => FModel.outOf (m.setParent ci (some pi))) := by
              intro m1 hm
              cases h6 : m1.addEdge pi ci with
              | none => trivial
              | some m2 =>
                exact Region.outOf fun m' e => (hm.addEdge hpi hci h6).setParent hci (by intro q hq; cases hq; exact hpi) e
            cases h5 : cn.parent with
            | none => exact fin m h
            | some q =>
              simp only
              cases h6 : m.removeEdge q ci with
              | none => trivial
              | some m1 => exact fin m1 (h.removeEdge (h.par ci cn hci h4 q h5) h6)

theorem Region.commitOps {E : Env} {m : FModel} (h : Region X H m) {ops : List Op} (ho : ∀ o ∈ ops, OpIn X o) :
    RegionOut X H (m.commitOps E ops) := by
  unfold FModel.commitOps
  have h1 := Region.outFold (f := FModel.exec E) (l := ops) h (fun m x hx hm => hm.exec (ho x hx))
  cases h2 : FModel.outFold (FModel.exec E) m ops with
  | ub => trivial
  | err e m1 => rw [h2] at h1; exact h1
  | ok m1 =>
    rw [h2] at h1
    simp only
    cases h3 : m1.consistent E with
    | none => trivial
    | some b => cases b <;> exact h1

/-- One call on a copy transaction, whatever its references are. -/
theorem Region.copyExec {E : Env} {m : FModel} (h : Region X H m) (op : Op) : RegionOut X H (m.copyExec E op) := by
  have ht : ∀ {o : Option Id} {r : Option Id}, m.translate o = some r → ∀ i, r = some i → ¬ X i := by
    intro o r e i hi
    cases o with
    | none => cases e
    | some j =>
      simp only [FModel.translate] at e
      cases hn : m.nameOf j with
      | none => rw [hn] at e; cases e
      | some n =>
        rw [hn] at e
        simp only [Option.map_some, Option.some.injEq] at e
        rw [hi] at e
        exact h.getFeature e
  have hr : ∀ {o : Option Id} {r : Option Id}, m.translate o = some r → RefIn X (.ptr r) := by
    intro o r e i hi
    cases hi
    exact ht e i rfl
  cases op with
  | addFeature a p =>
    cases p with
    | none => exact h.execAddFeature (p := none) (by intro i hi; cases hi)
    | some p =>
      simp only [FModel.copyExec]
      cases h1 : m.translate (some p) with
      | none => trivial
      | some r => exact h.execAddFeature (ht h1)
  | removeFeature f r =>
    simp only [FModel.copyExec]
    cases h1 : m.translate (m.resolve f) with
    | none => trivial
    | some i => exact h.exec (E := E) (op := .removeFeature (.ptr i) r) (hr h1)
  | addRelationship k f =>
    simp only [FModel.copyExec]
    cases h1 : m.translate (m.resolve f) with
    | none => trivial
    | some i => exact h.exec (E := E) (op := .addRelationship k (.ptr i)) (hr h1)
  | removeRelationship f =>
    simp only [FModel.copyExec]
    cases h1 : m.translate (m.resolve f) with
    | none => trivial
    | some i => exact h.exec (E := E) (op := .removeRelationship (.ptr i)) (hr h1)
  | addLocation f r =>
    simp only [FModel.copyExec]
    cases h1 : m.translate (m.resolve f) with
    | none => trivial
    | some i => exact h.exec (E := E) (op := .addLocation (.ptr i) r) (hr h1)
  | removeLocation f r =>
    simp only [FModel.copyExec]
    cases h1 : m.translate (m.resolve f) with
    | none => trivial
    | some i => exact h.exec (E := E) (op := .removeLocation (.ptr i) r) (hr h1)
  | addChild p c => exact h
  | addConstraint k c => exact h.execAddConstraint
  | setName n => exact { h with }
  | setCommit n => exact { h with }
  | setPath n => exact { h with }
  | setRoot n => exact h.execSetRoot

theorem Region.copyRun {E : Env} : ∀ {ops : List Op} {m m' : FModel}, Region X H m →
    FModel.copyRun E m ops = some m' → Region X H m'
  | [], m, m', h, e => by cases e; exact h
  | o :: os, m, m', h, e => by
    unfold FModel.copyRun at e
    have h1 := h.copyExec (E := E) o
    cases h2 : m.copyExec E o with
    | ub => rw [h2] at e; cases e
    | ok m1 => rw [h2] at e h1; exact Region.copyRun (m := m1) h1 e
    | err x m1 => rw [h2] at e h1; exact Region.copyRun (m := m1) h1 e

end


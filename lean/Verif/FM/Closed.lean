import Verif.FM.Transaction
import Verif.FM.Spec
/-!
# Lemmas: what every modification keeps
-/

namespace Verif
open Verif.Spec

/-- Kept by everything a modification does to a model, other than a new constraint. -/
structure ClosedQuiet (P : FModel → Prop) : Prop where
  put : ∀ {m i n} n', P m → m.heap i = some n → P (m.put i n')
  insert : ∀ {m a m' i}, P m → m.insertFeature a = some (m', i) → P m'
  erase : ∀ {m i m'}, P m → m.eraseFeature i = some m' → P m'
  newRel : ∀ {m} k, P m → P { m.put m.next { data := .rel k } with next := m.next + 1, rels := m.rels ++ [m.next] }
  drop : ∀ {m r m'}, P m → m.dropRel r = some m' → P m'
  bind : ∀ {m} l i, P m → P (m.bindLeaf l i)
  name : ∀ {m} s, P m → P { m with name := s }
  commit : ∀ {m} s, P m → P { m with commit := s }
  path : ∀ {m} s, P m → P { m with path := s }
  root : ∀ {m} r, P m → P { m with root := r }

/-- Kept by everything a modification does to a model. -/
structure Closed (P : FModel → Prop) : Prop extends ClosedQuiet P where
  append : ∀ {m} cl s, P m → P (m.setStore cl (m.store cl ++ [s]))

/-- It holds of the model a modification leaves. -/
def OutP (P : FModel → Prop) : Out → Prop
  | .ok m => P m
  | .err _ m => P m
  | .ub => True

namespace ClosedQuiet
variable {P : FModel → Prop} (C : ClosedQuiet P) {E : Env} {m m' : FModel}
include C

theorem setParent {i : Id} {p : Option Id} (h : P m) (e : m.setParent i p = some m') : P m' := by
  unfold FModel.setParent at e
  cases hi : m.heap i with
  | none => rw [hi] at e; cases e
  | some n => rw [hi] at e; cases e; exact C.put _ h hi

theorem addEdge {p c : Id} (h : P m) (e : m.addEdge p c = some m') : P m' := by
  unfold FModel.addEdge at e
  cases hi : m.heap p with
  | none => rw [hi] at e; cases e
  | some n => rw [hi] at e; cases e; exact C.put _ h hi

theorem removeEdge {p c : Id} (h : P m) (e : m.removeEdge p c = some m') : P m' := by
  unfold FModel.removeEdge at e
  cases hi : m.heap p with
  | none => rw [hi] at e; cases e
  | some n => rw [hi] at e; cases e; exact C.put _ h hi

theorem link {p c : Id} (h : P m) (e : m.link p c = some m') : P m' := by
  unfold FModel.link at e
  cases h1 : m.setParent c (some p) with
  | none => rw [h1] at e; cases e
  | some m1 => rw [h1] at e; exact C.addEdge (C.setParent h h1) e

theorem updFeat {i : Id} {g : Feat → Feat} (h : P m) (e : m.updFeat i g = some m') : P m' := by
  unfold FModel.updFeat at e
  cases hi : m.heap i with
  | none => rw [hi] at e; cases e
  | some n =>
    rw [hi] at e
    cases hd : n.data with
    | rel k => simp only [hd] at e; cases e
    | feat f => simp only [hd] at e; cases e; exact C.put _ h hi

omit C in
theorem outOf {o : Option FModel} (h : ∀ m, o = some m → P m) : OutP P (FModel.outOf o) := by
  cases o with
  | none => trivial
  | some m => exact h m rfl

omit C in
theorem outFold {α} {f : FModel → α → Out} (hf : ∀ m x, P m → OutP P (f m x)) : ∀ (xs : List α) (m : FModel), P m →
    OutP P (FModel.outFold f m xs)
  | [], _, h => h
  | x :: xs, m, h => by
    have := hf m x h
    unfold FModel.outFold
    cases hx : f m x with
    | ok m1 => rw [hx] at this; exact outFold hf xs m1 this
    | err e m1 => rw [hx] at this; exact this
    | ub => trivial

theorem dropRelOf {i r : Id} (h : P m) (e : m.dropRelOf i r = some m') : P m' := by
  unfold FModel.dropRelOf at e
  cases h1 : m.removeEdge i r with
  | none => rw [h1] at e; cases e
  | some m1 => rw [h1] at e; exact C.drop (C.removeEdge h h1) e

theorem removeFinish {i : Id} (h : P m) : OutP P (m.removeFinish i) := by
  unfold FModel.removeFinish
  cases hi : m.heap i with
  | none => trivial
  | some n =>
    simp only
    cases hp : n.parent with
    | none => trivial
    | some p =>
      simp only
      cases h1 : m.removeEdge p i with
      | none => trivial
      | some m1 => exact outOf fun m2 e => C.erase (C.removeEdge h h1) e

theorem removeRec : ∀ (fuel : Nat) (b : Bool) (m : FModel) (i : Id), P m → OutP P (FModel.removeRec E fuel b m i)
  | 0, _, _, _, _ => trivial
  | fuel + 1, b, m, i, h => by
    unfold FModel.removeRec
    cases b with
    | true =>
      simp only [if_true]
      cases h1 : m.children E Node.isFeat i with
      | none => trivial
      | some cs =>
        simp only
        have h2 := outFold (P := P) (f := fun m c => FModel.removeRec E fuel true m c) (fun m x hm => removeRec fuel true m x hm) cs m h
        cases h3 : FModel.outFold (fun m c => FModel.removeRec E fuel true m c) m cs with
        | err e m1 => rw [h3] at h2; exact h2
        | ub => trivial
        | ok m1 =>
          rw [h3] at h2
          simp only
          cases h4 : m1.children E Node.isRel i with
          | none => trivial
          | some rs =>
            simp only
            have h5 := outFold (P := P) (f := fun m r => FModel.outOf (m.dropRelOf i r))
              (fun m x hm => outOf fun m' e => C.dropRelOf hm e) rs m1 h2
            cases h6 : FModel.outFold (fun m r => FModel.outOf (m.dropRelOf i r)) m1 rs with
            | err e m2 => rw [h6] at h5; exact h5
            | ub => trivial
            | ok m2 => rw [h6] at h5; exact C.removeFinish h5
    | false =>
      simp only [Bool.false_eq_true, if_false]
      cases h1 : m.children E Node.isFeat i with
      | none => trivial
      | some cs =>
        cases cs with
        | cons c cs => exact h
        | nil =>
          simp only
          cases h2 : m.children E Node.isRel i with
          | none => trivial
          | some rs =>
            cases rs with
            | nil => exact C.removeFinish h
            | cons r rs =>
              simp only
              cases h3 : m.dropRel r with
              | none => trivial
              | some m1 => exact C.removeFinish (C.drop h h3)

theorem regroup {p r c : Id} (h : P m) (e : FModel.regroup E p r m c = some m') : P m' := by
  unfold FModel.regroup at e
  cases h1 : m.heap p with
  | none => rw [h1] at e; cases e
  | some pn =>
    cases h2 : m.heap c with
    | none => rw [h1, h2] at e; cases e
    | some cn =>
      rw [h1, h2] at e
      simp only at e
      by_cases hb : (E.asserts && !(decide (c ∈ pn.edges) && decide (cn.parent = some p))) = true
      · rw [if_pos hb] at e; cases e
      · rw [if_neg hb] at e
        cases h3 : m.removeEdge p c with
        | none => rw [h3] at e; cases e
        | some m1 =>
          rw [h3] at e
          simp only at e
          cases h4 : m1.addEdge r c with
          | none => rw [h4] at e; cases e
          | some m2 => rw [h4] at e; exact C.setParent (C.addEdge (C.removeEdge h h3) h4) e

theorem bindLeaves {tree : Constraint} {root : CRoot} : ∀ (ns : List Str) (m : FModel) (k : Nat) {m' : FModel} {b : Bool}, P m →
    FModel.bindLeaves tree root m k ns = some (m', b) → P m'
  | [], m, k, m', b, h, e => by simp only [FModel.bindLeaves] at e; cases e; exact h
  | n :: ns, m, k, m', b, h, e => by
    unfold FModel.bindLeaves at e
    cases hg : m.getFeature n with
    | none =>
      rw [hg] at e
      simp only at e
      cases hr : FModel.bindLeaves tree root m (k + 1) ns with
      | none => rw [hr] at e; cases e
      | some r => rw [hr] at e; cases e; exact bindLeaves ns m (k + 1) (m' := r.1) (b := r.2) h hr
    | some i =>
      rw [hg] at e
      simp only at e
      cases hu : (m.bindLeaf ⟨root, k⟩ i).updFeat i (Feat.register tree ⟨root, k⟩) with
      | none => rw [hu] at e; cases e
      | some m1 => rw [hu] at e; exact bindLeaves ns m1 (k + 1) (C.updFeat (C.bind _ _ h) hu) e

theorem execSetRoot {n : Str} (h : P m) : OutP P (m.execSetRoot n) := by
  have key : OutP P (match m.insertFeature { name := n, kind := .root } with
        | none => Out.err .alreadyPresent m
        | some (m, i) =>
          match m.root with
          | none => .ok { m with root := some i }
          | some r =>
            match m.heap r with
            | none => .ub
            | some rn =>
              match FModel.outFold (fun m c => FModel.outOf (m.link i c)) m rn.edges with
              | .ok m =>
                match FModel.outFold (fun m c => FModel.outOf (m.removeEdge r c)) m rn.edges with
                | .ok m =>
                  match m.eraseFeature r with
                  | none => .ub
                  | some m => .ok { m with root := some i }
                | o => o
              | o => o) := by
    cases h1 : m.insertFeature { name := n, kind := .root } with
    | none => exact h
    | some x =>
      obtain ⟨m1, i⟩ := x
      have hm1 := C.insert h h1
      simp only
      cases h2 : m1.root with
      | none => exact C.root _ hm1
      | some r =>
        simp only
        cases h3 : m1.heap r with
        | none => trivial
        | some rn =>
          simp only
          have h4 := outFold (P := P) (f := fun m c => FModel.outOf (m.link i c)) (fun m x hm => outOf fun m' e => C.link hm e) rn.edges m1 hm1
          cases h5 : FModel.outFold (fun m c => FModel.outOf (m.link i c)) m1 rn.edges with
          | err e m2 => rw [h5] at h4; exact h4
          | ub => trivial
          | ok m2 =>
            rw [h5] at h4
            simp only
            have h6 := outFold (P := P) (f := fun m c => FModel.outOf (m.removeEdge r c)) (fun m x hm => outOf fun m' e => C.removeEdge hm e) rn.edges m2 h4
            cases h7 : FModel.outFold (fun m c => FModel.outOf (m.removeEdge r c)) m2 rn.edges with
            | err e m3 => rw [h7] at h6; exact h6
            | ub => trivial
            | ok m3 =>
              rw [h7] at h6
              simp only
              cases h8 : m3.eraseFeature r with
              | none => trivial
              | some m4 => exact C.root _ (C.erase h6 h8)
  unfold FModel.execSetRoot
  simp only
  cases h1 : m.root with
  | none => exact key
  | some r =>
    simp only
    cases h2 : m.nameOf r with
    | none => trivial
    | some rn =>
      simp only
      by_cases h3 : rn = n
      · rw [if_pos h3]; exact h
      · rw [if_neg h3]; exact key

theorem exec (o : Op) (ho : ∀ k c, o ≠ .addConstraint k c) (h : P m) : OutP P (m.exec E o) := by
  cases o with
  | addFeature a p =>
    show OutP P (m.execAddFeature a p)
    unfold FModel.execAddFeature
    cases h1 : m.insertFeature a with
    | none => exact h
    | some x =>
      obtain ⟨m1, i⟩ := x
      have hm1 := C.insert h h1
      simp only
      cases p with
      | some p => exact outOf fun m' e => C.link hm1 e
      | none =>
        simp only
        cases h4 : m1.root with
        | none => exact hm1
        | some r => exact outOf fun m' e => C.link hm1 e
  | removeFeature f r =>
    show OutP P (m.execRemoveFeature E f r)
    unfold FModel.execRemoveFeature
    cases h1 : m.resolve f with
    | none => exact h
    | some i => exact C.removeRec _ _ _ _ h
  | addRelationship k p =>
    show OutP P (m.execAddRelationship E k p)
    unfold FModel.execAddRelationship
    simp only
    have h0 := C.newRel k h
    generalize ({ m.put m.next { data := .rel k } with next := m.next + 1, rels := m.rels ++ [m.next] } : FModel) = m1 at h0
    cases h1 : m1.resolve p with
    | none => trivial
    | some i =>
      simp only
      cases h2 : m1.link i m.next with
      | none => trivial
      | some m2 =>
        simp only
        cases h4 : m2.children E Node.isFeat i with
        | none => trivial
        | some cs => exact outFold (fun m' c hm => outOf fun m'' e => C.regroup hm e) cs m2 (C.link h0 h2)
  | removeRelationship p =>
    show OutP P (m.execRemoveRelationship E p)
    unfold FModel.execRemoveRelationship
    cases h1 : m.resolve p with
    | none => exact h
    | some i =>
      simp only
      cases h2 : m.children E Node.isRel i with
      | none => trivial
      | some rs =>
        cases rs with
        | nil => trivial
        | cons r rs =>
          simp only
          cases h3 : m.removeEdge i r with
          | none => trivial
          | some m1 =>
            simp only
            cases h4 : m1.children E Node.isFeat r with
            | none => trivial
            | some cs =>
              simp only
              have h5 := outFold (P := P) (f := fun m c => FModel.outOf (FModel.regroup E r i m c)) (fun m' c hm => outOf fun m'' e => C.regroup hm e) cs m1
                (C.removeEdge h h3)
              cases h6 : FModel.outFold (fun m c => FModel.outOf (FModel.regroup E r i m c)) m1 cs with
              | err e m2 => rw [h6] at h5; exact h5
              | ub => trivial
              | ok m2 => rw [h6] at h5; exact outOf fun m3 e => C.drop h5 e
  | addLocation f r =>
    show OutP P (m.execAddLocation f r)
    unfold FModel.execAddLocation
    cases h1 : m.resolve f with
    | none => trivial
    | some i => exact outOf fun m' e => C.updFeat h e
  | removeLocation f r =>
    show OutP P (m.execRemoveLocation f r)
    unfold FModel.execRemoveLocation
    cases h1 : m.resolve f with
    | none => trivial
    | some i =>
      simp only
      cases h2 : m.feat? i with
      | none => trivial
      | some ft =>
        simp only
        cases h3 : FModel.eraseLoc r ft.attr.locs with
        | none => trivial
        | some ls => exact outOf fun m' e => C.updFeat h e
  | addConstraint k c => exact absurd rfl (ho k c)
  | setName n => exact C.name _ h
  | setCommit n => exact C.commit _ h
  | setPath n => exact C.path _ h
  | setRoot n => exact C.execSetRoot h
  | addChild p c =>
    show OutP P (m.execAddChild p c)
    unfold FModel.execAddChild
    cases h1 : m.resolve c with
    | none => exact h
    | some ci =>
      simp only
      cases h2 : m.resolve p with
      | none => exact h
      | some pi =>
        simp only
        by_cases hcp : ci = pi
        · rw [if_pos hcp]; exact h
        · rw [if_neg hcp]
          cases h3 : m.heap ci with
          | none => trivial
          | some cn =>
            simp only
            have key : ∀ o : Option FModel, (∀ m1, o = some m1 → P m1) → OutP P (match o with
                | none => .ub
                | some m => match m.addEdge pi ci with
                  | none => .ub
                  | some m => FModel.outOf (m.setParent ci (some pi))) := by
              intro o ho
              cases o with
              | none => trivial
              | some m1 =>
                simp only
                cases h4 : m1.addEdge pi ci with
                | none => trivial
                | some m2 => exact outOf fun m3 e => C.setParent (C.addEdge (ho m1 rfl) h4) e
            refine key _ fun m1 e => ?_
            cases hq : cn.parent with
            | none => rw [hq] at e; cases e; exact h
            | some q => rw [hq] at e; exact C.removeEdge h e

end ClosedQuiet

namespace Closed
variable {P : FModel → Prop} (C : Closed P) {E : Env} {m m' : FModel}
include C

theorem exec (o : Op) (h : P m) : OutP P (m.exec E o) := by
  by_cases ho : ∀ k c, o ≠ .addConstraint k c
  · exact C.toClosedQuiet.exec o ho h
  · simp only [ne_eq, Classical.not_forall, Classical.not_not] at ho
    obtain ⟨k, c, rfl⟩ := ho
    show OutP P (m.execAddConstraint k c)
    unfold FModel.execAddConstraint
    simp only
    have h1 := C.append k.cls ⟨c, c.features.map fun _ => none, k.info⟩ h
    generalize m.setStore k.cls (m.store k.cls ++ [⟨c, c.features.map fun _ => none, k.info⟩]) = m1 at h1
    cases hb : FModel.bindLeaves c ⟨k.cls, (m.store k.cls).length⟩ m1 0 c.features with
    | none => trivial
    | some r =>
      obtain ⟨m2, b⟩ := r
      cases b <;> exact C.bindLeaves _ _ _ h1 hb

theorem commitOps (ops : List Op) (h : P m) : OutP P (m.commitOps E ops) := by
  unfold FModel.commitOps
  have h1 := ClosedQuiet.outFold (P := P) (f := FModel.exec E) (fun m o hm => C.exec o hm) ops m h
  cases h2 : FModel.outFold (FModel.exec E) m ops with
  | err e m1 => rw [h2] at h1; exact h1
  | ub => trivial
  | ok m1 =>
    rw [h2] at h1
    simp only
    cases m1.consistent E with
    | none => trivial
    | some b => cases b <;> exact h1

end Closed

/-! ### Constraints stay -/

/-- The constraints of each class begin with the given ones. -/
def Begins (T : CClass → List Constraint) (m : FModel) : Prop := ∀ cl, T cl <+: (m.store cl).map (·.tree)

theorem store_of_same {m m' : FModel} (h1 : m'.booleans = m.booleans) (h2 : m'.nonBooleans = m.nonBooleans) (h3 : m'.mixeds = m.mixeds)
    (cl : CClass) : m'.store cl = m.store cl := by cases cl <;> simp [FModel.store, h1, h2, h3]

theorem begins_same {T : CClass → List Constraint} {m m' : FModel} (h : Begins T m) (h1 : m'.booleans = m.booleans)
    (h2 : m'.nonBooleans = m.nonBooleans) (h3 : m'.mixeds = m.mixeds) : Begins T m' := by
  intro cl
  rw [store_of_same h1 h2 h3]
  exact h cl

theorem begins_closed (T : CClass → List Constraint) : Closed (Begins T) where
  put := by intro m i n n' h _ cl; exact begins_same h rfl rfl rfl cl
  insert := by
    intro m a m' i h e cl
    unfold FModel.insertFeature at e
    cases hg : m.getFeature a.name with
    | some j => rw [hg] at e; cases e
    | none => rw [hg] at e; cases e; exact begins_same h rfl rfl rfl cl
  erase := by
    intro m i m' h e cl
    unfold FModel.eraseFeature at e
    cases hn : m.nameOf i with
    | none => rw [hn] at e; cases e
    | some n =>
      rw [hn] at e
      simp only at e
      by_cases hr : m.root = some i
      · rw [if_pos hr] at e
        cases hg : ({ m with root := none } : FModel).getFeature n with
        | none => rw [hg] at e; cases e; exact begins_same h rfl rfl rfl cl
        | some j => rw [hg] at e; cases e; exact begins_same h rfl rfl rfl cl
      · rw [if_neg hr] at e
        cases hg : m.getFeature n with
        | none => rw [hg] at e; cases e; exact h cl
        | some j => rw [hg] at e; cases e; exact begins_same h rfl rfl rfl cl
  newRel := by intro m k h cl; exact begins_same h rfl rfl rfl cl
  drop := by
    intro m r m' h e cl
    unfold FModel.dropRel at e
    by_cases hr : r ∈ m.rels
    · rw [if_pos hr] at e; cases e; exact begins_same h rfl rfl rfl cl
    · rw [if_neg hr] at e; cases e
  append := by
    intro m c s h cl
    have : (m.setStore c (m.store c ++ [s])).store cl = if cl = c then m.store cl ++ [s] else m.store cl := by
      cases c <;> cases cl <;> simp [FModel.setStore, FModel.store]
    rw [this]
    by_cases hc : cl = c
    · rw [if_pos hc, List.map_append]
      exact (h cl).trans (List.prefix_append _ _)
    · rw [if_neg hc]; exact h cl
  bind := by
    intro m l i h cl
    have : ((m.bindLeaf l i).store cl).map (·.tree) = (m.store cl).map (·.tree) := by
      have hm : ∀ (xs : List Stored) (k : Nat), (xs.modify k fun s => { s with binds := s.binds.set l.leaf (some i) }).map (·.tree) = xs.map (·.tree) := by
        intro xs
        induction xs with
        | nil => intro k; cases k <;> rfl
        | cons x xs ih =>
          intro k
          cases k with
          | zero => rfl
          | succ k => simp only [List.modify_succ_cons, List.map_cons, ih k]
      unfold FModel.bindLeaf
      cases hc : l.root.cls <;> cases cl <;> simp only [FModel.setStore, FModel.store, hm]
    rw [this]; exact h cl
  name := by intro m s h cl; exact begins_same h rfl rfl rfl cl
  commit := by intro m s h cl; exact begins_same h rfl rfl rfl cl
  path := by intro m s h cl; exact begins_same h rfl rfl rfl cl
  root := by intro m s h cl; exact begins_same h rfl rfl rfl cl

/-! ### Memory -/

/-- The objects the containers of a model own. -/
def ownedIds (m : FModel) : List Id := m.features.map Prod.snd ++ m.rels

theorem mem_ownedIds {m : FModel} {i : Id} : i ∈ ownedIds m ↔ Owned m i := List.mem_append

/-- The containers of the model list each of its objects once, and exactly they and those of `G`, which are not the model's, are
    on the heap. -/
structure Ledger (G : Id → Prop) (m : FModel) : Prop where
  names : (m.features.map Prod.fst).Nodup
  once : (ownedIds m).Nodup
  heap : ∀ i, m.heap i ≠ none ↔ i ∈ ownedIds m ∨ G i
  apart : ∀ i, i ∈ ownedIds m → ¬ G i
  fresh : ∀ i, m.heap i ≠ none → i < m.next

theorem lookup_none {l : List (Str × Id)} {n : Str} (h : l.lookup n = none) : n ∉ l.map Prod.fst := by
  induction l with
  | nil => simp
  | cons x xs ih =>
    obtain ⟨a, b⟩ := x
    rw [List.lookup_cons] at h
    by_cases hn : n = a
    · subst hn; simp at h
    · have : (n == a) = false := by simpa using hn
      rw [this] at h
      simp only [List.map_cons, List.mem_cons, not_or]
      exact ⟨hn, ih h⟩

theorem ledger_same {G : Id → Prop} {m m' : FModel} (h : Ledger G m) (h1 : m'.features = m.features) (h2 : m'.rels = m.rels)
    (h3 : ∀ i, m'.heap i ≠ none ↔ m.heap i ≠ none) (h4 : m'.next = m.next) : Ledger G m' := by
  have ho : ownedIds m' = ownedIds m := by simp only [ownedIds, h1, h2]
  exact ⟨by rw [h1]; exact h.names, by rw [ho]; exact h.once, fun i => by rw [h3, ho]; exact h.heap i, fun i hi => h.apart i (ho ▸ hi),
    fun i hi => by rw [h4]; exact h.fresh i ((h3 i).1 hi)⟩

theorem ledger_new {G : Id → Prop} {m m' : FModel} (h : Ledger G m) {x : Id} (hx : x = m.next) (h1 : (m'.features.map Prod.fst).Nodup)
    (h2 : (ownedIds m').Perm (x :: ownedIds m)) (h3 : ∀ i, m'.heap i ≠ none ↔ i = x ∨ m.heap i ≠ none) (h4 : m'.next = m.next + 1) : Ledger G m' := by
  subst hx
  have hn : m.heap m.next = none := by
    cases hh : m.heap m.next with
    | none => rfl
    | some n => exact absurd (h.fresh m.next (by rw [hh]; simp)) (Nat.lt_irrefl _)
  have hno : m.next ∉ ownedIds m := fun ho => ((h.heap _).2 (.inl ho)) hn
  have hnG : ¬ G m.next := fun hG => ((h.heap _).2 (.inr hG)) hn
  refine ⟨h1, h2.nodup_iff.2 (List.nodup_cons.2 ⟨hno, h.once⟩), fun i => ?_, fun i hi => ?_, fun i hi => ?_⟩
  · rw [h3, h.heap, h2.mem_iff, List.mem_cons, or_assoc]
  · rcases List.mem_cons.1 (h2.mem_iff.1 hi) with rfl | hi
    · exact hnG
    · exact h.apart i hi
  · rw [h4]
    rcases (h3 i).1 hi with rfl | hi
    · exact Nat.lt_succ_self _
    · exact Nat.lt_succ_of_lt (h.fresh i hi)

theorem ledger_free {G : Id → Prop} {m m' : FModel} (h : Ledger G m) {x : Id} (h1 : (m'.features.map Prod.fst).Nodup)
    (h2 : (ownedIds m).Perm (x :: ownedIds m')) (h3 : ∀ i, m'.heap i ≠ none ↔ i ≠ x ∧ m.heap i ≠ none) (h4 : m'.next = m.next) : Ledger G m' := by
  obtain ⟨n1, n2⟩ := List.nodup_cons.1 (h2.nodup_iff.1 h.once)
  have hx : ¬ G x := h.apart x (h2.mem_iff.2 (List.mem_cons_self ..))
  refine ⟨h1, n2, fun i => ?_, fun i hi => h.apart i (h2.mem_iff.2 (List.mem_cons_of_mem _ hi)), fun i hi => by rw [h4]; exact h.fresh i ((h3 i).1 hi).2⟩
  rw [h3, h.heap, h2.mem_iff, List.mem_cons]
  constructor
  · rintro ⟨a, (b | b) | b⟩
    · exact absurd b a
    · exact .inl b
    · exact .inr b
  · rintro (b | b)
    · exact ⟨by rintro rfl; exact n1 b, .inl (.inr b)⟩
    · exact ⟨by rintro rfl; exact hx b, .inr b⟩

theorem perm_of_lookup {l : List (Str × Id)} (h : (l.map Prod.fst).Nodup) {n : Str} {j : Id} (hl : l.lookup n = some j) :
    (l.map Prod.snd).Perm (j :: (l.filter fun e => e.1 ≠ n).map Prod.snd) := by
  induction l with
  | nil => cases hl
  | cons x xs ih =>
    obtain ⟨a, b⟩ := x
    rw [List.map_cons, List.nodup_cons] at h
    obtain ⟨t1, t2⟩ := h
    rw [List.lookup_cons] at hl
    by_cases hn : n = a
    · subst hn
      simp at hl
      subst hl
      have : (xs.filter fun e => e.1 ≠ n) = xs := by
        rw [List.filter_eq_self]
        intro e he
        simp only [decide_eq_true_eq]
        rintro rfl
        exact t1 (List.mem_map.2 ⟨e, he, rfl⟩)
      rw [List.filter_cons_of_neg (by simp), this]
      exact .refl _
    · have hb : (n == a) = false := by simpa using hn
      rw [hb] at hl
      rw [List.filter_cons_of_pos (by simpa using Ne.symm hn)]
      exact ((ih t2 hl).cons b).trans (.swap ..)

theorem ledger_closed (G : Id → Prop) : Closed (Ledger G) where
  put := by
    intro m i n n' h hi
    refine ledger_same h rfl rfl (fun j => ?_) rfl
    by_cases hji : j = i
    · subst hji; simp [FModel.put, hi]
    · simp [FModel.put, hji]
  insert := by
    intro m a m' i h e
    unfold FModel.insertFeature at e
    cases hg : m.getFeature a.name with
    | some j => rw [hg] at e; cases e
    | none =>
      rw [hg] at e; cases e
      refine ledger_new h rfl ?_ ?_ (fun j => ?_) rfl
      · simp only [List.map_append, List.map_cons, List.map_nil]
        rw [List.nodup_append]
        refine ⟨h.names, by simp, fun x hx y hy => ?_⟩
        rw [List.mem_singleton] at hy
        subst hy
        rintro rfl
        exact lookup_none hg hx
      · simp only [ownedIds, List.map_append, List.map_cons, List.map_nil, List.append_assoc, List.cons_append, List.nil_append]
        exact List.perm_middle
      · by_cases hj : j = m.next
        · subst hj; simp [FModel.put]
        · simp [FModel.put, hj]
  erase := by
    intro m i m' h e
    have key : ∀ m1 : FModel, Ledger G m1 → ∀ n, (match m1.getFeature n with
        | none => some m1
        | some j => some { m1.free j with features := m1.features.filter fun e => e.1 ≠ n }) = some m' → Ledger G m' := by
      intro m1 h n e
      cases hg : m1.getFeature n with
      | none => rw [hg] at e; cases e; exact h
      | some j =>
        rw [hg] at e; cases e
        refine ledger_free h (x := j) ?_ ?_ (fun k => ?_) rfl
        · exact (List.Sublist.map Prod.fst (List.filter_sublist)).nodup h.names
        · exact (perm_of_lookup h.names hg).append_right m1.rels
        · by_cases hk : k = j
          · subst hk; simp [FModel.free]
          · simp [FModel.free, hk]
    unfold FModel.eraseFeature at e
    cases hn : m.nameOf i with
    | none => rw [hn] at e; cases e
    | some n =>
      rw [hn] at e
      simp only at e
      refine key _ ?_ n e
      by_cases hr : m.root = some i
      · rw [if_pos hr]; exact ledger_same h rfl rfl (fun _ => Iff.rfl) rfl
      · rw [if_neg hr]; exact h
  newRel := by
    intro m k h
    refine ledger_new h rfl h.names ?_ (fun j => ?_) rfl
    · simp only [ownedIds, ← List.append_assoc]
      exact List.perm_append_singleton ..
    · by_cases hj : j = m.next
      · subst hj; simp [FModel.put]
      · simp [FModel.put, hj]
  drop := by
    intro m r m' h e
    unfold FModel.dropRel at e
    by_cases hr : r ∈ m.rels
    · rw [if_pos hr] at e; cases e
      refine ledger_free h (x := r) h.names ?_ (fun j => ?_) rfl
      · exact ((List.perm_cons_erase hr).append_left _).trans List.perm_middle
      · by_cases hj : j = r
        · subst hj; simp [FModel.free]
        · simp [FModel.free, hj]
    · rw [if_neg hr] at e; cases e
  append := by intro m c s h; cases c <;> exact ledger_same h rfl rfl (fun _ => Iff.rfl) rfl
  bind := by intro m l i h; unfold FModel.bindLeaf; cases l.root.cls <;> exact ledger_same h rfl rfl (fun _ => Iff.rfl) rfl
  name := fun _ h => ledger_same h rfl rfl (fun _ => Iff.rfl) rfl
  commit := fun _ h => ledger_same h rfl rfl (fun _ => Iff.rfl) rfl
  path := fun _ h => ledger_same h rfl rfl (fun _ => Iff.rfl) rfl
  root := fun _ h => ledger_same h rfl rfl (fun _ => Iff.rfl) rfl

end Verif

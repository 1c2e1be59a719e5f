import Verif.FM.BuildSafe
import Verif.Props.Build
/-!
# Building with edges of any shape (C28)

Any edges between different features that were made are accepted; the last one for a child wins, and the result is a
tree exactly if these edges have no cycle and none leads to the root.
-/

namespace Verif

namespace Spec

/-- The last edge asked for with child `c` has the parent `p`. -/
def LastEdge (calls : List BCall) (p c : Str) : Prop :=
  ∃ before after, calls = before ++ .addEdge p c :: after ∧ ∀ q, .addEdge q c ∉ after

/-- A chain of such edges leads from `a` down to `b`. -/
inductive Above (calls : List BCall) (a : Str) : Str → Prop
  | edge {b} : LastEdge calls a b → Above calls a b
  | down {b c} : Above calls a b → LastEdge calls b c → Above calls a c

/-- The name the root has in the end. -/
def rootOf (calls : List BCall) : Str := (rootsOf calls).getLastD c!"root"

/-- Features of different names, none called like the root, are made, and edges between two different ones of them or
    the root. -/
structure AnyEdges (calls : List BCall) : Prop where
  kinds : ∀ a ∈ attrsOf calls, a.kind ≠ .root
  distinct : ((attrsOf calls).map Attr.name).Nodup
  root_new : ∀ n, n = c!"root" ∨ n ∈ rootsOf calls → n ∉ (attrsOf calls).map Attr.name
  edges : ∀ p c, .addEdge p c ∈ calls → p ≠ c ∧ (p = rootOf calls ∨ p ∈ (attrsOf calls).map Attr.name) ∧
    (c = rootOf calls ∨ c ∈ (attrsOf calls).map Attr.name)
  groups : groupsOf calls = []
  constraints : constraintsOf calls = []

end Spec
open Spec

theorem lastOr_getLastD (l : List Str) : ∀ d : Str, lastOr d l = l.getLastD d := by
  induction l with
  | nil => intro d; rfl
  | cons x xs ih =>
    intro d
    show lastOr x xs = _
    rw [ih x]
    cases xs with
    | nil => rfl
    | cons y ys => rfl

theorem relOp_none {calls : List BCall} (hg : groupsOf calls = []) (hc : constraintsOf calls = []) :
    calls.filterMap BCall.relOp = [] := by
  rw [List.filterMap_eq_nil_iff]
  intro a ha
  have h1 := List.filterMap_eq_nil_iff.1 hg a ha
  have h2 := List.filterMap_eq_nil_iff.1 hc a ha
  cases a with
  | emplaceRelationship k p => cases h1
  | addConstraint k c => cases h2
  | _ => rfl

theorem lastEdge_mem {calls : List BCall} {p c : Str} (h : LastEdge calls p c) : .addEdge p c ∈ calls := by
  obtain ⟨a, b, rfl, _⟩ := h
  simp

theorem lastEdge_exists : ∀ {calls : List BCall} {c : Str}, (∃ p, .addEdge p c ∈ calls) → ∃ p, LastEdge calls p c
  | [], _, ⟨_, h⟩ => by cases h
  | x :: cs, c, ⟨p, h⟩ => by
    by_cases hr : ∃ q, .addEdge q c ∈ cs
    · obtain ⟨q, a, b, rfl, h'⟩ := lastEdge_exists hr
      exact ⟨q, x :: a, b, rfl, h'⟩
    · rcases List.mem_cons.1 h with rfl | h
      · exact ⟨p, [], cs, rfl, fun q hq => hr ⟨q, hq⟩⟩
      · exact absurd ⟨p, h⟩ hr

theorem lastEdge_cons {x : BCall} {cs : List BCall} {p c : Str} (h : LastEdge (x :: cs) p c) :
    LastEdge cs p c ∨ (x = .addEdge p c ∧ ∀ q, .addEdge q c ∉ cs) := by
  obtain ⟨a, b, e, h'⟩ := h
  cases a with
  | nil => cases e; exact .inr ⟨rfl, h'⟩
  | cons y ys => cases e; exact .inl ⟨ys, b, rfl, h'⟩

/-- The edges and names of the model, one after the other. -/
theorem edges_loose (E : Env) : ∀ (calls : List BCall) {m : FModel}, Loose m →
    (∀ p c, .addEdge p c ∈ calls → p ≠ c ∧ (∃ i, (p, i) ∈ m.features) ∧ ∃ i, (c, i) ∈ m.features) →
    ∃ m', FModel.outFold (FModel.exec E) m (calls.filterMap BCall.modelOp) = .ok m' ∧ Loose m' ∧ m'.features = m.features ∧
      m'.root = m.root ∧ ∀ c i, (c, i) ∈ m.features →
        (∀ p, LastEdge calls p c → ∃ j, (p, j) ∈ m.features ∧ par m' i = some j) ∧
        ((∀ p, .addEdge p c ∉ calls) → par m' i = par m i)
  | [], m, h, _ => ⟨m, rfl, h, rfl, rfl, fun c i _ => ⟨fun p hp => absurd (lastEdge_mem hp) (by simp), fun _ => rfl⟩⟩
  | x :: cs, m, w, he => by
    have he' : ∀ p c, .addEdge p c ∈ cs → p ≠ c ∧ (∃ i, (p, i) ∈ m.features) ∧ ∃ i, (c, i) ∈ m.features :=
      fun p c h => he p c (List.mem_cons_of_mem _ h)
    have skip : ∀ m1 : FModel, SameTree m m1 → m1.features = m.features → m1.root = m.root →
        (∀ i, par m1 i = par m i) → (∀ p c, x ≠ .addEdge p c) →
        FModel.outFold (FModel.exec E) m ((x :: cs).filterMap BCall.modelOp) =
          FModel.outFold (FModel.exec E) m1 (cs.filterMap BCall.modelOp) →
        ∃ m', FModel.outFold (FModel.exec E) m ((x :: cs).filterMap BCall.modelOp) = .ok m' ∧ Loose m' ∧
          m'.features = m.features ∧ m'.root = m.root ∧ ∀ c i, (c, i) ∈ m.features →
          (∀ p, LastEdge (x :: cs) p c → ∃ j, (p, j) ∈ m.features ∧ par m' i = some j) ∧
          ((∀ p, .addEdge p c ∉ x :: cs) → par m' i = par m i) := by
      intro m1 ht hf hr hp hx ho
      obtain ⟨m', g1, g2, g3, g4, g5⟩ := edges_loose E cs (loose_of_sameTree w ht) (by rw [hf]; exact he')
      refine ⟨m', by rw [ho, g1], g2, g3.trans hf, g4.trans hr, fun c i hi => ?_⟩
      obtain ⟨k1, k2⟩ := g5 c i (by rw [hf]; exact hi)
      rw [hf] at k1
      refine ⟨fun p h => ?_, fun h => ?_⟩
      · rcases lastEdge_cons h with h | ⟨h, _⟩
        · exact k1 p h
        · exact absurd h (hx _ _)
      · rw [k2 (fun p hp => h p (List.mem_cons_of_mem _ hp)), hp]
    have same : ∀ n p c : Str, SameTree m { m with name := n, path := p, commit := c } :=
      fun n p c => ⟨rfl, rfl, rfl, rfl, rfl, rfl, fun _ => .refl _⟩
    cases x with
    | addEdge p c =>
      obtain ⟨hne, ⟨pi, hpi⟩, ci, hci⟩ := he p c (List.mem_cons_self ..)
      have hp := getFeature_mem w.names hpi
      have hc := getFeature_mem w.names hci
      have hkp : Known m pi := known_of_mem hpi
      have hkc : Known m ci := known_of_mem hci
      have hids : ci ≠ pi := by
        rintro rfl
        obtain ⟨f, h1, h2⟩ := w.feat_ok _ hpi
        obtain ⟨g, h3, h4⟩ := w.feat_ok _ hci
        simp only at h1 h3
        rw [h1] at h3; cases h3
        exact hne (h2.symm.trans h4)
      obtain ⟨m1, h1, h2⟩ := addChild_loose w (pr := .name p) (cr := .name c) (by simp [FModel.resolve, hp])
        (by simp [FModel.resolve, hc]) hkp hkc hids
      have hf : m1.features = m.features := h2.rest.features
      obtain ⟨m', g1, g2, g3, g4, g5⟩ := edges_loose E cs (loose_of_moved w h2 hkp hkc) (by rw [hf]; exact he')
      refine ⟨m', ?_, g2, g3.trans hf, g4.trans h2.rest.root, fun c' i hi => ?_⟩
      · simp only [List.filterMap_cons, BCall.modelOp, FModel.outFold, FModel.exec, h1]
        exact g1
      obtain ⟨k1, k2⟩ := g5 c' i (by rw [hf]; exact hi)
      rw [hf] at k1
      refine ⟨fun p' h => ?_, fun h => ?_⟩
      · rcases lastEdge_cons h with h | ⟨h, h'⟩
        · exact k1 p' h
        · cases h
          cases w.entry_unique hi hci
          exact ⟨pi, hpi, by rw [k2 h', h2.par]; simp⟩
      · rw [k2 (fun p hp => h p (List.mem_cons_of_mem _ hp)), h2.par, upd_ne]
        rintro rfl
        obtain ⟨f, h1, h2⟩ := w.feat_ok _ hi
        obtain ⟨g, h3, h4⟩ := w.feat_ok _ hci
        simp only at h1 h3
        rw [h1] at h3; cases h3
        have hcc : c' = c := h2.symm.trans h4
        exact h p (by rw [hcc]; exact List.mem_cons_self ..)
    | setVmName n => exact skip { m with name := n } (same n m.path m.commit) rfl rfl (fun _ => rfl) (by intro _ _ h; cases h) rfl
    | setPath n => exact skip { m with path := n } (same m.name n m.commit) rfl rfl (fun _ => rfl) (by intro _ _ h; cases h) rfl
    | setCommit n => exact skip { m with commit := n } (same m.name m.path n) rfl rfl (fun _ => rfl) (by intro _ _ h; cases h) rfl
    | makeFeature _ => exact skip m (same m.name m.path m.commit) rfl rfl (fun _ => rfl) (by intro _ _ h; cases h) rfl
    | makeRoot _ => exact skip m (same m.name m.path m.commit) rfl rfl (fun _ => rfl) (by intro _ _ h; cases h) rfl
    | emplaceRelationship _ _ => exact skip m (same m.name m.path m.commit) rfl rfl (fun _ => rfl) (by intro _ _ h; cases h) rfl
    | addConstraint _ _ => exact skip m (same m.name m.path m.commit) rfl rfl (fun _ => rfl) (by intro _ _ h; cases h) rfl

theorem filter_lt {α} {p q : α → Bool} : ∀ {l : List α} {x : α}, (∀ y, p y = true → q y = true) → x ∈ l → q x = true → p x = false →
    (l.filter p).length < (l.filter q).length
  | [], _, _, h, _, _ => by cases h
  | y :: ys, x, hpq, hx, hq, hp => by
    have hle : ∀ l : List α, (l.filter p).length ≤ (l.filter q).length := by
      intro l
      induction l with
      | nil => simp
      | cons z zs ih =>
        simp only [List.filter_cons]
        by_cases hz : p z = true
        · simp [hz, hpq z hz, ih]
        · by_cases hz' : q z = true
          · simp [hz, hz']; omega
          · simp [hz, hz', ih]
    rcases List.mem_cons.1 hx with rfl | hx
    · simp only [List.filter_cons, hq, hp]
      simp
      have := hle ys; omega
    · have ih := filter_lt hpq hx hq hp
      simp only [List.filter_cons]
      by_cases hz : p y = true
      · simp [hz, hpq y hz, ih]
      · by_cases hz' : q y = true
        · simp [hz, hz']; omega
        · simp [hz, hz', ih]

namespace Props

/-- Edges of any shape are accepted.  The parent of a feature is the one of its last edge; without an edge it is the root,
    and the root then has none.  The result is a tree exactly if the last edges have no cycle and there is no edge to the
    root. -/
theorem C28_any_edges {world : FModel} (hf : ∀ i, world.heap i ≠ none → i < world.next) (E : Env) {calls : List BCall}
    (h : AnyEdges calls) : ∃ m r, world.build E (builderOf calls) = .built m ∧
      (∀ n, (∃ i, (n, i) ∈ m.features) ↔ n = rootOf calls ∨ n ∈ (attrsOf calls).map Attr.name) ∧
      m.root = some r ∧ (rootOf calls, r) ∈ m.features ∧
      (∀ c i, (c, i) ∈ m.features →
        (∀ p, LastEdge calls p c → ∃ j, (p, j) ∈ m.features ∧ par m i = some j) ∧
        ((∀ p, .addEdge p c ∉ calls) → par m i = if c = rootOf calls then none else some r)) ∧
      (WF m ↔ (∀ n, ¬ Above calls n n) ∧ ∀ p, .addEdge p (rootOf calls) ∉ calls) := by
  have hroot : lastOr freshDesc.root (rootsOf calls) = rootOf calls := lastOr_getLastD _ _
  rcases phase1 E calls world.fresh freshDesc (describes_fresh hf) rfl rfl rfl h.kinds with ⟨e, m1, _, h2⟩ | ⟨m1, h1, h2⟩
  · refine absurd ⟨by simpa [freshDesc] using h.distinct, ?_⟩ h2
    intro n hn
    simp only [freshDesc, List.nil_append]
    exact h.root_new n hn
  rw [hroot] at h2
  have hnames : ∀ n, (∃ i, (n, i) ∈ m1.features) ↔ n = rootOf calls ∨ n ∈ (attrsOf calls).map Attr.name := by
    intro n
    have := h2.names n
    simpa [freshDesc] using this
  have l1 : Loose m1 := loose_of_WF h2.wf (h2.no_rels rfl)
  obtain ⟨m2, h3, l2, f2, r2, p2⟩ := edges_loose E calls l1 (fun p c hx =>
    ⟨(h.edges p c hx).1, (hnames p).2 (h.edges p c hx).2.1, (hnames c).2 (h.edges p c hx).2.2⟩)
  obtain ⟨r, _, hr, hrm, _, _⟩ := h2.root
  simp only at hrm
  have hpar : ∀ c i, (c, i) ∈ m2.features →
        (∀ p, LastEdge calls p c → ∃ j, (p, j) ∈ m2.features ∧ par m2 i = some j) ∧
        ((∀ p, .addEdge p c ∉ calls) → par m2 i = if c = rootOf calls then none else some r) := by
    intro c i hi
    rw [f2] at hi ⊢
    obtain ⟨k1, k2⟩ := p2 c i hi
    refine ⟨k1, fun hx => ?_⟩
    rw [k2 hx]
    by_cases hc : c = rootOf calls
    · subst hc
      rw [if_pos rfl]
      cases l1.entry_unique hi hrm
      obtain ⟨r', _, h5, _, _, _, h6⟩ := h2.wf.root_ok
      rw [hr] at h5; cases h5
      exact h6
    · rw [if_neg hc]
      have hm : c ∈ (attrsOf calls).map Attr.name := ((hnames c).1 ⟨i, hi⟩).resolve_left hc
      obtain ⟨a, ha, rfl⟩ := List.mem_map.1 hm
      obtain ⟨i', f, p, g1, _, _, g2, g3⟩ := h2.feat a (by simpa [freshDesc] using ha)
      cases l1.entry_unique hi g1
      cases l1.entry_unique g2 hrm
      exact (flat_par h2.wf l1.rels (.inl (known_of_mem hi))).1 g3
  refine ⟨m2, r, ?_, by intro n; rw [f2]; exact hnames n, by rw [r2, hr], by rw [f2]; exact hrm, hpar, ?_⟩
  · rw [builderOf_eq]
    unfold FModel.build
    simp only
    rw [commitOps_loose h1 (checked_of_loose l1)]
    simp only
    rw [commitOps_loose h3 (checked_of_loose l2), relOp_none h.groups h.constraints]
    simp only
    rw [commitOps_loose (m := m2) rfl (checked_of_loose l2)]
  have hr2 : m2.root = some r := by rw [r2, hr]
  have hrm2 : (rootOf calls, r) ∈ m2.features := by rw [f2]; exact hrm
  have hnames2 : ∀ n, (∃ i, (n, i) ∈ m2.features) ↔ n = rootOf calls ∨ n ∈ (attrsOf calls).map Attr.name := by
    intro n; rw [f2]; exact hnames n
  constructor
  · intro w
    have above : ∀ {a b : Str} (_ : Above calls a b) {i j : Id}, (a, i) ∈ m2.features → (b, j) ∈ m2.features →
        ∃ q, par m2 j = some q ∧ Below m2 i q := by
      intro a b hab
      induction hab with
      | edge hl =>
        intro i j hi hj
        obtain ⟨q, h5, h6⟩ := (hpar _ j hj).1 _ hl
        cases l2.entry_unique hi h5
        exact ⟨_, h6, .refl⟩
      | @down b c _ hl ih =>
        intro i j hi hj
        obtain ⟨q, h5, h6⟩ := (hpar _ j hj).1 _ hl
        obtain ⟨q', h7, h8⟩ := ih hi h5
        exact ⟨q, h6, .step h7 h8⟩
    refine ⟨fun n hn => ?_, fun p hp => ?_⟩
    · have hk : ∃ i, (n, i) ∈ m2.features := by
        have : ∃ q, .addEdge q n ∈ calls := by
          cases hn with
          | edge hl => exact ⟨_, lastEdge_mem hl⟩
          | down _ hl => exact ⟨_, lastEdge_mem hl⟩
        obtain ⟨q, hq⟩ := this
        exact (hnames2 n).2 (h.edges q n hq).2.2
      obtain ⟨i, hi⟩ := hk
      obtain ⟨q, h5, h6⟩ := above hn hi hi
      exact w.not_below_parent (.inl (known_of_mem hi)) h5 h6
    · obtain ⟨p', hl⟩ := lastEdge_exists ⟨p, hp⟩
      obtain ⟨j, _, h5⟩ := (hpar _ r hrm2).1 _ hl
      obtain ⟨r', _, h6, _, _, _, h7⟩ := w.root_ok
      rw [hr2] at h6; cases h6
      rw [h7] at h5; cases h5
  · rintro ⟨hcyc, hre⟩
    have hpr : par m2 r = none := by rw [(hpar _ r hrm2).2 hre, if_pos rfl]
    let N := rootOf calls :: (attrsOf calls).map Attr.name
    let rk : Str → Nat := fun x => (N.filter fun y => @decide (Above calls y x) (Classical.propDecidable _)).length
    have hrk : ∀ p c, LastEdge calls p c → rk p < rk c := by
      intro p c hl
      refine filter_lt (x := p) ?_ ?_ ?_ ?_
      · intro y hy
        simp only [decide_eq_true_eq] at hy ⊢
        exact .down hy hl
      · have := (h.edges p c (lastEdge_mem hl)).2.1
        exact List.mem_cons.2 this
      · simp only [decide_eq_true_eq]; exact .edge hl
      · simp only [decide_eq_false_iff_not]; exact hcyc p
    have reach : ∀ (k : Nat) (c : Str) (i : Id), rk c < k → (c, i) ∈ m2.features → Below m2 r i := by
      intro k
      induction k with
      | zero => intro c i hk; exact absurd hk (Nat.not_lt_zero _)
      | succ k ih =>
        intro c i hk hi
        by_cases hx : ∃ p, .addEdge p c ∈ calls
        · obtain ⟨p, hl⟩ := lastEdge_exists hx
          obtain ⟨j, h5, h6⟩ := (hpar c i hi).1 p hl
          have := hrk p c hl
          exact .step h6 (ih p j (by omega) h5)
        · have h5 := (hpar c i hi).2 (fun p hp => hx ⟨p, hp⟩)
          by_cases hc : c = rootOf calls
          · subst hc
            cases l2.entry_unique hi hrm2
            exact .refl
          · rw [if_neg hc] at h5
            exact .step h5 .refl
    obtain ⟨r', f', k1, k2, k3, k4⟩ := l2.root_ok
    rw [hr2] at k1; cases k1
    have ho : ∀ {i}, Owned m2 i → Known m2 i := fun hi => l2.owned.1 hi
    exact
      { root_ok := ⟨r, f', hr2, k2, k3, k4, hpr⟩
        names := l2.names
        feat_ok := l2.feat_ok
        rels_nodup := by rw [l2.rels]; exact List.nodup_nil
        rel_ok := by rw [l2.rels]; intro _ h; cases h
        par_edge := fun i p hi hp => ⟨.inl (l2.par_edge i p (ho hi) hp).1, (l2.par_edge i p (ho hi) hp).2⟩
        edge_par := fun i c hi hc => ⟨.inl (l2.edge_par i c (ho hi) hc).1, (l2.edge_par i c (ho hi) hc).2⟩
        edges_nodup := fun i hi => l2.edges_nodup i (ho hi)
        orphan := fun i hi => l2.orphan i (ho hi)
        one_root := l2.one_root
        reach := by
          intro i r' hi hr'
          rw [hr2] at hr'; cases hr'
          obtain ⟨c, hc⟩ := known_name (ho hi)
          exact reach _ c i (Nat.lt_succ_self _) hc
        fresh := l2.fresh }

/-- Two features that are each other's parent in the end. -/
def ringCalls : List BCall :=
  [.makeRoot c!"R", .addEdge c!"A" c!"B", .makeFeature { name := c!"A", kind := .binary }, .addEdge c!"R" c!"B",
   .makeFeature { name := c!"B", kind := .binary }, .addEdge c!"B" c!"A", .addEdge c!"A" c!"B"]

def dagCalls : List BCall :=
  [.makeRoot c!"R", .addEdge c!"A" c!"B", .makeFeature { name := c!"A", kind := .binary },
   .makeFeature { name := c!"B", kind := .binary }, .addEdge c!"R" c!"B", .addEdge c!"B" c!"A"]

theorem anyEdges_of {calls : List BCall} (h1 : ∀ a ∈ attrsOf calls, a.kind ≠ .root) (h2 : ((attrsOf calls).map Attr.name).Nodup)
    (h3 : ∀ n ∈ c!"root" :: rootsOf calls, n ∉ (attrsOf calls).map Attr.name)
    (h4 : ∀ e ∈ calls, match e with
      | .addEdge p c => p ≠ c ∧ p ∈ rootOf calls :: (attrsOf calls).map Attr.name ∧ c ∈ rootOf calls :: (attrsOf calls).map Attr.name
      | _ => True) (h5 : groupsOf calls = []) (h6 : constraintsOf calls = []) : AnyEdges calls :=
  ⟨h1, h2, fun n hn => h3 n (List.mem_cons.2 hn), fun p c hx => by
    have := h4 _ hx
    exact ⟨this.1, List.mem_cons.1 this.2.1, List.mem_cons.1 this.2.2⟩, h5, h6⟩

theorem ringCalls_any : AnyEdges ringCalls := anyEdges_of (by intro a ha; simp [ringCalls, attrsOf] at ha; rcases ha with rfl | rfl <;> simp)
  (by decide) (by decide) (by intro e he; simp only [ringCalls, List.mem_cons, List.not_mem_nil, or_false] at he; rcases he with rfl|rfl|rfl|rfl|rfl|rfl|rfl <;> simp only <;> first | trivial | decide) rfl rfl

theorem dagCalls_any : AnyEdges dagCalls := anyEdges_of (by intro a ha; simp [dagCalls, attrsOf] at ha; rcases ha with rfl | rfl <;> simp)
  (by decide) (by decide) (by intro e he; simp only [dagCalls, List.mem_cons, List.not_mem_nil, or_false] at he; rcases he with rfl|rfl|rfl|rfl|rfl|rfl <;> simp only <;> first | trivial | decide) rfl rfl

/-- The first has a cycle of last edges. -/
example : Above ringCalls c!"A" c!"A" :=
  .down (.edge ⟨ringCalls.take 6, [], rfl, by simp⟩) ⟨ringCalls.take 5, _, rfl, by simp⟩

/-- In the second, edges in both directions between A and B are asked for but those that count have no cycle. -/
example : LastEdge dagCalls c!"R" c!"B" ∧ LastEdge dagCalls c!"B" c!"A" := ⟨⟨dagCalls.take 4, _, rfl, by simp⟩, dagCalls.take 5, _, rfl, by simp⟩

end Props
end Verif

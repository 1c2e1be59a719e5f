import Verif.FM.Build
/-! Calls that build a described model. -/

namespace Verif
namespace Spec

/-- The calls describe a tree: distinct names, at most one root, a parent for every edge, no cycle,
    at most one group per feature; the description `d` says which. -/
structure Buildable (calls : List BCall) (d : Desc) : Prop where
  attrs : d.attrs = attrsOf calls
  kinds : ∀ a ∈ attrsOf calls, a.kind ≠ .root
  distinct : ((attrsOf calls).map Attr.name).Nodup
  root : (rootsOf calls = [] ∧ d.root = c!"root") ∨ rootsOf calls = [d.root]
  root_new : d.root ∉ (attrsOf calls).map Attr.name
  default_root : c!"root" ∉ (attrsOf calls).map Attr.name
  edges : ∀ p c, .addEdge p c ∈ calls →
    c ∈ (attrsOf calls).map Attr.name ∧ (p = d.root ∨ p ∈ (attrsOf calls).map Attr.name) ∧ d.parent c = p
  no_edge : ∀ a ∈ attrsOf calls, (∀ p, .addEdge p a.name ∉ calls) → d.parent a.name = d.root
  acyclic : ∃ rk : Str → Nat, ∀ a ∈ attrsOf calls, rk (d.parent a.name) < rk a.name
  groups : d.groups = groupsOf calls
  one_group : ((groupsOf calls).map Prod.fst).Nodup
  groups_known : ∀ g ∈ groupsOf calls, g.1 = d.root ∨ g.1 ∈ (attrsOf calls).map Attr.name
  constraints : d.constraints = constraintsOf calls
  name : (namesOf calls = [] ∧ d.name = c!"FeatureModel") ∨ namesOf calls = [d.name]
  path : (pathsOf calls = [] ∧ d.path = []) ∨ pathsOf calls = [d.path]
  commit : (commitsOf calls = [] ∧ d.commit = []) ∨ commitsOf calls = [d.commit]

/-- The constraints mention features of the description only. -/
def ConstraintsKnown (d : Desc) : Prop :=
  ∀ x ∈ d.constraints, ∀ n ∈ x.2.features, n = d.root ∨ n ∈ d.attrs.map Attr.name

end Spec
open Verif.Spec

/-- Descriptions that say the same describe the same models. -/
theorem Spec.Describes.congr {d d' : Desc} {m : FModel} (h : Describes d m) (hname : d'.name = d.name)
    (hpath : d'.path = d.path) (hcommit : d'.commit = d.commit) (hroot : d'.root = d.root)
    (hdist : (d'.attrs.map Attr.name).Nodup) (hattrs : ∀ a, a ∈ d'.attrs ↔ a ∈ d.attrs)
    (hpar : ∀ a ∈ d.attrs, d'.parent a.name = d.parent a.name) (hgroups : ∀ g, g ∈ d'.groups ↔ g ∈ d.groups)
    (hcons : ∀ cl, d'.ofClass cl = d.ofClass cl) : Describes d' m := by
  have hnames : ∀ n, n ∈ d'.attrs.map Attr.name ↔ n ∈ d.attrs.map Attr.name := by
    intro n; simp only [List.mem_map]
    exact ⟨fun ⟨a, h1, h2⟩ => ⟨a, (hattrs a).1 h1, h2⟩, fun ⟨a, h1, h2⟩ => ⟨a, (hattrs a).2 h1, h2⟩⟩
  refine
    { wf := h.wf
      bound := h.bound
      name := by rw [hname]; exact h.name
      path := by rw [hpath]; exact h.path
      commit := by rw [hcommit]; exact h.commit
      distinct := hdist
      root_new := by rw [hroot, hnames]; exact h.root_new
      names := by intro n; rw [hroot, hnames]; exact h.names n
      root := by rw [hroot]; exact h.root
      feat := ?_
      groups_known := by intro g hg; rw [hroot, hnames]; exact h.groups_known g ((hgroups g).1 hg)
      grouped := fun n k i hg hi => h.grouped n k i ((hgroups _).1 hg) hi
      ungrouped := fun n i hi hg => h.ungrouped n i hi (fun k hk => hg k ((hgroups _).2 hk))
      rels := ?_
      store := by intro cl; rw [hcons]; exact h.store cl
      registered := h.registered }
  · intro a ha
    have ha := (hattrs a).1 ha
    rw [hpar a ha]
    exact h.feat a ha
  · intro r hr
    obtain ⟨n, k, i, h1, h2⟩ := h.rels r hr
    exact ⟨n, k, i, (hgroups _).2 h1, h2⟩

theorem commitOps_ok {E : Env} {m m' : FModel} {ops : List Op} (h : FModel.outFold (FModel.exec E) m ops = .ok m')
    (w : WF m') : m.commitOps E ops = .ok m' := by
  simp only [FModel.commitOps, h, consistent_of_WF w]

theorem commitOps_err {E : Env} {m m' : FModel} {e : FTErr} {ops : List Op}
    (h : FModel.outFold (FModel.exec E) m ops = .err e m') : m.commitOps E ops = .err e m' := by
  simp only [FModel.commitOps, h]

theorem builderOf_eq (calls : List BCall) :
    builderOf calls = ⟨calls.filterMap BCall.featOp, calls.filterMap BCall.modelOp, calls.filterMap BCall.relOp⟩ := by
  unfold builderOf; rw [builder_queues]; simp

theorem lastOr_cases {d x : Str} {l : List Str} (h : (l = [] ∧ x = d) ∨ l = [x]) : lastOr d l = x := by
  rcases h with ⟨rfl, rfl⟩ | rfl <;> rfl

/-- Where the root counts as lowest. -/
def rootRank (r : Str) (rk : Str → Nat) : Str → Nat := fun n => if n = r then 0 else rk n + 1

/-- The first two phases, and the third up to constraints. -/
theorem build_steps {world : FModel} (hf : ∀ i, world.heap i ≠ none → i < world.next) (E : Env) {calls : List BCall} {d : Desc}
    (hb : Buildable calls d) : ∃ m1 m2, world.fresh.commitOps E (calls.filterMap BCall.featOp) = .ok m1 ∧
      m1.commitOps E (calls.filterMap BCall.modelOp) = .ok m2 ∧
      Describes { d with groups := [], constraints := [] } m2 := by
  have hroot : lastOr freshDesc.root (rootsOf calls) = d.root := lastOr_cases hb.root
  rcases phase1 E calls world.fresh freshDesc (describes_fresh hf) rfl rfl rfl hb.kinds with ⟨e, m1, _, h2⟩ | ⟨m1, h1, h2⟩
  · refine absurd ⟨by simpa [freshDesc] using hb.distinct, ?_⟩ h2
    intro n hn
    have : n = c!"root" ∨ n = d.root := by
      rcases hn with hn | hn
      · exact .inl hn
      · rcases hb.root with ⟨h, _⟩ | h
        · rw [h] at hn; cases hn
        · rw [h] at hn; exact .inr (List.mem_singleton.1 hn)
    simp only [freshDesc, List.nil_append]
    rcases this with rfl | rfl
    · exact hb.default_root
    · exact hb.root_new
  rw [hroot] at h2
  simp only [freshDesc, List.nil_append] at h2
  obtain ⟨rk, hrk⟩ := hb.acyclic
  have hrr : ∀ n ∈ (attrsOf calls).map Attr.name, rootRank d.root rk n = rk n + 1 := by
    intro n hn
    have : n ≠ d.root := by rintro rfl; exact hb.root_new hn
    simp [rootRank, this]
  rcases phase2 E (rootRank d.root rk) calls m1 _ h2 rfl rfl (by
      intro a ha
      rw [hrr _ (List.mem_map_of_mem (f := Attr.name) ha)]
      simp [rootRank]) (by
      intro p c hx
      obtain ⟨g1, g2, g3⟩ := hb.edges p c hx
      refine ⟨?_, by rintro rfl; exact hb.root_new g1⟩
      rw [hrr c g1]
      obtain ⟨a, ha, rfl⟩ := List.mem_map.1 g1
      have := hrk a ha
      rw [g3] at this
      unfold rootRank
      split <;> omega) with ⟨e, m2, _, h4⟩ | ⟨m2, h3, h4, _⟩
  · exact absurd (fun p c hx => ⟨(hb.edges p c hx).1, (hb.edges p c hx).2.1⟩) h4
  refine ⟨m1, m2, commitOps_ok h1 h2.wf, commitOps_ok h3 h4.wf, ?_⟩
  refine h4.congr ?_ ?_ ?_ rfl ?_ ?_ ?_ ?_ ?_
  · exact (lastOr_cases hb.name).symm
  · exact (lastOr_cases hb.path).symm
  · exact (lastOr_cases hb.commit).symm
  · simp only [hb.attrs]; exact hb.distinct
  · intro a; simp only [hb.attrs]
  · intro a ha
    simp only at ha ⊢
    rcases parentsAfter_cases calls (fun _ => d.root) a.name with ⟨p, g1, g2⟩ | ⟨g1, g2⟩
    · rw [g2]; exact (hb.edges p _ g1).2.2
    · rw [g2]; exact hb.no_edge a ha g1
  · intro g; simp
  · intro cl; simp [Desc.ofClass]

theorem build_ok {world : FModel} (hf : ∀ i, world.heap i ≠ none → i < world.next) (E : Env) {calls : List BCall} {d : Desc}
    (hb : Buildable calls d) (hk : ConstraintsKnown d) :
    ∃ m, world.build E (builderOf calls) = .built m ∧ Describes d m := by
  rw [builderOf_eq]
  obtain ⟨m1, m2, h1, h2, h4⟩ := build_steps hf E hb
  obtain ⟨m3, h5, h6⟩ := phase3 E calls m2 _ h4 (by simpa using hb.one_group)
    (by simp only [hb.attrs]; exact hb.groups_known)
    (by have := hk; unfold ConstraintsKnown at this; rw [hb.constraints] at this; exact this)
  refine ⟨m3, ?_, ?_⟩
  · simp only [FModel.build, h1, h2, commitOps_ok h5 h6.wf]
  · have : d = { d with groups := groupsOf calls, constraints := constraintsOf calls } := by
      rw [← hb.groups, ← hb.constraints]
    rw [this]
    simpa using h6

/-- A constraint on a feature that is not there fails. -/
theorem describes_constraint_missing {d : Desc} {m : FModel} (E : Env) (h : Describes d m) {k : CKind} {c : Constraint}
    {n : Str} (hn : n ∈ c.features) (hu : ¬ (n = d.root ∨ n ∈ d.attrs.map Attr.name)) :
    ∃ m', m.exec E (.addConstraint k c) = .err .missingFeature m' := by
  obtain ⟨m', h1, h2⟩ := execAddConstraint_spec h.wf k c
  have hb : ¬ (c.features.all fun n => (m.getFeature n).isSome) = true := by
    rw [List.all_eq_true]
    intro hall
    have := hall n hn
    cases hg : m.getFeature n with
    | none => rw [hg] at this; cases this
    | some i => exact hu ((h.names n).1 ⟨i, getFeature_some hg⟩)
  rw [if_neg hb] at h1
  exact ⟨m', h1⟩

theorem phase3_missing (E : Env) : ∀ (calls : List BCall) (m : FModel) (d : Desc), Describes d m →
    ((d.groups ++ groupsOf calls).map Prod.fst).Nodup →
    (∀ g ∈ groupsOf calls, g.1 = d.root ∨ g.1 ∈ d.attrs.map Attr.name) →
    (¬ ∀ x ∈ constraintsOf calls, ∀ n ∈ x.2.features, n = d.root ∨ n ∈ d.attrs.map Attr.name) →
    ∃ e m', FModel.outFold (FModel.exec E) m (calls.filterMap BCall.relOp) = .err e m'
  | [], m, d, h, _, _, h3 => absurd (fun x hx => by cases hx) h3
  | .emplaceRelationship k n :: cs, m, d, h, h1, h2, h3 => by
    have e1 : groupsOf (.emplaceRelationship k n :: cs) = (n, k) :: groupsOf cs := by simp [groupsOf]
    have e2 : constraintsOf (.emplaceRelationship k n :: cs) = constraintsOf cs := by simp [constraintsOf]
    rw [e1] at h1 h2
    rw [e2] at h3
    obtain ⟨m1, g1, g2⟩ := describes_addRelationship E h (k := k) (h2 (n, k) (List.mem_cons_self ..)) (by
      intro k' hk'
      rw [List.map_append] at h1
      exact (List.nodup_append.1 h1).2.2 n (List.mem_map_of_mem (f := Prod.fst) hk') n (by simp) rfl)
    obtain ⟨e, m', g3⟩ := phase3_missing E cs m1 _ g2 (by simpa [List.append_assoc] using h1)
      (fun g hg => h2 g (List.mem_cons_of_mem _ hg)) h3
    refine ⟨e, m', ?_⟩
    simp only [List.filterMap_cons, BCall.relOp]; rw [outFold_cons g1]; exact g3
  | .addConstraint k c :: cs, m, d, h, h1, h2, h3 => by
    have e1 : groupsOf (.addConstraint k c :: cs) = groupsOf cs := by simp [groupsOf]
    have e2 : constraintsOf (.addConstraint k c :: cs) = (k, c) :: constraintsOf cs := by simp [constraintsOf]
    rw [e1] at h1 h2
    rw [e2] at h3
    by_cases hc : ∀ n ∈ c.features, n = d.root ∨ n ∈ d.attrs.map Attr.name
    · obtain ⟨m1, g1, g2⟩ := describes_addConstraint E h (k := k) (c := c) hc
      obtain ⟨e, m', g3⟩ := phase3_missing E cs m1 _ g2 h1 h2 (fun g => h3 (by
        intro x hx
        rcases List.mem_cons.1 hx with rfl | hx
        · exact hc
        · exact g x hx))
      refine ⟨e, m', ?_⟩
      simp only [List.filterMap_cons, BCall.relOp]; rw [outFold_cons g1]; exact g3
    · obtain ⟨n, hn⟩ := Classical.not_forall.1 hc
      rw [Classical.not_imp] at hn
      obtain ⟨m', g1⟩ := describes_constraint_missing E h (k := k) hn.1 hn.2
      exact ⟨.missingFeature, m', by simp only [List.filterMap_cons, BCall.relOp, FModel.outFold, g1]⟩
  | .makeFeature _ :: cs, m, d, h, h1, h2, h3 => phase3_missing E cs m d h h1 h2 h3
  | .makeRoot _ :: cs, m, d, h, h1, h2, h3 => phase3_missing E cs m d h h1 h2 h3
  | .addEdge _ _ :: cs, m, d, h, h1, h2, h3 => phase3_missing E cs m d h h1 h2 h3
  | .setVmName _ :: cs, m, d, h, h1, h2, h3 => phase3_missing E cs m d h h1 h2 h3
  | .setPath _ :: cs, m, d, h, h1, h2, h3 => phase3_missing E cs m d h h1 h2 h3
  | .setCommit _ :: cs, m, d, h, h1, h2, h3 => phase3_missing E cs m d h h1 h2 h3

/-- A constraint on a feature that was not made: null. -/
theorem build_constraint_missing {world : FModel} (hf : ∀ i, world.heap i ≠ none → i < world.next) (E : Env)
    {calls : List BCall} {d : Desc} (hb : Buildable calls d) (hk : ¬ ConstraintsKnown d) :
    world.build E (builderOf calls) = .null := by
  rw [builderOf_eq]
  obtain ⟨m1, m2, h1, h2, h4⟩ := build_steps hf E hb
  obtain ⟨e, m3, h5⟩ := phase3_missing E calls m2 _ h4 (by simpa using hb.one_group)
    (by simp only [hb.attrs]; exact hb.groups_known)
    (by unfold ConstraintsKnown at hk; rw [hb.constraints] at hk; exact hk)
  simp only [FModel.build, h1, h2, commitOps_err h5]

/-- Two features of one name: null. -/
theorem build_duplicate {world : FModel} (hf : ∀ i, world.heap i ≠ none → i < world.next) (E : Env) {calls : List BCall}
    (hk : ∀ a ∈ attrsOf calls, a.kind ≠ .root) (hd : ¬ ((attrsOf calls).map Attr.name).Nodup) :
    world.build E (builderOf calls) = .null := by
  rw [builderOf_eq]
  rcases phase1 E calls world.fresh freshDesc (describes_fresh hf) rfl rfl rfl hk with ⟨e, m1, h1, _⟩ | ⟨m1, h1, h2⟩
  · simp only [FModel.build, commitOps_err h1]
  · exact absurd (by simpa [freshDesc] using h2.distinct) hd

/-! ### Edges in any shape -/

/-- Features and their parents are live nodes; nothing about the shape. -/
def Live (m : FModel) : Prop :=
  ∀ n i, (n, i) ∈ m.features → ∃ nd, m.heap i = some nd ∧ ∀ p, nd.parent = some p → m.heap p ≠ none

theorem live_of_WF {m : FModel} (w : WF m) : Live m := by
  have live : ∀ i, Owned m i → m.heap i ≠ none := by
    rintro i (hk | hr) hn
    · obtain ⟨f, hf⟩ := w.known_data hk
      rw [data_none.2 hn] at hf; cases hf
    · obtain ⟨k, hf⟩ := w.rel_ok i hr
      rw [data_none.2 hn] at hf; cases hf
  intro n i hi
  have ho : Owned m i := .inl (known_of_mem hi)
  cases hh : m.heap i with
  | none => exact absurd hh (live i ho)
  | some nd =>
    exact ⟨nd, rfl, fun p hp => live p (w.par_edge i p ho (by rw [par_of_heap hh]; exact hp)).1⟩

/-- The heaps have the same addresses in use and the same parents, except that of `c`. -/
theorem live_put {m : FModel} {i : Id} {nd nd' : Node} (hi : m.heap i = some nd) (h : Live m)
    (hp : ∀ p, nd'.parent = some p → m.heap p ≠ none) : Live (m.put i nd') := by
  have hne : ∀ p, m.heap p ≠ none → (m.put i nd').heap p ≠ none := by
    intro p hp
    rw [put_heap]; unfold upd; split
    · simp
    · exact hp
  intro n j hj
  obtain ⟨x, h1, h2⟩ := h n j hj
  by_cases hji : j = i
  · subst hji
    exact ⟨nd', by rw [put_heap, upd_same], fun p h' => hne p (hp p h')⟩
  · exact ⟨x, by rw [put_heap, upd_ne _ _ hji]; exact h1, fun p h' => hne p (h2 p h')⟩

theorem live_addChild {m : FModel} {pn cn : Str} {p c : Id} (h : Live m) (hp : m.getFeature pn = some p)
    (hc : m.getFeature cn = some c) (hpc : c ≠ p) :
    ∃ m', m.execAddChild (.name pn) (.name cn) = .ok m' ∧ Live m' ∧ m'.features = m.features := by
  have hrp : m.resolve (.name pn) = some p := hp
  have hrc : m.resolve (.name cn) = some c := hc
  obtain ⟨cnd, c1, c2⟩ := h cn c (getFeature_some hc)
  have hfirst : ∃ m1, (match cnd.parent with | some q => m.removeEdge q c | none => some m) = some m1 ∧ Live m1 ∧
      m1.features = m.features ∧ (∀ i, m.heap i ≠ none → m1.heap i ≠ none) := by
    cases hq : cnd.parent with
    | none => exact ⟨m, rfl, h, rfl, fun i hi => hi⟩
    | some q =>
      cases hh : m.heap q with
      | none => exact absurd hh (c2 q hq)
      | some qn =>
        have hlq : ∀ p', qn.parent = some p' → m.heap p' ≠ none ∨ True := fun _ _ => .inr trivial
        by_cases hkq : ∃ n, (n, q) ∈ m.features
        · obtain ⟨n, hn⟩ := hkq
          obtain ⟨y, y1, y2⟩ := h n q hn
          rw [hh] at y1; cases y1
          refine ⟨m.put q { qn with edges := qn.edges.erase c }, by simp [FModel.removeEdge, hh], live_put hh h y2, rfl, ?_⟩
          intro i hi; rw [put_heap]; unfold upd; split
          · simp
          · exact hi
        · refine ⟨m.put q { qn with edges := qn.edges.erase c }, by simp [FModel.removeEdge, hh], ?_, rfl, ?_⟩
          · intro n j hj
            obtain ⟨x, h1, h2⟩ := h n j hj
            have hjq : j ≠ q := by rintro rfl; exact hkq ⟨n, hj⟩
            refine ⟨x, by rw [put_heap, upd_ne _ _ hjq]; exact h1, fun p' hp' => ?_⟩
            rw [put_heap]; unfold upd; split
            · simp
            · exact h2 p' hp'
          · intro i hi; rw [put_heap]; unfold upd; split
            · simp
            · exact hi
  obtain ⟨m1, g1, g2, g3, g4⟩ := hfirst
  obtain ⟨pnd, p1, p2⟩ := g2 pn p (by rw [g3]; exact getFeature_some hp)
  have l2 : Live (m1.put p { pnd with edges := FModel.insertSet pnd.edges c }) := live_put p1 g2 p2
  have ae : m1.addEdge p c = some (m1.put p { pnd with edges := FModel.insertSet pnd.edges c }) := by
    simp [FModel.addEdge, p1]
  obtain ⟨cnd', c1', c2'⟩ := l2 cn c (by show (cn, c) ∈ m1.features; rw [g3]; exact getFeature_some hc)
  refine ⟨(m1.put p { pnd with edges := FModel.insertSet pnd.edges c }).put c { cnd' with parent := some p }, ?_, ?_, g3⟩
  · simp only [FModel.execAddChild, hrc, hrp, if_neg hpc, c1]
    cases hq : cnd.parent with
    | none =>
      rw [hq] at g1; cases g1
      simp only [ae, FModel.setParent, c1', Option.map_some, FModel.outOf]
    | some q =>
      rw [hq] at g1; simp only at g1
      simp only [g1, ae, FModel.setParent, c1', Option.map_some, FModel.outOf]
  · refine live_put c1' l2 ?_
    intro p' hp'; cases hp'
    rw [put_heap, upd_same]; simp

theorem phase2_missing (E : Env) : ∀ (calls : List BCall) (m : FModel), Live m →
    (∃ p c, .addEdge p c ∈ calls ∧ ((∀ i, (p, i) ∉ m.features) ∨ (∀ i, (c, i) ∉ m.features) ∨ p = c)) →
    ∃ e m', FModel.outFold (FModel.exec E) m (calls.filterMap BCall.modelOp) = .err e m'
  | [], m, _, hx => by obtain ⟨p, c, h, _⟩ := hx; cases h
  | .addEdge p c :: cs, m, h, hx => by
    have hno : ∀ n, m.getFeature n = none ↔ ∀ i, (n, i) ∉ m.features := by
      intro n
      constructor
      · intro hn i hi
        rw [FModel.getFeature, List.lookup_eq_none_iff] at hn
        have := hn _ hi
        simp at this
      · intro hn
        cases hg : m.getFeature n with
        | none => rfl
        | some i => exact absurd (getFeature_some hg) (hn i)
    have hhead : ∀ (e : FTErr) (m1 : FModel), m.execAddChild (.name p) (.name c) = .err e m1 →
        ∃ e m', FModel.outFold (FModel.exec E) m ((.addEdge p c :: cs).filterMap BCall.modelOp) = .err e m' := by
      intro e m1 hh
      exact ⟨e, m1, by simp only [List.filterMap_cons, BCall.modelOp, FModel.outFold, FModel.exec, hh]⟩
    have hrp : m.resolve (.name p) = m.getFeature p := rfl
    have hrc : m.resolve (.name c) = m.getFeature c := rfl
    cases hc : m.getFeature c with
    | none => exact hhead .missingChild m (by simp only [FModel.execAddChild, hrc, hc])
    | some ci =>
      cases hp : m.getFeature p with
      | none => exact hhead .missingParent m (by simp only [FModel.execAddChild, hrc, hc, hrp, hp])
      | some pi =>
        by_cases hcp : ci = pi
        · exact hhead .recursiveEdge m (by simp only [FModel.execAddChild, hrc, hc, hrp, hp, if_pos hcp])
        · obtain ⟨m1, g1, g2, g3⟩ := live_addChild h hp hc hcp
          have : ∃ p c, .addEdge p c ∈ cs ∧ ((∀ i, (p, i) ∉ m1.features) ∨ (∀ i, (c, i) ∉ m1.features) ∨ p = c) := by
            obtain ⟨p', c', h1, h2⟩ := hx
            rw [g3]
            rcases List.mem_cons.1 h1 with h1 | h1
            · cases h1
              rcases h2 with h2 | h2 | rfl
              · rw [(hno _).2 h2] at hp; cases hp
              · rw [(hno _).2 h2] at hc; cases hc
              · rw [hp] at hc; cases hc; exact absurd rfl hcp
            · exact ⟨p', c', h1, h2⟩
          obtain ⟨e, m', g4⟩ := phase2_missing E cs m1 g2 this
          refine ⟨e, m', ?_⟩
          simp only [List.filterMap_cons, BCall.modelOp]
          rw [outFold_cons (show m.exec E (.addChild (.name p) (.name c)) = .ok m1 from g1)]
          exact g4
  | .makeFeature _ :: cs, m, h, hx => phase2_missing E cs m h (by
      obtain ⟨p, c, h1, h2⟩ := hx
      exact ⟨p, c, (by rcases List.mem_cons.1 h1 with h1 | h1; cases h1; exact h1), h2⟩)
  | .makeRoot _ :: cs, m, h, hx => phase2_missing E cs m h (by
      obtain ⟨p, c, h1, h2⟩ := hx
      exact ⟨p, c, (by rcases List.mem_cons.1 h1 with h1 | h1; cases h1; exact h1), h2⟩)
  | .emplaceRelationship _ _ :: cs, m, h, hx => phase2_missing E cs m h (by
      obtain ⟨p, c, h1, h2⟩ := hx
      exact ⟨p, c, (by rcases List.mem_cons.1 h1 with h1 | h1; cases h1; exact h1), h2⟩)
  | .addConstraint _ _ :: cs, m, h, hx => phase2_missing E cs m h (by
      obtain ⟨p, c, h1, h2⟩ := hx
      exact ⟨p, c, (by rcases List.mem_cons.1 h1 with h1 | h1; cases h1; exact h1), h2⟩)
  | .setVmName n :: cs, m, h, hx => by
      obtain ⟨p, c, h1, h2⟩ := hx
      obtain ⟨e, m', g⟩ := phase2_missing E cs { m with name := n } h
        ⟨p, c, (by rcases List.mem_cons.1 h1 with h1 | h1; cases h1; exact h1), h2⟩
      refine ⟨e, m', ?_⟩
      simp only [List.filterMap_cons, BCall.modelOp]
      rw [outFold_cons (show m.exec E (.setName n) = .ok { m with name := n } from rfl)]; exact g
  | .setPath n :: cs, m, h, hx => by
      obtain ⟨p, c, h1, h2⟩ := hx
      obtain ⟨e, m', g⟩ := phase2_missing E cs { m with path := n } h
        ⟨p, c, (by rcases List.mem_cons.1 h1 with h1 | h1; cases h1; exact h1), h2⟩
      refine ⟨e, m', ?_⟩
      simp only [List.filterMap_cons, BCall.modelOp]
      rw [outFold_cons (show m.exec E (.setPath n) = .ok { m with path := n } from rfl)]; exact g
  | .setCommit n :: cs, m, h, hx => by
      obtain ⟨p, c, h1, h2⟩ := hx
      obtain ⟨e, m', g⟩ := phase2_missing E cs { m with commit := n } h
        ⟨p, c, (by rcases List.mem_cons.1 h1 with h1 | h1; cases h1; exact h1), h2⟩
      refine ⟨e, m', ?_⟩
      simp only [List.filterMap_cons, BCall.modelOp]
      rw [outFold_cons (show m.exec E (.setCommit n) = .ok { m with commit := n } from rfl)]; exact g

/-- An edge to or from a feature that was not made, or from a feature to itself: null. -/
theorem build_missing {world : FModel} (hf : ∀ i, world.heap i ≠ none → i < world.next) (E : Env) {calls : List BCall}
    {r : Str} (hk : ∀ a ∈ attrsOf calls, a.kind ≠ .root) (hr : lastOr c!"root" (rootsOf calls) = r)
    (hm : ∃ p c, .addEdge p c ∈ calls ∧
      (¬ (p = r ∨ p ∈ (attrsOf calls).map Attr.name) ∨ ¬ (c = r ∨ c ∈ (attrsOf calls).map Attr.name) ∨ p = c)) :
    world.build E (builderOf calls) = .null := by
  rw [builderOf_eq]
  rcases phase1 E calls world.fresh freshDesc (describes_fresh hf) rfl rfl rfl hk with ⟨e, m1, h1, _⟩ | ⟨m1, h1, h2⟩
  · simp only [FModel.build, commitOps_err h1]
  · have hr' : lastOr freshDesc.root (rootsOf calls) = r := hr
    rw [hr'] at h2
    simp only [freshDesc, List.nil_append] at h2
    have hno : ∀ n, ¬ (n = r ∨ n ∈ (attrsOf calls).map Attr.name) → ∀ i, (n, i) ∉ m1.features :=
      fun n hn i hi => hn ((h2.names n).1 ⟨i, hi⟩)
    obtain ⟨p, c, g1, g2⟩ := hm
    obtain ⟨e, m2, h3⟩ := phase2_missing E calls m1 (live_of_WF h2.wf) ⟨p, c, g1, by
      rcases g2 with g2 | g2 | g2
      · exact .inl (hno p g2)
      · exact .inr (.inl (hno c g2))
      · exact .inr (.inr g2)⟩
    simp only [FModel.build, commitOps_ok h1 h2.wf, commitOps_err h3]

end Verif

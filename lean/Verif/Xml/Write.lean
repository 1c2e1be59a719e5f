import Verif.Xml.WriteSpec
import Verif.Xml.Read
import Verif.Props.Iteration
/-!
# What the writer produces

The document written for a described model, as a document of `Spec.Doc`.
-/

namespace Verif.Xml
open Verif Verif.Spec Verif.Sxfm

variable {d : Desc} {m : FModel}

/-! ## Lists of features -/

theorem known_entry (w : WF m) {i : Id} (hk : Known m i) : ∃ n f, (n, i) ∈ m.features ∧ data m i = some (.feat f) ∧ f.attr.name = n := by
  obtain ⟨e, he, rfl⟩ := List.mem_map.1 hk
  obtain ⟨f, h1, h2⟩ := w.feat_ok e he
  exact ⟨e.1, f, he, h1, h2⟩

theorem namesOf?_spec (w : WF m) : ∀ {l : List Id}, (∀ j ∈ l, Known m j) →
    ∃ ns, namesOf? m l = some ns ∧ ∀ n, n ∈ ns ↔ ∃ j ∈ l, (n, j) ∈ m.features
  | [], _ => ⟨[], rfl, by simp⟩
  | i :: l, h => by
    obtain ⟨ns, h1, h2⟩ := namesOf?_spec w (l := l) fun j hj => h j (by simp [hj])
    obtain ⟨n, f, h3, h4, h5⟩ := known_entry w (h i (by simp))
    refine ⟨n :: ns, ?_, ?_⟩
    · unfold namesOf?
      rw [nameOf_of_data h4, h1, h5]
      rfl
    · intro k
      simp only [List.mem_cons, h2, exists_eq_or_imp]
      constructor
      · rintro (rfl | h)
        · exact .inl h3
        · exact .inr h
      · rintro (h | h)
        · exact .inl (w.id_unique h h3)
        · exact .inr h

theorem contents_inserts : ∀ (l c : List Id), (Props.contents c (l.map .insert)).Perm (l ++ c)
  | [], c => .refl _
  | i :: l, c => by
    refine (contents_inserts l (i :: c)).trans ?_
    simpa using List.perm_middle

theorem allKnown_inserts {l : List Id} (h : ∀ j ∈ l, Known m j) : Props.AllKnown m (l.map .insert) := by
  intro o ho f hf
  obtain ⟨j, hj, rfl⟩ := List.mem_map.1 ho
  rcases hf with hf | hf
  · cases hf; exact h _ hj
  · cases hf

theorem ordered_spec (w : WF m) (hs : SiblingsDiffer m) {l : List Id} (h : ∀ j ∈ l, Known m j) :
    ∃ l', ordered m l = some l' ∧ l'.Perm l ∧ l'.Pairwise fun a b => m.less b a = some false := by
  obtain ⟨l', h1, h2, h3⟩ := Props.C27_sorted_partial w hs (allKnown_inserts h)
  exact ⟨l', h1, by simpa using h3.trans (contents_inserts l []), h2⟩

theorem insertNew_spec (w : WF m) (hs : SiblingsDiffer m) : ∀ (ts l : List Id), (∀ j ∈ ts, Known m j) → (∀ j ∈ l, Known m j) →
    l.Pairwise (fun a b => m.less b a = some false) →
    ∃ l', insertNew m l ts = some l' ∧ ∀ j, j ∈ l' ↔ j ∈ l ∨ j ∈ ts
  | [], l, _, _, _ => ⟨l, rfl, by simp⟩
  | i :: ts, l, ht, hl, hp => by
    unfold insertNew
    by_cases hi : i ∈ l
    · rw [if_pos hi]
      obtain ⟨l', h1, h2⟩ := insertNew_spec w hs ts l (fun j hj => ht j (by simp [hj])) hl hp
      refine ⟨l', h1, fun j => ?_⟩
      rw [h2 j, List.mem_cons]
      constructor
      · rintro (h | h)
        · exact .inl h
        · exact .inr (.inr h)
      · rintro (h | rfl | h)
        · exact .inl h
        · exact .inl hi
        · exact .inr h
    · rw [if_neg hi]
      have hki := ht i (by simp)
      obtain ⟨l1, h1, h2, h3⟩ := Props.vecRun_spec w hs [.insert i] l l (by
        intro o ho f hf
        rw [List.mem_singleton] at ho
        subst ho
        rcases hf with hf | hf
        · cases hf; exact hki
        · cases hf) hl hp (.refl _)
      have e : m.vecStep l (.insert i) = some l1 := by
        rw [FModel.vecRun] at h1
        cases hv : m.vecStep l (.insert i) with
        | none => rw [hv] at h1; cases h1
        | some l2 => rw [hv] at h1; exact h1
      have hm : ∀ j, j ∈ l1 ↔ j = i ∨ j ∈ l := by
        intro j
        rw [h3.mem_iff]
        simp [Props.contents]
      obtain ⟨l', g1, g2⟩ := insertNew_spec w hs ts l1 (fun j hj => ht j (by simp [hj]))
        (fun j hj => ((hm j).1 hj).elim (fun e => e ▸ hki) (hl j)) h2
      rw [e]
      refine ⟨l', g1, fun j => ?_⟩
      rw [g2 j, hm j, List.mem_cons]
      constructor
      · rintro ((h | h) | h)
        · exact .inr (.inl h)
        · exact .inl h
        · exact .inr (.inr h)
      · rintro (h | h | h)
        · exact .inl (.inr h)
        · exact .inl (.inl h)
        · exact .inr h

/-! ## The parts of a feature -/

/-- The kinds of names of a described model. -/
theorem entry_cases (h : Describes d m) {n : Str} {i : Id} (hi : (n, i) ∈ m.features) :
    (n = d.root ∧ m.root = some i ∧ ∃ f, data m i = some (.feat f) ∧ f.attr = { name := d.root, kind := .root }) ∨
    ∃ a ∈ d.attrs, a.name = n ∧ ∃ f p, data m i = some (.feat f) ∧ f.attr = a ∧ (d.parent n, p) ∈ m.features ∧ FParent m i p := by
  rcases (h.names n).1 ⟨i, hi⟩ with rfl | hn
  · obtain ⟨j, f, h1, h2, h3, h4⟩ := h.root
    have := h.wf.entry_unique hi h2
    subst this
    exact .inl ⟨rfl, h1, f, h3, h4⟩
  · obtain ⟨a, ha, rfl⟩ := List.mem_map.1 hn
    obtain ⟨j, f, p, h1, h2, h3, h4, h5⟩ := h.feat a ha
    have := h.wf.entry_unique hi h1
    subst this
    exact .inr ⟨a, ha, rfl, f, p, h2, h3, h4, h5⟩

theorem siblings_differ (h : Describes d m) (hw : Writable d) : SiblingsDiffer m := by
  intro p a b hp ha hb hl
  obtain ⟨n, f, h1, h2, h3⟩ := known_entry h.wf hp
  have key : ∀ c, Via m isF p c → ∃ x ∈ d.attrs, d.parent x.name = n ∧ (x.name, c) ∈ m.features := by
    intro c hc
    obtain ⟨kc, fc⟩ := (via_iff_fparent h.wf (.inl hp) ⟨f, h2⟩).1 hc
    obtain ⟨k, g, g1, g2, g3⟩ := known_entry h.wf kc
    rcases entry_cases h g1 with ⟨rfl, hr, _⟩ | ⟨x, hx, rfl, f', q, _, _, h6, h7⟩
    · exact absurd fc (root_no_fparent h.wf hr)
    · have := fc.functional h7
      subst this
      exact ⟨x, hx, h.wf.id_unique h6 h1, g1⟩
  obtain ⟨x, hx, px, ex⟩ := key a ha
  obtain ⟨y, hy, py, ey⟩ := key b hb
  have low : ∀ {n c}, (n, c) ∈ m.features → m.low c = lower n := by
    intro n c hc
    obtain ⟨g, g1, g2⟩ := h.wf.feat_ok _ hc
    simp only at g1 g2
    simp [FModel.low, nameOf_of_data g1, g2]
  rw [low ex, low ey] at hl
  have e := hw.siblings x hx y hy (px.trans py.symm) hl
  rw [e] at ex
  exact h.wf.entry_unique ex ey

theorem parentElem_spec (h : Describes d m) {n : Str} {i : Id} (hi : (n, i) ∈ m.features) :
    parentElem m i = some (optLeaf c!"parent" (if n = d.root then none else some (d.parent n))) := by
  unfold parentElem
  obtain ⟨r, h1, h2⟩ := parentFeature_spec h.wf (.inl (known_of_mem hi))
  rw [h1]
  rcases entry_cases h hi with ⟨rfl, hr, _⟩ | ⟨a, ha, rfl, f, p, _, _, h6, h7⟩
  · rw [if_pos rfl]
    cases r with
    | none => rfl
    | some p => exact absurd ((h2 p).1 rfl) (root_no_fparent h.wf hr)
  · rw [if_neg (fun e : a.name = d.root => h.root_new (e ▸ List.mem_map_of_mem ha))]
    rw [(h2 p).2 h7]
    obtain ⟨g, g1, g2⟩ := h.wf.feat_ok _ h6
    simp only at g1 g2
    simp only [nameOf_of_data g1, g2]
    rfl

theorem childNames_spec (h : Describes d m) (hs : SiblingsDiffer m) (E : Env) {n : Str} {i : Id} (hi : (n, i) ∈ m.features) :
    ∃ ns, childNames E m i = some ns ∧ ∀ c, c ∈ ns ↔ ∃ a ∈ d.attrs, a.name = c ∧ d.parent c = n := by
  obtain ⟨cs, h1, _, h3, h4⟩ := children_desc h E hi
  have hk : ∀ c ∈ cs, Known m c := fun c hc => by
    obtain ⟨a, _, f, h5, _⟩ := h3 c hc
    exact known_of_mem h5
  obtain ⟨cs', h5, h6, _⟩ := ordered_spec h.wf hs hk
  obtain ⟨ns, h7, h8⟩ := namesOf?_spec h.wf (l := cs') (fun c hc => hk c (h6.mem_iff.1 hc))
  refine ⟨ns, ?_, fun c => ?_⟩
  · unfold childNames
    simp only [h1, h5, h7]
  · rw [h8 c]
    constructor
    · rintro ⟨j, hj, hcj⟩
      obtain ⟨a, ha, f, g1, _⟩ := h3 j (h6.mem_iff.1 hj)
      simp only [Desc.kids, List.mem_filter, decide_eq_true_eq] at ha
      have := h.wf.id_unique hcj g1
      subst this
      exact ⟨a, ha.1, rfl, ha.2⟩
    · rintro ⟨a, ha, rfl, hp⟩
      obtain ⟨j, hj, hcj⟩ := h4 a (by simp [Desc.kids, ha, hp])
      exact ⟨j, h6.mem_iff.2 hj, hcj⟩

/-- The targets of the constraints between two features of which the first has the given name. -/
theorem targets_spec (h : Describes d m) (hk : ConstraintsKnown d) (n : Str) : ∀ (rs : List CRoot),
    (∀ r ∈ rs, ∃ s, (m.store r.cls)[r.idx]? = some s) →
    ∃ ts, targets m n rs = some ts ∧ (∀ j ∈ ts, Known m j) ∧ ∀ j b, (b, j) ∈ m.features → (j ∈ ts ↔ ∃ r ∈ rs, ∃ s op,
      (m.store r.cls)[r.idx]? = some s ∧ s.tree = .bin op (.feature n) (.feature b))
  | [], _ => ⟨[], rfl, by simp, by simp⟩
  | r :: rs, hr => by
    obtain ⟨ts, h1, h2, h3⟩ := targets_spec h hk n rs fun x hx => hr x (by simp [hx])
    obtain ⟨s, hs⟩ := hr r (by simp)
    obtain ⟨x, hx, hcl, rfl⟩ := stored_desc h hs
    by_cases ht : ∃ op a b, x.2 = .bin op (.feature a) (.feature b)
    · obtain ⟨op, a, b, ht⟩ := ht
      have hfs : x.2.features = [a, b] := by rw [ht]; rfl
      have hl := leafName_eq h (c := x.2) (i := x.1.info) (k := 0) (n := a) (by rw [hfs]; rfl)
      obtain ⟨j, hj⟩ : ∃ j, (b, j) ∈ m.features := (h.names b).2 (hk x hx b (by rw [hfs]; simp))
      have hg := getFeature_mem h.wf.names hj
      have hbind : (x.2.features.map m.getFeature)[1]? = some (some j) := by rw [hfs]; simp [hg]
      have hbranch : targets m n (r :: rs) = if a = n then (targets m n rs).map (j :: ·) else targets m n rs := by
        rw [targets, hs]
        simp only
        rw [hl]
        split
        · rw [hbind]
        · rename_i hno
          exact absurd ht (fun e => hno _ _ _ e)
      rw [hbranch, h1]
      by_cases ha : a = n
      · rw [if_pos ha]
        subst ha
        refine ⟨j :: ts, rfl, ?_, ?_⟩
        · intro k hk'
          rcases List.mem_cons.1 hk' with rfl | hk'
          · exact known_of_mem hj
          · exact h2 k hk'
        · intro k b' hkb
          rw [List.mem_cons, h3 k b' hkb]
          constructor
          · rintro (rfl | ⟨r', hr', rest⟩)
            · have := h.wf.id_unique hkb hj
              subst this
              exact ⟨r, by simp, _, op, hs, ht⟩
            · exact ⟨r', by simp [hr'], rest⟩
          · rintro ⟨r', hr', s', op', hs', ht'⟩
            rcases List.mem_cons.1 hr' with rfl | hr'
            · rw [hs] at hs'; cases hs'
              simp only [ht] at ht'
              cases ht'
              exact .inl (h.wf.entry_unique hkb hj)
            · exact .inr ⟨r', hr', s', op', hs', ht'⟩
      · rw [if_neg ha]
        refine ⟨ts, rfl, h2, ?_⟩
        intro k b' hkb
        rw [h3 k b' hkb]
        constructor
        · rintro ⟨r', hr', rest⟩
          exact ⟨r', by simp [hr'], rest⟩
        · rintro ⟨r', hr', s', op', hs', ht'⟩
          rcases List.mem_cons.1 hr' with rfl | hr'
          · rw [hs] at hs'; cases hs'
            simp only [ht] at ht'
            cases ht'
            exact absurd rfl ha
          · exact ⟨r', hr', s', op', hs', ht'⟩
    · have hbranch : targets m n (r :: rs) = targets m n rs := by
        rw [targets, hs]
        simp only
        split
        · rename_i op a b e
          exact absurd ⟨op, a, b, e⟩ ht
        · rfl
      rw [hbranch]
      refine ⟨ts, h1, h2, ?_⟩
      intro k b' hkb
      rw [h3 k b' hkb]
      constructor
      · rintro ⟨r', hr', rest⟩
        exact ⟨r', by simp [hr'], rest⟩
      · rintro ⟨r', hr', s', op', hs', ht'⟩
        rcases List.mem_cons.1 hr' with rfl | hr'
        · rw [hs] at hs'; cases hs'
          exact absurd ⟨op', n, b', ht'⟩ ht
        · exact ⟨r', hr', s', op', hs', ht'⟩

/-- The same for the implications or exclusions of a feature. -/
theorem targets_op (h : Describes d m) (hk : ConstraintsKnown d) (op : BinOp) {n : Str} {rs : List CRoot}
    (hrs : ∀ r, r ∈ rs ↔ ∃ s, (m.store r.cls)[r.idx]? = some s ∧ (∃ a b, s.tree = .bin op a b) ∧ n ∈ s.tree.features) :
    ∃ ts, targets m n rs = some ts ∧ (∀ j ∈ ts, Known m j) ∧ ∀ j b, (b, j) ∈ m.features → (j ∈ ts ↔
      ∃ k, (k, .bin op (.feature n) (.feature b)) ∈ d.constraints) := by
  obtain ⟨ts, h1, h2, h3⟩ := targets_spec h hk n rs fun r hr => by
    obtain ⟨s, hs, _⟩ := (hrs r).1 hr
    exact ⟨s, hs⟩
  refine ⟨ts, h1, h2, fun j b hb => ?_⟩
  rw [h3 j b hb]
  constructor
  · rintro ⟨r, hr, s, op', hs, ht⟩
    obtain ⟨s', hs', ⟨x, y, e⟩, _⟩ := (hrs r).1 hr
    rw [hs] at hs'; cases hs'
    rw [ht] at e; cases e
    obtain ⟨z, hz, _, rfl⟩ := stored_desc h hs
    exact ⟨z.1, by rw [← ht]; exact hz⟩
  · rintro ⟨k, hc⟩
    obtain ⟨idx, hs⟩ := desc_stored h hc
    exact ⟨⟨k.cls, idx⟩, (hrs _).2 ⟨_, hs, ⟨_, _, rfl⟩, by simp [Constraint.features]⟩, _, op, hs, rfl⟩

theorem impliedNames_spec (h : Describes d m) (hs : SiblingsDiffer m) (hk : ConstraintsKnown d) {n : Str} {i : Id} {f : Feat}
    (hi : (n, i) ∈ m.features) (hf : data m i = some (.feat f)) :
    ∃ ns, impliedNames m f = some ns ∧ ∀ b, b ∈ ns ↔ Implies d n b := by
  obtain ⟨g, g1, g2⟩ := h.wf.feat_ok _ hi
  simp only at g1 g2
  rw [hf] at g1; cases g1
  obtain ⟨ts, h1, h2, h3⟩ := targets_op h hk .implies (n := f.attr.name) (h.registered i f (known_of_mem hi) hf).2.1
  obtain ⟨l, h4, h5, _⟩ := ordered_spec h.wf hs h2
  obtain ⟨ns, h6, h7⟩ := namesOf?_spec h.wf (l := l) (fun j hj => h2 j (h5.mem_iff.1 hj))
  refine ⟨ns, ?_, fun b => ?_⟩
  · unfold impliedNames
    simp only [h1, h4, h6]
  · rw [h7 b, ← g2]
    constructor
    · rintro ⟨j, hj, hb⟩
      exact (h3 j b hb).1 (h5.mem_iff.1 hj)
    · rintro ⟨k, hc⟩
      obtain ⟨j, hj⟩ := (h.names b).2 (hk _ hc b (by simp [Constraint.features]))
      exact ⟨j, h5.mem_iff.2 ((h3 j b hj).2 ⟨k, hc⟩), hj⟩

theorem heap_of_data' {i : Id} {x : NodeData} (h : data m i = some x) : ∃ n, m.heap i = some n ∧ n.data = x := ⟨_, heap_of_data h, rfl⟩

/-- The other members of the group of a feature. -/
theorem groupSiblings_spec (h : Describes d m) (E : Env) {n : Str} {i : Id} (hi : (n, i) ∈ m.features) :
    ∃ l, groupSiblings E m i = some l ∧ (∀ j ∈ l, Known m j) ∧ ∀ j b, (b, j) ∈ m.features → (j ∈ l ↔ GroupMates d n b) := by
  have w := h.wf
  have hk := known_of_mem hi
  rcases entry_cases h hi with ⟨rfl, hr, f, hf, _⟩ | ⟨a, ha, rfl, f, p, hf, hfa, h6, h7⟩
  · obtain ⟨r', f', r1, _, _, _, r5⟩ := w.root_ok
    rw [hr] at r1; cases r1
    obtain ⟨nd, hnd, _⟩ := heap_of_data' hf
    have hp : nd.parent = none := by simpa [par, hnd] using r5
    refine ⟨[], ?_, by simp, ?_⟩
    · unfold groupSiblings
      simp only [hnd, hp]
    · intro j b _
      refine ⟨nofun, fun hg => absurd hg.2.1 h.root_new⟩
  · obtain ⟨nd, hnd, _⟩ := heap_of_data' hf
    cases hq : par m i with
    | none => cases h7 with
      | direct h1 _ => rw [hq] at h1; cases h1
      | skip h1 _ _ => rw [hq] at h1; cases h1
    | some q =>
      have hndp : nd.parent = some q := by simpa [par, hnd] using hq
      obtain ⟨oq, iq⟩ := w.par_edge i q (.inl hk) hq
      obtain ⟨dq, hdq⟩ := w.owned_data oq
      obtain ⟨qn, hqn, hqd⟩ := heap_of_data' hdq
      cases dq with
      | feat g =>
        -- a direct child: its parent has no group
        have hpq : p = q := (FParent.direct hq ⟨g, hdq⟩).functional h7 |>.symm
        subst hpq
        refine ⟨[], ?_, by simp, ?_⟩
        · unfold groupSiblings
          simp only [hnd, hndp, hqn, Node.isRel, hqd]
          rfl
        · intro j b _
          refine ⟨nofun, ?_⟩
          rintro ⟨_, _, _, _, k, hg⟩
          obtain ⟨r, e1, e2, _⟩ := h.grouped _ k p hg h6
          rw [e1, List.mem_singleton] at iq
          subst iq
          rw [hf] at e2; cases e2
      | rel k =>
        have hqr : q ∈ m.rels := by
          rcases oq with ok | hr
          · obtain ⟨_, f', _, hd', _⟩ := known_entry w ok
            rw [hdq] at hd'; cases hd'
          · exact hr
        obtain ⟨n', k', i', g1, g2, g3⟩ := h.rels q hqr
        obtain ⟨_, f', g4, g5, _⟩ := known_entry w (known_of_mem g2)
        have hfp : FParent m q i' := .direct g3 ⟨f', g5⟩
        have hpi : i' = p := (FParent.skip hq ⟨k, hdq⟩ hfp).functional h7
        subst hpi
        have hn' := w.id_unique g2 h6
        subst hn'
        obtain ⟨r, e1, e2, e3⟩ := h.grouped _ k' i' g1 g2
        have hqe : q ∈ edg m i' := (w.par_edge q i' (.inr hqr) g3).2
        rw [e1, List.mem_singleton] at hqe
        subst hqe
        obtain ⟨cs, c1, c2, c3⟩ := childrenF w E (.inr hqr)
        have hvia : ∀ x, Via m isF q x ↔ x ∈ edg m q := by
          intro x
          constructor
          · intro hx
            cases hx with
            | here hx _ _ => exact hx
            | skip hx hd ht _ =>
              obtain ⟨g', hg'⟩ := e3 _ hx
              rw [hg'] at hd; cases hd; cases ht
          · intro hx
            obtain ⟨g', hg'⟩ := e3 _ hx
            exact .here hx hg' rfl
        have hmem : ∀ x, x ∈ cs ↔ Known m x ∧ FParent m x i' := by
          intro x
          rw [c3 x, ← via_iff_fparent w (.inl (known_of_mem g2)) ⟨f', g5⟩]
          constructor
          · intro hx; exact .skip (c := q) (by rw [e1]; simp) hdq rfl hx
          · intro hx
            cases hx with
            | here hx hd ht =>
              rw [e1, List.mem_singleton] at hx
              subst hx
              rw [hdq] at hd; cases hd; cases ht
            | skip hx hd ht hv =>
              rw [e1, List.mem_singleton] at hx
              subst hx
              exact hv
        have hperm := E.setOrder_perm (cs.filter fun j => decide (j ≠ i))
        refine ⟨E.setOrder (cs.filter fun j => decide (j ≠ i)), ?_, ?_, ?_⟩
        · unfold groupSiblings
          simp only [hnd, hndp, hqn, Node.isRel, hqd]
          rw [if_pos trivial, c1]
          rfl
        · intro j hj
          have := hperm.mem_iff.1 hj
          rw [List.mem_filter] at this
          exact ((hmem j).1 this.1).1
        · intro j b hb
          rw [hperm.mem_iff, List.mem_filter, hmem j]
          constructor
          · rintro ⟨⟨kj, fj⟩, hne⟩
            have hne : j ≠ i := by simpa using hne
            rcases entry_cases h hb with ⟨_, hr, _⟩ | ⟨b', hb', rfl, f'', p', _, _, h8, h9⟩
            · exact absurd fj (root_no_fparent w hr)
            · have := fj.functional h9
              subst this
              refine ⟨fun e => hne (w.entry_unique (e ▸ hb) hi), List.mem_map_of_mem ha, List.mem_map_of_mem hb', w.id_unique h6 h8, k', g1⟩
          · rintro ⟨hne, _, hbm, hpp, _⟩
            refine ⟨⟨known_of_mem hb, ?_⟩, ?_⟩
            · rcases entry_cases h hb with ⟨e, _, _⟩ | ⟨b', hb', rfl, f'', p', _, _, h8, h9⟩
              · subst e; exact absurd hbm h.root_new
              · rw [← hpp] at h8
                rw [w.entry_unique h6 h8]
                exact h9
            · have : j ≠ i := fun e => hne (w.id_unique hi (e ▸ hb))
              simpa using this

theorem excludedNames_spec (h : Describes d m) (hs : SiblingsDiffer m) (hk : ConstraintsKnown d) (E : Env) {n : Str} {i : Id} {f : Feat}
    (hi : (n, i) ∈ m.features) (hf : data m i = some (.feat f)) :
    ∃ ns, excludedNames E m i f = some ns ∧ ∀ b, b ∈ ns ↔ Excludes d n b ∨ GroupMates d n b := by
  obtain ⟨g, g1, g2⟩ := h.wf.feat_ok _ hi
  simp only at g1 g2
  rw [hf] at g1; cases g1
  obtain ⟨ts, h1, h2, h3⟩ := targets_op h hk .excludes (n := f.attr.name) (h.registered i f (known_of_mem hi) hf).2.2.1
  obtain ⟨sib, s1, s2, s3⟩ := groupSiblings_spec h E hi
  obtain ⟨l, h4, h5, h6⟩ := ordered_spec h.wf hs s2
  have hl : ∀ j ∈ l, Known m j := fun j hj => s2 j (h5.mem_iff.1 hj)
  obtain ⟨l', h7, h8⟩ := insertNew_spec h.wf hs ts l h2 hl h6
  have hl' : ∀ j ∈ l', Known m j := fun j hj => ((h8 j).1 hj).elim (hl j) (h2 j)
  obtain ⟨ns, h9, h10⟩ := namesOf?_spec h.wf hl'
  refine ⟨ns, ?_, fun b => ?_⟩
  · unfold excludedNames excluded
    simp only [s1, h4, h1, h7, h9]
  · rw [h10 b, ← g2]
    constructor
    · rintro ⟨j, hj, hb⟩
      rcases (h8 j).1 hj with hj | hj
      · exact .inr (g2 ▸ (s3 j b hb).1 (h5.mem_iff.1 hj))
      · exact .inl ((h3 j b hb).1 hj)
    · rintro (⟨k, hc⟩ | hg)
      · obtain ⟨j, hj⟩ := (h.names b).2 (hk _ hc b (by simp [Constraint.features]))
        exact ⟨j, (h8 j).2 (.inr ((h3 j b hj).2 ⟨k, hc⟩)), hj⟩
      · obtain ⟨j, hj⟩ := (h.names b).2 (.inr hg.2.2.1)
        exact ⟨j, (h8 j).2 (.inl (h5.mem_iff.2 ((s3 j b hj).2 (g2 ▸ hg)))), hj⟩

/-! ## Values and locations -/

theorem toInt_eq (v : Int) : toInt v = int32 v := by
  unfold toInt int32 Int.bmod
  simp only
  split <;> split <;> omega

theorem keptList_ne_nil : ∀ {vs : List Int}, vs ≠ [] → keptList vs ≠ []
  | [], h => absurd rfl h
  | [_], _ => by simp [keptList]
  | _ :: _ :: _, _ => by simp [keptList]

theorem valuesText_eq : ∀ {vs : List Int}, vs ≠ [] → valuesText vs = some (listText (keptList vs))
  | [], h => absurd rfl h
  | [v], _ => rfl
  | v :: w :: vs, _ => by
    have ih := valuesText_eq (vs := w :: vs) (by simp)
    rw [valuesText, ih, toInt_eq]
    · simp only [Option.map_some, keptList]
      cases hk : keptList (w :: vs) with
      | nil => exact absurd hk (keptList_ne_nil (by simp))
      | cons a l => rfl
    · simp

theorem int32_int64 {v : Int} : Int64 (int32 v) := by
  unfold Spec.Int64 int32 Int.bmod int64Min int64Max
  simp only
  split <;> constructor <;> omega

theorem keptList_int64 : ∀ {vs : List Int}, (∀ v ∈ vs, Int64 v) → ∀ v ∈ keptList vs, Int64 v
  | [], _ => by simp [keptList]
  | [v], h => by simpa [keptList] using h
  | v :: w :: vs, h => by
    intro x hx
    rw [keptList] at hx
    · rcases List.mem_cons.1 hx with rfl | hx
      · exact int32_int64
      · exact keptList_int64 (fun y hy => h y (by simp [hy])) x hx
    · simp

/-- The values written for a kind. -/
def writtenValues : FKind → Option Values
  | .numeric v _ => some (keptValues v)
  | _ => none

theorem keptValues_ok {v : Values} (h : ValuesOk v) : ValuesOk (keptValues v) := by
  cases v with
  | range lo hi => exact h
  | list vs => exact ⟨keptList_ne_nil h.1, keptList_int64 h.2⟩

theorem numericElem_spec {k : FKind} (h : k = .root ∨ KindWritable k) :
    numericElem k = some (valuesXml (writtenValues k)) ∧ ∀ v, writtenValues k = some v → ValuesOk v := by
  cases k with
  | numeric v s =>
    have hv : ValuesOk v := h.resolve_left nofun
    refine ⟨?_, fun x hx => ?_⟩
    · cases v with
      | range lo hi => rfl
      | list vs => simp [numericElem, valuesText_eq hv.1, writtenValues, keptValues, valuesXml]
    · cases hx; exact keptValues_ok hv
  | binary => exact ⟨rfl, nofun⟩
  | root => exact ⟨rfl, nofun⟩
  | unknown => exact ⟨rfl, nofun⟩

theorem takeWhile_noslash {q : Str} (h : '/' ∉ q) (t : Str) :
    (q ++ '/' :: t).takeWhile (· != '/') = q ∧ (q ++ '/' :: t).dropWhile (· != '/') = '/' :: t := by
  induction q with
  | nil => simp
  | cons c q ih =>
    have hc : c ≠ '/' := fun e => h (by simp [e])
    have := ih fun e => h (by simp [e])
    simp [hc, this]

theorem takeWhile_noslash' {q : Str} (h : '/' ∉ q) : q.takeWhile (· != '/') = q ∧ q.dropWhile (· != '/') = [] := by
  induction q with
  | nil => simp
  | cons c q ih =>
    have hc : c ≠ '/' := fun e => h (by simp [e])
    have := ih fun e => h (by simp [e])
    simp [hc, this]

theorem intercalate_cons (q q' : Str) (ps : List Str) :
    List.intercalate ['/'] (q :: q' :: ps) = q ++ '/' :: List.intercalate ['/'] (q' :: ps) := by
  simp [List.intercalate, List.intersperse]

theorem intercalate_head {q : Str} {ps : List Str} (hq : q ≠ []) : (List.intercalate ['/'] (q :: ps)).head? = q.head? := by
  cases q with
  | nil => exact absurd rfl hq
  | cons c q =>
    cases ps with
    | nil => simp [List.intercalate]
    | cons q' ps => rw [intercalate_cons]; rfl

theorem intercalate_last : ∀ {ps : List Str}, (∀ q ∈ ps, q ≠ []) → (List.intercalate ['/'] ps).getLast? = ps.getLast?.bind List.getLast?
  | [], _ => rfl
  | [q], _ => by simp [List.intercalate]
  | q :: q' :: ps, h => by
    have ih := intercalate_last (ps := q' :: ps) fun x hx => h x (by simp [hx])
    have hne : List.intercalate ['/'] (q' :: ps) ≠ [] := by
      intro e
      have := intercalate_head (ps := ps) (h q' (by simp))
      rw [e] at this
      have h2 := h q' (by simp)
      cases q' with
      | nil => exact h2 rfl
      | cons c q' => cases this
    rw [intercalate_cons, List.getLast?_append]
    have e : ('/' :: List.intercalate ['/'] (q' :: ps)).getLast? = (List.intercalate ['/'] (q' :: ps)).getLast? := by
      rw [List.getLast?_cons]
      cases hx : (List.intercalate ['/'] (q' :: ps)).getLast? with
      | none => exact absurd (List.getLast?_eq_none_iff.1 hx) hne
      | some c => rfl
    rw [e, ih, List.getLast?_cons_cons]
    cases hx : (q' :: ps).getLast? with
    | none => simp at hx
    | some l =>
      have hl : l ≠ [] := h l (List.mem_cons_of_mem _ (List.mem_of_getLast? hx))
      cases hy : l.getLast? with
      | none => exact absurd (List.getLast?_eq_none_iff.1 hy) hl
      | some c => simp [hy]

theorem parts_round : ∀ {ps : List Str} {fuel : Nat}, (∀ q ∈ ps, q ≠ [] ∧ '/' ∉ q) → (List.intercalate ['/'] ps).length ≤ fuel →
    pathParts fuel (List.intercalate ['/'] ps) = ps
  | [], 0, _, _ => rfl
  | [], _ + 1, _, _ => rfl
  | [q], fuel, h, hl => by
    have hq := h q (by simp)
    have e : List.intercalate ['/'] [q] = q := by simp [List.intercalate]
    rw [e] at hl ⊢
    cases fuel with
    | zero => exact absurd (List.eq_nil_of_length_eq_zero (Nat.le_zero.1 hl)) hq.1
    | succ fuel =>
      obtain ⟨e1, e2⟩ := takeWhile_noslash' hq.2
      rw [pathParts, if_neg hq.1, e1, e2]
      simp
  | q :: q' :: ps, fuel, h, hl => by
    have hq := h q (by simp)
    have hq' := h q' (by simp)
    rw [intercalate_cons] at hl ⊢
    cases fuel with
    | zero => simp at hl
    | succ fuel =>
      obtain ⟨e1, e2⟩ := takeWhile_noslash hq.2 (List.intercalate ['/'] (q' :: ps))
      have hhead := intercalate_head (ps := ps) hq'.1
      have hr : ('/' :: List.intercalate ['/'] (q' :: ps)).dropWhile (· == '/') = List.intercalate ['/'] (q' :: ps) := by
        rw [List.dropWhile_cons_of_pos (by rfl)]
        cases hx : List.intercalate ['/'] (q' :: ps) with
        | nil => rfl
        | cons c t =>
          rw [hx] at hhead
          have : c ≠ '/' := fun e => hq'.2 (List.mem_of_mem_head? (by rw [← hhead, e]; rfl))
          rw [List.dropWhile_cons_of_neg (by simpa using this)]
      have hne : List.intercalate ['/'] (q' :: ps) ≠ [] := by
        intro e
        rw [e] at hhead
        have := hq'.1
        cases q' with
        | nil => exact this rfl
        | cons c q' => cases hhead
      have ih := parts_round (ps := q' :: ps) (fuel := fuel) (fun x hx => h x (by simp [hx]))
        (by simp only [List.length_append, List.length_cons] at hl; omega)
      rw [pathParts, if_neg (by simp), e1, e2]
      simp only
      rw [hr, if_neg (by simp), if_neg hne, ih]

theorem pathText_abs (ps : List Str) : pathText (['/'] :: ps) = '/' :: List.intercalate ['/'] ps := by
  simp only [pathText, if_true]

theorem pathText_rel {p : Str} (h : p ≠ ['/']) (ps : List Str) : pathText (p :: ps) = List.intercalate ['/'] (p :: ps) := if_neg h

theorem path_round {p : List Str} (h : CleanPath p) : pathElems (pathText p) = p := by
  cases p with
  | nil => rfl
  | cons p ps =>
    obtain ⟨hp, hps⟩ := h
    rcases hp with rfl | hp
    · unfold pathElems
      rw [pathText_abs, if_pos (by rfl)]
      have hd : ('/' :: List.intercalate ['/'] ps).dropWhile (· == '/') = List.intercalate ['/'] ps := by
        rw [List.dropWhile_cons_of_pos (by rfl)]
        cases ps with
        | nil => rfl
        | cons q ps =>
          have hq := hps q (by simp)
          have hhead := intercalate_head (ps := ps) hq.1
          cases hx : List.intercalate ['/'] (q :: ps) with
          | nil => rfl
          | cons c t =>
            rw [hx] at hhead
            have : c ≠ '/' := fun e => hq.2 (List.mem_of_mem_head? (by rw [← hhead, e]; rfl))
            rw [List.dropWhile_cons_of_neg (by simpa using this)]
      rw [hd, parts_round hps (by simp)]
    · unfold pathElems
      have hne : p ≠ ['/'] := by rintro rfl; exact hp.2 (by simp)
      have hhead := intercalate_head (ps := ps) hp.1
      rw [pathText_rel hne, if_neg]
      · exact parts_round (by intro q hq; rcases List.mem_cons.1 hq with rfl | hq; exact hp; exact hps q hq) (Nat.le_refl _)
      · rw [hhead]
        intro e
        exact hp.2 (List.mem_of_mem_head? e)

theorem path_trimmed {r : Range} (h : RangeWritable r) : Trimmed (pathText r.path) := by
  have hc := h.path
  have h1 := h.first
  have h2 := h.last
  generalize r.path = p at hc h1 h2
  cases p with
  | nil => exact .inl rfl
  | cons p ps =>
    obtain ⟨hp, hps⟩ := hc
    refine .inr ?_
    rcases hp with rfl | hp
    · rw [pathText_abs]
      refine ⟨by simp, ?_, ?_⟩
      · intro c hc; cases hc; decide
      · intro c hc
        cases ps with
        | nil => cases hc; decide
        | cons q ps =>
          have e := intercalate_last (ps := q :: ps) (fun x hx => (hps x hx).1)
          apply h2
          rw [List.getLast?_cons_cons, ← e]
          rw [List.getLast?_cons] at hc
          cases hx : (List.intercalate ['/'] (q :: ps)).getLast? with
          | none =>
            have hne := intercalate_head (ps := ps) (hps q (by simp)).1
            rw [List.getLast?_eq_none_iff.1 hx] at hne
            have := (hps q (by simp)).1
            cases q with
            | nil => exact absurd rfl this
            | cons c q => cases hne
          | some x => rw [hx] at hc; exact hc
    · have hne : p ≠ ['/'] := by rintro rfl; exact hp.2 (by simp)
      rw [pathText_rel hne]
      have hhead := intercalate_head (ps := ps) hp.1
      refine ⟨?_, ?_, ?_⟩
      · intro e
        rw [e] at hhead
        cases p with
        | nil => exact hp.1 rfl
        | cons c p => cases hhead
      · intro c hc
        rw [hhead] at hc
        exact h1 c hc
      · intro c hc
        rw [intercalate_last (by intro q hq; rcases List.mem_cons.1 hq with rfl | hq; exact hp.1; exact (hps q hq).1)] at hc
        exact h2 c hc

theorem writeRange_spec {r : Range} (h : RangeWritable r) :
    ∃ x : DocRange, writeRange r = some x.toXml ∧ x.Ok ∧ x.read = keptRange r := by
  obtain ⟨s, s1, s2⟩ := h.start
  obtain ⟨e, e1, e2⟩ := h.stop
  refine ⟨{ path := pathText r.path, start := s, stop := e, category := some r.category }, ?_, ?_, ?_⟩
  · unfold writeRange
    simp only [s1, e1]
    cases r.category <;> rfl
  · exact ⟨nofun, path_trimmed h, s2, e2, nofun⟩
  · simp only [DocRange.read, path_round h.path, keptRange, s1, e1]
    rfl

theorem writeRanges_spec : ∀ {rs : List Range}, (∀ r ∈ rs, RangeWritable r) →
    ∃ xs : List DocRange, writeRanges rs = some (xs.map DocRange.toXml) ∧ (∀ x ∈ xs, x.Ok) ∧ xs.map DocRange.read = rs.map keptRange
  | [], _ => ⟨[], rfl, by simp, rfl⟩
  | r :: rs, h => by
    obtain ⟨x, h1, h2, h3⟩ := writeRange_spec (h r (by simp))
    obtain ⟨xs, h4, h5, h6⟩ := writeRanges_spec (rs := rs) fun y hy => h y (by simp [hy])
    refine ⟨x :: xs, ?_, ?_, ?_⟩
    · simp [writeRanges, h1, h4]
    · intro y hy
      rcases List.mem_cons.1 hy with rfl | hy
      · exact h2
      · exact h5 y hy
    · simp [h3, h6]

theorem locationsElem_spec {rs : List Range} (h : ∀ r ∈ rs, RangeWritable r) :
    ∃ xs : List DocRange, locationsElem rs = some (if xs = [] then [] else [group c!"locations" (xs.map DocRange.toXml)]) ∧
      (∀ x ∈ xs, x.Ok) ∧ xs.map DocRange.read = rs.map keptRange := by
  obtain ⟨xs, h1, h2, h3⟩ := writeRanges_spec h
  refine ⟨xs, ?_, h2, h3⟩
  unfold locationsElem
  by_cases hr : rs = []
  · subst hr
    rw [List.map_nil, List.map_eq_nil_iff] at h3
    subst h3
    rfl
  · have hx : xs ≠ [] := by
      rintro rfl
      exact hr (List.map_eq_nil_iff.1 h3.symm)
    rw [if_neg hr, if_neg hx, h1]
    rfl

end Verif.Xml

import Verif.Xml.Desk
import Verif.Merge.Describe
import Verif.Merge.Keep
/-! Lemmas: models on one heap do not reach each other. -/

namespace Verif
open Verif.Spec Verif.Xml

/-! ## Calls that make a model stay above the addresses used before -/

theorem Frame.sortedChildren {base : Nat} {H : Id → Option Node} {m : FModel} (h : Frame base H m) {E : Env} {f : Id} (hf : base ≤ f)
    {cs : List Id} (e : m.sortedChildren E f = some cs) : ∀ x ∈ cs, base ≤ x := by
  unfold FModel.sortedChildren at e
  cases h1 : m.children E Node.isFeat f with
  | none => rw [h1] at e; cases e
  | some l =>
    rw [h1] at e
    simp only at e
    have hl := h.children hf h1
    suffices key : ∀ (l acc cs : List Id), (∀ x ∈ l, base ≤ x) → (∀ x ∈ acc, base ≤ x) →
        l.foldlM (fun l c => upperInsert (fun a b => strLt (m.low b) (m.low a)) c l) acc = some cs → ∀ x ∈ cs, base ≤ x from
      key l [] cs hl (by simp) e
    intro l
    induction l with
    | nil => intro acc cs _ ha e; simp at e; subst e; exact ha
    | cons y ys ih =>
      intro acc cs hl ha e
      rw [List.foldlM_cons] at e
      cases h2 : upperInsert (fun a b => strLt (m.low b) (m.low a)) y acc with
      | none => rw [h2] at e; cases e
      | some acc' =>
        rw [h2] at e
        refine ih acc' cs (fun x hx => hl x (List.mem_cons_of_mem _ hx)) ?_ e
        unfold upperInsert at h2
        split at h2
        · cases h2
          intro x hx
          rcases List.mem_append.1 hx with hx | hx
          · exact ha x ((List.takeWhile_sublist _).subset hx)
          · rcases List.mem_cons.1 hx with rfl | hx
            · exact hl x (List.mem_cons_self ..)
            · exact ha x ((List.dropWhile_sublist _).subset hx)
        · cases h2

theorem Frame.collect {base : Nat} {H : Id → Option Node} {m : FModel} (h : Frame base H m) {E : Env} {stop : FModel.DFS} :
    ∀ (fuel : Nat) (it : FModel.DFS) (is : List Id), (∀ x ∈ it.frontier, base ≤ x) → m.collect E stop fuel it = some is → ∀ x ∈ is, base ≤ x
  | 0, _, _, _, e => by cases e
  | fuel + 1, it, is, hi, e => by
    unfold FModel.collect at e
    split at e
    · cases e; simp
    · cases hf : it.frontier with
      | nil => rw [hf] at e; cases e
      | cons f rest =>
        rw [hf] at e
        simp only at e
        rw [hf] at hi
        cases hn : it.next m E with
        | none => rw [hn] at e; cases e
        | some it' =>
          rw [hn] at e
          simp only [Option.map_eq_some_iff] at e
          obtain ⟨is', e1, rfl⟩ := e
          have hit : ∀ x ∈ it'.frontier, base ≤ x := by
            unfold FModel.DFS.next at hn
            rw [hf] at hn
            simp only at hn
            cases hs : m.sortedChildren E f with
            | none => rw [hs] at hn; cases hn
            | some cs =>
              rw [hs] at hn
              cases hn
              intro x hx
              simp only at hx
              rcases List.mem_append.1 hx with hx | hx
              · rw [List.mem_reverse] at hx
                exact h.sortedChildren (hi f (List.mem_cons_self ..)) hs x (List.mem_filter.1 hx).1
              · exact hi x (List.mem_cons_of_mem _ hx)
          intro x hx
          rcases List.mem_cons.1 hx with rfl | hx
          · exact hi x (List.mem_cons_self ..)
          · exact Frame.collect h fuel it' is' hit e1 x hx

theorem Frame.detect {base : Nat} {H : Id → Option Node} {m : FModel} (h : Frame base H m) (E : Env) :
    FrameOut base H (detectAlternatives E m) := by
  unfold detectAlternatives
  cases h1 : m.iterate E with
  | none => trivial
  | some is =>
    simp only
    have his : ∀ x ∈ is, base ≤ x := by
      unfold FModel.iterate at h1
      cases h2 : m.end? with
      | none => rw [h2] at h1; cases h1
      | some stop =>
        rw [h2] at h1
        refine h.collect _ _ _ ?_ h1
        intro x hx
        unfold FModel.begin at hx
        cases h3 : m.root with
        | none => rw [h3] at hx; simp [FModel.DFS.mk'] at hx
        | some r => rw [h3] at hx; simp [FModel.DFS.mk'] at hx; subst hx; exact h.root _ h3
    cases h2 : altOps E m is with
    | none => trivial
    | some os =>
      refine h.commitOps ?_
      suffices key : ∀ (is : List Id) (os : List Op), (∀ x ∈ is, base ≤ x) → altOps E m is = some os → ∀ o ∈ os, OpOk base o from key is os his h2
      intro is
      induction is with
      | nil => intro os _ e; cases e; simp
      | cons i is ih =>
        intro os hi e
        unfold altOps at e
        cases h3 : altParent E m i with
        | none => rw [h3] at e; cases e
        | some b =>
          rw [h3] at e
          simp only [Option.map_eq_some_iff] at e
          obtain ⟨os', e1, rfl⟩ := e
          have hr := ih os' (fun x hx => hi x (List.mem_cons_of_mem _ hx)) e1
          cases b with
          | false => exact hr
          | true =>
            intro o ho
            rcases List.mem_cons.1 ho with rfl | ho
            · intro j hj
              cases hj
              exact hi _ (List.mem_cons_self ..)
            · exact hr o ho

theorem byName_builderOf (calls : List BCall) : ByName (builderOf calls) := by
  unfold builderOf
  suffices key : ∀ (calls : List BCall) (b : ModelBuilder), ByName b → ByName (calls.foldl BCall.apply b) from
    key calls {} (fun base => ⟨by simp, by simp, by simp⟩)
  intro calls
  induction calls with
  | nil => exact fun b h => h
  | cons c cs ih =>
    intro b h
    refine ih _ ?_
    cases c with
    | makeFeature a => exact h.makeFeature a
    | makeRoot n => exact h.makeRoot n
    | addEdge p c => exact h.addEdge p c
    | emplaceRelationship k p => exact h.emplaceRelationship k p
    | addConstraint k c => exact h.addConstraint k c
    | setVmName n => exact fun base => ⟨(h base).1, opOk_snoc (h base).2.1 trivial, (h base).2.2⟩
    | setPath n => exact fun base => ⟨(h base).1, opOk_snoc (h base).2.1 trivial, (h base).2.2⟩
    | setCommit n => exact fun base => ⟨(h base).1, opOk_snoc (h base).2.1 trivial, (h base).2.2⟩

theorem frame_load {sci : Str → Option Str} {E : Env} {m c : FModel} {cwd : Str} {x : Xml} (hf : ∀ i, m.heap i ≠ none → i < m.next)
    (e : load sci E m cwd x = .built c) : Frame m.next m.heap c := by
  unfold load at e
  cases h1 : parseVm sci cwd x with
  | crash => rw [h1] at e; cases e
  | fail => rw [h1] at e; cases e
  | ok calls =>
    rw [h1] at e
    simp only at e
    cases h2 : m.build E (builderOf calls) with
    | ub => rw [h2] at e; cases e
    | null => rw [h2] at e; cases e
    | built c1 =>
      rw [h2] at e
      simp only at e
      have h3 := (frame_build hf (byName_builderOf calls) h2).detect E
      cases h4 : detectAlternatives E c1 with
      | ub => rw [h4] at e; cases e
      | ok c2 => rw [h4] at e h3; cases e; exact h3
      | err _ c2 => rw [h4] at e h3; cases e; exact h3

/-- Fresh cells stay fresh: nothing from `next` on is used. -/
theorem frame_copy {E : Env} {m c : FModel} {ops : List Op} (hf : ∀ i, m.heap i ≠ none → i < m.next)
    (e : m.copyTransaction E ops = some (some c)) : Frame m.next m.heap c := by
  unfold FModel.copyTransaction at e
  cases h1 : m.clone E with
  | ub => rw [h1] at e; cases e
  | null => rw [h1] at e; cases e
  | built c1 =>
    rw [h1] at e
    simp only at e
    cases h2 : FModel.copyRun E c1 ops with
    | none => rw [h2] at e; cases e
    | some c2 =>
      rw [h2] at e
      simp only at e
      have h3 := (frame_clone hf h1).copyRun h2
      cases h4 : c2.consistent E with
      | none => rw [h4] at e; cases e
      | some b =>
        rw [h4] at e
        cases b with
        | false => cases e
        | true => cases e; exact h3

theorem frame_runCopy {E : Env} {m c : FModel} {es : List Edit} (hf : ∀ i, m.heap i ≠ none → i < m.next)
    (e : runCopy E m es = some (some c)) : Frame m.next m.heap c := by
  unfold runCopy at e
  split at e
  · exact frame_copy hf e
  · cases e

/-! ## A model keeps out of all other addresses -/

theorem region_of_wf {m : FModel} (w : WF m) (b : Bound m) : Region (fun i => i < m.next ∧ ¬ Owned m i) m.heap m := by
  have own : ∀ i n, ¬ (i < m.next ∧ ¬ Owned m i) → m.heap i = some n → Owned m i := by
    intro i n h hn
    exact Classical.byContradiction fun ho => h ⟨w.fresh i (by rw [hn]; simp), ho⟩
  have out : ∀ {i}, Owned m i → ¬ (i < m.next ∧ ¬ Owned m i) := fun h hx => hx.2 h
  refine ⟨fun _ _ => rfl, fun i h => h.1, ?_, ?_, ?_, ?_, ?_, ?_⟩
  · intro i n hi hn p hp
    exact out (w.par_edge i p (own i n hi hn) (by simp [Spec.par, hn, hp])).1
  · intro i n hi hn c hc
    exact out (w.edge_par i c (own i n hi hn) (by simp [Spec.edg, hn, hc])).1
  · intro e he
    exact out (.inl (List.mem_map.2 ⟨e, he, rfl⟩))
  · intro r hr
    exact out (.inr hr)
  · intro r hr
    obtain ⟨r', f, h1, h2, _⟩ := w.root_ok
    rw [hr] at h1; cases h1
    exact out (.inl h2)
  · intro s hs i hi
    obtain ⟨k, hk, e⟩ := List.getElem_of_mem hi
    obtain ⟨n, _, h2⟩ := b.bind s hs k i (by rw [List.getElem?_eq_getElem hk, e])
    exact out (.inl (List.mem_map.2 ⟨_, h2, rfl⟩))

/-! ## What belongs to a model decides about it -/

section
variable {m m' : FModel}

/-- The same members and the same nodes. -/
structure Copy (m m' : FModel) : Prop where
  mem : m' = { m with heap := m'.heap, next := m'.next }
  heap : ∀ i, Owned m i → m'.heap i = m.heap i
  fresh : ∀ i, m'.heap i ≠ none → i < m'.next

theorem Copy.features (h : Copy m m') : m'.features = m.features := by rw [h.mem]
theorem Copy.rels (h : Copy m m') : m'.rels = m.rels := by rw [h.mem]
theorem Copy.root (h : Copy m m') : m'.root = m.root := by rw [h.mem]
theorem Copy.known (h : Copy m m') {i : Id} : Known m' i ↔ Known m i := by unfold Known; rw [h.features]
theorem Copy.owned (h : Copy m m') {i : Id} : Owned m' i ↔ Owned m i := by unfold Owned; rw [h.known, h.rels]
theorem Copy.data (h : Copy m m') {i : Id} (hi : Owned m i) : data m' i = data m i := by unfold Spec.data; rw [h.heap i hi]
theorem Copy.par (h : Copy m m') {i : Id} (hi : Owned m i) : par m' i = par m i := by unfold Spec.par; rw [h.heap i hi]
theorem Copy.edg (h : Copy m m') {i : Id} (hi : Owned m i) : edg m' i = edg m i := by unfold Spec.edg; rw [h.heap i hi]
theorem Copy.store (h : Copy m m') (cl : CClass) : m'.store cl = m.store cl := by rw [h.mem]; cases cl <;> rfl
theorem Copy.stored (h : Copy m m') : allStored m' = allStored m := by rw [h.mem]; rfl
theorem Copy.getFeature (h : Copy m m') (n : Str) : m'.getFeature n = m.getFeature n := by rw [h.mem]; rfl

theorem Copy.wf (h : Copy m m') (w : WF m) : WF m' := by
  have ko : ∀ {i}, Known m i → Owned m i := .inl
  refine ⟨?_, ?_, ?_, ?_, ?_, ?_, ?_, ?_, ?_, ?_, ?_, h.fresh⟩
  · obtain ⟨r, f, h1, h2, h3, h4, h5⟩ := w.root_ok
    exact ⟨r, f, by rw [h.root, h1], h.known.2 h2, by rw [h.data (ko h2), h3], h4, by rw [h.par (ko h2), h5]⟩
  · rw [h.features]; exact w.names
  · intro e he
    rw [h.features] at he
    rw [h.data (ko (List.mem_map.2 ⟨e, he, rfl⟩))]
    exact w.feat_ok e he
  · rw [h.rels]; exact w.rels_nodup
  · intro r hr
    rw [h.rels] at hr
    obtain ⟨k, hk⟩ := w.rel_ok r hr
    exact ⟨k, by rw [h.data (.inr hr), hk]⟩
  · intro i p hi hp
    have hi := h.owned.1 hi
    rw [h.par hi] at hp
    obtain ⟨h1, h2⟩ := w.par_edge i p hi hp
    exact ⟨h.owned.2 h1, by rw [h.edg h1]; exact h2⟩
  · intro i c hi hc
    have hi := h.owned.1 hi
    rw [h.edg hi] at hc
    obtain ⟨h1, h2⟩ := w.edge_par i c hi hc
    exact ⟨h.owned.2 h1, by rw [h.par h1]; exact h2⟩
  · intro i hi
    have hi := h.owned.1 hi
    rw [h.edg hi]; exact w.edges_nodup i hi
  · intro i hi hp
    have hi := h.owned.1 hi
    rw [h.par hi] at hp
    rw [h.root]; exact w.orphan i hi hp
  · intro i f hi hd hk
    have hi := h.known.1 hi
    rw [h.data (ko hi)] at hd
    rw [h.root]; exact w.one_root i f hi hd hk
  · intro i r hi hr
    have hi := h.owned.1 hi
    rw [h.root] at hr
    have := w.reach i r hi hr
    clear hr
    induction this with
    | refl => exact .refl
    | step hp _ ih => exact .step (by rw [h.par hi]; exact hp) (ih (h.owned.2 (w.par_edge _ _ hi hp).1) (w.par_edge _ _ hi hp).1)

theorem Copy.bound (h : Copy m m') (b : Bound m) : Bound m' := by
  refine ⟨?_, ?_⟩
  · rw [h.stored]; exact b.len
  · rw [h.stored, h.features]; exact b.bind

theorem Copy.fparent (h : Copy m m') (w : WF m) {i p : Id} (hi : Owned m i) (hp : FParent m i p) : FParent m' i p := by
  induction hp with
  | direct h1 h2 =>
    obtain ⟨f, hf⟩ := h2
    exact .direct (by rw [h.par hi]; exact h1) ⟨f, by rw [h.data (w.par_edge _ _ hi h1).1]; exact hf⟩
  | skip h1 h2 _ ih =>
    obtain ⟨k, hk⟩ := h2
    have ho := (w.par_edge _ _ hi h1).1
    exact .skip (by rw [h.par hi]; exact h1) ⟨k, by rw [h.data ho]; exact hk⟩ (ih ho)

theorem Copy.describes {d : Desc} (h : Copy m m') (hd : Describes d m) : Describes d m' := by
  have w := hd.wf
  have ok : ∀ {n i}, (n, i) ∈ m.features → Owned m i := fun hn => .inl (List.mem_map.2 ⟨_, hn, rfl⟩)
  have isf : ∀ {c}, Owned m c → IsFeat m c → IsFeat m' c := fun hc ⟨f, hf⟩ => ⟨f, by rw [h.data hc]; exact hf⟩
  refine ⟨h.wf w, h.bound hd.bound, ?_, ?_, ?_, hd.distinct, hd.root_new, ?_, ?_, ?_, hd.groups_known, ?_, ?_, ?_, ?_, ?_⟩
  · rw [h.mem]; exact hd.name
  · rw [h.mem]; exact hd.path
  · rw [h.mem]; exact hd.commit
  · rw [h.features]; exact hd.names
  · obtain ⟨i, f, h1, h2, h3, h4⟩ := hd.root
    exact ⟨i, f, by rw [h.root, h1], by rw [h.features]; exact h2, by rw [h.data (ok h2), h3], h4⟩
  · intro a ha
    obtain ⟨i, f, p, h1, h2, h3, h4, h5⟩ := hd.feat a ha
    exact ⟨i, f, p, by rw [h.features]; exact h1, by rw [h.data (ok h1), h2], h3, by rw [h.features]; exact h4, h.fparent w (ok h1) h5⟩
  · intro n k i hn hi
    rw [h.features] at hi
    obtain ⟨r, h1, h2, h3⟩ := hd.grouped n k i hn hi
    have hr : Owned m r := (w.edge_par i r (ok hi) (by rw [h1]; simp)).1
    refine ⟨r, by rw [h.edg (ok hi), h1], by rw [h.data hr, h2], ?_⟩
    intro c hc
    rw [h.edg hr] at hc
    exact isf (w.edge_par r c hr hc).1 (h3 c hc)
  · intro n i hi hn c hc
    rw [h.features] at hi
    rw [h.edg (ok hi)] at hc
    exact isf (w.edge_par i c (ok hi) hc).1 (hd.ungrouped n i hi hn c hc)
  · intro r hr
    rw [h.rels] at hr
    obtain ⟨n, k, i, h1, h2, h3⟩ := hd.rels r hr
    exact ⟨n, k, i, h1, by rw [h.features]; exact h2, by rw [h.par (.inr hr), h3]⟩
  · intro cl
    rw [h.store, hd.store]
    have : m'.getFeature = m.getFeature := funext h.getFeature
    rw [this]
  · intro i f hi hf
    have hi := h.known.1 hi
    rw [h.data (.inl hi)] at hf
    have := hd.registered i f hi hf
    simpa only [h.store] using this

end

namespace Desk

variable {D : Desk}

theorem get_put_ne {k j : Nat} {m : FModel} (h : j ≠ k) : get (put D k m) j = (get D j).map fun x => { x with heap := m.heap, next := m.next } := by
  unfold get put
  simp only [List.getElem?_set_ne (Ne.symm h)]
  cases D.models[j]? with
  | none => rfl
  | some o => cases o <;> rfl

theorem get_put {k : Nat} {m m0 : FModel} (h : get D k = some m0) : get (put D k m) k = some m := by
  have hk : k < D.models.length := by
    apply Classical.byContradiction
    intro hn
    unfold get at h
    rw [List.getElem?_eq_none (Nat.le_of_not_lt hn)] at h
    cases h
  unfold get put
  simp [List.getElem?_set_self hk, on]

theorem get_push {o : Option FModel} {j : Nat} (h : j < D.models.length) :
    get (push D o) j = (get D j).map fun x => { x with heap := (push D o).heap, next := (push D o).next } := by
  cases o with
  | none =>
    unfold get push
    simp only [List.getElem?_append_left h]
    cases D.models[j]? with
    | none => rfl
    | some o => cases o <;> rfl
  | some m =>
    unfold get push
    simp only [List.getElem?_append_left h]
    cases D.models[j]? with
    | none => rfl
    | some o => cases o <;> rfl

theorem get_push_new {m : FModel} : get (push D (some m)) D.models.length = some m := by
  unfold get push
  simp [on]

theorem get_push_null : get (push D none) D.models.length = none := by
  unfold get push
  simp

theorem get_lt {j : Nat} {m : FModel} (h : get D j = some m) : j < D.models.length := by
  apply Classical.byContradiction
  intro hn
  unfold get at h
  rw [List.getElem?_eq_none (Nat.le_of_not_lt hn)] at h
  cases h

theorem get_heap {j : Nat} {m : FModel} (h : get D j = some m) : m.heap = D.heap ∧ m.next = D.next := by
  unfold get at h
  split at h
  · cases h; exact ⟨rfl, rfl⟩
  · cases h

theorem get_freeAll {k j : Nat} {m : FModel} (h : j ≠ k) :
    get (freeAll D k m) j = (get D j).map fun x => { x with heap := (freeAll D k m).heap, next := D.next } := by
  unfold get freeAll
  simp only [List.getElem?_set_ne (Ne.symm h)]
  cases D.models[j]? with
  | none => rfl
  | some o => cases o <;> rfl

theorem get_freed {k : Nat} {m m0 : FModel} (h : get D k = some m0) : get (freeAll D k m) k = none := by
  unfold get freeAll
  simp [List.getElem?_set_self (get_lt h)]

/-! ### A changed model -/

theorem Tidy.region (t : Tidy D) {k : Nat} {m : FModel} (h : get D k = some m) :
    Region (fun i => i < m.next ∧ ¬ Owned m i) m.heap m := region_of_wf (t.wf k m h) (t.bound k m h)

theorem Tidy.outside (t : Tidy D) {j k : Nat} {m x : FModel} (hjk : j ≠ k) (hj : get D j = some x) (hk : get D k = some m) {i : Id}
    (hi : Owned x i) : i < m.next ∧ ¬ Owned m i := by
  refine ⟨?_, t.apart j k x m hjk hj hk i hi⟩
  rw [(get_heap hk).2, ← (get_heap hj).2]
  obtain ⟨d, hd⟩ := (t.wf j x hj).owned_data hi
  exact (t.wf j x hj).fresh i (by rw [heap_of_data hd]; simp)

theorem same_put (t : Tidy D) {k : Nat} {m m' : FModel} (h : get D k = some m)
    (r : Region (fun i => i < m.next ∧ ¬ Owned m i) m.heap m') {j : Nat} (hj : j ≠ k) : Same D (put D k m') j := by
  intro x hx
  refine ⟨{ x with heap := m'.heap, next := m'.next }, by rw [get_put_ne hj, hx]; rfl, rfl, ?_⟩
  intro i hi
  show m'.heap i = x.heap i
  rw [r.low i (t.outside hj hx h hi), (get_heap h).1, (get_heap hx).1]

theorem same_push (t : Tidy D) {c : FModel} (r : Frame D.next D.heap c) {j : Nat} : Same D (push D (some c)) j := by
  intro x hx
  refine ⟨{ x with heap := c.heap, next := c.next }, by rw [get_push (get_lt hx), hx]; rfl, rfl, ?_⟩
  intro i hi
  obtain ⟨d, hd⟩ := (t.wf j x hx).owned_data hi
  have := (t.wf j x hx).fresh i (by rw [heap_of_data hd]; simp)
  rw [(get_heap hx).2] at this
  show c.heap i = x.heap i
  rw [r.low i this, (get_heap hx).1]

theorem same_null {j : Nat} : Same D (push D none) j := by
  intro x hx
  have := get_heap hx
  refine ⟨x, ?_, rfl, fun _ _ => rfl⟩
  rw [get_push (get_lt hx), hx]
  show some { x with heap := D.heap, next := D.next } = some x
  rw [← this.1, ← this.2]

theorem same_freeAll (t : Tidy D) {k : Nat} {m : FModel} (h : get D k = some m) {j : Nat} (hj : j ≠ k) : Same D (freeAll D k m) j := by
  intro x hx
  refine ⟨{ x with heap := (freeAll D k m).heap, next := D.next }, by rw [get_freeAll hj, hx]; rfl, rfl, ?_⟩
  intro i hi
  have : ¬ Owned m i := t.apart j k x m hj hx h i hi
  show (if i ∈ m.features.map Prod.snd ++ m.rels then none else D.heap i) = x.heap i
  rw [if_neg (fun hm => this (List.mem_append.1 hm)), (get_heap hx).1]

theorem ownRefs_in {m : FModel} {o : Op} (h : OwnRefs m o) : OpIn (fun i => i < m.next ∧ ¬ Owned m i) o := by
  cases o <;> first
    | exact fun i hi hx => hx.2 (h i hi)
    | exact ⟨fun i hi hx => hx.2 (h.1 i hi), fun i hi hx => hx.2 (h.2 i hi)⟩
    | trivial

theorem ownRefs_edit (m : FModel) (e : Edit) : OwnRefs m (e.op m) := by
  cases e with
  | add a p => exact fun i hi => .inl (getFeature_known hi)
  | remove n b => intro i hi; cases hi
  | group k n => intro i hi; cases hi
  | ungroup n => intro i hi; cases hi
  | locate n r => intro i hi; cases hi
  | unlocate n r => intro i hi; cases hi
  | move p c => constructor <;> (intro i hi; cases hi)
  | _ => trivial

theorem Tidy.fresh_get (t : Tidy D) {k : Nat} {m : FModel} (h : get D k = some m) : ∀ i, m.heap i ≠ none → i < m.next := by
  rw [(get_heap h).1, (get_heap h).2]; exact t.fresh

theorem frame_made (t : Tidy D) {sci : Str → Option Str} {E : Env} {D' : Desk} {o : DeskOp} (hs : step sci E D o = some D')
    (ho : o.target = none) : D' = push D none ∨ ∃ c, D' = push D (some c) ∧ Frame D.next D.heap c := by
  have key : ∀ {b : BuildRes}, (∀ c, b = .built c → Frame D.next D.heap c) → made D b = some D' →
      D' = push D none ∨ ∃ c, D' = push D (some c) ∧ Frame D.next D.heap c := by
    intro b hb e
    cases b with
    | built c => cases e; exact .inr ⟨c, rfl, hb c rfl⟩
    | null => cases e; exact .inl rfl
    | ub => cases e
  cases o with
  | build calls => exact key (fun c e => frame_build (m := world D) t.fresh (byName_builderOf calls) e) hs
  | load cwd x => exact key (fun c e => frame_load (m := world D) t.fresh e) hs
  | clone k =>
    simp only [step] at hs
    cases h : get D k with
    | none => rw [h] at hs; cases hs
    | some m =>
      rw [h] at hs
      refine key (fun c e => ?_) hs
      have := frame_clone (t.fresh_get h) e
      rwa [(get_heap h).1, (get_heap h).2] at this
  | copy k ops =>
    simp only [step] at hs
    cases h : get D k with
    | none => rw [h] at hs; cases hs
    | some m =>
      rw [h] at hs
      simp only [Option.bind_some, Option.map_eq_some_iff] at hs
      obtain ⟨r, e, rfl⟩ := hs
      cases r with
      | none => exact .inl rfl
      | some c =>
        have := frame_copy (t.fresh_get h) e
        rw [(get_heap h).1, (get_heap h).2] at this
        exact .inr ⟨c, rfl, this⟩
  | copyEdit k es =>
    simp only [step] at hs
    cases h : get D k with
    | none => rw [h] at hs; cases hs
    | some m =>
      rw [h] at hs
      simp only [Option.bind_some, Option.map_eq_some_iff] at hs
      obtain ⟨r, e, rfl⟩ := hs
      cases r with
      | none => exact .inl rfl
      | some c =>
        have := frame_runCopy (t.fresh_get h) e
        rw [(get_heap h).1, (get_heap h).2] at this
        exact .inr ⟨c, rfl, this⟩
  | merge j k strict =>
    simp only [step] at hs
    cases h : get D j with
    | none => rw [h] at hs; cases hs
    | some m1 =>
      rw [h] at hs
      simp only [Option.bind_some, Option.bind_eq_some_iff, Option.map_eq_some_iff] at hs
      obtain ⟨m2, _, r, e, rfl⟩ := hs
      cases r with
      | none => exact .inl rfl
      | some c =>
        refine .inr ⟨c, rfl, keep_merge (P := Frame D.next D.heap) (fun _ _ _ t e => t.copyRun e) (fun c0 e => ?_) e⟩
        have := frame_clone (t.fresh_get h) e
        rwa [(get_heap h).1, (get_heap h).2] at this
  | modify k ops => cases ho
  | edit k es => cases ho
  | delete k => cases ho

theorem region_done (t : Tidy D) {E : Env} {k : Nat} {m : FModel} (h : get D k = some m) {ops : List Op} (ho : ∀ o ∈ ops, OwnRefs m o)
    {D' : Desk} (e : done D k (m.commitOps E ops) = some D') :
    ∃ m', D' = put D k m' ∧ Region (fun i => i < m.next ∧ ¬ Owned m i) m.heap m' := by
  have r := (t.region h).commitOps (E := E) (fun o hm => ownRefs_in (ho o hm))
  cases h2 : m.commitOps E ops with
  | ub => rw [h2] at e; cases e
  | ok m' => rw [h2] at e r; cases e; exact ⟨m', rfl, r⟩
  | err x m' => rw [h2] at e r; cases e; exact ⟨m', rfl, r⟩

theorem untouched (t : Tidy D) {sci : Str → Option Str} {E : Env} {o : DeskOp} (ho : Own D o) {D' : Desk} (hs : step sci E D o = some D')
    {j : Nat} (hj : o.target ≠ some j) : Same D D' j := by
  have edit : ∀ k m ops, get D k = some m → (∀ o ∈ ops, OwnRefs m o) → j ≠ k → done D k (m.commitOps E ops) = some D' → Same D D' j := by
    intro k m ops h1 h2 h3 h4
    obtain ⟨m', rfl, r⟩ := region_done t h1 h2 h4
    exact same_put t h1 r h3
  have mk : o.target = none → Same D D' j := by
    intro h
    rcases frame_made t hs h with rfl | ⟨c, rfl, r⟩
    · exact same_null
    · exact same_push t r
  cases o with
  | build calls => exact mk rfl
  | load cwd x => exact mk rfl
  | clone k => exact mk rfl
  | copy k ops => exact mk rfl
  | copyEdit k es => exact mk rfl
  | merge j k strict => exact mk rfl
  | modify k ops =>
    simp only [step, Option.bind_eq_some_iff] at hs
    obtain ⟨m, h1, h2⟩ := hs
    exact edit k m ops h1 (ho m h1) (fun e => hj (by rw [e]; rfl)) h2
  | edit k es =>
    simp only [step, Option.bind_eq_some_iff] at hs
    obtain ⟨m, h1, h2⟩ := hs
    refine edit k m _ h1 (fun o ho => ?_) (fun e => hj (by rw [e]; rfl)) h2
    obtain ⟨e, _, rfl⟩ := List.mem_map.1 ho
    exact ownRefs_edit m e
  | delete k =>
    simp only [step, Option.map_eq_some_iff] at hs
    obtain ⟨m, h1, rfl⟩ := hs
    exact same_freeAll t h1 (fun e => hj (by rw [e]; rfl))

/-! ### The models stay apart -/

theorem copy_of_same {D' : Desk} (hf : ∀ i, D'.heap i ≠ none → i < D'.next) {j : Nat} {m m' : FModel} (hm : get D' j = some m')
    (e : m' = { m with heap := m'.heap, next := m'.next }) (hh : ∀ i, Owned m i → m'.heap i = m.heap i) : Copy m m' := by
  refine ⟨e, hh, ?_⟩
  rw [(get_heap hm).1, (get_heap hm).2]; exact hf

/-- What the other models look like after a step. -/
theorem others {D' : Desk} (hf : ∀ i, D'.heap i ≠ none → i < D'.next) {j : Nat} (hs : Same D D' j)
    (hb : ∀ m', get D' j = some m' → ∃ m, get D j = some m) {m' : FModel} (hm : get D' j = some m') : ∃ m, get D j = some m ∧ Copy m m' := by
  obtain ⟨m, h⟩ := hb m' hm
  obtain ⟨m1, h1, h2, h3⟩ := hs m h
  rw [hm] at h1; cases h1
  exact ⟨m, h, copy_of_same hf hm h2 h3⟩

theorem back_put {k j : Nat} {m m' : FModel} (hj : j ≠ k) (h : get (put D k m) j = some m') : ∃ x, get D j = some x := by
  rw [get_put_ne hj, Option.map_eq_some_iff] at h
  obtain ⟨x, hx, _⟩ := h
  exact ⟨x, hx⟩

theorem back_push {o : Option FModel} {j : Nat} {m' : FModel} (hj : j ≠ D.models.length) (h : get (push D o) j = some m') :
    ∃ x, get D j = some x := by
  have hl : j < D.models.length := by
    have := get_lt h
    have e : (push D o).models.length = D.models.length + 1 := by cases o <;> simp [push]
    omega
  rw [get_push hl, Option.map_eq_some_iff] at h
  obtain ⟨x, hx, _⟩ := h
  exact ⟨x, hx⟩

theorem back_freeAll {k j : Nat} {m m' : FModel} (hj : j ≠ k) (h : get (freeAll D k m) j = some m') : ∃ x, get D j = some x := by
  rw [get_freeAll hj, Option.map_eq_some_iff] at h
  obtain ⟨x, hx, _⟩ := h
  exact ⟨x, hx⟩

/-- A step that leaves all models alone but the `k`-th, if that is good afterwards. -/
theorem tidy_of {D' : Desk} {k : Nat} (t : Tidy D) (hf : ∀ i, D'.heap i ≠ none → i < D'.next)
    (ho : ∀ j, j ≠ k → ∀ m', get D' j = some m' → ∃ m, get D j = some m ∧ Copy m m')
    (hk : ∀ m', get D' k = some m' → WF m' ∧ Bound m' ∧ ∀ j, j ≠ k → ∀ m, get D j = some m → ∀ i, Owned m i → ¬ Owned m' i) : Tidy D' := by
  refine ⟨hf, ?_, ?_, ?_⟩
  · intro j m' h
    by_cases e : j = k
    · subst e; exact (hk m' h).1
    · obtain ⟨m, h1, h2⟩ := ho j e m' h
      exact h2.wf (t.wf j m h1)
  · intro j m' h
    by_cases e : j = k
    · subst e; exact (hk m' h).2.1
    · obtain ⟨m, h1, h2⟩ := ho j e m' h
      exact h2.bound (t.bound j m h1)
  · intro j l m m' hjl hj hl i hi
    by_cases e : l = k
    · subst e
      obtain ⟨x, h1, h2⟩ := ho j hjl m hj
      exact (hk m' hl).2.2 j hjl x h1 i (h2.owned.1 hi)
    · obtain ⟨y, h3, h4⟩ := ho l e m' hl
      by_cases e' : j = k
      · subst e'
        exact fun h => (hk m hj).2.2 l e y h3 i (h4.owned.1 h) hi
      · obtain ⟨x, h1, h2⟩ := ho j e' m hj
        exact fun h => t.apart j l x y hjl h1 h3 i (h2.owned.1 hi) (h4.owned.1 h)

theorem tidy_put (t : Tidy D) {k : Nat} {m m' : FModel} (h : get D k = some m)
    (r : Region (fun i => i < m.next ∧ ¬ Owned m i) m.heap m') (w : WF m') (b : Bound m') : Tidy (put D k m') := by
  refine tidy_of (k := k) t w.fresh ?_ ?_
  · intro j hj x hx
    exact others w.fresh (same_put t h r hj) (fun _ h => back_put hj h) hx
  · intro x hx
    rw [get_put h] at hx; cases hx
    refine ⟨w, b, ?_⟩
    intro j hj x hx i hi ho
    have hX := t.outside hj hx h hi
    rcases ho with ho | ho
    · obtain ⟨e, he, rfl⟩ := List.mem_map.1 ho
      exact r.features e he hX
    · exact r.rels i ho hX

theorem tidy_push (t : Tidy D) {c : FModel} (r : Frame D.next D.heap c) (w : WF c) (b : Bound c) : Tidy (push D (some c)) := by
  refine tidy_of (k := D.models.length) t w.fresh ?_ ?_
  · intro j hj x hx
    exact others w.fresh (same_push t r) (fun _ h => back_push hj h) hx
  · intro x hx
    rw [get_push_new] at hx; cases hx
    refine ⟨w, b, ?_⟩
    intro j hj x hx i hi ho
    obtain ⟨d, hd⟩ := (t.wf j x hx).owned_data hi
    have hlt := (t.wf j x hx).fresh i (by rw [heap_of_data hd]; simp)
    rw [(get_heap hx).2] at hlt
    rcases ho with ho | ho
    · obtain ⟨e, he, rfl⟩ := List.mem_map.1 ho
      exact absurd hlt (Nat.not_lt.2 (r.features e he))
    · exact absurd hlt (Nat.not_lt.2 (r.rels i ho))

theorem tidy_freeAll (t : Tidy D) {k : Nat} {m : FModel} (h : get D k = some m) : Tidy (freeAll D k m) := by
  have hf : ∀ i, (freeAll D k m).heap i ≠ none → i < (freeAll D k m).next := by
    intro i hi
    refine t.fresh i ?_
    unfold freeAll at hi
    simp only at hi
    by_cases e : i ∈ m.features.map Prod.snd ++ m.rels
    · rw [if_pos e] at hi; exact absurd rfl hi
    · rwa [if_neg e] at hi
  refine tidy_of (k := k) t hf ?_ ?_
  · intro j hj x hx
    exact others hf (same_freeAll t h hj) (fun _ h => back_freeAll hj h) hx
  · intro x hx
    rw [get_freed h] at hx; cases hx

/-! ### Descriptions -/

theorem regroup {d : Desc} {gs gs' : List (Str × RKind)} {m : FModel} (hg : ∀ n k, (n, k) ∈ gs ↔ (n, k) ∈ gs')
    (h : Describes { d with groups := gs } m) : Describes { d with groups := gs' } m := by
  refine { h with groups_known := ?_, grouped := ?_, ungrouped := ?_, rels := ?_, feat := h.feat, names := h.names, store := h.store, root := h.root }
  · exact fun g hm => h.groups_known g ((hg g.1 g.2).2 hm)
  · exact fun n k i hn => h.grouped n k i ((hg n k).2 hn)
  · exact fun n i hi hn => h.ungrouped n i hi (fun k hk => hn k ((hg n k).1 hk))
  · intro r hr
    obtain ⟨n, k, i, h1, h2⟩ := h.rels r hr
    exact ⟨n, k, i, (hg n k).1 h1, h2⟩

/-- All of it at once. -/
structure DeskOk (D : Desk) (ds : List (Option Desc)) : Prop where
  tidy : Tidy D
  is : Matches D ds
  known : ∀ (k : Nat) (d : Desc), ds[k]? = some (some d) → ConstraintsKnown d

theorem deskOk_push {ds : List (Option Desc)} (g : DeskOk D ds) {c : FModel} (r : Frame D.next D.heap c) {d : Desc} (hd : Describes d c)
    (hk : ConstraintsKnown d) : DeskOk (push D (some c)) (ds ++ [some d]) := by
  have hlen := g.is.1
  refine ⟨tidy_push g.tidy r hd.wf hd.bound, ⟨by simp [push, hlen], ?_⟩, ?_⟩
  · intro j
    by_cases hj : j < D.models.length
    · rw [List.getElem?_append_left (by omega)]
      refine ⟨?_, ?_⟩
      · intro x hx
        obtain ⟨m, h1, h2⟩ := (g.is.2 j).1 x hx
        obtain ⟨m', h3, h4, h5⟩ := same_push g.tidy r m h1
        exact ⟨m', h3, (copy_of_same hd.wf.fresh h3 h4 h5).describes h2⟩
      · intro h
        rw [get_push hj, (g.is.2 j).2 h]; rfl
    · by_cases hj' : j = ds.length
      · subst hj'
        refine ⟨?_, ?_⟩
        · intro x hx
          simp at hx; subst hx
          rw [← hlen]
          exact ⟨c, get_push_new, hd⟩
        · intro h; simp at h
      · rw [List.getElem?_eq_none (by simp; omega)]
        exact ⟨fun x hx => (by cases hx), fun h => by cases h⟩
  · intro j x hx
    by_cases hj : j < ds.length
    · rw [List.getElem?_append_left hj] at hx; exact g.known j x hx
    · by_cases hj' : j = ds.length
      · subst hj'; simp at hx; subst hx; exact hk
      · rw [List.getElem?_eq_none (by simp; omega)] at hx; cases hx

theorem deskOk_put {ds : List (Option Desc)} (g : DeskOk D ds) {k : Nat} {m m' : FModel} (h : get D k = some m)
    (r : Region (fun i => i < m.next ∧ ¬ Owned m i) m.heap m') {d : Desc} (hd : Describes d m') (hk : ConstraintsKnown d) :
    DeskOk (put D k m') (ds.set k (some d)) := by
  have hlen := g.is.1
  have hkl : k < ds.length := hlen ▸ get_lt h
  refine ⟨tidy_put g.tidy h r hd.wf hd.bound, ⟨by simp [put, hlen], ?_⟩, ?_⟩
  · intro j
    by_cases hj : j = k
    · subst hj
      rw [List.getElem?_set_self hkl]
      exact ⟨fun x hx => by cases hx; exact ⟨m', get_put h, hd⟩, fun h => by cases h⟩
    · rw [List.getElem?_set_ne (Ne.symm hj)]
      refine ⟨?_, ?_⟩
      · intro x hx
        obtain ⟨y, h1, h2⟩ := (g.is.2 j).1 x hx
        obtain ⟨y', h3, h4, h5⟩ := same_put g.tidy h r hj y h1
        exact ⟨y', h3, (copy_of_same hd.wf.fresh h3 h4 h5).describes h2⟩
      · intro hn
        rw [get_put_ne hj, (g.is.2 j).2 hn]; rfl
  · intro j x hx
    by_cases hj : j = k
    · subst hj; rw [List.getElem?_set_self hkl] at hx; cases hx; exact hk
    · rw [List.getElem?_set_ne (Ne.symm hj)] at hx; exact g.known j x hx

theorem deskOk_freeAll {ds : List (Option Desc)} (g : DeskOk D ds) {k : Nat} {m : FModel} (h : get D k = some m) :
    DeskOk (freeAll D k m) (ds.set k none) := by
  have hlen := g.is.1
  have hkl : k < ds.length := hlen ▸ get_lt h
  have t := tidy_freeAll g.tidy h
  refine ⟨t, ⟨by simp [freeAll, hlen], ?_⟩, ?_⟩
  · intro j
    by_cases hj : j = k
    · subst hj
      rw [List.getElem?_set_self hkl]
      exact ⟨fun x hx => (by cases hx), fun _ => get_freed h⟩
    · rw [List.getElem?_set_ne (Ne.symm hj)]
      refine ⟨?_, ?_⟩
      · intro x hx
        obtain ⟨y, h1, h2⟩ := (g.is.2 j).1 x hx
        obtain ⟨y', h3, h4, h5⟩ := same_freeAll g.tidy h hj y h1
        exact ⟨y', h3, (copy_of_same t.fresh h3 h4 h5).describes h2⟩
      · intro hn
        rw [get_freeAll hj, (g.is.2 j).2 hn]; rfl
  · intro j x hx
    by_cases hj : j = k
    · subst hj; rw [List.getElem?_set_self hkl] at hx; cases hx
    · rw [List.getElem?_set_ne (Ne.symm hj)] at hx; exact g.known j x hx

theorem deskOk_null {ds : List (Option Desc)} (g : DeskOk D ds) : DeskOk (push D none) (ds ++ [none]) := by
  have hlen := g.is.1
  have same : ∀ j, j < D.models.length → get (push D none) j = get D j := by
    intro j hj
    rw [get_push hj]
    cases h : get D j with
    | none => rfl
    | some m =>
      show some { m with heap := D.heap, next := D.next } = some m
      rw [← (get_heap h).1, ← (get_heap h).2]
  have back : ∀ j m, get (push D none) j = some m → get D j = some m := by
    intro j m h
    by_cases hj : j < D.models.length
    · rwa [same j hj] at h
    · unfold Desk.get push at h
      simp only at h
      rw [List.getElem?_append_right (Nat.le_of_not_lt hj)] at h
      cases hz : j - D.models.length <;> rw [hz] at h <;> simp at h
  refine ⟨⟨g.tidy.fresh, fun k m h => g.tidy.wf k m (back k m h), fun k m h => g.tidy.bound k m (back k m h),
    fun j k m m' hjk hj hk => g.tidy.apart j k m m' hjk (back j m hj) (back k m' hk)⟩, ⟨by simp [push, hlen], ?_⟩, ?_⟩
  · intro j
    by_cases hj : j < D.models.length
    · rw [List.getElem?_append_left (by omega), same j hj]
      exact g.is.2 j
    · refine ⟨fun d h => ?_, fun _ => ?_⟩
      · rw [List.getElem?_append_right (by omega)] at h
        cases hz : j - ds.length <;> rw [hz] at h <;> simp at h
      · cases h : get (push D none) j with
        | none => rfl
        | some m => exact absurd (get_lt (back j m h)) hj
  · intro j x hx
    by_cases hj : j < ds.length
    · rw [List.getElem?_append_left hj] at hx; exact g.known j x hx
    · rw [List.getElem?_append_right (by omega)] at hx
      cases hz : j - ds.length <;> rw [hz] at hx <;> simp at hx

theorem deskOk_step {sci : Str → Option Str} {E : Env} {ds ds' : List (Option Desc)} {o : DeskOp} (g : DeskOk D ds) (h : Goes sci ds o ds') :
    ∃ D', step sci E D o = some D' ∧ DeskOk D' ds' := by
  cases h with
  | build hb hk =>
    obtain ⟨c, h1, h2⟩ := build_ok (world := world D) g.tidy.fresh E hb hk
    exact ⟨push D (some c), by simp only [step, h1, made], deskOk_push g (frame_build (m := world D) g.tidy.fresh (byName_builderOf _) h1) h2 hk⟩
  | @load cwd x d gs hx hd hk hg =>
    obtain ⟨c, gs', h1, h2, h3⟩ := load_ok (world := world D) g.tidy.fresh E hx hd hk
    refine ⟨push D (some c), by simp only [step, h1, made], deskOk_push g (frame_load (m := world D) g.tidy.fresh h1) ?_ hk⟩
    exact regroup (fun n k => (h3 n k).trans (hg n k).symm) h2
  | @clone k d h1 h2 =>
    obtain ⟨m, h3, h4⟩ := (g.is.2 k).1 d h1
    have hk := g.known k d h1
    obtain ⟨c, h5, h6⟩ := clone_describes h4 E h2 hk
    have f := frame_clone (g.tidy.fresh_get h3) h5
    rw [(get_heap h3).1, (get_heap h3).2] at f
    refine ⟨push D (some c), by simp only [step, h3, Option.bind_some, h5, made], deskOk_push g f h6 ?_⟩
    intro x hx n hn
    rw [cloned_names]
    exact hk x hx n hn
  | @edit k d es h1 h2 =>
    obtain ⟨m, h3, h4⟩ := (g.is.2 k).1 d h1
    obtain ⟨m', h5, h6, h7⟩ := describes_transaction E h4 (g.known k d h1) h2
    unfold runTransaction at h5
    cases h8 : m.commitOps E (es.map (·.op m)) with
    | ub => rw [h8] at h5; cases h5
    | err _ _ => rw [h8] at h5; cases h5
    | ok m1 =>
      rw [h8] at h5; cases h5
      have r := (g.tidy.region h3).commitOps (E := E) (ops := es.map (·.op m)) (fun o ho => by
        obtain ⟨e, _, rfl⟩ := List.mem_map.1 ho
        exact ownRefs_in (ownRefs_edit m e))
      rw [h8] at r
      exact ⟨put D k m', by simp only [step, h3, Option.bind_some, h8, done], deskOk_put g h3 r h6 h7⟩
  | @copyEdit k d es h1 h2 h3 =>
    obtain ⟨m, h4, h5⟩ := (g.is.2 k).1 d h1
    obtain ⟨c, h6, h7, h8⟩ := describes_copy E h5 (g.known k d h1) h2 h3
    have f := frame_runCopy (g.tidy.fresh_get h4) h6
    rw [(get_heap h4).1, (get_heap h4).2] at f
    exact ⟨push D (some c), by simp only [step, h4, Option.bind_some, h6, Option.map_some], deskOk_push g f h7 h8⟩
  | @merge j k strict d d2 h1 h2 h3 h4 h5 h6 =>
    obtain ⟨m1, a1, a2⟩ := (g.is.2 j).1 d h1
    obtain ⟨m2, b1, b2⟩ := (g.is.2 k).1 d2 h2
    have hh : SameHeap m1 m2 := ⟨(get_heap b1).1.trans (get_heap a1).1.symm, (get_heap b1).2.trans (get_heap a1).2.symm⟩
    rcases merge_describes a2 E strict h3 (g.known j d h1) b2 hh h4 with ⟨e, _⟩ | ⟨_, c, e1, f, e2⟩
    · exact absurd h5 e
    · rw [(get_heap a1).1, (get_heap a1).2] at f
      exact ⟨push D (some c), by simp only [step, a1, b1, Option.bind_some, e1, Option.map_some], deskOk_push g f (e2 h6).1 (e2 h6).2⟩
  | @conflict j k strict d d2 h1 h2 h3 h4 h5 =>
    obtain ⟨m1, a1, a2⟩ := (g.is.2 j).1 d h1
    obtain ⟨m2, b1, b2⟩ := (g.is.2 k).1 d2 h2
    have hh : SameHeap m1 m2 := ⟨(get_heap b1).1.trans (get_heap a1).1.symm, (get_heap b1).2.trans (get_heap a1).2.symm⟩
    rcases merge_describes a2 E strict h3 (g.known j d h1) b2 hh h4 with ⟨_, e⟩ | ⟨e, _⟩
    · exact ⟨push D none, by simp only [step, a1, b1, Option.bind_some, e, Option.map_some], deskOk_null g⟩
    · exact absurd e h5
  | @delete k d h1 =>
    obtain ⟨m, h3, h4⟩ := (g.is.2 k).1 d h1
    exact ⟨freeAll D k m, by simp only [step, h3, Option.map_some], deskOk_freeAll g h3⟩

theorem deskOk_run {sci : Str → Option Str} {E : Env} {ds ds' : List (Option Desc)} {os : List DeskOp} (h : GoesAll sci ds os ds') :
    ∀ {D : Desk}, DeskOk D ds → ∃ D', run sci E D os = some D' ∧ DeskOk D' ds' := by
  induction h with
  | nil => exact fun g => ⟨_, rfl, g⟩
  | cons h1 _ ih =>
    intro D g
    obtain ⟨D1, h2, g1⟩ := deskOk_step (E := E) g h1
    obtain ⟨D2, h3, g2⟩ := ih g1
    exact ⟨D2, by simp only [run, h2, Option.bind_some, h3], g2⟩

theorem deskOk_empty : DeskOk empty [] := by
  refine ⟨⟨fun i h => absurd rfl h, ?_, ?_, ?_⟩, ⟨rfl, ?_⟩, ?_⟩
  · intro k m h; simp [get, empty] at h
  · intro k m h; simp [get, empty] at h
  · intro j k m m' _ h; simp [get, empty] at h
  · intro k; exact ⟨fun d h => by simp at h, fun h => by simp at h⟩
  · intro k d h; simp at h

end Desk

end Verif

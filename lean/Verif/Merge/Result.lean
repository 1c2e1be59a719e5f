import Verif.Merge.Run
/-! Lemmas: the merged model. -/

namespace Verif
open Verif.Spec

variable {d : Desc} {m1 m2 c0 c : FModel}

theorem MergeInv.fparent (w0 : WF c0) {V : Id → Prop} (h : MergeInv m1 m2 c0 c V) {x q : Id} (hx : Owned c0 x) (hp : FParent c0 x q) :
    FParent c x q := by
  induction hp with
  | @direct i p h1 h2 =>
    have hop := (w0.par_edge i p hx h1).1
    obtain ⟨f, hf⟩ := h2
    obtain ⟨⟨n, p'⟩, hp', rfl⟩ := List.mem_map.1 (w0.known_feat hop ⟨f, hf⟩)
    obtain ⟨ls, a, _⟩ := h.old n p' f hp' hf
    exact .direct (by rw [h.par i hx]; exact h1) ⟨_, a⟩
  | @skip i r p h1 h2 _ ih =>
    have hor := (w0.par_edge i r hx h1).1
    have hr := w0.owned_rel hor h2
    refine .skip (by rw [h.par i hx]; exact h1) ?_ (ih hor)
    obtain ⟨k, hk⟩ := h2
    exact ⟨k, by rw [h.rel r hr]; exact hk⟩

theorem clone_start (h : Describes d m1) (E : Env) (hroot : c!"root" ∉ d.attrs.map Attr.name) (hk : ConstraintsKnown d) :
    ∃ c0, m1.clone E = .built c0 ∧ Describes d.cloned c0 ∧
      (∀ n, (∃ i, (n, i) ∈ c0.features) ↔ ∃ i, (n, i) ∈ m1.features) ∧ MergeInv m1 m2 c0 c0 (fun _ => False) := by
  obtain ⟨c0, h1, h2⟩ := clone_describes h E hroot hk
  refine ⟨c0, h1, h2, ?_, ?_⟩
  · intro n
    rw [h2.names n, h.names n, cloned_names]
    rfl
  · exact
      { wf := h2.wf
        bound := h2.bound
        frame := frame_clone h.wf.fresh h1
        sub := fun _ he => he
        names := fun _ _ hm => .inl hm
        rels := rfl
        root := rfl
        name := rfl
        path := rfl
        commit := rfl
        booleans := rfl
        nonBooleans := rfl
        mixeds := rfl
        par := fun _ _ => rfl
        rel := fun _ _ => rfl
        old := fun n i f _ hf => ⟨[], by simpa using hf, by simp, by simp⟩
        new := fun _ _ _ hv => hv.elim }

theorem merged_of_inv (h : Describes d m1) (h' : Describes d.cloned c0) (h0 : ∀ n, (∃ i, (n, i) ∈ c0.features) ↔ ∃ i, (n, i) ∈ m1.features)
    (w2 : WF m2) (hi : MergeInv m1 m2 c0 c (Known m2)) : MergedModel m1 m2 c := by
  have w0 := h'.wf
  refine
    { wf := hi.wf
      bound := hi.bound
      names := ?_
      root := ?_
      first := ?_
      second := ?_
      name := by rw [hi.name, h'.name, h.name]; rfl
      path := by rw [hi.path, h'.path, h.path]; rfl
      commit := by rw [hi.commit, h'.commit, h.commit]; rfl
      store := ?_ }
  · intro n
    constructor
    · rintro ⟨i, hm⟩
      rcases hi.names n i hm with a | ⟨j, _, a⟩
      · exact .inl ((h0 n).1 ⟨i, a⟩)
      · exact .inr ⟨j, a⟩
    · rintro (a | ⟨j, a⟩)
      · obtain ⟨i, a⟩ := (h0 n).2 a
        exact ⟨i, hi.sub _ a⟩
      · by_cases hin : ∃ i, (n, i) ∈ m1.features
        · obtain ⟨i, b⟩ := (h0 n).2 hin
          exact ⟨i, hi.sub _ b⟩
        · obtain ⟨g, hg, _⟩ := w2.feat_ok _ a
          obtain ⟨i, _, b, _⟩ := hi.new n j g (known_of_mem a) a hg (fun i b => hin ⟨i, b⟩)
          exact ⟨i, b⟩
  · obtain ⟨i, f, a1, a2, _⟩ := h.root
    obtain ⟨r, f', b1, b2, _⟩ := h'.root
    exact ⟨d.root, i, r, a1, a2, hi.root.trans b1, hi.sub _ b2⟩
  · intro n i f hm hf
    have fin : ∀ i0 f0, (n, i0) ∈ c0.features → data c0 i0 = some (.feat f0) → f0.attr = clonedAttr f.attr →
        (∀ p pn, FParent m1 i p → (pn, p) ∈ m1.features → ∃ p0, FParent c0 i0 p0 ∧ (pn, p0) ∈ c0.features) →
        ∃ i' f' ls, (n, i') ∈ c.features ∧ data c i' = some (.feat f') ∧
          f'.attr = { clonedAttr f.attr with locs := (clonedAttr f.attr).locs ++ ls } ∧
          (∀ j g, (n, j) ∈ m2.features → data m2 j = some (.feat g) → ls = newLocs f g) ∧
          ((∀ j, (n, j) ∉ m2.features) → ls = []) ∧
          (∀ p pn, FParent m1 i p → (pn, p) ∈ m1.features → ∃ p', FParent c i' p' ∧ (pn, p') ∈ c.features) := by
      intro i0 f0 hm0 hf0 ha hp
      obtain ⟨ls, a1, a2, a3⟩ := hi.old n i0 f0 hm0 hf0
      refine ⟨i0, _, ls, hi.sub _ hm0, a1, by rw [ha], ?_, ?_, ?_⟩
      · intro j g b1 b2; exact a2 i f j g hm hf b1 (known_of_mem b1) b2
      · intro b; exact a3 fun j _ => b j
      · intro p pn b1 b2
        obtain ⟨p0, e1, e2⟩ := hp p pn b1 b2
        exact ⟨p0, hi.fparent w0 (.inl (known_of_mem hm0)) e1, hi.sub _ e2⟩
    rcases (h.names n).1 ⟨i, hm⟩ with rfl | hn
    · obtain ⟨r, rf, r1, r2, r3, r4⟩ := h.root
      obtain ⟨r', rf', r1', r2', r3', r4'⟩ := h'.root
      have := h.wf.entry_unique hm r2; subst this
      rw [hf] at r3; cases r3
      refine fin r' rf' r2' r3' (by rw [r4', r4]; rfl) ?_
      intro p pn hp
      have := h.wf.root_par r1
      cases hp with
      | direct hp _ => rw [this] at hp; cases hp
      | skip hp _ _ => rw [this] at hp; cases hp
    · obtain ⟨a, ha, rfl⟩ := List.mem_map.1 hn
      obtain ⟨i', f1, q1, g1, g2, g3, g4, g5⟩ := h.feat a ha
      obtain ⟨j', f2, q2, k1, k2, k3, k4, k5⟩ := h'.feat (clonedAttr a) (List.mem_map_of_mem ha)
      rw [clonedAttr_name] at k1 k4
      have := h.wf.entry_unique hm g1; subst this
      rw [hf] at g2; cases g2
      refine fin j' f2 k1 k2 (by rw [k3, g3]) ?_
      intro p pn hp hpn
      have := hp.functional g5; subst this
      have := h.wf.id_unique hpn g4; subst this
      exact ⟨q2, k5, k4⟩
  · intro n j g hm hg hnot
    obtain ⟨i, f, a1, a2, a3, a4⟩ := hi.new n j g (known_of_mem hm) hm hg hnot
    refine ⟨i, f, a1, a2, by rw [a3], ?_⟩
    intro q qn b1 b2
    obtain ⟨p, e1, e2⟩ := a4 q qn b1 b2
    exact ⟨p, e2, e1⟩
  · intro cl
    have e : c.store cl = c0.store cl := by
      cases cl
      · exact hi.booleans
      · exact hi.nonBooleans
      · exact hi.mixeds
    rw [e, h'.store, h.store]
    have : d.cloned.ofClass cl = d.ofClass cl := rfl
    rw [this]
    simp [Function.comp_def]

/-- What merging does, with the copy it starts from. -/
theorem merge_inv (h : Describes d m1) (E : Env) (strict : Bool) (hroot : c!"root" ∉ d.attrs.map Attr.name) (hk : ConstraintsKnown d)
    (w2 : WF m2) (hh : SameHeap m1 m2) (hr : ∀ n r, m2.root = some r → (n, r) ∈ m2.features → ∃ i, (n, i) ∈ m1.features) :
    ((∃ j, Known m2 j ∧ ¬ Mergeable strict m1 m2 j) ∧ m1.mergeFeatureModels E m2 strict = some none) ∨
    ((∀ j, Known m2 j → Mergeable strict m1 m2 j) ∧ ∃ c0 c, m1.mergeFeatureModels E m2 strict = some (some c) ∧
      m1.clone E = .built c0 ∧ Describes d.cloned c0 ∧ (∀ n, (∃ i, (n, i) ∈ c0.features) ↔ ∃ i, (n, i) ∈ m1.features) ∧
      MergeInv m1 m2 c0 c (Known m2)) := by
  obtain ⟨c0, h1, h2, h0, hi⟩ := clone_start (m2 := m2) h E hroot hk
  obtain ⟨r, rf, hrr, hrk, _⟩ := w2.root_ok
  obtain ⟨c, b, g1, g2, g3⟩ := mergeSubtree_spec E strict h.wf w2 hh h0 h2.wf hr (m2.next + 1) c0 r _ hi hrk (by omega)
    (fun _ _ _ => id) (by
      intro q hq
      have := w2.root_par hrr
      cases hq with
      | direct hp _ => rw [this] at hp; cases hp
      | skip hp _ _ => rw [this] at hp; cases hp)
  have hall : ∀ x, Known m2 x → Below m2 r x := fun x hx => w2.reach x r (.inl hx) hrr
  unfold FModel.mergeFeatureModels
  rw [if_neg (by simp [consistent_of_WF h.wf E])]
  simp only [h1, hrr, g1]
  cases b with
  | false =>
    left
    refine ⟨?_, rfl⟩
    simp only [Bool.false_eq_true, false_iff] at g2
    apply Classical.byContradiction
    intro hn
    apply g2
    intro x hx _
    apply Classical.byContradiction
    intro hm
    exact hn ⟨x, hx, hm⟩
  | true =>
    right
    have hinv : MergeInv m1 m2 c0 c (Known m2) := (g3 rfl).congr fun x => by
      constructor
      · rintro (a | ⟨a, _⟩)
        · exact a.elim
        · exact a
      · intro a; exact .inr ⟨a, hall x a⟩
    refine ⟨fun j hj => g2.1 rfl j hj (hall j hj), c0, c, ?_, rfl, h2, h0, hinv⟩
    simp only [consistent_of_WF hinv.wf E]

theorem merge_run (h : Describes d m1) (E : Env) (strict : Bool) (hroot : c!"root" ∉ d.attrs.map Attr.name) (hk : ConstraintsKnown d)
    (w2 : WF m2) (hh : SameHeap m1 m2) (hr : ∀ n r, m2.root = some r → (n, r) ∈ m2.features → ∃ i, (n, i) ∈ m1.features) :
    ((∃ j, Known m2 j ∧ ¬ Mergeable strict m1 m2 j) ∧ m1.mergeFeatureModels E m2 strict = some none) ∨
    ((∀ j, Known m2 j → Mergeable strict m1 m2 j) ∧ ∃ c, m1.mergeFeatureModels E m2 strict = some (some c) ∧
      MergedModel m1 m2 c ∧ Frame m1.next m1.heap c) := by
  rcases merge_inv h E strict hroot hk w2 hh hr with a | ⟨a, c0, c, b1, _, b2, b3, b4⟩
  · exact .inl a
  · exact .inr ⟨a, c, b1, merged_of_inv h b2 b3 w2 b4, b4.frame⟩

end Verif

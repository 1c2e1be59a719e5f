import Verif.FM.Walk
import Verif.Props.Iteration
import Verif.FM.Examples
import Verif.FM.Clone
/-!
# Property C92: the tree read node by node
-/

namespace Verif.Props
open Verif Verif.Spec Verif.FModel

/-- `a.is_child(b)`, `b.is_parent(a)`, `b in a.children()` and `b.parent() == a` say the same. -/
theorem C92_converse {m : FModel} (w : WF m) {a b : Id} (ha : Owned m a) (hb : Owned m b) :
    ∃ c1 c2 cs p, m.hasEdgeTo a b = some c1 ∧ m.hasEdgeFrom b a = some c2 ∧ m.nodeChildren a = some cs ∧ m.nodeParent b = some p ∧
      (c1 = true ↔ c2 = true) ∧ (c1 = true ↔ b ∈ cs) ∧ (c2 = true ↔ p = some a) := by
  obtain ⟨da, hda⟩ := w.owned_data ha
  obtain ⟨db, hdb⟩ := w.owned_data hb
  refine ⟨(edg m a).contains b, decide (par m b = some a), edg m a, par m b, ?_, ?_, nodeChildren_eq hda, nodeParent_eq hdb, ?_, ?_, ?_⟩
  · simp [FModel.hasEdgeTo, heap_of_data hda]
  · simp [FModel.hasEdgeFrom, heap_of_data hdb]
  · simp only [List.contains_iff_mem, decide_eq_true_eq]
    exact ⟨fun h => (w.edge_par a b ha h).2, fun h => (w.par_edge b a hb h).2⟩
  · simp
  · simp

/-- Children are listed once, and a leaf is a node without children. -/
theorem C92_children {m : FModel} (w : WF m) {a : Id} (ha : Owned m a) :
    ∃ cs b, m.nodeChildren a = some cs ∧ cs.Nodup ∧ (∀ c, c ∈ cs ↔ Owned m c ∧ par m c = some a) ∧ m.isLeaf a = some b ∧
      (b = true ↔ ∀ c, Owned m c → par m c ≠ some a) := by
  obtain ⟨da, hda⟩ := w.owned_data ha
  have hmem : ∀ c, c ∈ edg m a ↔ Owned m c ∧ par m c = some a :=
    fun c => ⟨fun h => w.edge_par a c ha h, fun h => (w.par_edge c a h.1 h.2).2⟩
  refine ⟨edg m a, (edg m a).isEmpty, nodeChildren_eq hda, w.edges_nodup a ha, hmem, by simp [FModel.isLeaf, heap_of_data hda], ?_⟩
  rw [List.isEmpty_iff]
  constructor
  · intro h c hc hp
    have := (hmem c).2 ⟨hc, hp⟩
    rw [h] at this; cases this
  · intro h
    rw [List.eq_nil_iff_forall_not_mem]
    intro c hc
    exact h c ((hmem c).1 hc).1 ((hmem c).1 hc).2

/-- Going down from a node through `children()` visits every node under it exactly once, what is above first; from the
    root, all features that `for f in fm` shows. -/
theorem C92_down {m : FModel} (w : WF m) {i : Id} (hi : Owned m i) :
    ∃ k l, (∀ fuel, k ≤ fuel → m.walk fuel i = some l) ∧ l.head? = some i ∧ l.Nodup ∧ (∀ x, x ∈ l ↔ Owned m x ∧ Below m i x) ∧
      l.Pairwise (fun a b => ¬ Below m b a) ∧
      (m.root = some i → ∀ E, ∃ fs, m.iterate E = some fs ∧ (l.filter (fun x => decide (x ∈ m.features.map Prod.snd))).Perm fs) := by
  obtain ⟨l, h1, h2, h3, h4⟩ := walk_spec w (m.next + 1) i hi (by omega)
  refine ⟨m.next + 1, i :: l, ?_, rfl, h2, h3, h4, ?_⟩
  · intro fuel hf
    have mono : ∀ n, (∀ i l, m.walk n i = some l → m.walk (n + 1) i = some l) ∧
        (∀ cs l, m.walkAll n cs = some l → m.walkAll (n + 1) cs = some l) := by
      intro n
      induction n with
      | zero =>
        refine ⟨by intro i l h; simp [FModel.walk] at h, ?_⟩
        intro cs
        cases cs with
        | nil => intro l h; simpa [FModel.walkAll] using h
        | cons c cs => intro l h; simp [FModel.walkAll, FModel.walk] at h
      | succ n ih =>
        have hw : ∀ i l, m.walk (n + 1) i = some l → m.walk (n + 2) i = some l := by
          intro i l h
          rw [FModel.walk] at h ⊢
          cases hc : m.nodeChildren i with
          | none => rw [hc] at h; cases h
          | some cs =>
            rw [hc] at h
            simp only [Option.bind_some] at h ⊢
            cases ha : m.walkAll n cs with
            | none => rw [ha] at h; cases h
            | some a => rw [ih.2 cs a ha]; rw [ha] at h; exact h
        refine ⟨hw, ?_⟩
        intro cs
        induction cs with
        | nil => intro l h; simpa [FModel.walkAll] using h
        | cons c cs ihc =>
          intro l h
          rw [FModel.walkAll] at h ⊢
          cases ha : m.walk (n + 1) c with
          | none => rw [ha] at h; cases h
          | some a =>
            rw [ha] at h
            rw [hw c a ha]
            simp only [Option.bind_some] at h ⊢
            cases hb : m.walkAll (n + 1) cs with
            | none => rw [hb] at h; cases h
            | some b => rw [ihc b hb]; rw [hb] at h; exact h
    obtain ⟨e, rfl⟩ : ∃ e, fuel = m.next + 1 + e := ⟨fuel - (m.next + 1), by omega⟩
    clear hf
    induction e with
    | zero => exact h1
    | succ e ih => exact (mono _).1 _ _ ih
  · intro hr E
    obtain ⟨r, fs, hr', g1, _, g2, g3, _⟩ := C25_preorder w E
    refine ⟨fs, g1, ?_⟩
    rw [List.perm_ext_iff_of_nodup (h2.filter _) g2]
    intro x
    rw [List.mem_filter, h3, g3]
    simp only [decide_eq_true_eq]
    exact ⟨fun h => h.2, fun h => ⟨⟨.inl h, w.reach x i (.inl h) hr⟩, h⟩⟩

/-- Going up through `parent()` ends at the root, after passing exactly what is above. -/
theorem C92_up {m : FModel} (w : WF m) {i : Id} (hi : Owned m i) :
    ∃ l, m.climb (m.next + 1) i = some l ∧ l.head? = some i ∧ l.getLast? = m.root ∧ l.Nodup ∧ (∀ x, x ∈ l ↔ Below m x i) ∧
      l.Pairwise (fun a b => Below m b a) := by
  obtain ⟨l, h1, h2, h3, h4, h5, h6, _⟩ := climb_spec w (m.next + 1) i hi (by have := w.level_lt hi; omega)
  exact ⟨l, h1, h3, h4, h2, h5, h6⟩

private theorem feat_not_rel {m : FModel} {i : Id} (hf : IsFeat m i) (hr : IsRel m i) : False := by
  obtain ⟨f, hf⟩ := hf
  obtain ⟨k, hk⟩ := hr
  rw [hf] at hk; cases hk

/-- `parent()`, said to be the parent feature, is that exactly for features outside of groups. -/
theorem C92_parent_partial {m : FModel} (w : WF m) {i p : Id} (hi : Known m i) (hp : FParent m i p) :
    m.nodeParent i = some (some p) ↔ ∀ q, par m i = some q → IsFeat m q := by
  obtain ⟨d, hd⟩ := w.owned_data (.inl hi)
  rw [nodeParent_eq hd, Option.some.injEq]
  constructor
  · intro h q hq
    rw [h] at hq; cases hq
    exact fparent_isFeat hp
  · intro h
    cases hp with
    | direct h' _ => exact h'
    | skip h' hr _ => exact (feat_not_rel (h _ h') hr).elim

/-- In a group, `parent()` is the group, and `is_parent` and `is_child` deny that a feature belongs to its parent
    feature. -/
theorem C92_grouped_parent {m : FModel} (w : WF m) {i r p : Id} (hi : Known m i) (hr : par m i = some r) (hg : IsRel m r)
    (hp : FParent m i p) :
    m.nodeParent i = some (some r) ∧ m.hasEdgeFrom i p = some false ∧ m.hasEdgeTo p i = some false := by
  obtain ⟨d, hd⟩ := w.owned_data (.inl hi)
  obtain ⟨dp, hdp⟩ := fparent_isFeat hp
  have hop : Owned m p := w.below_owned (.inl hi) (fparent_isBelow hp)
  have hne : r ≠ p := by rintro rfl; exact feat_not_rel (fparent_isFeat hp) hg
  refine ⟨by rw [nodeParent_eq hd, hr], by simp [FModel.hasEdgeFrom, heap_of_data hd, hr, hne], ?_⟩
  have : i ∉ edg m p := by
    intro h
    have := (w.edge_par p i hop h).2
    rw [hr] at this; exact hne (Option.some.inj this)
  simp [FModel.hasEdgeTo, heap_of_data hdp, this]

example : ∃ i r p, Known grouped i ∧ par grouped i = some r ∧ IsRel grouped r ∧ FParent grouped i p ∧
    grouped.walk 6 0 = some [0, 1, 2, 4, 3] ∧ grouped.climb 6 4 = some [4, 2, 1, 0] :=
  ⟨2, 1, 0, by decide, rfl, ⟨.alternative, rfl⟩, .skip (r := 1) rfl ⟨.alternative, rfl⟩ (.direct rfl ⟨_, rfl⟩),
    by simp [FModel.walk, FModel.walkAll, FModel.nodeChildren, grouped, ofNodes, featNode], by decide⟩

/-- The order is that of insertion, not the one of `for f in fm`. -/
theorem C92_order_differs : ∃ m : FModel, WF m ∧ (∀ i, Owned m i → IsFeat m i) ∧
    ∃ l fs, m.walk 4 0 = some l ∧ m.iterate (stdEnv true) = some fs ∧ l ≠ fs := by
  refine ⟨ofNodes [featNode "root" none [1, 2] .root, featNode "B" (some 0) [], featNode "A" (some 0) []]
    (some 0) [(c!"root", 0), (c!"B", 1), (c!"A", 2)] [], wf_of_check (fun i => i) (ofNodes_fresh _ _ _ _ _) (by decide), ?_,
    [0, 1, 2], [0, 2, 1], by simp [FModel.walk, FModel.walkAll, FModel.nodeChildren, ofNodes, featNode], by decide, by decide⟩
  intro i hi
  rw [← mem_ids] at hi
  have : i = 0 ∨ i = 1 ∨ i = 2 := by simpa [ids, ofNodes] using hi
  rcases this with rfl | rfl | rfl <;> exact ⟨_, rfl⟩

/-- An object of a node that was freed must not be used. -/
theorem C92_freed {m : FModel} {i : Id} (h : m.heap i = none) (c : Id) (fuel : Nat) :
    m.nodeParent i = none ∧ m.nodeChildren i = none ∧ m.hasEdgeTo i c = none ∧ m.hasEdgeFrom i c = none ∧
    m.walk fuel i = none ∧ m.climb fuel i = none := by
  refine ⟨by simp [FModel.nodeParent, h], by simp [FModel.nodeChildren, h], by simp [FModel.hasEdgeTo, h],
    by simp [FModel.hasEdgeFrom, h], ?_, ?_⟩
  · cases fuel <;> simp [FModel.walk, FModel.nodeChildren, h]
  · cases fuel <;> simp [FModel.climb, FModel.nodeParent, h]

end Verif.Props

import Verif.Solver.Edits
import Verif.Merge.Result
/-!
# The configurations of merged models
-/

namespace Verif.Spec
open Verif

/-- What a feature outside of groups asks of a configuration. -/
structure Asks (F : IntFloats) (m : FModel) (s : Assign) (i : Id) (a : Attr) : Prop where
  /-- it is selected only together with its parent -/
  child : a.kind = .binary → s.bool a.name = true → ∀ p, FParent m i p → Selected m s p
  /-- with its parent if it is mandatory -/
  mandatory : a.kind = .binary → a.opt = false → ∀ p, FParent m i p → Selected m s p → s.bool a.name = true
  /-- a numeric one has one of its values; those of a range are reached without a step function -/
  number : ∀ vs st, a.kind = .numeric vs st → Allowed F vs none (s.int a.name)

end Verif.Spec

namespace Verif
open Verif.Spec

variable {F : IntFloats} {m1 m2 c0 c : FModel} {a : Assign}

theorem clonedAttr_binary {x : Attr} : (clonedAttr x).kind = .binary ↔ x.kind = .binary := by
  unfold clonedAttr; split <;> rename_i h <;> simp [h]

theorem clonedAttr_numeric {x : Attr} {vs : Values} {st : Option StepFn} :
    (clonedAttr x).kind = .numeric vs st ↔ st = none ∧ ∃ st', x.kind = .numeric vs st' := by
  unfold clonedAttr
  split <;> rename_i h <;> simp [h]
  exact ⟨fun ⟨a, b⟩ => ⟨b.symm, a⟩, fun ⟨a, b⟩ => ⟨b, a.symm⟩⟩

theorem clonedAttr_opt {x : Attr} (h : x.kind = .binary) : (clonedAttr x).opt = x.opt := by
  unfold clonedAttr; split <;> simp_all

section
variable (w0 : WF c0) (w2 : WF m2) (h : MergeInv m1 m2 c0 c (Known m2))
  (h0 : ∀ n, (∃ i, (n, i) ∈ c0.features) ↔ ∃ i, (n, i) ∈ m1.features)
  (hr : ∀ n r, m2.root = some r → (n, r) ∈ m2.features → ∃ i, (n, i) ∈ m1.features)

include h in
theorem merged_old {y : Id} {f : Feat} (hy : Known c0 y) (hf : data c0 y = some (.feat f)) :
    ∃ ls, data c y = some (.feat { f with attr := { f.attr with locs := f.attr.locs ++ ls } }) := by
  obtain ⟨⟨n, y'⟩, hm, rfl⟩ := List.mem_map.1 hy
  obtain ⟨ls, e, _⟩ := h.old n y' f hm hf
  exact ⟨ls, e⟩

include w0 h in
theorem merged_sel {y : Id} (hy : Owned c0 y) : Selected c a y ↔ Selected c0 a y := by
  rcases hy with hy | hy
  · obtain ⟨f, hf⟩ := w0.known_data hy
    obtain ⟨ls, e⟩ := merged_old h hy hf
    unfold Selected
    rw [e, hf]
    simp
  · unfold Selected; rw [h.rel y hy]

include w0 h in
theorem merged_fparent {y q : Id} (hy : Owned c0 y) : FParent c y q ↔ FParent c0 y q := by
  refine fparent_transfer w0 ?_ (fun x q hx hp => h.fparent w0 hx hp) hy
  intro r hr
  rw [h.par r (.inl (w0.root_known hr))]; exact w0.root_par hr

include w2 h h0 hr in
theorem merged_known {y : Id} (hy : Known c y) : Known c0 y ∨
    ∃ n j g f p qn q, (n, j) ∈ m2.features ∧ data m2 j = some (.feat g) ∧ (∀ i, (n, i) ∉ m1.features) ∧
      (n, y) ∈ c.features ∧ data c y = some (.feat f) ∧ f.attr = clonedAttr g.attr ∧ par c y = some p ∧
      FParent m2 j q ∧ (qn, q) ∈ m2.features ∧ (qn, p) ∈ c.features := by
  obtain ⟨⟨n, y'⟩, hm, rfl⟩ := List.mem_map.1 hy
  rcases h.names n y' hm with a | ⟨j, hj, a⟩
  · exact .inl (known_of_mem a)
  by_cases hin : ∃ i, (n, i) ∈ m1.features
  · obtain ⟨i, b⟩ := (h0 n).2 hin
    have := h.wf.entry_unique hm (h.sub _ b)
    subst this
    exact .inl (known_of_mem b)
  · obtain ⟨g, hg, _⟩ := w2.feat_ok _ a
    have hnr : m2.root ≠ some j := fun e => hin (hr n j e a)
    obtain ⟨q, hq, hqk⟩ := w2.has_fparent (.inl hj) hnr
    obtain ⟨⟨qn, q'⟩, hqm, rfl⟩ := List.mem_map.1 hqk
    obtain ⟨i, f, b1, b2, b3, b4⟩ := h.new n j g hj a hg (fun i b => hin ⟨i, b⟩)
    have := h.wf.entry_unique hm b1
    subst this
    obtain ⟨p, e1, e2⟩ := b4 q' qn hq hqm
    exact .inr ⟨n, j, g, f, p, qn, q', a, hg, fun i b => hin ⟨i, b⟩, hm, b2, (congrArg Feat.attr b3), e2, hq, hqm, e1⟩

theorem fparent_isKnown {m : FModel} (w : WF m) {x q : Id} (hx : Owned m x) (h : FParent m x q) : Known m q := by
  induction h with
  | direct h1 h2 => exact w.known_feat (w.par_edge _ _ hx h1).1 h2
  | skip h1 _ _ ih => exact ih (w.par_edge _ _ hx h1).1

/-- Selection is by name. -/
theorem selected_name {m : FModel} (w : WF m) {n : Str} {i : Id} (hi : (n, i) ∈ m.features) : Selected m a i ↔ a.bool n = true := by
  obtain ⟨f, hf, hn⟩ := w.feat_ok _ hi
  simp only at hf hn
  constructor
  · rintro ⟨g, hg, hb⟩
    rw [hf] at hg; cases hg
    rw [← hn]; exact hb
  · intro hb; exact ⟨f, hf, by rw [hn]; exact hb⟩

include w0 w2 h h0 hr in
theorem merged_edg {r : Id} (hrr : r ∈ c0.rels) (x : Id) : x ∈ edg c r ↔ x ∈ edg c0 r := by
  have hor : Owned c r := .inr (by rw [h.rels]; exact hrr)
  constructor
  · intro hx
    obtain ⟨ho, hp⟩ := h.wf.edge_par r x hor hx
    have hox : Owned c0 x := by
      rcases ho with ho | ho
      · rcases merged_known w2 h h0 hr ho with hk | ⟨_, _, _, _, p, _, _, _, _, _, _, _, _, e, _, _, e'⟩
        · exact .inl hk
        · rw [hp] at e; cases e
          exact absurd (by rw [h.rels]; exact hrr) (h.wf.known_not_rel (known_of_mem e'))
      · exact .inr (by rw [← h.rels]; exact ho)
    rw [h.par x hox] at hp
    exact (w0.par_edge x r hox hp).2
  · intro hx
    obtain ⟨ho, hp⟩ := w0.edge_par r x (.inr hrr) hx
    have hoc : Owned c x := by
      rcases ho with ho | ho
      · obtain ⟨⟨n, x'⟩, hm, rfl⟩ := List.mem_map.1 ho
        exact .inl (known_of_mem (h.sub _ hm))
      · exact .inr (by rw [h.rels]; exact ho)
    exact (h.wf.par_edge x r hoc (by rw [h.par x ho]; exact hp)).2

include h in
theorem merged_sub {y : Id} (hy : Known c0 y) : Known c y := by
  obtain ⟨⟨n, y'⟩, hm, rfl⟩ := List.mem_map.1 hy
  exact known_of_mem (h.sub _ hm)

include w0 w2 h h0 hr in
theorem tree_merged : TreeValid F c a ↔ TreeValid F c0 a ∧
    ∀ n j g, (n, j) ∈ m2.features → data m2 j = some (.feat g) → (∀ i, (n, i) ∉ m1.features) → Asks F m2 a j g.attr := by
  have hsel : ∀ y, Owned c0 y → (Selected c a y ↔ Selected c0 a y) := fun y hy => merged_sel w0 h hy
  have hfp : ∀ y q, Owned c0 y → (FParent c y q ↔ FParent c0 y q) := fun y q hy => merged_fparent w0 h hy
  have hpar : ∀ y, Owned c0 y → par c y = par c0 y := h.par
  have hedg : ∀ r ∈ c0.rels, ∀ x, x ∈ edg c r ↔ x ∈ edg c0 r := fun r hrr x => merged_edg w0 w2 h h0 hr hrr x
  have hfeat : ∀ y, Owned c0 y → (IsFeat c y ↔ IsFeat c0 y) := by
    intro y hy
    rcases hy with hy | hy
    · obtain ⟨f, hf⟩ := w0.known_data hy
      obtain ⟨ls, e⟩ := merged_old h hy hf
      exact ⟨fun _ => ⟨f, hf⟩, fun _ => ⟨_, e⟩⟩
    · unfold IsFeat; rw [h.rel y hy]
  constructor
  · intro v
    refine ⟨⟨?_, ?_, ?_, ?_, ?_, ?_⟩, ?_⟩
    · intro r hrr
      exact (hsel r (.inl (w0.root_known hrr))).1 (v.root r (by rw [h.root]; exact hrr))
    · intro y f q hy hf hk hq hs
      obtain ⟨ls, e⟩ := merged_old h hy hf
      exact (hsel q (fparent_owned w0 (.inl hy) hq)).1 (v.parent y _ q (merged_sub h hy) e hk
        ((hfp y q (.inl hy)).2 hq) ((hsel y (.inl hy)).2 hs))
    · intro y f q hy hf hk ho hq hqf hs
      have hoq := (w0.par_edge _ _ (.inl hy) hq).1
      obtain ⟨ls, e⟩ := merged_old h hy hf
      exact (hsel y (.inl hy)).1 (v.mandatory y _ q (merged_sub h hy) e hk ho
        (by rw [hpar y (.inl hy)]; exact hq) ((hfeat q hoq).2 hqf) ((hsel q hoq).2 hs))
    · intro r q hrr hk hq hs
      have hoq := (w0.par_edge _ _ (.inr hrr) hq).1
      obtain ⟨x, h1, h2, h3⟩ := v.alternative r q (by rw [h.rels]; exact hrr) (by rw [h.rel r hrr]; exact hk)
        (by rw [hpar r (.inr hrr)]; exact hq) ((hsel q hoq).2 hs)
      rw [hedg r hrr] at h1
      refine ⟨x, h1, (hsel x (w0.edge_par r x (.inr hrr) h1).1).1 h2, ?_⟩
      intro x' hx' hs'
      exact h3 x' ((hedg r hrr x').2 hx') ((hsel x' (w0.edge_par r x' (.inr hrr) hx').1).2 hs')
    · intro r q hrr hk hq hs
      have hoq := (w0.par_edge _ _ (.inr hrr) hq).1
      obtain ⟨x, h1, h2⟩ := v.or r q (by rw [h.rels]; exact hrr) (by rw [h.rel r hrr]; exact hk)
        (by rw [hpar r (.inr hrr)]; exact hq) ((hsel q hoq).2 hs)
      rw [hedg r hrr] at h1
      exact ⟨x, h1, (hsel x (w0.edge_par r x (.inr hrr) h1).1).1 h2⟩
    · intro y f vs st hy hf hk
      obtain ⟨ls, e⟩ := merged_old h hy hf
      have := v.numeric y _ vs st (merged_sub h hy) e hk
      exact this
    · intro n j g hj hg hnot
      obtain ⟨y, f, b1, b2, b3, b4⟩ := h.new n j g (known_of_mem hj) hj hg hnot
      have hgn : g.attr.name = n := by
        obtain ⟨g', e1, e2⟩ := w2.feat_ok _ hj
        simp only at e1 e2
        rw [hg] at e1; cases e1; exact e2
      have key : ∀ q, FParent m2 j q → ∃ p, par c y = some p ∧ IsFeat c p ∧ (Selected c a p ↔ Selected m2 a q) := by
        intro q hq
        obtain ⟨⟨qn, q'⟩, hqm, rfl⟩ := List.mem_map.1 (fparent_isKnown w2 (.inl (known_of_mem hj)) hq)
        obtain ⟨p, e1, e2⟩ := b4 q' qn hq hqm
        obtain ⟨pf, hpf⟩ := h.wf.known_data (known_of_mem e1)
        exact ⟨p, e2, ⟨pf, hpf⟩, (selected_name h.wf e1).trans (selected_name w2 hqm).symm⟩
      have hy := selected_name (a := a) h.wf b1
      refine ⟨?_, ?_, ?_⟩
      · intro hk hs q hq
        obtain ⟨p, e1, e2, e3⟩ := key q hq
        exact e3.1 (v.parent y f p (known_of_mem b1) b2 (by rw [b3]; exact clonedAttr_binary.2 hk) (.direct e1 e2)
          (hy.2 (by rw [← hgn]; exact hs)))
      · intro hk ho q hq hs
        obtain ⟨p, e1, e2, e3⟩ := key q hq
        rw [hgn]
        exact hy.1 (v.mandatory y f p (known_of_mem b1) b2 (by rw [b3]; exact clonedAttr_binary.2 hk)
          (by rw [b3, clonedAttr_opt hk]; exact ho) e1 e2 (e3.2 hs))
      · intro vs st hk
        have := v.numeric y f vs none (known_of_mem b1) b2 (by rw [b3]; exact clonedAttr_numeric.2 ⟨rfl, st, hk⟩)
        rw [b3, clonedAttr_name] at this
        exact this
  · rintro ⟨v, k⟩
    have hold : ∀ y f, Known c0 y → data c y = some (.feat f) → ∃ f0, data c0 y = some (.feat f0) ∧
        f0.attr.kind = f.attr.kind ∧ f0.attr.opt = f.attr.opt ∧ f0.attr.name = f.attr.name := by
      intro y f hy hf
      obtain ⟨f0, hf0⟩ := w0.known_data hy
      obtain ⟨ls, e⟩ := merged_old h hy hf0
      rw [hf] at e
      cases e
      exact ⟨f0, hf0, rfl, rfl, rfl⟩
    refine ⟨?_, ?_, ?_, ?_, ?_, ?_⟩
    · intro r hrr
      rw [h.root] at hrr
      exact (hsel r (.inl (w0.root_known hrr))).2 (v.root r hrr)
    · intro y f q hy hf hk hq hs
      rcases merged_known w2 h h0 hr hy with hy | ⟨n, j, g, f', p, qn, q', e1, e2, e3, e4, e5, e6, e7, e8, e9, e10⟩
      · obtain ⟨f0, d1, d2, _, _⟩ := hold y f hy hf
        rw [hfp y q (.inl hy)] at hq
        exact (hsel q (fparent_owned w0 (.inl hy) hq)).2 (v.parent y f0 q hy d1 (d2.trans hk) hq ((hsel y (.inl hy)).1 hs))
      · rw [hf] at e5; cases e5
        have hpf : IsFeat c p := by obtain ⟨x, hx⟩ := h.wf.known_data (known_of_mem e10); exact ⟨x, hx⟩
        have := hq.functional (.direct e7 hpf)
        subst this
        rw [selected_name h.wf e10, ← selected_name w2 e9]
        rw [e6] at hk
        refine (k n j g e1 e2 e3).child (clonedAttr_binary.1 hk) ?_ q' e8
        obtain ⟨f1, x1, x2⟩ := hs
        rw [hf] at x1; cases x1
        rw [e6, clonedAttr_name] at x2
        exact x2
    · intro y f q hy hf hk ho hq hqf hs
      rcases merged_known w2 h h0 hr hy with hy | ⟨n, j, g, f', p, qn, q', e1, e2, e3, e4, e5, e6, e7, e8, e9, e10⟩
      · obtain ⟨f0, d1, d2, d3, _⟩ := hold y f hy hf
        rw [hpar y (.inl hy)] at hq
        have hoq := (w0.par_edge _ _ (.inl hy) hq).1
        exact (hsel y (.inl hy)).2 (v.mandatory y f0 q hy d1 (d2.trans hk) (d3.trans ho) hq ((hfeat q hoq).1 hqf) ((hsel q hoq).1 hs))
      · rw [hf] at e5; cases e5
        rw [hq] at e7; cases e7
        rw [selected_name h.wf e10, ← selected_name w2 e9] at hs
        rw [e6] at hk ho
        have hk' := clonedAttr_binary.1 hk
        rw [clonedAttr_opt hk'] at ho
        refine ⟨f, hf, ?_⟩
        rw [e6, clonedAttr_name]
        exact (k n j g e1 e2 e3).mandatory hk' ho q' e8 hs
    · intro r q hrr hk hq hs
      rw [h.rels] at hrr
      rw [hpar r (.inr hrr)] at hq
      have hoq := (w0.par_edge _ _ (.inr hrr) hq).1
      obtain ⟨x, h1, h2, h3⟩ := v.alternative r q hrr (by rw [← h.rel r hrr]; exact hk) hq ((hsel q hoq).1 hs)
      refine ⟨x, (hedg r hrr x).2 h1, (hsel x (w0.edge_par r x (.inr hrr) h1).1).2 h2, ?_⟩
      intro x' hx' hs'
      rw [hedg r hrr] at hx'
      exact h3 x' hx' ((hsel x' (w0.edge_par r x' (.inr hrr) hx').1).1 hs')
    · intro r q hrr hk hq hs
      rw [h.rels] at hrr
      rw [hpar r (.inr hrr)] at hq
      have hoq := (w0.par_edge _ _ (.inr hrr) hq).1
      obtain ⟨x, h1, h2⟩ := v.or r q hrr (by rw [← h.rel r hrr]; exact hk) hq ((hsel q hoq).1 hs)
      exact ⟨x, (hedg r hrr x).2 h1, (hsel x (w0.edge_par r x (.inr hrr) h1).1).2 h2⟩
    · intro y f vs st hy hf hk
      rcases merged_known w2 h h0 hr hy with hy | ⟨n, j, g, f', p, qn, q', e1, e2, e3, e4, e5, e6, e7, e8, e9, e10⟩
      · obtain ⟨f0, d1, d2, _, d4⟩ := hold y f hy hf
        rw [← d4]
        exact v.numeric y f0 vs st hy d1 (d2.trans hk)
      · rw [hf] at e5; cases e5
        rw [e6] at hk ⊢
        rw [clonedAttr_name]
        obtain ⟨rfl, st', hk'⟩ := clonedAttr_numeric.1 hk
        exact (k n j g e1 e2 e3).number vs st' hk'

include w0 h in
theorem isNum_merged {n : Str} (hn : ∃ i, (n, i) ∈ c0.features) : IsNum c n ↔ IsNum c0 n := by
  obtain ⟨i, hi⟩ := hn
  constructor
  · rintro ⟨j, f, vs, st, hj, hf, hk⟩
    have := h.wf.entry_unique hj (h.sub _ hi)
    subst this
    obtain ⟨f0, hf0, _⟩ := w0.feat_ok _ hi
    obtain ⟨ls, e, _⟩ := h.old n j f0 hi hf0
    rw [hf] at e; cases e
    exact ⟨j, f0, vs, st, hi, hf0, hk⟩
  · rintro ⟨j, f, vs, st, hj, hf, hk⟩
    obtain ⟨ls, e, _⟩ := h.old n j f hj hf
    exact ⟨j, _, vs, st, h.sub _ hj, e, hk⟩

include w0 w2 h h0 hr in
/-- The configurations of the merged model: those of the copy that give every new feature what it asks for. -/
theorem valid_merged (hc : ∀ s ∈ allStored c0, ∀ n ∈ s.tree.features, ∃ i, (n, i) ∈ c0.features) :
    Valid F c a ↔ Valid F c0 a ∧
      ∀ n j g, (n, j) ∈ m2.features → data m2 j = some (.feat g) → (∀ i, (n, i) ∉ m1.features) → Asks F m2 a j g.attr := by
  rw [valid_cons, valid_cons, tree_merged w0 w2 h h0 hr, consHold_congr (b := a) h.booleans h.nonBooleans h.mixeds rfl]
  · exact ⟨fun ⟨⟨x, y⟩, z⟩ => ⟨⟨x, z⟩, y⟩, fun ⟨⟨x, z⟩, y⟩ => ⟨⟨x, y⟩, z⟩⟩
  · intro s hs n hn
    exact ⟨isNum_merged w0 h (hc s hs n hn), rfl, rfl⟩

end
end Verif

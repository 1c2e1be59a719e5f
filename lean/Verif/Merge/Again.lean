import Verif.Merge.Result
import Verif.FM.DescOf
/-! Lemmas: a merged model can be merged again. -/

namespace Verif
open Verif.Spec

variable {d d2 : Desc} {m m1 m2 c0 c : FModel}

theorem store_inv {V : Id → Prop} (h : MergeInv m1 m2 c0 c V) (cl : CClass) : c.store cl = c0.store cl := by
  cases cl
  · exact h.booleans
  · exact h.nonBooleans
  · exact h.mixeds

theorem rels_of_groups (h : Describes d m) (hg : d.groups = []) : m.rels = [] := by
  refine List.eq_nil_iff_forall_not_mem.2 fun r hr => ?_
  obtain ⟨n, k, i, a, _⟩ := h.rels r hr
  rw [hg] at a; cases a

theorem groups_of_rels (h : Describes d m) (hr : m.rels = []) : d.groups = [] := by
  refine List.eq_nil_iff_forall_not_mem.2 fun x hx => ?_
  obtain ⟨n, k⟩ := x
  obtain ⟨i, hi⟩ := (h.names n).2 (h.groups_known _ hx)
  obtain ⟨r, a, b, _⟩ := h.grouped n k i hx hi
  have ho := (h.wf.edge_par i r (.inl (known_of_mem hi)) (by rw [a]; simp)).1
  have := h.wf.owned_rel ho ⟨k, b⟩
  rw [hr] at this; cases this

section
variable (h : Describes d m1) (hk : ConstraintsKnown d) (w2 : WF m2)
  (h' : Describes d.cloned c0) (h0 : ∀ n, (∃ i, (n, i) ∈ c0.features) ↔ ∃ i, (n, i) ∈ m1.features)
  (hi : MergeInv m1 m2 c0 c (Known m2))
include h hk h' h0

/-- The constraints of the copy name features it was made with. -/
theorem merged_names (cl : CClass) : ∀ s ∈ c0.store cl, ∀ n ∈ s.tree.features, ∃ i, (n, i) ∈ c0.features := by
  intro s hs n hn
  rw [h'.store] at hs
  obtain ⟨x, hx, rfl⟩ := List.mem_map.1 hs
  rw [h0, h.names]
  exact hk x (List.mem_filter.1 hx).1 n hn

omit hk h h0 in
include hi in
theorem merged_get {n : Str} (hn : ∃ i, (n, i) ∈ c0.features) : c.getFeature n = c0.getFeature n := by
  obtain ⟨i, hn⟩ := hn
  rw [getFeature_mem h'.wf.names hn, getFeature_mem hi.wf.names (hi.sub _ hn)]

omit hk h0 in
include hi w2 in
/-- The root has nothing but its name. -/
theorem merged_bare (hb2 : RootBare m2)
    (hroots : ∀ n r r', m1.root = some r → (n, r) ∈ m1.features → (n, r') ∈ m2.features → m2.root = some r') : RootBare c := by
  intro r f hr hf
  obtain ⟨r0, f0, a1, a2, a3, a4⟩ := h'.root
  rw [hi.root, a1] at hr
  have := Option.some.inj hr; subst this
  obtain ⟨ls, b1, b2, b3⟩ := hi.old _ r0 f0 a2 a3
  rw [hf] at b1; cases b1
  obtain ⟨r1, f1, e1, e2, e3, e4⟩ := h.root
  have : ls = [] := by
    by_cases hj : ∃ j, (d.root, j) ∈ m2.features
    · obtain ⟨j, hj⟩ := hj
      obtain ⟨g, hg, _⟩ := w2.feat_ok _ hj
      rw [b2 r1 f1 j g e2 e3 hj (known_of_mem hj) hg]
      have := hb2 j g (hroots _ r1 j e1 e2 hj) hg
      unfold newLocs
      rw [this]
      rfl
    · exact b3 fun j _ x => hj ⟨j, x⟩
  subst this
  simp only [a4, List.append_nil]

include hi w2 in
theorem merged_registered : Registered c := by
  have w0 := h'.wf
  have hkn := merged_names h hk h' h0
  intro i f hkn' hf
  obtain ⟨⟨n, i'⟩, hm, rfl⟩ := List.mem_map.1 hkn'
  simp only at hf
  rcases hi.names n i' hm with a | ⟨j, _, a⟩
  · obtain ⟨f0, b1, b2⟩ := w0.feat_ok _ a
    simp only at b1
    obtain ⟨ls, e1, _⟩ := hi.old n i' f0 a b1
    rw [hf] at e1; cases e1
    have := h'.registered i' f0 (known_of_mem a) b1
    simpa only [store_inv hi] using this
  · by_cases hin : ∃ i, (n, i) ∈ m1.features
    · obtain ⟨x, hx⟩ := (h0 n).2 hin
      have := hi.wf.entry_unique hm (hi.sub _ hx); subst this
      obtain ⟨f0, b1, b2⟩ := w0.feat_ok _ hx
      simp only at b1
      obtain ⟨ls, e1, _⟩ := hi.old n i' f0 hx b1
      rw [hf] at e1; cases e1
      have := h'.registered i' f0 (known_of_mem hx) b1
      simpa only [store_inv hi] using this
    · obtain ⟨g, hg, gn⟩ := w2.feat_ok _ a
      obtain ⟨x, fx, p1, p2, p3, _⟩ := hi.new n j g (known_of_mem a) a hg (fun i b => hin ⟨i, b⟩)
      have := hi.wf.entry_unique hm p1; subst this
      rw [hf] at p2; cases p2
      subst p3
      have hname : (clonedAttr g.attr).name = n := by rw [clonedAttr_name]; exact gn
      have hno : ∀ cl (k : Nat) s, (c.store cl)[k]? = some s → n ∉ s.tree.features := by
        intro cl k s hs hn
        rw [store_inv hi] at hs
        exact hin ((h0 n).1 (hkn cl s (List.mem_of_getElem? hs) n hn))
      simp only [hname]
      refine ⟨fun l => ⟨fun x => (by cases x), ?_⟩, fun l => ⟨fun x => (by cases x), ?_⟩, fun l => ⟨fun x => (by cases x), ?_⟩, ?_⟩
      · rintro ⟨s, a1, a2⟩; exact absurd (List.mem_of_getElem? a2) (hno _ _ s a1)
      · rintro ⟨s, a1, _, a2⟩; exact absurd a2 (hno _ _ s a1)
      · rintro ⟨s, a1, _, a2⟩; exact absurd a2 (hno _ _ s a1)
      · intro r s a1 _
        rw [List.count_eq_zero.2 (hno _ _ s a1)]; rfl

end

/-- The result of merging into a model without groups has a description. -/
theorem merged_describes (h : Describes d m1) (hk : ConstraintsKnown d) (hr1 : m1.rels = []) (w2 : WF m2) (hb2 : RootBare m2)
    (h' : Describes d.cloned c0) (h0 : ∀ n, (∃ i, (n, i) ∈ c0.features) ↔ ∃ i, (n, i) ∈ m1.features)
    (hroots : ∀ n r r', m1.root = some r → (n, r) ∈ m1.features → (n, r') ∈ m2.features → m2.root = some r')
    (hi : MergeInv m1 m2 c0 c (Known m2)) : Describes (descOf c) c ∧ ConstraintsKnown (descOf c) ∧ c.rels = [] ∧ RootBare c := by
  have w0 := h'.wf
  have hrel : c.rels = [] := hi.rels.trans (rels_of_groups h' (show d.groups = [] from groups_of_rels h hr1))
  have hkn := merged_names h hk h' h0
  have hget : ∀ n, (∃ i, (n, i) ∈ c0.features) → c.getFeature n = c0.getFeature n := fun _ => merged_get h' hi
  have hfiled : Filed c := by
    intro cl s hs
    rw [store_inv hi] at hs
    have hs' := hs
    rw [h'.store] at hs'
    obtain ⟨x, hx, rfl⟩ := List.mem_map.1 hs'
    refine ⟨List.map_congr_left fun n hn => (hget n (hkn cl _ hs n hn)).symm, ?_⟩
    have hc := of_decide_eq_true (List.mem_filter.1 hx).2
    cases hxk : x.1 <;> rw [hxk] at hc <;> simp only [CKind.cls] at hc <;> subst hc <;> simp [CKind.info]
  have hbare : RootBare c := merged_bare h w2 h' hi hb2 hroots
  have hreg : Registered c := merged_registered h hk w2 h' h0 hi
  have hd := describes_descOf hi.wf hi.bound hbare (fun r hr => by rw [hrel] at hr; cases hr) hfiled hreg
  refine ⟨hd, ?_, hrel, hbare⟩
  intro x hx n hn
  rw [← hd.names]
  have : ∃ cl s, s ∈ c.store cl ∧ s.tree = x.2 := by
    simp only [descOf, List.mem_append, List.mem_map] at hx
    rcases hx with (⟨s, a, rfl⟩ | ⟨s, a, rfl⟩) | ⟨s, a, rfl⟩ <;> exact ⟨_, s, a, rfl⟩
  obtain ⟨cl, s, a, b⟩ := this
  rw [store_inv hi] at a
  obtain ⟨i, e⟩ := hkn cl s a n (b ▸ hn)
  exact ⟨i, hi.sub _ e⟩

end Verif

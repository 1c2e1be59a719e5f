import Verif.Props.CloneExact
import Verif.Props.KeptConfigurations

/-!
# Configurations a clone loses (C73)
-/

namespace Verif.Props
open Verif Verif.Spec

/-- In every model with a mandatory option beside an alternative group, the two below one feature: no valid configuration in which
    that feature is selected is a valid one of the clone.  If the feature is the root, that is no valid configuration at all. -/
theorem C73_loses {m : FModel} (w : WF m) (hone : OneGroup m) (hf : Filed m) (E : Env) (hroot : RootComesFirst E m)
    (hk : OwnFeatures m) {r p x : Id} {f : Feat} (hr : r ∈ m.rels) (hrd : data m r = some (.rel .alternative))
    (hrp : par m r = some p) (hx : par m x = some p) (hxk : Known m x) (hp : IsFeat m p) (hxf : data m x = some (.feat f))
    (hb : f.attr.kind = .binary) (ho : f.attr.opt = false) :
    ∃ c, m.clone E = .built c ∧ (∀ F a, Valid F m a → Selected m a p → ¬ Valid F c a) ∧
      (m.root = some p → ∀ F a, Valid F m a → ¬ Valid F c a) := by
  obtain ⟨c, h1, w2, hflat, hn, _, hpar, hgr, hmem, _⟩ := C29_any w hone hf E hroot hk
  have key : ∀ F a, Valid F m a → Selected m a p → ¬ Valid F c a := by
    intro F a v sp v2
    have hkp : Known m p := by
      rcases (w.par_edge r p (.inr hr) hrp).1 with h | h
      · exact h
      · obtain ⟨k, hk⟩ := w.rel_ok p h
        obtain ⟨g, hg⟩ := hp
        rw [hg] at hk; cases hk
    have sx := v.mandatory x f p hxk hxf hb ho hx hp sp
    obtain ⟨y, hy, sy, _⟩ := v.alternative r p hr hrd hrp sp
    obtain ⟨hyo, hyp⟩ := w.edge_par r y (.inr hr) hy
    obtain ⟨fy, hfy, _⟩ := id sy
    have hky : Known m y := by
      rcases hyo with h | h
      · exact h
      · obtain ⟨k, hk⟩ := w.rel_ok y h
        rw [hfy] at hk; cases hk
    have same : ∀ {i}, Known m i → ∃ n j, (n, i) ∈ m.features ∧ (n, j) ∈ c.features ∧ (Selected m a i → Selected c a j) := by
      intro i hi
      obtain ⟨n, hin⟩ := known_name hi
      obtain ⟨j, hj⟩ := (hn n).1 ⟨i, hin⟩
      refine ⟨n, j, hin, hj, ?_⟩
      rintro ⟨g, hg, hs⟩
      obtain ⟨g1, e1, e2⟩ := w.feat_ok _ hin
      obtain ⟨g2, e3, e4⟩ := w2.feat_ok _ hj
      simp only at e1 e2 e3 e4
      rw [hg] at e1; cases e1
      exact ⟨g2, e3, by rw [e4, ← e2]; exact hs⟩
    obtain ⟨pn, q, p1, q1, sq⟩ := same hkp
    obtain ⟨xn, x', x1, x2, sx'⟩ := same hxk
    obtain ⟨yn, y', y1, y2, sy'⟩ := same hky
    have fpx : FParent m x p := .direct hx hp
    have fpy : FParent m y p := .skip hyp ⟨_, hrd⟩ (.direct hrp hp)
    have member : ∀ {n i j}, (n, i) ∈ m.features → (n, j) ∈ c.features → FParent m i p →
        ∃ g, g ∈ c.rels ∧ data c g = some (.rel .alternative) ∧ par c g = some q ∧ j ∈ edg c g := by
      intro n i j hi hj hfp
      obtain ⟨g, g1, g2⟩ := (hmem n i j .alternative p hi hj hfp).2 ⟨r, hr, hrp, hrd⟩
      have hge := w2.par_edge j g (.inl (known_of_mem hj)) g1
      have hgr := w2.owned_rel hge.1 ⟨_, g2⟩
      obtain ⟨i', i1, i2⟩ := hflat g hgr
      have h3 : FParent c j i' := .skip g1 ⟨_, g2⟩ (.direct i2 (w2.known_data i1))
      have h4 := (hpar n i j p q pn hi hj p1 q1).1 hfp
      have := h3.functional h4
      subst this
      exact ⟨g, hgr, g2, i2, hge.2⟩
    obtain ⟨g, g1, g2, g3, g4⟩ := member x1 x2 fpx
    obtain ⟨g', k1, k2, k3, k4⟩ := member y1 y2 fpy
    obtain ⟨r', e1, _, _⟩ := (hgr pn p q .alternative p1 q1).1 ⟨r, hr, hrp, hrd⟩
    have in1 := (w2.par_edge g q (.inr g1) g3).2
    have in2 := (w2.par_edge g' q (.inr k1) k3).2
    rw [e1] at in1 in2
    have e2 := List.mem_singleton.1 in1
    have e3 := List.mem_singleton.1 in2
    subst e2
    subst e3
    obtain ⟨z, _, _, hz⟩ := v2.alternative _ q g1 g2 g3 (sq sp)
    have := (hz x' g4 (sx' sx)).trans (hz y' k4 (sy' sy)).symm
    subst this
    have := w2.id_unique x2 y2
    subst this
    have := w.entry_unique x1 y1
    subst this
    rw [hx] at hyp; cases hyp
    obtain ⟨g, hg⟩ := hp
    rw [hg] at hrd; cases hrd
  exact ⟨c, h1, key, fun hpr F a v => key F a v (v.root p hpr)⟩

/-- Not vacuous: the model with `B` beside the group of `A` meets the hypotheses, has a valid configuration, and its clone
    has none of those it had. -/
example (F : IntFloats) : (∃ a, Valid F besideNodes a ∧ Selected besideNodes a 0) ∧
    ∃ c, besideNodes.clone (stdEnv true) = .built c ∧ ∀ a, Valid F besideNodes a → ¬ Valid F c a := by
  have w : WF besideNodes := wf_of_check (fun i => i) (ofNodes_fresh _ _ _ _ _) (by decide)
  have hr : ∀ r ∈ besideNodes.rels, r = 1 := fun r h => by simpa [besideNodes, ofNodes] using h
  constructor
  · have hk : ∀ {i}, Known besideNodes i → i = 0 ∨ i = 2 ∨ i = 3 := by
      intro i hi
      obtain ⟨e, he, rfl⟩ := List.mem_map.1 hi
      have he : e ∈ [(c!"R", 0), (c!"A", 2), (c!"B", 3)] := he
      simp only [List.mem_cons, List.not_mem_nil, or_false] at he
      rcases he with rfl | rfl | rfl <;> simp
    have hsel : ∀ {i}, Known besideNodes i → Selected besideNodes ⟨fun _ => true, fun _ => 0, fun _ => 0⟩ i := by
      intro i hi
      rcases hk hi with rfl | rfl | rfl <;> exact ⟨_, rfl, rfl⟩
    refine ⟨⟨fun _ => true, fun _ => 0, fun _ => 0⟩, ⟨?_, ?_, ?_, ?_, ?_, ?_, ?_, ?_⟩, ⟨_, rfl, rfl⟩⟩
    · intro r hr
      cases hr
      exact ⟨_, rfl, rfl⟩
    · intro i f p hi _ _ hp _
      exact hsel (fparent_fst w (.inl hi) hp)
    · intro i f p hi _ _ _ _ _ _
      exact hsel hi
    · intro r p h hd hp _
      rw [hr r h]
      refine ⟨2, by decide, ⟨_, rfl, rfl⟩, ?_⟩
      intro c' hc' _
      have hc' : c' ∈ [2] := hc'
      simpa using hc'
    · intro r p h hd
      rw [hr r h] at hd
      cases hd
    · intro i f vs st hi hd hkd
      rcases hk hi with rfl | rfl | rfl <;> cases hd <;> cases hkd
    · intro c hc; cases hc
    · intro c hc; cases hc
  · obtain ⟨c, h1, _, h2⟩ := C73_loses w (r := 1) (p := 0) (x := 3) (by intro r r' i h h' _ _ _; rw [hr r h, hr r' h'])
      (by intro cl s hs; cases cl <;> cases hs) (stdEnv true)
      (by
        intro pre x post e
        have hx : (c!"root", x) ∈ besideNodes.features := ((stdEnv true).mapOrder_perm _).mem_iff.1 (by rw [e]; simp)
        have hx : (c!"root", x) ∈ [(c!"R", 0), (c!"A", 2), (c!"B", 3)] := hx
        simp at hx)
      (by intro cl s hs; cases cl <;> cases hs) (by decide) rfl rfl rfl (by decide) ⟨_, rfl⟩ rfl rfl rfl
    exact ⟨c, h1, h2 rfl F⟩

end Verif.Props

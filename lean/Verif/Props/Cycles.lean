import Verif.Props.FeatureTree
import Verif.Props.Transactions
/-!
# Properties C16, C17: every feature can be moved below its own descendants

The consistency check and the commit accept it in every model, and the whole subtree is cut off from the root.
-/

namespace Verif.Props
open Spec FModel

/-- Looking for the parent feature passes through relationships only, so the link of a moved feature matters only
    for itself. -/
theorem moved_parentFeature {m m' : FModel} {p c : Id} (h : Moved m m' p c) (hc : IsFeat m c) :
    ∀ (n : Nat) (i : Id), i ≠ c → m'.parentFeatureFuel n i = m.parentFeatureFuel n i
  | 0, _, _ => rfl
  | n + 1, i, hi => by
    have hd : data m' i = data m i := by rw [h.data]
    have hp : par m' i = par m i := by rw [h.par, upd_ne _ _ hi]
    unfold parentFeatureFuel
    cases hx : m.heap i with
    | none =>
      have : m'.heap i = none := data_none.1 (hd.trans (data_none.2 hx))
      rw [this]
    | some nd =>
      rw [data_of_heap hx] at hd
      rw [par_of_heap hx] at hp
      rw [heap_of_data hd]
      simp only [hp]
      cases hq : nd.parent with
      | none => rfl
      | some q =>
        simp only
        have hdq : data m' q = data m q := by rw [h.data]
        cases hy : m.heap q with
        | none =>
          have : m'.heap q = none := data_none.1 (hdq.trans (data_none.2 hy))
          rw [this]
        | some qn =>
          rw [data_of_heap hy] at hdq
          rw [heap_of_data hdq]
          simp only
          have e : Node.isFeat ⟨qn.data, par m' q, edg m' q⟩ = qn.isFeat := rfl
          rw [e]
          by_cases hf : qn.isFeat = true
          · rw [if_pos hf, if_pos hf]
          · rw [if_neg hf, if_neg hf]
            refine moved_parentFeature h hc n q ?_
            rintro rfl
            obtain ⟨f, hcf⟩ := hc
            rw [data_of_heap hy] at hcf
            apply hf
            unfold Node.isFeat
            rw [Option.some.inj hcf]

/-- After any move of a feature other than the root to another feature the model passes the consistency check. -/
theorem moved_consistent {m m' : FModel} {p c : Id} (w : WF m) (h : Moved m m' p c) (hp : Known m p) (hc : Known m c)
    (hr : m.root ≠ some c) (hcp : c ≠ p) (E : Env) : m'.consistent E = some true := by
  have hk : ∀ i, Known m' i ↔ Known m i := fun i => by unfold Known; rw [h.rest.features]
  have hfc : IsFeat m c := w.known_data hc
  have hfp : IsFeat m p := w.known_data hp
  refine consistent_of_checked ⟨by rw [h.rest.features]; exact w.names, ?_, ?_, ?_, ?_⟩ E
  · rw [h.rest.features, h.data]; exact w.feat_ok
  · obtain ⟨r, f, h1, h2, h3, h4, _⟩ := w.root_ok
    exact ⟨r, f, by rw [h.rest.root]; exact h1, (hk r).2 h2, by rw [h.data]; exact h3, h4⟩
  · intro i f hi hd hf
    rw [h.rest.root]
    exact w.one_root i f ((hk i).1 hi) (by rw [← h.data]; exact hd) hf
  · intro i hi hne
    rw [h.rest.root] at hne
    have hi := (hk i).1 hi
    by_cases hic : i = c
    · subst hic
      have hpar : par m' i = some p := by rw [h.par]; simp
      obtain ⟨f, hf⟩ := hfp
      obtain ⟨g, hg⟩ := hfc
      have hf' : data m' p = some (.feat f) := by rw [h.data]; exact hf
      have hg' : data m' i = some (.feat g) := by rw [h.data]; exact hg
      refine ⟨⟨p, ?_⟩, p, _, hpar, hf', by rw [h.edge_new]; simp⟩
      unfold parentFeature parentFeatureFuel
      rw [heap_of_data hg']
      simp only [hpar]
      rw [heap_of_data hf']
      rfl
    · obtain ⟨⟨q, hq⟩, p', d, h1, h2, h3⟩ := w.checked.link i hi hne
      refine ⟨⟨q, ?_⟩, p', d, by rw [h.par, upd_ne _ _ hic]; exact h1, by rw [h.data]; exact h2, ?_⟩
      · unfold parentFeature at hq ⊢
        rw [h.rest.next, moved_parentFeature h hfc _ i hic]
        exact hq
      · by_cases hpp : p' = p
        · subst hpp
          rw [h.edge_new]
          exact List.mem_append_left _ ((List.mem_erase_of_ne hic).2 h3)
        · rw [h.edge p' (w.par_edge i p' (.inl hi) h1).1 hpp]
          exact (List.mem_erase_of_ne hic).2 h3

/-- A subtree that is put below one of its own nodes is not below the root any more. -/
theorem moved_cut_off {m m' : FModel} {p c r : Id} (w : WF m) (h : Moved m m' p c) (hb : Below m c p) (hr : m.root = some r)
    (hc : m.root ≠ some c) : ∀ x, Below m c x → ¬ Below m' r x := by
  obtain ⟨r', f, hr', hkr, _, _, hpr⟩ := w.root_ok
  rw [hr] at hr'; cases hr'
  intro x hx hx'
  induction hx' with
  | refl =>
    cases hx with
    | refl => exact hc hr
    | step hp _ => rw [hpr] at hp; cases hp
  | @step i q hp _ ih =>
    by_cases hic : i = c
    · subst hic
      rw [h.par] at hp
      simp at hp
      subst hp
      exact ih hb
    · rw [h.par, upd_ne _ _ hic] at hp
      cases hx with
      | refl => exact hic rfl
      | step hp' hq => rw [hp] at hp'; cases hp'; exact ih hq

/-- In every model: a commit that moves a feature below one of its own descendants succeeds. The model passes the
    consistency check, keeps all its features, and none of the subtree is below the root. -/
theorem C17_every_cycle {m : FModel} (w : WF m) (E : Env) {pr cr : Ref} {p c r : Id} (hp : m.resolve pr = some p)
    (hc : m.resolve cr = some c) (hkp : Known m p) (hkc : Known m c) (hr : m.root = some r) (hrc : r ≠ c) (hcp : c ≠ p)
    (hb : Below m c p) :
    ∃ m', m.commitOps E [.addChild pr cr] = .ok m' ∧ m'.features = m.features ∧ par m' c = some p ∧ ¬ WF m' ∧
      ∀ x, Below m c x → ¬ Below m' r x := by
  have hrc' : m.root ≠ some c := by rw [hr]; simpa using hrc
  obtain ⟨m', h1, h2⟩ := execAddChild_ok w hp hc (.inl hkp) (.inl hkc) hrc' hcp
  have hcut := moved_cut_off w h2 hb hr hrc'
  refine ⟨m', ?_, h2.rest.features, by rw [h2.par]; simp, ?_, hcut⟩
  · unfold commitOps
    have : outFold (exec E) m [.addChild pr cr] = .ok m' := by
      show (match m.execAddChild pr cr with | .ok m => Out.ok m | o => o) = _
      rw [h1]
    rw [this]
    simp only [moved_consistent w h2 hkp hkc hrc' hcp E]
  · intro w'
    refine hcut c .refl (w'.reach c r (.inl ?_) (by rw [h2.rest.root]; exact hr))
    unfold Known
    rw [h2.rest.features]
    exact hkc

/-- So every model in which a feature other than the root has a descendant yields one that the check accepts and
    that is no tree. -/
theorem C16_every_cycle {m : FModel} (w : WF m) {p c : Id} (hkp : Known m p) (hkc : Known m c) (hrc : m.root ≠ some c)
    (hcp : c ≠ p) (hb : Below m c p) :
    ∃ m' : FModel, (∀ E, m'.consistent E = some true) ∧ m'.features = m.features ∧ m'.root = m.root ∧ Known m' c ∧
      ∀ r, m'.root = some r → ¬ Below m' r c := by
  obtain ⟨m', _, h2⟩ := execAddChild_ok w (pr := .ptr (some p)) (cr := .ptr (some c)) rfl rfl (.inl hkp) (.inl hkc) hrc hcp
  refine ⟨m', moved_consistent w h2 hkp hkc hrc hcp, h2.rest.features, h2.rest.root, ?_, ?_⟩
  · unfold Known; rw [h2.rest.features]; exact hkc
  · intro r hr
    rw [h2.rest.root] at hr
    exact moved_cut_off w h2 hb hr hrc c .refl

example : ∃ m', chain.commitOps (revEnv false) [.addChild (.name c!"B") (.name c!"A")] = .ok m' ∧ m'.features = chain.features ∧
    par m' 1 = some 2 ∧ ¬ WF m' ∧ ∀ x, Below chain 1 x → ¬ Below m' 0 x :=
  C17_every_cycle chain_wf (revEnv false) (by decide) (by decide) (by decide) (by decide) (by decide) (by decide) (by decide)
    (.step (by decide) .refl)

end Verif.Props

import Verif.FM.Examples
/-! Lemmas: consequences of the effects of the modifications. -/

namespace Verif
open Verif.Spec

/-! ### Moving -/

theorem moved_below {m m' : FModel} {p c : Id} (h : Moved m m' p c) (x : Id) : Below m' c x ↔ Below m c x := by
  have hp : ∀ y, y ≠ c → par m' y = par m y := fun y hy => by rw [h.par, upd_ne _ _ hy]
  constructor
  · intro hb
    induction hb with
    | refl => exact .refl
    | @step i q h1 _ ih =>
      by_cases hi : i = c
      · subst hi; exact .refl
      · rw [hp i hi] at h1; exact .step h1 ih
  · intro hb
    induction hb with
    | refl => exact .refl
    | @step i q h1 _ ih =>
      by_cases hi : i = c
      · subst hi; exact .refl
      · exact .step (by rw [hp i hi]; exact h1) ih

/-! ### Grouping -/

theorem fparent_transfer {m m' : FModel} (w : WF m) (hroot : ∀ r, m.root = some r → par m' r = none)
    (hlift : ∀ x q, Owned m x → FParent m x q → FParent m' x q) {x q : Id} (hx : Owned m x) :
    FParent m' x q ↔ FParent m x q := by
  constructor
  · intro h
    by_cases hr : m.root = some x
    · have := hroot x hr
      cases h with
      | direct h1 _ => rw [this] at h1; cases h1
      | skip h1 _ _ => rw [this] at h1; cases h1
    · obtain ⟨p, hp, _⟩ := w.has_fparent hx hr
      have := (hlift x p hx hp).functional h
      exact this ▸ hp
  · exact hlift x q hx

theorem grouped_fparent {m m' : FModel} {r p : Id} {k : RKind} {cs : List Id} (w : WF m) (hp : Known m p)
    (h : Grouped m m' r k p cs) {x q : Id} (hx : Owned m x) : FParent m' x q ↔ FParent m x q := by
  have hfree : ∀ y, Owned m y → y ≠ r := by
    rintro y ho rfl
    obtain ⟨d, hd⟩ := w.owned_data ho
    have := h.new
    rw [heap_of_data hd] at this
    cases this
  have hd : ∀ y, Owned m y → data m' y = data m y := fun y hy => by rw [h.data, upd_ne _ _ (hfree y hy)]
  have hcs : ∀ c ∈ cs, Owned m c ∧ par m c = some p := fun c hc => w.edge_par p c (.inl hp) ((h.mem c).1 hc).1
  refine fparent_transfer w ?_ ?_ hx
  · intro y hy
    rw [h.par, if_neg (hfree y (.inl (w.root_known hy))), if_neg, w.root_par hy]
    intro hc
    have := (hcs y hc).2
    rw [w.root_par hy] at this; cases this
  · intro y q hy hf
    induction hf with
    | @direct y q h1 h2 =>
      obtain ⟨h3, _⟩ := w.par_edge y q hy h1
      have hq' : IsFeat m' q := by obtain ⟨f, hf⟩ := h2; exact ⟨f, by rw [hd q h3]; exact hf⟩
      by_cases hc : y ∈ cs
      · have := (hcs y hc).2
        rw [h1] at this
        cases this
        refine .skip (r := r) ?_ ⟨k, by rw [h.data, upd_same]⟩ (.direct ?_ hq')
        · rw [h.par, if_neg (hfree y hy), if_pos hc]
        · rw [h.par, if_pos rfl]
      · exact .direct (by rw [h.par, if_neg (hfree y hy), if_neg hc]; exact h1) hq'
    | @skip y s q h1 h2 _ ih =>
      obtain ⟨h3, _⟩ := w.par_edge y s hy h1
      obtain ⟨k', hk'⟩ := h2
      have hc : y ∉ cs := by
        intro hc
        have := (hcs y hc).2
        rw [h1] at this
        cases this
        obtain ⟨f, hf⟩ := w.known_data hp
        rw [hk'] at hf; cases hf
      exact .skip (by rw [h.par, if_neg (hfree y hy), if_neg hc]; exact h1) ⟨k', by rw [hd s h3]; exact hk'⟩ (ih h3)

theorem ungrouped_fparent {m m' : FModel} {r p : Id} {cs : List Id} (w : WF m) (hp : Known m p)
    (hrp : r ∈ edg m p) (hrel : IsRel m r)
    (h : Ungrouped m m' r p cs) {x q : Id} (hx : Known m x) : FParent m' x q ↔ FParent m x q := by
  obtain ⟨hor, hpr⟩ := w.edge_par p r (.inl hp) hrp
  have hrr := w.owned_rel hor hrel
  have hne : ∀ y, Known m y → y ≠ r := by rintro y hy rfl; exact w.known_not_rel hy hrr
  have hcs : ∀ c ∈ cs, Owned m c ∧ par m c = some r := fun c hc => w.edge_par r c hor (h.perm.mem_iff.1 hc)
  have hd : ∀ y, y ≠ r → data m' y = data m y := fun y hy => by rw [h.data, upd_ne _ _ hy]
  have hlift : ∀ y q, FParent m y q → Owned m y → y ≠ r → FParent m' y q := by
    intro y q hf
    induction hf with
    | @direct y q h1 h2 =>
      intro hy hyr
      obtain ⟨f, hf⟩ := h2
      have hqr : q ≠ r := by
        rintro rfl
        obtain ⟨k, hk⟩ := hrel
        rw [hf] at hk; cases hk
      have hc : y ∉ cs := by
        intro hc
        have := (hcs y hc).2
        rw [h1] at this
        exact hqr (Option.some.inj this)
      exact .direct (by rw [h.par, if_neg hyr, if_neg hc]; exact h1) ⟨f, by rw [hd q hqr]; exact hf⟩
    | @skip y s q h1 h2 h3 ih =>
      intro hy hyr
      obtain ⟨h4, _⟩ := w.par_edge y s hy h1
      by_cases hsr : s = r
      · subst hsr
        have hq : q = p := h3.functional (.direct hpr (w.known_data hp))
        subst hq
        obtain ⟨f, hf⟩ := w.known_data hp
        have hys : y ∈ cs := h.perm.mem_iff.2 (w.par_edge y s hy h1).2
        exact .direct (by rw [h.par, if_neg hyr, if_pos hys]) ⟨f, by rw [hd q (hne q hp)]; exact hf⟩
      · obtain ⟨k, hk⟩ := h2
        have hc : y ∉ cs := by
          intro hc
          have := (hcs y hc).2
          rw [h1] at this
          exact hsr (Option.some.inj this)
        exact .skip (by rw [h.par, if_neg hyr, if_neg hc]; exact h1) ⟨k, by rw [hd s hsr]; exact hk⟩ (ih h4 hsr)
  constructor
  · intro hf
    by_cases hr : m.root = some x
    · have : par m' x = none := by
        rw [h.par, if_neg (hne x hx), if_neg, w.root_par hr]
        intro hc
        have := (hcs x hc).2
        rw [w.root_par hr] at this; cases this
      cases hf with
      | direct h1 _ => rw [this] at h1; cases h1
      | skip h1 _ _ => rw [this] at h1; cases h1
    · obtain ⟨p', hp', _⟩ := w.has_fparent (.inl hx) hr
      have := (hlift x p' hp' (.inl hx) (hne x hx)).functional hf
      exact this ▸ hp'
  · intro hf; exact hlift x q hf (.inl hx) (hne x hx)

theorem filter_perm_partition {cs : List Id} : ∀ {l : List Id}, l.Nodup → cs.Nodup → (∀ c ∈ cs, c ∈ l) →
    (l.filter (fun c => decide (c ∉ cs)) ++ cs).Perm l := by
  intro l hl hcs hsub
  refine (List.perm_ext_iff_of_nodup ?_ hl).2 ?_
  · rw [List.nodup_append]
    refine ⟨hl.filter _, hcs, ?_⟩
    intro a ha b hb e
    subst e
    have := (List.mem_filter.1 ha).2
    simp only [decide_eq_true_eq] at this
    exact this hb
  · intro a
    rw [List.mem_append, List.mem_filter]
    simp only [decide_eq_true_eq]
    constructor
    · rintro (⟨h, _⟩ | h)
      · exact h
      · exact hsub a h
    · intro h
      by_cases hc : a ∈ cs
      · exact .inr hc
      · exact .inl ⟨h, hc⟩

/-- `addRelationship` and then `removeRelationship` on a parent without relationships below it. -/
theorem group_ungroup {m : FModel} (w : WF m) (E E' : Env) {k : RKind} {pr : Ref} {p : Id}
    (hres : m.resolve pr = some p) (hp : Known m p) (hno : ∀ r, ¬ Via m isR p r) :
    ∃ m1 m2, m.execAddRelationship E k pr = .ok m1 ∧ m1.execRemoveRelationship E' pr = .ok m2 ∧
      data m2 = data m ∧ par m2 = par m ∧ (∀ j, j ≠ p → edg m2 j = edg m j) ∧ (edg m2 p).Perm (edg m p) ∧
      m2.features = m.features ∧ m2.rels = m.rels ∧ m2.root = m.root ∧ m2.name = m.name ∧ m2.path = m.path ∧
      m2.commit = m.commit ∧ m2.booleans = m.booleans ∧ m2.nonBooleans = m.nonBooleans ∧ m2.mixeds = m.mixeds := by
  have hfeat : ∀ c ∈ edg m p, IsFeat m c := by
    intro c hc
    obtain ⟨ho, _⟩ := w.edge_par p c (.inl hp) hc
    obtain ⟨d, hd⟩ := w.owned_data ho
    cases d with
    | feat f => exact ⟨f, hd⟩
    | rel k => exact absurd (.here hc hd rfl) (hno c)
  have hdir : ∀ c, Via m isF p c → c ∈ edg m p := by
    intro c hv
    cases hv with
    | here h _ _ => exact h
    | skip h hd hT _ =>
      obtain ⟨f, hf⟩ := hfeat _ h
      rw [hd] at hf; cases hf; cases hT
  obtain ⟨m1, cs, h1, h2, w1⟩ := execAddRelationship_ok w E (k := k) hres hp hdir
  have hfree : ∀ y, Owned m y → y ≠ m.next := by
    rintro y ho rfl
    exact w.not_owned_next ho
  have hpr := hfree p (.inl hp)
  have hcsall : ∀ c, c ∈ cs ↔ c ∈ edg m p := fun c => by
    rw [h2.mem]; exact ⟨fun h => h.1, fun h => ⟨h, hfeat c h⟩⟩
  have hedp : edg m1 p = [m.next] := by
    rw [h2.edge_p]
    have : (edg m p).filter (fun c => decide (c ∉ cs)) = [] := by
      rw [List.filter_eq_nil_iff]
      intro c hc
      simp [(hcsall c).2 hc]
    rw [this]; rfl
  have hres1 : m1.resolve pr = some p := by
    cases pr with
    | name n => rw [← hres]; exact congrFun (getFeature_congr h2.features) n
    | ptr i => exact hres
  have hp1 : Known m1 p := by unfold Known; rw [h2.features]; exact hp
  have hdr : data m1 m.next = some (.rel k) := by rw [h2.data, upd_same]
  have hvia : ∀ r, Via m1 isR p r → r = m.next := by
    intro r hv
    cases hv with
    | here h _ _ => rw [hedp] at h; simpa using h
    | skip h hd hT _ =>
      rw [hedp] at h
      simp at h
      subst h
      rw [hdr] at hd; cases hd; cases hT
  obtain ⟨m2, r, cs', k1, k2, k3, k4, _⟩ := execRemoveRelationship_ok w1 E' hres1 hp1
    ⟨m.next, .here (by rw [hedp]; simp) hdr rfl⟩ (by
      intro r hv
      have := hvia r hv
      subst this
      refine ⟨by rw [hedp]; simp, ?_⟩
      intro c hc
      rw [h2.edge_r] at hc
      obtain ⟨f, hf⟩ := hfeat c ((hcsall c).1 hc)
      refine ⟨f, ?_⟩
      rw [h2.data, upd_ne _ _ (hfree c (w.edge_par p c (.inl hp) ((hcsall c).1 hc)).1)]
      exact hf)
  have hr : r = m.next := by rw [hedp] at k2; simpa using k2
  subst hr
  have hcs' : cs'.Perm (edg m p) := by
    have h3 := k4.perm
    rw [h2.edge_r] at h3
    refine h3.trans ((List.perm_ext_iff_of_nodup h2.nodup (w.edges_nodup p (.inl hp))).2 hcsall)
  refine ⟨m1, m2, h1, k1, ?_, ?_, ?_, ?_, by rw [k4.features, h2.features], ?_, by rw [k4.root, h2.root],
    by rw [k4.name, h2.name], by rw [k4.path, h2.path], by rw [k4.commit, h2.commit],
    by rw [k4.booleans, h2.booleans], by rw [k4.nonBooleans, h2.nonBooleans], by rw [k4.mixeds, h2.mixeds]⟩
  · funext j
    rw [k4.data, h2.data]
    by_cases hj : j = m.next
    · rw [hj, upd_same]; exact (data_none.2 w.next_none).symm
    · rw [upd_ne _ _ hj, upd_ne _ _ hj]
  · funext j
    rw [k4.par, h2.par]
    by_cases hj : j = m.next
    · rw [if_pos hj, hj]
      have hn := w.next_none
      unfold par; rw [hn]; rfl
    · rw [if_neg hj, if_neg hj]
      by_cases hc : j ∈ edg m p
      · rw [if_pos (hcs'.mem_iff.2 hc), (w.edge_par p j (.inl hp) hc).2]
      · rw [if_neg (fun h => hc (hcs'.mem_iff.1 h)), if_neg (fun h => hc ((hcsall j).1 h))]
  · intro j hjp
    by_cases hj : j = m.next
    · rw [hj, edg_none w.next_none]
      have : data m2 m.next = none := by rw [k4.data, upd_same]
      exact edg_none (data_none.1 this)
    · rw [k4.edge j hjp hj, h2.edge j hjp hj]
  · rw [k4.edge_p, hedp]
    simp only [List.erase_cons_head, List.nil_append]
    exact hcs'
  · rw [k4.rels, h2.rels]
    have : m.next ∉ m.rels := fun h => w.not_owned_next (.inr h)
    rw [List.erase_append_right _ this]
    simp

/-! ### What the consistency check establishes -/

theorem allM_iff {α} {p : α → Option Bool} : ∀ {l : List α}, FModel.allM p l = some true → ∀ x ∈ l, p x = some true
  | [], _, x, hx => by cases hx
  | y :: ys, h, x, hx => by
    unfold FModel.allM at h
    cases hy : p y with
    | none => rw [hy] at h; cases h
    | some b =>
      cases b with
      | false => rw [hy] at h; cases h
      | true =>
        rw [hy] at h
        rcases List.mem_cons.1 hx with rfl | hx
        · exact hy
        · exact allM_iff h x hx

theorem parentFeatureFuel_sound {m : FModel} : ∀ {fuel : Nat} {i p : Id},
    m.parentFeatureFuel fuel i = some (some p) → FParent m i p
  | 0, _, _, h => by cases h
  | fuel + 1, i, p, h => by
    unfold FModel.parentFeatureFuel at h
    cases hn : m.heap i with
    | none => rw [hn] at h; cases h
    | some n =>
      rw [hn] at h
      simp only at h
      cases hp : n.parent with
      | none => rw [hp] at h; cases h
      | some q =>
        rw [hp] at h
        simp only at h
        have hpar : par m i = some q := by rw [par_of_heap hn]; exact hp
        cases hq : m.heap q with
        | none => rw [hq] at h; cases h
        | some qn =>
          rw [hq] at h
          simp only at h
          cases hd : qn.data with
          | feat f =>
            have : qn.isFeat = true := by simp [Node.isFeat, hd]
            rw [if_pos this] at h
            cases h
            exact .direct hpar ⟨f, by rw [data_of_heap hq, hd]⟩
          | rel k =>
            have : qn.isFeat = false := by simp [Node.isFeat, hd]
            rw [if_neg (by simp [this])] at h
            exact .skip hpar ⟨k, by rw [data_of_heap hq, hd]⟩ (parentFeatureFuel_sound h)

end Verif

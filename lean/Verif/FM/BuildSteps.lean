import Verif.FM.Describe
/-! Lemmas: what each builder step does to a described model. -/

namespace Verif
open Verif.Spec

theorem mem_features_fst {m : FModel} {n : Str} : n ∈ m.features.map Prod.fst ↔ ∃ i, (n, i) ∈ m.features := by
  simp [List.mem_map]

theorem Spec.WF.entry_unique {m : FModel} (w : WF m) {n : Str} {i j : Id} (h : (n, i) ∈ m.features)
    (h' : (n, j) ∈ m.features) : i = j := by
  have h1 := getFeature_mem w.names h
  have h2 := getFeature_mem w.names h'
  rw [h1] at h2; exact Option.some.inj h2

theorem Spec.WF.id_unique {m : FModel} (w : WF m) {n k : Str} {i : Id} (h : (n, i) ∈ m.features)
    (h' : (k, i) ∈ m.features) : n = k := by
  obtain ⟨f, h1, h2⟩ := w.feat_ok _ h
  obtain ⟨g, h3, h4⟩ := w.feat_ok _ h'
  simp only at h1 h2 h3 h4
  rw [h1] at h3; cases h3
  rw [← h2, ← h4]

theorem known_of_mem {m : FModel} {n : Str} {i : Id} (h : (n, i) ∈ m.features) : Known m i :=
  List.mem_map_of_mem (f := Prod.snd) h

theorem known_name {m : FModel} {i : Id} (h : Known m i) : ∃ n, (n, i) ∈ m.features := by
  obtain ⟨e, he, rfl⟩ := List.mem_map.1 h
  exact ⟨e.1, he⟩

/-- The parent feature is kept if parents and kinds are. -/
theorem fparent_mono {m m' : FModel} (w : WF m) (hp : ∀ x, Owned m x → par m' x = par m x)
    (hf : ∀ x, Owned m x → IsFeat m x → IsFeat m' x) (hr : ∀ x, Owned m x → IsRel m x → IsRel m' x) {x q : Id}
    (hx : Owned m x) (h : FParent m x q) : FParent m' x q := by
  induction h with
  | direct h1 h2 => exact .direct (by rw [hp _ hx]; exact h1) (hf _ (w.par_edge _ _ hx h1).1 h2)
  | skip h1 h2 _ ih =>
    have := (w.par_edge _ _ hx h1).1
    exact .skip (by rw [hp _ hx]; exact h1) (hr _ this h2) (ih this)

theorem Spec.Describes.no_rels {d : Desc} {m : FModel} (h : Describes d m) (hg : d.groups = []) : m.rels = [] := by
  cases hr : m.rels with
  | nil => rfl
  | cons r rs =>
    obtain ⟨n, k, i, h1, _⟩ := h.rels r (by rw [hr]; exact List.mem_cons_self ..)
    rw [hg] at h1; cases h1

theorem flat_par {m : FModel} (w : WF m) (hr : m.rels = []) {x q : Id} (hx : Owned m x) :
    FParent m x q ↔ par m x = some q := by
  constructor
  · intro h
    cases h with
    | direct h1 _ => exact h1
    | skip h1 h2 _ =>
      have := w.owned_rel (w.par_edge _ _ hx h1).1 h2
      rw [hr] at this; cases this
  · intro h
    have ho := (w.par_edge _ _ hx h).1
    refine .direct h (w.known_data ?_)
    rcases ho with ho | ho
    · exact ho
    · rw [hr] at ho; cases ho

theorem flat_known {m : FModel} (hr : m.rels = []) {x : Id} (hx : Owned m x) : Known m x := by
  rcases hx with h | h
  · exact h
  · rw [hr] at h; cases h

theorem Spec.Describes.ofClass_nil {d : Desc} (hc : d.constraints = []) (cl : CClass) : d.ofClass cl = [] := by
  simp [Desc.ofClass, hc]

theorem Spec.Describes.store_nil {d : Desc} {m : FModel} (h : Describes d m) (hc : d.constraints = []) (cl : CClass) :
    m.store cl = [] := by
  rw [h.store, Spec.Describes.ofClass_nil hc]; rfl

theorem store_eq {m m' : FModel} (h1 : m'.booleans = m.booleans) (h2 : m'.nonBooleans = m.nonBooleans)
    (h3 : m'.mixeds = m.mixeds) (cl : CClass) : m'.store cl = m.store cl := by
  cases cl <;> simp [FModel.store, h1, h2, h3]

/-- The lists of a feature that is in no constraint. -/
def Unlisted (f : Feat) : Prop := f.constraints = [] ∧ f.implications = [] ∧ f.excludes = []

theorem registered_nil {m : FModel} (hs : ∀ cl, m.store cl = []) :
    Registered m ↔ ∀ i f, Known m i → data m i = some (.feat f) → Unlisted f := by
  constructor
  · intro h i f hk hd
    obtain ⟨h1, h2, h3, _⟩ := h i f hk hd
    refine ⟨List.eq_nil_iff_forall_not_mem.2 fun l hl => ?_, List.eq_nil_iff_forall_not_mem.2 fun l hl => ?_,
      List.eq_nil_iff_forall_not_mem.2 fun l hl => ?_⟩
    · obtain ⟨s, h, _⟩ := (h1 l).1 hl; rw [hs] at h; simp at h
    · obtain ⟨s, h, _⟩ := (h2 l).1 hl; rw [hs] at h; simp at h
    · obtain ⟨s, h, _⟩ := (h3 l).1 hl; rw [hs] at h; simp at h
  · intro h i f hk hd
    obtain ⟨h1, h2, h3⟩ := h i f hk hd
    simp [h1, h2, h3, hs]

/-! ### `addFeature` -/

theorem describes_addFeature {d : Desc} {m : FModel} (E : Env) (h : Describes d m) (hg : d.groups = [])
    (hc : d.constraints = []) (hp : d.parent = fun _ => d.root) {a : Attr} (hk : a.kind ≠ .root)
    (hn : a.name ≠ d.root) (hn' : a.name ∉ d.attrs.map Attr.name) :
    ∃ m', m.exec E (.addFeature a none) = .ok m' ∧ Describes { d with attrs := d.attrs ++ [a] } m' := by
  have w := h.wf
  have hfr := h.no_rels hg
  have hnew : a.name ∉ m.features.map Prod.fst := by
    rw [mem_features_fst, h.names]; rintro (h | h)
    · exact hn h
    · exact hn' h
  obtain ⟨m', p, h1, h2, h3, h4, h5⟩ := execAddFeature_ok w (parent := none) hnew (by intro i hi; cases hi)
  have hroot : m.root = some p := by
    rcases h5 with h5 | ⟨_, h5⟩
    · cases h5
    · exact h5
  refine ⟨m', h1, ?_⟩
  have w' : WF m' := wf_of_added w h2 (by rw [h3]; exact Nat.lt_succ_self m.next) (by rw [h3]; exact Nat.le_succ m.next) hnew h4 hk
  have hne : ∀ x, Owned m x → x ≠ m.next := by rintro x hx rfl; exact w.not_owned_next hx
  have hd : ∀ x, Owned m x → data m' x = data m x := fun x hx => by rw [h2.data, upd_ne _ _ (hne x hx)]
  have hpar : ∀ x, Owned m x → par m' x = par m x := fun x hx => by rw [h2.par, upd_ne _ _ (hne x hx)]
  have hmono : ∀ {x q}, Owned m x → FParent m x q → FParent m' x q := fun hx hq =>
    fparent_mono w hpar (fun x hx ⟨f, hf⟩ => ⟨f, by rw [hd x hx]; exact hf⟩)
      (fun x hx ⟨f, hf⟩ => ⟨f, by rw [hd x hx]; exact hf⟩) hx hq
  have hfeat : ∀ e, e ∈ m'.features ↔ e ∈ m.features ∨ e = (a.name, m.next) := by intro e; rw [h2.features]; simp
  have hst := fun cl => (store_eq h2.booleans h2.nonBooleans h2.mixeds cl).trans (h.store_nil hc cl)
  obtain ⟨ri, rf, r1, r2, r3, r4⟩ := h.root
  rw [hroot] at r1; cases r1
  have hr' : m'.rels = [] := by rw [h2.rels]; exact hfr
  have hkp : Known m' p := known_of_mem ((hfeat _).2 (.inl r2))
  refine
    { wf := w'
      bound := bound_keep h.bound (allStored_eq h2.booleans h2.nonBooleans h2.mixeds) (fun e he _ => (hfeat e).2 (.inl he))
      name := by rw [h2.name]; exact h.name
      path := by rw [h2.path]; exact h.path
      commit := by rw [h2.commit]; exact h.commit
      distinct := ?_
      root_new := ?_
      names := ?_
      root := ⟨p, rf, by rw [h2.root]; exact hroot, (hfeat _).2 (.inl r2), by rw [hd p h4]; exact r3, r4⟩
      feat := ?_
      groups_known := by intro g hgg; rw [hg] at hgg; cases hgg
      grouped := by intro n k i hn; rw [hg] at hn; cases hn
      ungrouped := ?_
      rels := by intro r hr; rw [hr'] at hr; cases hr
      store := fun cl => by rw [hst cl, Describes.ofClass_nil (d := { d with attrs := d.attrs ++ [a] }) hc]; rfl
      registered := ?_ }
  · simp only [List.map_append, List.map_cons, List.map_nil]
    rw [List.nodup_append]
    refine ⟨h.distinct, by simp, ?_⟩
    intro x hx y hy
    simp at hy; subst hy
    rintro rfl; exact hn' hx
  · simp only [List.map_append, List.map_cons, List.map_nil, List.mem_append, List.mem_singleton]
    rintro (h' | h')
    · exact h.root_new h'
    · exact hn h'.symm
  · intro n
    simp only [hfeat, List.map_append, List.map_cons, List.map_nil, List.mem_append, List.mem_singleton]
    rw [exists_or, h.names n]
    constructor
    · rintro ((h' | h') | ⟨i, h'⟩)
      · exact .inl h'
      · exact .inr (.inl h')
      · cases h'; exact .inr (.inr rfl)
    · rintro (h' | h' | rfl)
      · exact .inl (.inl h')
      · exact .inl (.inr h')
      · exact .inr ⟨_, rfl⟩
  · intro b hb
    rcases List.mem_append.1 hb with hb | hb
    · obtain ⟨i, f, q, f1, f2, f3, f4, f5⟩ := h.feat b hb
      have ho : Owned m i := .inl (known_of_mem f1)
      exact ⟨i, f, q, (hfeat _).2 (.inl f1), by rw [hd i ho]; exact f2, f3, (hfeat _).2 (.inl f4), hmono ho f5⟩
    · rw [List.mem_singleton] at hb; subst hb
      refine ⟨m.next, _, p, (hfeat _).2 (.inr rfl), by rw [h2.data, upd_same], rfl, ?_, ?_⟩
      · rw [hp]; exact (hfeat _).2 (.inl r2)
      · exact .direct (by rw [h2.par, upd_same]) (w'.known_data hkp)
  · intro n i hi _ c hc
    exact w'.known_data (flat_known hr' (w'.edge_par i c (.inl (known_of_mem hi)) hc).1)
  · refine (registered_nil hst).2 ?_
    intro i f hk' hdf
    obtain ⟨n, hni⟩ := known_name hk'
    rcases (hfeat _).1 hni with h' | h'
    · have ho := known_of_mem h'
      rw [hd i (.inl ho)] at hdf
      exact (registered_nil (h.store_nil hc)).1 h.registered i f ho hdf
    · cases h'
      rw [h2.data, upd_same] at hdf; cases hdf
      exact ⟨rfl, rfl, rfl⟩

/-! ### `setRoot` -/

theorem describes_setRoot {d : Desc} {m : FModel} (E : Env) (h : Describes d m) (hg : d.groups = [])
    (hc : d.constraints = []) (hp : d.parent = fun _ => d.root) {n : Str} (hn : n ∉ d.attrs.map Attr.name) :
    ∃ m', m.exec E (.setRoot n) = .ok m' ∧ Describes { d with root := n, parent := fun _ => n } m' := by
  have w := h.wf
  have hfr := h.no_rels hg
  obtain ⟨r, rf, r1, r2, r3, r4⟩ := h.root
  by_cases hne : d.root = n
  · subst hne
    refine ⟨m, ?_, ?_⟩
    · show m.execSetRoot d.root = _
      have := execSetRoot_same r1 r3
      rw [r4] at this; exact this
    · have : ({ d with root := d.root, parent := fun _ => d.root } : Desc) = d := by rw [← hp]
      rw [this]; exact h
  have hnew : n ∉ m.features.map Prod.fst := by
    rw [mem_features_fst, h.names]; rintro (h | h)
    · exact hne h.symm
    · exact hn h
  obtain ⟨m', h1, h2⟩ := execSetRoot_ok w r1 r3 (by rw [r4]; exact hne) hnew
  have w' := wf_of_rerooted w r1 h2 rfl
  refine ⟨m', h1, ?_⟩
  have hst := fun cl => (store_eq h2.booleans h2.nonBooleans h2.mixeds cl).trans (h.store_nil hc cl)
  have hr' : m'.rels = [] := by rw [h2.rels]; exact hfr
  have hnx : ∀ x, Owned m x → x ≠ m.next := by rintro x hx rfl; exact w.not_owned_next hx
  have hrk : Known m r := known_of_mem r2
  have hrn : m.next ≠ r := fun e => hnx r (.inl hrk) e.symm
  have hd : ∀ x, Owned m x → x ≠ r → data m' x = data m x := fun x hx hxr => by
    rw [h2.data, upd_ne _ _ hxr, upd_ne _ _ (hnx x hx)]
  have hin : (n, m.next) ∈ m'.features := (h2.features _).2 (.inr rfl)
  have hdi : data m' m.next = some (.feat { attr := { name := n, kind := .root } }) := by
    rw [h2.data, upd_ne _ _ hrn, upd_same]
  have hold : ∀ k x, (k, x) ∈ m.features → k ≠ d.root → (k, x) ∈ m'.features ∧ x ≠ r := by
    intro k x hx hk
    have : x ≠ r := by rintro rfl; exact hk (w.id_unique hx r2)
    exact ⟨(h2.features _).2 (.inl ⟨hx, this⟩), this⟩
  have hsm : allStored m' = [] := by
    rw [allStored_eq h2.booleans h2.nonBooleans h2.mixeds]
    have e1 := h.store_nil hc .boolean
    have e2 := h.store_nil hc .nonBoolean
    have e3 := h.store_nil hc .mixed
    simp only [FModel.store] at e1 e2 e3
    simp [allStored, e1, e2, e3]
  refine
    { wf := w'
      bound := ⟨(by intro s hs; rw [hsm] at hs; cases hs), (by intro s hs; rw [hsm] at hs; cases hs)⟩
      name := by rw [h2.name]; exact h.name
      path := by rw [h2.path]; exact h.path
      commit := by rw [h2.commit]; exact h.commit
      distinct := h.distinct
      root_new := hn
      names := ?_
      root := ⟨m.next, _, h2.root, hin, hdi, rfl⟩
      feat := ?_
      groups_known := by intro g hgg; rw [hg] at hgg; cases hgg
      grouped := by intro n k i hn; rw [hg] at hn; cases hn
      ungrouped := ?_
      rels := by intro r hr; rw [hr'] at hr; cases hr
      store := fun cl => by rw [hst cl, Describes.ofClass_nil (d := { d with root := n, parent := fun _ => n }) hc]; rfl
      registered := ?_ }
  · intro k
    simp only [h2.features]
    constructor
    · rintro ⟨i, ⟨hi, hir⟩ | hi⟩
      · rcases (h.names k).1 ⟨i, hi⟩ with rfl | h'
        · exact absurd (w.entry_unique hi r2) hir
        · exact .inr h'
      · cases hi; exact .inl rfl
    · rintro (rfl | h')
      · exact ⟨_, .inr rfl⟩
      · obtain ⟨i, hi⟩ := (h.names k).2 (.inr h')
        refine ⟨i, .inl ⟨hi, ?_⟩⟩
        exact (hold k i hi (by rintro rfl; exact h.root_new h')).2
  · intro a ha
    obtain ⟨i, f, q, f1, f2, f3, f4, f5⟩ := h.feat a ha
    have hio : Owned m i := .inl (known_of_mem f1)
    have hanr : a.name ≠ d.root := by
      intro e; exact h.root_new (e ▸ List.mem_map_of_mem (f := Attr.name) ha)
    obtain ⟨g1, g2⟩ := hold _ i f1 hanr
    have hq : q = r := by rw [hp] at f4; exact w.entry_unique f4 r2
    subst hq
    have hpi := (flat_par w hfr hio).1 f5
    refine ⟨i, f, m.next, g1, by rw [hd i hio g2]; exact f2, f3, hin, .direct ?_ ⟨_, hdi⟩⟩
    rw [h2.par, if_pos (w.par_edge i q hio hpi).2]
  · intro k i hi _ c hc
    exact w'.known_data (flat_known hr' (w'.edge_par i c (.inl (known_of_mem hi)) hc).1)
  · refine (registered_nil hst).2 ?_
    intro i f hk' hdf
    obtain ⟨k, hni⟩ := known_name hk'
    rcases (h2.features _).1 hni with ⟨h', hr⟩ | h'
    · have ho := known_of_mem h'
      rw [hd i (.inl ho) hr] at hdf
      exact (registered_nil (h.store_nil hc)).1 h.registered i f ho hdf
    · cases h'
      rw [hdi] at hdf; cases hdf
      exact ⟨rfl, rfl, rfl⟩

/-! ### `addChild` -/

/-- The parent map with one entry changed. -/
def setParentOf (f : Str → Str) (c p : Str) : Str → Str := fun x => if x = c then p else f x

theorem describes_addChild {d : Desc} {m : FModel} (E : Env) (h : Describes d m) (hg : d.groups = [])
    (hc : d.constraints = []) {p c : Str} (hcn : c ∈ d.attrs.map Attr.name) (hpn : p = d.root ∨ p ∈ d.attrs.map Attr.name)
    (rk : Str → Nat) (hrk : ∀ a ∈ d.attrs, rk (d.parent a.name) < rk a.name) (hpc : rk p < rk c) :
    ∃ m', m.exec E (.addChild (.name p) (.name c)) = .ok m' ∧ Describes { d with parent := setParentOf d.parent c p } m' := by
  have w := h.wf
  have hfr := h.no_rels hg
  obtain ⟨ci, hci⟩ := (h.names c).2 (.inr hcn)
  obtain ⟨pi, hpi⟩ := (h.names p).2 hpn
  have hco : Owned m ci := .inl (known_of_mem hci)
  have hpo : Owned m pi := .inl (known_of_mem hpi)
  obtain ⟨r, rf, r1, r2, r3, r4⟩ := h.root
  have hroot : m.root ≠ some ci := by
    intro e
    rw [r1] at e; cases e
    exact h.root_new (w.id_unique hci r2 ▸ hcn)
  have hnb : ∀ x, Below m ci x → ∀ n, (n, x) ∈ m.features → rk c ≤ rk n := by
    intro x hb
    induction hb with
    | refl => intro n hn; rw [w.id_unique hn hci]; exact Nat.le_refl _
    | @step x q h1 h2 ih =>
      intro n hn
      rcases (h.names n).1 ⟨x, hn⟩ with rfl | hn'
      · rw [w.entry_unique hn r2, w.root_par r1] at h1; cases h1
      · obtain ⟨a, ha, rfl⟩ := List.mem_map.1 hn'
        obtain ⟨i, f, q', f1, f2, f3, f4, f5⟩ := h.feat a ha
        have := w.entry_unique f1 hn
        subst this
        have hq := (flat_par w hfr (.inl (known_of_mem f1))).1 f5
        rw [h1] at hq; cases hq
        exact Nat.le_trans (ih _ f4) (Nat.le_of_lt (hrk a ha))
  have hbel : ¬ Below m ci pi := fun hb => absurd (hnb pi hb p hpi) (Nat.not_le.2 hpc)
  have hne : ci ≠ pi := by rintro rfl; exact hbel .refl
  obtain ⟨m', h1, h2⟩ := execAddChild_ok (pr := .name p) (cr := .name c) w (getFeature_mem w.names hpi) (getFeature_mem w.names hci)
    hpo hco hroot hne
  have w' := wf_of_moved w h2 hpo hco hroot hbel
  refine ⟨m', h1, ?_⟩
  have hst := fun cl => (store_eq h2.rest.booleans h2.rest.nonBooleans h2.rest.mixeds cl).trans (h.store_nil hc cl)
  have hr' : m'.rels = [] := by rw [h2.rest.rels]; exact hfr
  refine
    { wf := w'
      bound := bound_keep h.bound (allStored_eq h2.rest.booleans h2.rest.nonBooleans h2.rest.mixeds)
        (fun e he _ => by rw [h2.rest.features]; exact he)
      name := by rw [h2.rest.name]; exact h.name
      path := by rw [h2.rest.path]; exact h.path
      commit := by rw [h2.rest.commit]; exact h.commit
      distinct := h.distinct
      root_new := h.root_new
      names := by intro n; rw [h2.rest.features]; exact h.names n
      root := ⟨r, rf, by rw [h2.rest.root]; exact r1, by rw [h2.rest.features]; exact r2, by rw [h2.data]; exact r3, r4⟩
      feat := ?_
      groups_known := by intro g hgg; rw [hg] at hgg; cases hgg
      grouped := by intro n k i hn; rw [hg] at hn; cases hn
      ungrouped := ?_
      rels := by intro r hr; rw [hr'] at hr; cases hr
      store := fun cl => by
        rw [hst cl, Describes.ofClass_nil (d := { d with parent := setParentOf d.parent c p }) hc]; rfl
      registered := ?_ }
  · intro a ha
    obtain ⟨i, f, q, f1, f2, f3, f4, f5⟩ := h.feat a ha
    rw [h2.rest.features, h2.data]
    by_cases hac : a.name = c
    · have : i = ci := w.entry_unique f1 (hac ▸ hci)
      subst this
      refine ⟨i, f, pi, f1, f2, f3, by simp only [setParentOf, if_pos hac]; exact hpi, .direct ?_ ?_⟩
      · rw [h2.par, upd_same]
      · obtain ⟨g, hg⟩ := w.known_data (known_of_mem hpi)
        exact ⟨g, by rw [h2.data]; exact hg⟩
    · have hne : i ≠ ci := by rintro rfl; exact hac (w.id_unique f1 hci)
      refine ⟨i, f, q, f1, f2, f3, by simp only [setParentOf, if_neg hac]; exact f4, .direct ?_ ?_⟩
      · rw [h2.par, upd_ne _ _ hne]
        exact (flat_par w hfr (.inl (known_of_mem f1))).1 f5
      · obtain ⟨g, hg⟩ := w.known_data (known_of_mem f4)
        exact ⟨g, by rw [h2.data]; exact hg⟩
  · intro k i hi _ c hc
    exact w'.known_data (flat_known hr' (w'.edge_par i c (.inl (known_of_mem hi)) hc).1)
  · refine (registered_nil hst).2 ?_
    intro i f hk' hdf
    have ho : Known m i := by unfold Known at *; rw [h2.rest.features] at hk'; exact hk'
    rw [h2.data] at hdf
    exact (registered_nil (h.store_nil hc)).1 h.registered i f ho hdf

/-! ### `addRelationship` -/

theorem describes_addRelationship {d : Desc} {m : FModel} (E : Env) (h : Describes d m) {k : RKind} {n : Str}
    (hn : n = d.root ∨ n ∈ d.attrs.map Attr.name) (hng : ∀ k, (n, k) ∉ d.groups) :
    ∃ m', m.exec E (.addRelationship k (.name n)) = .ok m' ∧ Describes { d with groups := d.groups ++ [(n, k)] } m' := by
  have w := h.wf
  obtain ⟨i, hi⟩ := (h.names n).2 hn
  have hk := known_of_mem hi
  have hall := h.ungrouped n i hi hng
  obtain ⟨m', cs, h1, h2, w'⟩ := execAddRelationship_ok w E (k := k) (pr := .name n) (getFeature_mem w.names hi) hk (by
    intro c hv
    cases hv with
    | here h1 _ _ => exact h1
    | skip h1 h2 h3 _ =>
      obtain ⟨f, hf⟩ := hall _ h1
      rw [h2] at hf; cases hf; cases h3)
  refine ⟨m', h1, ?_⟩
  have hfree : ∀ y, Owned m y → y ≠ m.next := by rintro y hy rfl; exact w.not_owned_next hy
  have hd : ∀ y, Owned m y → data m' y = data m y := fun y hy => by rw [h2.data, upd_ne _ _ (hfree y hy)]
  have hcs : ∀ c, c ∈ cs ↔ c ∈ edg m i := fun c => ⟨fun hc => ((h2.mem c).1 hc).1, fun hc => (h2.mem c).2 ⟨hc, hall c hc⟩⟩
  have hei : edg m' i = [m.next] := by
    rw [h2.edge_p]
    have : (edg m i).filter (fun c => decide (c ∉ cs)) = [] := by
      rw [List.filter_eq_nil_iff]
      intro c hc
      simp [(hcs c).2 hc]
    rw [this]; rfl
  have hownc : ∀ x, Owned m x → ∀ c ∈ edg m x, Owned m c := fun x hx c hc => (w.edge_par x c hx hc).1
  have hisf : ∀ c, Owned m c → IsFeat m c → IsFeat m' c := fun c hc ⟨f, hf⟩ => ⟨f, by rw [hd c hc]; exact hf⟩
  have hir : ∀ j, Owned m j → j ≠ i → edg m' j = edg m j := fun j hj hne => h2.edge j hne (hfree j hj)
  obtain ⟨r, rf, r1, r2, r3, r4⟩ := h.root
  have hget : m'.getFeature = m.getFeature := getFeature_congr h2.features
  have hstore := fun cl => store_eq h2.booleans h2.nonBooleans h2.mixeds cl
  refine
    { wf := w'
      bound := bound_keep h.bound (allStored_eq h2.booleans h2.nonBooleans h2.mixeds)
        (fun e he _ => by rw [h2.features]; exact he)
      name := by rw [h2.name]; exact h.name
      path := by rw [h2.path]; exact h.path
      commit := by rw [h2.commit]; exact h.commit
      distinct := h.distinct
      root_new := h.root_new
      names := by intro n; rw [h2.features]; exact h.names n
      root := ⟨r, rf, by rw [h2.root]; exact r1, by rw [h2.features]; exact r2,
        by rw [hd r (.inl (known_of_mem r2))]; exact r3, r4⟩
      feat := ?_
      groups_known := by
        intro g hg
        rcases List.mem_append.1 hg with hg | hg
        · exact h.groups_known g hg
        · rw [List.mem_singleton] at hg; subst hg; exact hn
      grouped := ?_
      ungrouped := ?_
      rels := ?_
      store := fun cl => by rw [hstore, hget]; exact h.store cl
      registered := ?_ }
  · intro a ha
    obtain ⟨j, f, q, f1, f2, f3, f4, f5⟩ := h.feat a ha
    have hj : Owned m j := .inl (known_of_mem f1)
    exact ⟨j, f, q, by rw [h2.features]; exact f1, by rw [hd j hj]; exact f2, f3, by rw [h2.features]; exact f4,
      (grouped_fparent w hk h2 hj).2 f5⟩
  · intro n' k' j hg hj
    rw [h2.features] at hj
    rcases List.mem_append.1 hg with hg | hg
    · obtain ⟨r, g1, g2, g3⟩ := h.grouped n' k' j hg hj
      have hjo : Owned m j := .inl (known_of_mem hj)
      have hne : j ≠ i := by
        rintro rfl
        exact hng k' (w.id_unique hj hi ▸ hg)
      have hro : Owned m r := hownc j hjo r (by rw [g1]; simp)
      have hre : r ≠ i := by
        rintro rfl
        obtain ⟨f, hf⟩ := w.known_data hk
        rw [g2] at hf; cases hf
      refine ⟨r, by rw [hir j hjo hne]; exact g1, by rw [hd r hro]; exact g2, ?_⟩
      intro c hc
      rw [hir r hro hre] at hc
      exact hisf c (hownc r hro c hc) (g3 c hc)
    · rw [List.mem_singleton] at hg
      cases hg
      have := w.entry_unique hj hi
      subst this
      refine ⟨m.next, hei, by rw [h2.data, upd_same], ?_⟩
      intro c hc
      rw [h2.edge_r] at hc
      have hc := (hcs c).1 hc
      exact hisf c (hownc j (.inl hk) c hc) (hall c hc)
  · intro n' j hj hg c hc
    rw [h2.features] at hj
    have hjo : Owned m j := .inl (known_of_mem hj)
    have hne : j ≠ i := by
      rintro rfl
      have := w.id_unique hj hi
      subst this
      exact hg k (List.mem_append_right _ (List.mem_singleton.2 rfl))
    rw [hir j hjo hne] at hc
    exact hisf c (hownc j hjo c hc) (h.ungrouped n' j hj (fun k' hk' => hg k' (List.mem_append_left _ hk')) c hc)
  · intro r hr
    rw [h2.rels] at hr
    rcases List.mem_append.1 hr with hr | hr
    · obtain ⟨n', k', j, g1, g2, g3⟩ := h.rels r hr
      refine ⟨n', k', j, List.mem_append_left _ g1, by rw [h2.features]; exact g2, ?_⟩
      rw [h2.par, if_neg (hfree r (.inr hr)), if_neg, g3]
      intro hc
      obtain ⟨f, hf⟩ := hall r ((hcs r).1 hc)
      obtain ⟨k'', hk''⟩ := w.rel_ok r hr
      rw [hk''] at hf; cases hf
    · rw [List.mem_singleton] at hr; subst hr
      exact ⟨n, k, i, List.mem_append_right _ (List.mem_singleton.2 rfl), by rw [h2.features]; exact hi,
        by rw [h2.par, if_pos rfl]⟩
  · intro j f hj hdf
    have ho : Known m j := by unfold Known at *; rw [h2.features] at hj; exact hj
    rw [hd j (.inl ho)] at hdf
    simp only [hstore]
    exact h.registered j f ho hdf

/-! ### Model attributes -/

theorem describes_meta {d : Desc} {m m' : FModel} (h : Describes d m) {n p c : Str}
    (e : m' = { m with name := n, path := p, commit := c }) :
    Describes { d with name := n, path := p, commit := c } m' := by
  subst e
  have w' : WF { m with name := n, path := p, commit := c } :=
    wf_of_sameTree h.wf ⟨rfl, rfl, rfl, rfl, rfl, rfl, fun _ => .refl _⟩
  refine
    { wf := w'
      bound := bound_keep h.bound rfl (fun _ he _ => he)
      name := rfl
      path := rfl
      commit := rfl
      distinct := h.distinct
      root_new := h.root_new
      names := h.names
      root := h.root
      feat := ?_
      groups_known := h.groups_known
      grouped := h.grouped
      ungrouped := h.ungrouped
      rels := h.rels
      store := ?_
      registered := ?_ }
  · intro a ha
    obtain ⟨j, f, q, f1, f2, f3, f4, f5⟩ := h.feat a ha
    exact ⟨j, f, q, f1, f2, f3, f4, fparent_mono (m' := { m with name := n, path := p, commit := c }) h.wf (fun _ _ => rfl) (fun _ _ h => h) (fun _ _ h => h)
      (.inl (known_of_mem f1)) f5⟩
  · intro cl
    have := h.store cl
    cases cl <;> exact this
  · intro i f hk hdf
    have := h.registered i f hk hdf
    have hs : ∀ cl, FModel.store { m with name := n, path := p, commit := c } cl = m.store cl := by intro cl; cases cl <;> rfl
    simp only [hs]
    exact this

/-! ### `addConstraint` -/

theorem describes_addConstraint {d : Desc} {m : FModel} (E : Env) (h : Describes d m) {k : CKind} {c : Constraint}
    (hn : ∀ n ∈ c.features, n = d.root ∨ n ∈ d.attrs.map Attr.name) :
    ∃ m', m.exec E (.addConstraint k c) = .ok m' ∧ Describes { d with constraints := d.constraints ++ [(k, c)] } m' := by
  have w := h.wf
  obtain ⟨m', h1, h2⟩ := execAddConstraint_spec w k c
  have hb : (c.features.all fun n => (m.getFeature n).isSome) = true := by
    rw [List.all_eq_true]
    intro n hnn
    obtain ⟨i, hi⟩ := (h.names n).2 (hn n hnn)
    rw [getFeature_mem w.names hi]; rfl
  rw [if_pos hb] at h1
  have w' := wf_of_constraintAdded w h2
  refine ⟨m', h1, ?_⟩
  have hf := h2.outer.features
  have hget : m'.getFeature = m.getFeature := getFeature_congr hf
  have hfeat : ∀ i, IsFeat m i → IsFeat m' i := by
    rintro i ⟨f, hfd⟩
    by_cases hk : Known m i
    · exact ⟨_, h2.known i f hk hfd⟩
    · exact ⟨f, by rw [h2.other i hk]; exact hfd⟩
  have hrel : ∀ i k', data m i = some (.rel k') → data m' i = some (.rel k') := by
    intro i k' hr
    have hk : ¬ Known m i := by
      intro hk
      obtain ⟨f, hfd⟩ := w.known_data hk
      rw [hr] at hfd; cases hfd
    rw [h2.other i hk]; exact hr
  obtain ⟨r, rf, r1, r2, r3, r4⟩ := h.root
  have hst : ∀ cl, m'.store cl = ((d.ofClass cl).map fun x => ⟨x.2, x.2.features.map m.getFeature, x.1.info⟩) ++
      (if cl = k.cls then [⟨c, c.features.map m.getFeature, k.info⟩] else []) := by
    intro cl
    rw [h2.store, h.store]
    by_cases hcl : cl = k.cls
    · rw [if_pos hcl, if_pos hcl]
    · rw [if_neg hcl, if_neg hcl]; simp
  refine
    { wf := w'
      bound := bound_of_constraintAdded h.bound h2
      name := by rw [h2.outer.name]; exact h.name
      path := by rw [h2.outer.path]; exact h.path
      commit := by rw [h2.outer.commit]; exact h.commit
      distinct := h.distinct
      root_new := h.root_new
      names := by intro n; rw [hf]; exact h.names n
      root := ⟨r, _, by rw [h2.outer.root]; exact r1, by rw [hf]; exact r2, h2.known r rf (known_of_mem r2) r3,
        by rw [regs_attr]; exact r4⟩
      feat := ?_
      groups_known := h.groups_known
      grouped := ?_
      ungrouped := ?_
      rels := ?_
      store := ?_
      registered := ?_ }
  · intro a ha
    obtain ⟨j, f, q, f1, f2, f3, f4, f5⟩ := h.feat a ha
    exact ⟨j, _, q, by rw [hf]; exact f1, h2.known j f (known_of_mem f1) f2, by rw [regs_attr]; exact f3,
      by rw [hf]; exact f4, fparent_mono w (fun x _ => by rw [h2.par]) (fun x _ hx => hfeat x hx)
        (fun x _ ⟨k', hx⟩ => ⟨k', hrel x k' hx⟩) (.inl (known_of_mem f1)) f5⟩
  · intro n k' i hg hi
    rw [hf] at hi
    obtain ⟨r, g1, g2, g3⟩ := h.grouped n k' i hg hi
    rw [h2.edg]
    exact ⟨r, g1, hrel r k' g2, fun c hc => hfeat c (g3 c hc)⟩
  · intro n i hi hg c hc
    rw [hf] at hi
    rw [h2.edg] at hc
    exact hfeat c (h.ungrouped n i hi hg c hc)
  · intro r hr
    rw [h2.outer.rels] at hr
    rw [h2.par, hf]
    exact h.rels r hr
  · intro cl
    rw [hst, hget]
    simp only [Desc.ofClass, List.filter_append, List.map_append]
    by_cases hcl : cl = k.cls
    · subst hcl; simp
    · rw [if_neg hcl]
      have : ¬ k.cls = cl := fun e => hcl e.symm
      simp [this]
  · intro i f' hk hdf
    have hk' : Known m i := by unfold Known at *; rw [hf] at hk; exact hk
    obtain ⟨f, hfd⟩ := w.known_data hk'
    rw [h2.known i f hk' hfd] at hdf
    cases hdf
    rw [regs_attr]
    obtain ⟨a1, a2, a3⟩ := regs_mem c ⟨k.cls, (m.store k.cls).length⟩ (positions f.attr.name 0 c.features) f
    obtain ⟨b1, b2, b3, b4⟩ := h.registered i f hk' hfd
    have hne : positions f.attr.name 0 c.features ≠ [] ↔ f.attr.name ∈ c.features := by
      constructor
      · intro h
        obtain ⟨x, hx⟩ := List.exists_mem_of_ne_nil _ h
        exact List.mem_of_getElem? (positions_mem.1 hx).2
      · intro hx
        obtain ⟨x, hx⟩ := List.mem_iff_getElem?.1 hx
        exact List.ne_nil_of_mem (positions_mem.2 ⟨Nat.zero_le x, hx⟩)
    -- an entry of a container is an old one or the new one
    have hent : ∀ (cr : CRoot) (P : Stored → Prop),
        (∃ s, (m'.store cr.cls)[cr.idx]? = some s ∧ P s) ↔
          (∃ s, (m.store cr.cls)[cr.idx]? = some s ∧ P s) ∨
            (cr = ⟨k.cls, (m.store k.cls).length⟩ ∧ P ⟨c, c.features.map m.getFeature, k.info⟩) := by
      intro cr P
      rw [h2.store]
      by_cases hcl : cr.cls = k.cls
      · rw [if_pos hcl, List.getElem?_append]
        by_cases hlt : cr.idx < (m.store cr.cls).length
        · rw [if_pos hlt]
          constructor
          · exact .inl
          · rintro (h | ⟨h, _⟩)
            · exact h
            · subst h; exact absurd hlt (Nat.lt_irrefl _)
        · rw [if_neg hlt]
          have hnone : (m.store cr.cls)[cr.idx]? = none := List.getElem?_eq_none (Nat.not_lt.1 hlt)
          constructor
          · rintro ⟨s, hs, hP⟩
            right
            by_cases h0 : cr.idx - (m.store cr.cls).length = 0
            · rw [h0] at hs; simp at hs
              subst hs
              refine ⟨?_, hP⟩
              obtain ⟨cls, idx⟩ := cr
              simp only at hcl h0 hlt
              subst hcl
              congr
              omega
            · rw [List.getElem?_eq_none (by simp; omega)] at hs; cases hs
          · rintro (⟨s, hs, _⟩ | ⟨rfl, hP⟩)
            · rw [hnone] at hs; cases hs
            · exact ⟨_, by simp, hP⟩
      · rw [if_neg hcl]
        constructor
        · exact .inl
        · rintro (h | ⟨h, _⟩)
          · exact h
          · subst h; exact absurd rfl hcl
    refine ⟨fun l => ?_, fun cr => ?_, fun cr => ?_, fun cr s hs hi => ?_⟩
    · rw [a1, hent l.root (fun s => s.tree.features[l.leaf]? = some f.attr.name), ← b1 l, positions_mem]
      simp
    · rw [a2, hne, hent cr (fun s => IsImplies s.tree ∧ f.attr.name ∈ s.tree.features), ← b2 cr]
      exact or_congr Iff.rfl ⟨fun ⟨x, y, z⟩ => ⟨y, x, z⟩, fun ⟨x, y, z⟩ => ⟨y, x, z⟩⟩
    · rw [a3, hne, hent cr (fun s => IsExcludes s.tree ∧ f.attr.name ∈ s.tree.features), ← b3 cr]
      exact or_congr Iff.rfl ⟨fun ⟨x, y, z⟩ => ⟨y, x, z⟩, fun ⟨x, y, z⟩ => ⟨y, x, z⟩⟩
    · rw [regs_count]
      rcases (hent cr (fun x => x = s)).1 ⟨s, hs, rfl⟩ with ⟨_, hs', rfl⟩ | ⟨rfl, rfl⟩
      · rw [b4 cr _ hs' hi, if_neg, Nat.add_zero]
        rintro ⟨_, rfl⟩
        simp at hs'
      · dsimp only at hi ⊢
        rw [if_pos ⟨hi, rfl⟩, positions_length]
        have : f.implications.count ⟨k.cls, (m.store k.cls).length⟩ = 0 := by
          rw [List.count_eq_zero]
          intro hm
          obtain ⟨s', hs', _⟩ := (b2 _).1 hm
          simp at hs'
        omega

end Verif

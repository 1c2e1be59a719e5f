import Verif.FM.Script
import Verif.FM.SessionLemmas
import Verif.Xml.Alternatives
import Verif.Props.FeatureTree
import Verif.Props.TransactionEffects
/-!
# Lemmas: scripts that edit a model
-/

namespace Verif
open Verif.Spec Verif.Props

variable {d : Desc} {m m' : FModel}

theorem Spec.Describes.has (h : Describes d m) {n : Str} : d.Has n ↔ ∃ i, (n, i) ∈ m.features := (h.names n).symm

/-- The tree of the description is the tree of the model. -/
theorem Spec.Describes.under_iff (h : Describes d m) {n x : Str} {i j : Id} (hi : (n, i) ∈ m.features) (hj : (x, j) ∈ m.features) :
    d.Under n x ↔ Below m i j := by
  have w := h.wf
  constructor
  · intro hu
    induction hu generalizing j with
    | refl => rw [names_inj w hj hi]; exact .refl
    | @step a ha _ ih =>
      obtain ⟨j', f, q, g1, _, _, g4, g5⟩ := h.feat a ha
      rw [names_inj w hj g1]
      exact (ih g4).trans (fparent_subtree g5)
  · intro hb
    obtain ⟨l, hl⟩ : ∃ l, lvlOf m j ≤ l := ⟨_, Nat.le_refl _⟩
    induction l using Nat.strongRecOn generalizing x j with
    | _ l ih =>
      by_cases hji : j = i
      · subst hji
        rw [ids_inj w hj hi]; exact .refl
      · have hkj : Known m j := known_of_mem hj
        have hki : Known m i := known_of_mem hi
        rcases (h.names x).1 ⟨j, hj⟩ with rfl | hx
        · exfalso
          obtain ⟨r, rf, r1, r2, _⟩ := h.root
          obtain ⟨q, hq⟩ := below_has_parent (w.known_data hki) hb hji
          rw [names_inj w hj r2] at hq
          have := w.root_par r1
          cases hq with
          | direct a _ => rw [this] at a; cases a
          | skip a _ _ => rw [this] at a; cases a
        · obtain ⟨a, ha, rfl⟩ := List.mem_map.1 hx
          obtain ⟨j', f, q, g1, _, _, g4, g5⟩ := h.feat a ha
          have := names_inj w hj g1
          subst this
          have hb' := fparent_below (w.known_data hki) hb hji g5
          have hlv := w.fparent_level (.inl hkj) g5
          exact .step ha (ih (lvlOf m q) (by omega) g4 hb' (Nat.le_refl _))

/-- What a constraint of the description mentions. -/
theorem Spec.Describes.stored_mem (h : Describes d m) {cl : CClass} {s : Stored} {k : Nat} (hs : (m.store cl)[k]? = some s) :
    ∃ x ∈ d.constraints, s.tree = x.2 := by
  rw [h.store, List.getElem?_map] at hs
  cases hx : (d.ofClass cl)[k]? with
  | none => rw [hx] at hs; cases hs
  | some x =>
    rw [hx] at hs
    cases hs
    exact ⟨x, (List.mem_filter.1 (List.mem_of_getElem? hx)).1, rfl⟩

theorem Spec.Describes.not_mentioned (h : Describes d m) {n : Str} {i : Id} (hi : (n, i) ∈ m.features)
    (hn : ∀ y ∈ d.constraints, n ∉ y.2.features) : ¬ Mentioned m i := by
  rintro ⟨s, hs, hm⟩
  obtain ⟨k, hk⟩ := List.mem_iff_getElem?.1 hm
  obtain ⟨n', g1, g2⟩ := h.bound.bind s hs k i hk
  have : n' = n := ids_inj h.wf g2 hi
  subst this
  have : ∃ cl, s ∈ m.store cl := by
    unfold allStored at hs
    rcases List.mem_append.1 hs with hs | hs
    · rcases List.mem_append.1 hs with hs | hs
      · exact ⟨.boolean, hs⟩
      · exact ⟨.nonBoolean, hs⟩
    · exact ⟨.mixed, hs⟩
  obtain ⟨cl, hcl⟩ := this
  obtain ⟨k', hk'⟩ := List.mem_iff_getElem?.1 hcl
  obtain ⟨x, hx, e⟩ := h.stored_mem hk'
  exact hn x hx (e ▸ List.mem_of_getElem? g1)

/-! ### Adding a feature -/

theorem describes_add (E : Env) (h : Describes d m) (hk : ConstraintsKnown d) {a : Attr} {p : Str} {pi : Id} (hpi : (p, pi) ∈ m.features)
    (ha : a.kind ≠ .root) (hn : ¬ d.Has a.name) (hg : ∀ k, (p, k) ∉ d.groups) :
    ∃ m', m.exec E (.addFeature a (some pi)) = .ok m' ∧ Describes (d.edit (.add a p)) m' ∧ ∀ e ∈ m.features, e ∈ m'.features := by
  have w := h.wf
  have hnew : a.name ∉ m.features.map Prod.fst := by
    rw [mem_features_fst, h.names]; exact hn
  have hkp : Known m pi := known_of_mem hpi
  obtain ⟨m', q, h1, h2, h3, h4, h5⟩ := execAddFeature_ok w (parent := some pi) hnew (by rintro i ⟨⟩; exact .inl hkp)
  have : q = pi := by
    rcases h5 with h5 | ⟨h5, _⟩
    · exact (Option.some.inj h5).symm
    · cases h5
  subst this
  have w' : WF m' := wf_of_added w h2 (by rw [h3]; exact Nat.lt_succ_self m.next) (by rw [h3]; exact Nat.le_succ m.next) hnew h4 ha
  have hne : ∀ x, Owned m x → x ≠ m.next := by rintro x hx rfl; exact w.not_owned_next hx
  have hd : ∀ x, Owned m x → data m' x = data m x := fun x hx => by rw [h2.data, upd_ne _ _ (hne x hx)]
  have hpar : ∀ x, Owned m x → par m' x = par m x := fun x hx => by rw [h2.par, upd_ne _ _ (hne x hx)]
  have hmono : ∀ {x q}, Owned m x → FParent m x q → FParent m' x q := fun hx hq =>
    fparent_mono w hpar (fun x hx ⟨f, hf⟩ => ⟨f, by rw [hd x hx]; exact hf⟩)
      (fun x hx ⟨f, hf⟩ => ⟨f, by rw [hd x hx]; exact hf⟩) hx hq
  have hfeat : ∀ e, e ∈ m'.features ↔ e ∈ m.features ∨ e = (a.name, m.next) := by intro e; rw [h2.features]; simp
  have hst := fun cl => store_eq h2.booleans h2.nonBooleans h2.mixeds cl
  have hedg : ∀ x, x ≠ q → edg m' x = edg m x := fun x hx => by rw [h2.edg, upd_ne _ _ hx]
  have hisf : ∀ c, Owned m c → IsFeat m c → IsFeat m' c := fun c hc ⟨f, hf⟩ => ⟨f, by rw [hd c hc]; exact hf⟩
  have hownc : ∀ x, Owned m x → ∀ c ∈ edg m x, Owned m c := fun x hx c hc => (w.edge_par x c hx hc).1
  have hold : ∀ {x j}, (x, j) ∈ m'.features → d.Has x → (x, j) ∈ m.features := by
    intro x j hj hx
    rcases (hfeat _).1 hj with hj | hj
    · exact hj
    · cases hj; exact absurd hx hn
  have hget : ∀ n, d.Has n → m'.getFeature n = m.getFeature n := by
    intro n hx
    obtain ⟨i, hi⟩ := (h.names n).2 hx
    rw [getFeature_mem w.names hi, getFeature_mem w'.names ((hfeat _).2 (.inl hi))]
  have hempty : edg m' m.next = [] := by
    rw [hedg _ (fun e => hne q (.inl hkp) e.symm)]
    exact edg_none h2.new
  obtain ⟨ri, rf, r1, r2, r3, r4⟩ := h.root
  refine ⟨m', h1, ?_, fun e he => (hfeat e).2 (.inl he)⟩
  refine
    { wf := w'
      bound := bound_keep h.bound (allStored_eq h2.booleans h2.nonBooleans h2.mixeds) (fun e he _ => (hfeat e).2 (.inl he))
      name := by rw [h2.name]; exact h.name
      path := by rw [h2.path]; exact h.path
      commit := by rw [h2.commit]; exact h.commit
      distinct := ?_
      root_new := ?_
      names := ?_
      root := ⟨ri, rf, by rw [h2.root]; exact r1, (hfeat _).2 (.inl r2), by rw [hd ri (.inl (known_of_mem r2))]; exact r3, r4⟩
      feat := ?_
      groups_known := ?_
      grouped := ?_
      ungrouped := ?_
      rels := ?_
      store := ?_
      registered := ?_ }
  · simp only [Desc.edit, List.map_append, List.map_cons, List.map_nil]
    rw [List.nodup_append]
    refine ⟨h.distinct, by simp, ?_⟩
    intro x hx y hy
    simp at hy; subst hy
    rintro rfl; exact hn (.inr hx)
  · simp only [Desc.edit, List.map_append, List.map_cons, List.map_nil, List.mem_append, List.mem_singleton]
    rintro (h' | h')
    · exact h.root_new h'
    · exact hn (.inl h'.symm)
  · intro n
    simp only [hfeat, Desc.edit, List.map_append, List.map_cons, List.map_nil, List.mem_append, List.mem_singleton]
    rw [exists_or, h.names n]
    constructor
    · rintro ((h' | h') | ⟨i, h'⟩)
      · exact .inl h'
      · exact .inr (.inl h')
      · cases h'; exact .inr (.inr rfl)
    · rintro (h' | h' | rfl)
      · exact .inl (.inl h')
      · exact .inl (.inr h')
      · exact .inr ⟨_, rfl⟩
  · intro b hb
    simp only [Desc.edit] at hb ⊢
    rcases List.mem_append.1 hb with hb | hb
    · obtain ⟨i, f, q, f1, f2, f3, f4, f5⟩ := h.feat b hb
      have ho : Owned m i := .inl (known_of_mem f1)
      have : b.name ≠ a.name := fun e => hn (.inr (e ▸ List.mem_map_of_mem hb))
      rw [if_neg this]
      exact ⟨i, f, q, (hfeat _).2 (.inl f1), by rw [hd i ho]; exact f2, f3, (hfeat _).2 (.inl f4), hmono ho f5⟩
    · rw [List.mem_singleton] at hb; subst hb
      rw [if_pos rfl]
      refine ⟨m.next, _, q, (hfeat _).2 (.inr rfl), by rw [h2.data, upd_same], rfl, (hfeat _).2 (.inl hpi), ?_⟩
      exact .direct (by rw [h2.par, upd_same]) (hisf q (.inl hkp) (w.known_data hkp))
  · intro g hg
    rcases h.groups_known g hg with h' | h'
    · exact .inl h'
    · exact .inr (by simp only [Desc.edit, List.map_append, List.mem_append]; exact .inl h')
  · intro n k i hng hi
    have hng : (n, k) ∈ d.groups := hng
    have hi := hold hi (h.groups_known _ hng)
    obtain ⟨r, g1, g2, g3⟩ := h.grouped n k i hng hi
    have hio : Owned m i := .inl (known_of_mem hi)
    have hro : Owned m r := hownc i hio r (by rw [g1]; simp)
    have hiq : i ≠ q := by rintro rfl; exact hg k (ids_inj w hi hpi ▸ hng)
    have hrq : r ≠ q := by
      rintro rfl
      obtain ⟨f, hf⟩ := w.known_data hkp
      rw [g2] at hf; cases hf
    exact ⟨r, by rw [hedg i hiq]; exact g1, by rw [hd r hro]; exact g2, fun c hc => by
      rw [hedg r hrq] at hc
      exact hisf c (hownc r hro c hc) (g3 c hc)⟩
  · intro n i hi hng c hc
    have hng : ∀ k, (n, k) ∉ d.groups := hng
    rcases (hfeat _).1 hi with hi | hi
    · have hio : Owned m i := .inl (known_of_mem hi)
      by_cases hiq : i = q
      · subst hiq
        rw [h2.edg, upd_same, List.mem_append, List.mem_singleton] at hc
        rcases hc with hc | rfl
        · exact hisf c (hownc i hio c hc) (h.ungrouped n i hi hng c hc)
        · exact ⟨_, by rw [h2.data, upd_same]⟩
      · rw [hedg i hiq] at hc
        exact hisf c (hownc i hio c hc) (h.ungrouped n i hi hng c hc)
    · cases hi
      rw [hempty] at hc; cases hc
  · intro r hr
    rw [h2.rels] at hr
    obtain ⟨n, k, i, g1, g2, g3⟩ := h.rels r hr
    exact ⟨n, k, i, g1, (hfeat _).2 (.inl g2), by rw [hpar r (.inr hr)]; exact g3⟩
  · intro cl
    rw [hst, h.store]
    apply List.map_congr_left
    intro x hx
    have : x.2.features.map m.getFeature = x.2.features.map m'.getFeature :=
      List.map_congr_left fun n hn' => (hget n (hk x ((List.mem_filter.1 hx).1) n hn')).symm
    rw [this]
  · intro i f hki hdf
    simp only [hst]
    obtain ⟨n, hni⟩ := known_name hki
    rcases (hfeat _).1 hni with h' | h'
    · have ho := known_of_mem h'
      rw [hd i (.inl ho)] at hdf
      exact h.registered i f ho hdf
    · cases h'
      rw [h2.data, upd_same] at hdf; cases hdf
      have hno : ∀ cl (idx : Nat) (s : Stored), (m.store cl)[idx]? = some s → a.name ∉ s.tree.features := by
        intro cl idx s hs hx
        obtain ⟨x, h1, h2⟩ := h.stored_mem hs
        exact hn (hk x h1 _ (h2 ▸ hx))
      refine ⟨fun l => ⟨nofun, ?_⟩, fun r => ⟨nofun, ?_⟩, fun r => ⟨nofun, ?_⟩, fun r s hs _ => (List.count_eq_zero.2 (hno _ _ _ hs)).symm⟩
      · rintro ⟨s, s1, s2⟩; exact absurd (List.mem_of_getElem? s2) (hno _ _ _ s1)
      · rintro ⟨s, s1, _, s2⟩; exact absurd s2 (hno _ _ _ s1)
      · rintro ⟨s, s1, _, s2⟩; exact absurd s2 (hno _ _ _ s1)

/-! ### Removing a feature -/

theorem Spec.Describes.flat (h : Describes d m) {r : Id} (hr : r ∈ m.rels) : ∀ c ∈ edg m r, IsFeat m c := by
  obtain ⟨n, k, i, g1, g2, g3⟩ := h.rels r hr
  obtain ⟨r', e1, _, e3⟩ := h.grouped n k i g1 g2
  have := (h.wf.par_edge r i (.inr hr) g3).2
  rw [e1, List.mem_singleton] at this
  subst this
  exact e3

theorem Spec.Describes.tidy (h : Describes d m) : TidyGroups m := by
  refine ⟨fun r hr => h.flat hr, ?_⟩
  intro i hi r s hr hs hrr hsr
  obtain ⟨n, hn⟩ := known_name hi
  by_cases hg : ∃ k, (n, k) ∈ d.groups
  · obtain ⟨k, hk⟩ := hg
    obtain ⟨t, e1, _⟩ := h.grouped n k i hk hn
    rw [e1, List.mem_singleton] at hr hs
    rw [hr, hs]
  · obtain ⟨f, hf⟩ := h.ungrouped n i hn (fun k hk => hg ⟨k, hk⟩) r hr
    obtain ⟨k, hk⟩ := hrr
    rw [hf] at hk; cases hk

theorem describes_without (h : Describes d m) {n : Str} {i : Id} (hi : (n, i) ∈ m.features) (hn : n ∈ d.attrs.map Attr.name) (b : Bool)
    (hm : ∀ x, d.Under n x → ∀ y ∈ d.constraints, x ∉ y.2.features) (hw : Without m m' (fun j => Owned m j ∧ Below m i j)) :
    Describes (d.edit (.remove n b)) m' := by
  classical
  have w := h.wf
  obtain ⟨ri, rf, r1, r2, r3, r4⟩ := h.root
  have hki := known_of_mem hi
  have hri : m.root ≠ some i := by
    intro e
    rw [r1] at e; cases e
    exact h.root_new (ids_inj w hi r2 ▸ hn)
  have cut := cut_below w hki hri
  have w' := without_wf w hw cut
  have hst := fun cl => store_eq hw.booleans hw.nonBooleans hw.mixeds cl
  have hkeep : ∀ {x j}, (x, j) ∈ m.features → ((x, j) ∈ m'.features ↔ ¬ d.Under n x) := by
    intro x j hj
    rw [hw.features.2, h.under_iff hi hj]
    constructor
    · rintro ⟨_, h2⟩ h3; exact h2 ⟨.inl (known_of_mem hj), h3⟩
    · exact fun h3 => ⟨hj, fun h2 => h3 h2.2⟩
  have hsub : ∀ {e}, e ∈ m'.features → e ∈ m.features := fun he => ((hw.features.2 _).1 he).1
  have hroot : ¬ d.Under n d.root := fun hu => by
    have hb := (h.under_iff hi r2).1 hu
    cases hb with
    | refl => exact hri r1
    | step hp _ => rw [w.root_par r1] at hp; cases hp
  have hS : ∀ {x j}, (x, j) ∈ m.features → ¬ d.Under n x → ¬ (Owned m j ∧ Below m i j) :=
    fun hj hu hs => hu ((h.under_iff hi hj).2 hs.2)
  have hattr : ∀ a, a ∈ (d.edit (.remove n b)).attrs ↔ a ∈ d.attrs ∧ ¬ d.Under n a.name := by
    intro a; simp [Desc.edit]
  have hgrp : ∀ g, g ∈ (d.edit (.remove n b)).groups ↔ g ∈ d.groups ∧ ¬ d.Under n g.1 := by
    intro a; simp [Desc.edit]
  have hname : ∀ x, x ∈ (d.edit (.remove n b)).attrs.map Attr.name ↔ x ∈ d.attrs.map Attr.name ∧ ¬ d.Under n x := by
    intro x
    simp only [List.mem_map, hattr]
    constructor
    · rintro ⟨a, ⟨h1, h2⟩, rfl⟩; exact ⟨⟨a, h1, rfl⟩, h2⟩
    · rintro ⟨⟨a, h1, rfl⟩, h2⟩; exact ⟨a, ⟨h1, h2⟩, rfl⟩
  have hup : ∀ a ∈ d.attrs, ¬ d.Under n a.name → ¬ d.Under n (d.parent a.name) := fun a ha h1 h2 => h1 (.step ha h2)
  have hisf : ∀ c, ¬ (Owned m c ∧ Below m i c) → IsFeat m c → IsFeat m' c := fun c hc ⟨f, hf⟩ => ⟨f, by rw [hw.data c hc]; exact hf⟩
  have hedge : ∀ j, Owned m j → ¬ (Owned m j ∧ Below m i j) → ∀ c, c ∈ edg m' j → c ∈ edg m j ∧ ¬ (Owned m c ∧ Below m i c) :=
    fun j ho hs c hc => ((hw.edges j ho hs).2 c).1 hc
  refine
    { wf := w'
      bound := bound_keep h.bound (allStored_eq hw.booleans hw.nonBooleans hw.mixeds) ?_
      name := by rw [hw.name]; exact h.name
      path := by rw [hw.path]; exact h.path
      commit := by rw [hw.commit]; exact h.commit
      distinct := ?_
      root_new := ?_
      names := ?_
      root := ⟨ri, rf, by rw [hw.root]; exact r1, (hkeep r2).2 hroot, by rw [hw.data ri (hS r2 hroot)]; exact r3, r4⟩
      feat := ?_
      groups_known := ?_
      grouped := ?_
      ungrouped := ?_
      rels := ?_
      store := ?_
      registered := ?_ }
  · rintro ⟨x, j⟩ he hme
    rw [hkeep he]
    intro hu
    exact h.not_mentioned he (hm x hu) hme
  · simp only [Desc.edit]
    exact h.distinct.sublist (List.filter_sublist.map _)
  · show d.root ∉ _
    rw [hname]
    exact fun h' => h.root_new h'.1
  · intro x
    show _ ↔ x = d.root ∨ _
    rw [hname]
    constructor
    · rintro ⟨j, hj⟩
      have hj' := hsub hj
      have hu := (hkeep hj').1 hj
      exact ((h.names x).1 ⟨j, hj'⟩).imp id (fun h' => ⟨h', hu⟩)
    · rintro (rfl | ⟨h1, h2⟩)
      · exact ⟨ri, (hkeep r2).2 hroot⟩
      · obtain ⟨j, hj⟩ := (h.names x).2 (.inr h1)
        exact ⟨j, (hkeep hj).2 h2⟩
  · intro a ha
    obtain ⟨ha, hu⟩ := (hattr a).1 ha
    obtain ⟨j, f, q, f1, f2, f3, f4, f5⟩ := h.feat a ha
    exact ⟨j, f, q, (hkeep f1).2 hu, by rw [hw.data j (hS f1 hu)]; exact f2, f3, (hkeep f4).2 (hup a ha hu),
      (without_fparent w hw cut (.inl (known_of_mem f1)) (hS f1 hu)).2 f5⟩
  · intro g hg
    obtain ⟨hg, hu⟩ := (hgrp g).1 hg
    show g.1 = d.root ∨ _
    rw [hname]
    exact (h.groups_known g hg).imp id (fun h' => ⟨h', hu⟩)
  · intro x k j hg hj
    obtain ⟨hg, hu⟩ := (hgrp _).1 hg
    have hj' := hsub hj
    have hjo : Owned m j := .inl (known_of_mem hj')
    obtain ⟨r, e1, e2, e3⟩ := h.grouped x k j hg hj'
    obtain ⟨hro, hpr⟩ := w.edge_par j r hjo (by rw [e1]; simp)
    have hrs : ¬ (Owned m r ∧ Below m i r) := by
      rintro ⟨_, hb⟩
      cases hb with
      | refl =>
        obtain ⟨f, hf⟩ := w.known_data hki
        rw [e2] at hf; cases hf
      | step hp hb => rw [hpr] at hp; cases hp; exact hS hj' hu ⟨hjo, hb⟩
    have hsl := (hw.edges j hjo (hS hj' hu)).1
    rw [e1] at hsl
    have hr' : r ∈ edg m' j := ((hw.edges j hjo (hS hj' hu)).2 r).2 ⟨by rw [e1]; simp, hrs⟩
    have : edg m' j = [r] := hsl.eq_of_length_le (List.length_pos_of_mem hr')
    refine ⟨r, this, by rw [hw.data r hrs]; exact e2, ?_⟩
    intro c hc
    obtain ⟨c1, c2⟩ := hedge r hro hrs c hc
    exact hisf c c2 (e3 c c1)
  · intro x j hj hng c hc
    have hj' := hsub hj
    have hu := (hkeep hj').1 hj
    have hjo : Owned m j := .inl (known_of_mem hj')
    obtain ⟨c1, c2⟩ := hedge j hjo (hS hj' hu) c hc
    exact hisf c c2 (h.ungrouped x j hj' (fun k hk => hng k ((hgrp _).2 ⟨hk, hu⟩)) c c1)
  · intro r hr
    obtain ⟨hr, hs⟩ := (hw.rels.2 r).1 hr
    obtain ⟨x, k, j, g1, g2, g3⟩ := h.rels r hr
    have hu : ¬ d.Under n x := by
      intro hu
      exact hs ⟨.inr hr, .step g3 ((h.under_iff hi g2).1 hu)⟩
    exact ⟨x, k, j, (hgrp _).2 ⟨g1, hu⟩, (hkeep g2).2 hu, by rw [hw.par r hs]; exact g3⟩
  · intro cl
    rw [hst, h.store]
    show _ = (d.ofClass cl).map _
    apply List.map_congr_left
    intro x hx
    have : x.2.features.map m.getFeature = x.2.features.map m'.getFeature := by
      apply List.map_congr_left
      intro y hy
      cases hg : m.getFeature y with
      | some j =>
        have hj := getFeature_some hg
        have hu : ¬ d.Under n y := fun hu => hm y hu x (List.mem_filter.1 hx).1 hy
        exact (getFeature_mem w'.names ((hkeep hj).2 hu)).symm
      | none =>
        symm
        rw [getFeature_none] at hg ⊢
        intro hx'
        exact hg ((hw.features.1.map Prod.fst).subset hx')
    rw [this]
  · intro j f hkj hdf
    simp only [hst]
    obtain ⟨x, hj⟩ := known_name hkj
    have hj' := hsub hj
    have hu := (hkeep hj').1 hj
    rw [hw.data j (hS hj' hu)] at hdf
    exact h.registered j f (known_of_mem hj') hdf

theorem describes_remove (E : Env) (h : Describes d m) {n : Str} {b : Bool} (hn : n ∈ d.attrs.map Attr.name)
    (hl : b = false → ∀ a ∈ d.attrs, d.parent a.name ≠ n) (hm : ∀ x, d.Under n x → ∀ y ∈ d.constraints, x ∉ y.2.features) :
    ∃ m', m.exec E (.removeFeature (.name n) b) = .ok m' ∧ Describes (d.edit (.remove n b)) m' ∧ ∀ e ∈ m'.features, e ∈ m.features := by
  have w := h.wf
  obtain ⟨i, hi⟩ := (h.names n).2 (.inr hn)
  obtain ⟨ri, rf, r1, r2, r3, r4⟩ := h.root
  have hki := known_of_mem hi
  have hri : m.root ≠ some i := by
    intro e
    rw [r1] at e; cases e
    exact h.root_new (ids_inj w hi r2 ▸ hn)
  have hres : m.resolve (.name n) = some i := getFeature_mem w.names hi
  have fin : ∀ m', m.exec E (.removeFeature (.name n) b) = .ok m' → Without m m' (fun j => Owned m j ∧ Below m i j) →
      ∃ m', m.exec E (.removeFeature (.name n) b) = .ok m' ∧ Describes (d.edit (.remove n b)) m' ∧ ∀ e ∈ m'.features, e ∈ m.features :=
    fun m' h1 h2 => ⟨m', h1, describes_without h hi hn b hm h2, fun e he => ((h2.features.2 e).1 he).1⟩
  cases b with
  | true =>
    obtain ⟨m', h1, h2⟩ := removeRec_ok E (m.next + 1) m i w hki hri (fun j ho _ hj c hc => h.flat (by
      rcases ho with ho | ho
      · obtain ⟨f, hf⟩ := w.known_data ho
        obtain ⟨k, hk⟩ := hj
        rw [hf] at hk; cases hk
      · exact ho) c hc) (by omega)
    refine fin m' ?_ h2
    show m.execRemoveFeature E (.name n) true = _
    unfold FModel.execRemoveFeature
    rw [hres]
    exact h1
  | false =>
    have hleaf : ∀ c, ¬ Via m isF i c := by
      intro c hv
      obtain ⟨hc, hp⟩ := (via_iff_fparent w (.inl hki) (w.known_data hki)).1 hv
      obtain ⟨x, hx⟩ := known_name hc
      rcases (h.names x).1 ⟨c, hx⟩ with rfl | hx'
      · rw [names_inj w hx r2] at hp
        have := w.root_par r1
        cases hp with
        | direct a _ => rw [this] at a; cases a
        | skip a _ _ => rw [this] at a; cases a
      · obtain ⟨a, ha, rfl⟩ := List.mem_map.1 hx'
        obtain ⟨j, f, q, f1, f2, f3, f4, f5⟩ := h.feat a ha
        rw [names_inj w f1 hx] at f5
        have := f5.functional hp
        subst this
        exact hl rfl a ha (ids_inj w f4 hi)
    obtain ⟨m', h1, h2⟩ := C21_remove_leaf_partial (f := .name n) w E hres hki hri hleaf (tidy_leaf w h.tidy hki hleaf)
    exact fin m' h1 h2

/-! ### Removing a group -/

theorem describes_ungroup (E : Env) (h : Describes d m) {n : Str} {k : RKind} (hg : (n, k) ∈ d.groups) :
    ∃ m', m.exec E (.removeRelationship (.name n)) = .ok m' ∧ Describes (d.edit (.ungroup n)) m' ∧ m'.features = m.features := by
  have w := h.wf
  obtain ⟨i, hi⟩ := (h.names n).2 (h.groups_known _ hg)
  have hki := known_of_mem hi
  obtain ⟨r, e1, e2, e3⟩ := h.grouped n k i hg hi
  have hvia : ∀ s, Via m isR i s → s = r := by
    intro s hv
    cases hv with
    | here h1 _ _ => rw [e1, List.mem_singleton] at h1; exact h1
    | skip h1 h2 h3 _ =>
      rw [e1, List.mem_singleton] at h1
      subst h1
      rw [e2] at h2; cases h2; cases h3
  obtain ⟨m', s, cs, h1, h2, h3, h4, w'⟩ := execRemoveRelationship_ok w E (pr := .name n) (getFeature_mem w.names hi) hki
    ⟨r, .here (by rw [e1]; simp) e2 rfl⟩ (by
      intro s hs
      rw [hvia s hs]
      exact ⟨by rw [e1]; simp, e3⟩)
  rw [e1, List.mem_singleton] at h2
  subst h2
  refine ⟨m', h1, ?_, h4.features⟩
  obtain ⟨hso, hps⟩ := w.edge_par i s (.inl hki) (by rw [e1]; simp)
  have hsr : s ∈ m.rels := w.owned_rel hso h3
  have hne : ∀ y, Known m y → y ≠ s := by rintro y hy rfl; exact w.known_not_rel hy hsr
  have hd : ∀ y, y ≠ s → data m' y = data m y := fun y hy => by rw [h4.data, upd_ne _ _ hy]
  have hisf : ∀ c, IsFeat m c → IsFeat m' c := by
    rintro c ⟨f, hf⟩
    refine ⟨f, ?_⟩
    rw [hd c]
    · exact hf
    · rintro rfl
      rw [e2] at hf; cases hf
  have hst := fun cl => store_eq h4.booleans h4.nonBooleans h4.mixeds cl
  have hget : m'.getFeature = m.getFeature := getFeature_congr h4.features
  have hgrp : ∀ g, g ∈ (d.edit (.ungroup n)).groups ↔ g ∈ d.groups ∧ g.1 ≠ n := by intro g; simp [Desc.edit]
  obtain ⟨ri, rf, r1, r2, r3, r4⟩ := h.root
  refine
    { wf := w'
      bound := bound_keep h.bound (allStored_eq h4.booleans h4.nonBooleans h4.mixeds) (fun e he _ => by rw [h4.features]; exact he)
      name := by rw [h4.name]; exact h.name
      path := by rw [h4.path]; exact h.path
      commit := by rw [h4.commit]; exact h.commit
      distinct := h.distinct
      root_new := h.root_new
      names := by intro n; rw [h4.features]; exact h.names n
      root := ⟨ri, rf, by rw [h4.root]; exact r1, by rw [h4.features]; exact r2, by rw [hd ri (hne ri (known_of_mem r2))]; exact r3, r4⟩
      feat := ?_
      groups_known := fun g hg => h.groups_known g ((hgrp g).1 hg).1
      grouped := ?_
      ungrouped := ?_
      rels := ?_
      store := fun cl => by rw [hst, hget]; exact h.store cl
      registered := ?_ }
  · intro a ha
    obtain ⟨j, f, q, f1, f2, f3, f4, f5⟩ := h.feat a ha
    have hj := known_of_mem f1
    exact ⟨j, f, q, by rw [h4.features]; exact f1, by rw [hd j (hne j hj)]; exact f2, f3, by rw [h4.features]; exact f4,
      (ungrouped_fparent w hki (by rw [e1]; simp) h3 h4 hj).2 f5⟩
  · intro x k' j hgx hj
    obtain ⟨hgx, hxn⟩ := (hgrp _).1 hgx
    rw [h4.features] at hj
    obtain ⟨t, t1, t2, t3⟩ := h.grouped x k' j hgx hj
    have hji : j ≠ i := by rintro rfl; exact hxn (ids_inj w hj hi)
    obtain ⟨hto, hpt⟩ := w.edge_par j t (.inl (known_of_mem hj)) (by rw [t1]; simp)
    have hts : t ≠ s := by
      rintro rfl
      rw [hps] at hpt; cases hpt
      exact hji rfl
    have hti : t ≠ i := by
      rintro rfl
      obtain ⟨f, hf⟩ := w.known_data hki
      rw [t2] at hf; cases hf
    refine ⟨t, by rw [h4.edge j hji (hne j (known_of_mem hj))]; exact t1, by rw [hd t hts]; exact t2, ?_⟩
    intro c hc
    rw [h4.edge t hti hts] at hc
    exact hisf c (t3 c hc)
  · intro x j hj hng c hc
    rw [h4.features] at hj
    by_cases hji : j = i
    · subst hji
      rw [h4.edge_p, e1] at hc
      simp only [List.erase_cons_head, List.nil_append] at hc
      exact hisf c (e3 c (h4.perm.mem_iff.1 hc))
    · rw [h4.edge j hji (hne j (known_of_mem hj))] at hc
      refine hisf c (h.ungrouped x j hj (fun k' hk' => hng k' ((hgrp _).2 ⟨hk', ?_⟩)) c hc)
      rintro rfl
      exact hji (names_inj w hj hi)
  · intro t ht
    rw [h4.rels] at ht
    have hts : t ≠ s := by
      rintro rfl
      exact (w.rels_nodup.mem_erase_iff.1 ht).1 rfl
    have ht := List.mem_of_mem_erase ht
    obtain ⟨x, k', j, g1, g2, g3⟩ := h.rels t ht
    have hji : j ≠ i := by
      rintro rfl
      have := (w.par_edge t j (.inr ht) g3).2
      rw [e1, List.mem_singleton] at this
      exact hts this
    refine ⟨x, k', j, (hgrp _).2 ⟨g1, ?_⟩, by rw [h4.features]; exact g2, ?_⟩
    · rintro rfl; exact hji (names_inj w g2 hi)
    · rw [h4.par, if_neg hts, if_neg, g3]
      intro hc
      obtain ⟨f, hf⟩ := e3 t (h4.perm.mem_iff.1 hc)
      obtain ⟨k'', hk''⟩ := w.rel_ok t ht
      rw [hk''] at hf; cases hf
  · intro j f hkj hdf
    have ho : Known m j := by unfold Known at *; rw [h4.features] at hkj; exact hkj
    rw [hd j (hne j ho)] at hdf
    simp only [hst]
    exact h.registered j f ho hdf

/-! ### Locations -/

theorem describes_relocated (h : Describes d m) {n : Str} {i : Id} {ft : Feat} {ls : List Range} (hi : (n, i) ∈ m.features)
    (hr : Relocated m m' i ft ls) (hw : WF m') {attrs : List Attr} {g : Attr → Attr} (ha : attrs = d.attrs.map fun a => if a.name = n then g a else a)
    (hg : ∀ a ∈ d.attrs, a.name = n → g a = { a with locs := if a.name = n then ls else a.locs }) (hn : n ∈ d.attrs.map Attr.name) :
    Describes { d with attrs := attrs } m' := by
  have w := h.wf
  obtain ⟨o1, o2, o3, o4, o5, o6, o7⟩ := hr.outer
  have hnames : attrs.map Attr.name = d.attrs.map Attr.name := by
    rw [ha, List.map_map]
    apply List.map_congr_left
    intro a haa
    simp only [Function.comp]
    split
    · next e => rw [hg a haa e]
    · rfl
  have hisf : ∀ c, IsFeat m c → IsFeat m' c := by
    rintro c ⟨f, hf⟩
    by_cases hc : c = i
    · subst hc; exact ⟨_, hr.after⟩
    · exact ⟨f, by rw [hr.data c hc]; exact hf⟩
  have hrel : ∀ c k, data m c = some (.rel k) → data m' c = some (.rel k) := by
    intro c k hc
    rw [hr.data c]
    · exact hc
    · rintro rfl; rw [hr.before] at hc; cases hc
  have hall : allStored m' = allStored m := by
    have h1 := o7 .boolean
    have h2 := o7 .nonBoolean
    have h3 := o7 .mixed
    exact allStored_eq h1 h2 h3
  have hget : m'.getFeature = m.getFeature := getFeature_congr o1
  obtain ⟨ri, rf, r1, r2, r3, r4⟩ := h.root
  have hri : ri ≠ i := by
    rintro rfl
    exact h.root_new (ids_inj w hi r2 ▸ hn)
  refine
    { wf := hw
      bound := bound_keep h.bound hall (fun e he _ => by rw [o1]; exact he)
      name := by rw [o4]; exact h.name
      path := by rw [o5]; exact h.path
      commit := by rw [o6]; exact h.commit
      distinct := by show (attrs.map Attr.name).Nodup; rw [hnames]; exact h.distinct
      root_new := by show d.root ∉ attrs.map Attr.name; rw [hnames]; exact h.root_new
      names := by intro x; rw [o1]; show _ ↔ x = d.root ∨ x ∈ attrs.map Attr.name; rw [hnames]; exact h.names x
      root := ⟨ri, rf, by rw [o3]; exact r1, by rw [o1]; exact r2, by rw [hr.data ri hri]; exact r3, r4⟩
      feat := ?_
      groups_known := by intro x hx; show x.1 = d.root ∨ x.1 ∈ attrs.map Attr.name; rw [hnames]; exact h.groups_known x hx
      grouped := ?_
      ungrouped := ?_
      rels := ?_
      store := fun cl => by rw [o7, hget]; exact h.store cl
      registered := ?_ }
  · intro a haa
    have haa : a ∈ attrs := haa
    rw [ha] at haa
    obtain ⟨b, hb, rfl⟩ := List.mem_map.1 haa
    obtain ⟨j, f, q, f1, f2, f3, f4, f5⟩ := h.feat b hb
    have hfp : FParent m' j q := fparent_mono w (fun x _ => by rw [hr.par]) (fun x _ hx => hisf x hx) (fun x _ ⟨k, hx⟩ => ⟨k, hrel x k hx⟩)
      (.inl (known_of_mem f1)) f5
    split
    · next e =>
      rw [hg b hb e, if_pos e]
      have : j = i := names_inj w f1 (e ▸ hi)
      subst this
      have := hr.before
      rw [f2] at this; cases this
      exact ⟨j, _, q, by rw [o1]; exact f1, hr.after, by rw [← f3], by rw [o1]; exact f4, hfp⟩
    · next e =>
      have : j ≠ i := by rintro rfl; exact e (ids_inj w f1 hi)
      exact ⟨j, f, q, by rw [o1]; exact f1, by rw [hr.data j this]; exact f2, f3, by rw [o1]; exact f4, hfp⟩
  · intro x k j hgx hj
    rw [o1] at hj
    obtain ⟨r, e1, e2, e3⟩ := h.grouped x k j hgx hj
    rw [hr.edg]
    exact ⟨r, e1, hrel r k e2, fun c hc => hisf c (e3 c hc)⟩
  · intro x j hj hng c hc
    rw [o1] at hj
    rw [hr.edg] at hc
    exact hisf c (h.ungrouped x j hj hng c hc)
  · intro r hrr
    rw [o2] at hrr
    rw [hr.par, o1]
    exact h.rels r hrr
  · intro j f hkj hdf
    have ho : Known m j := by unfold Known at *; rw [o1] at hkj; exact hkj
    simp only [o7]
    by_cases hj : j = i
    · subst hj
      rw [hr.after] at hdf; cases hdf
      exact h.registered j ft ho hr.before
    · rw [hr.data j hj] at hdf
      exact h.registered j f ho hdf

theorem wf_exec (E : Env) (w : WF m) (b : Bound m) {o : Op} (hl : Legal m o) (h : m.exec E o = .ok m') : WF m' := by
  have := exec_sound w b E hl
  rw [h] at this
  rcases this with ⟨_, e, hw, _⟩ | ⟨_, _, e, _⟩
  · cases e; exact hw
  · cases e

theorem Spec.Describes.attr_inj (h : Describes d m) {a b : Attr} (ha : a ∈ d.attrs) (hb : b ∈ d.attrs) (e : b.name = a.name) : b = a := by
  obtain ⟨i, f, _, f1, f2, f3, _⟩ := h.feat a ha
  obtain ⟨j, g, _, g1, g2, g3, _⟩ := h.feat b hb
  have := names_inj h.wf g1 (e ▸ f1)
  subst this
  rw [f2] at g2; cases g2
  rw [← f3, ← g3]

theorem describes_locate (E : Env) (h : Describes d m) {n : Str} (hn : n ∈ d.attrs.map Attr.name) (r : Range) :
    ∃ m', m.exec E (.addLocation (.name n) r) = .ok m' ∧ Describes (d.edit (.locate n r)) m' ∧ m'.features = m.features := by
  obtain ⟨a, ha, rfl⟩ := List.mem_map.1 hn
  obtain ⟨i, f, q, f1, f2, f3, _⟩ := h.feat a ha
  have hres : m.resolve (.name a.name) = some i := getFeature_mem h.wf.names f1
  obtain ⟨m', h1, h2⟩ := C51_add E hres f2 r
  have w' := wf_exec E h.wf h.bound (o := .addLocation (.name a.name) r) ⟨i, hres, known_of_mem f1⟩ h1
  refine ⟨m', h1, describes_relocated h f1 h2 w' (g := fun a => { a with locs := a.locs ++ [r] }) rfl ?_ hn, h2.outer.1⟩
  intro b hb e
  have : b = a := h.attr_inj ha hb e
  subst this
  rw [if_pos rfl, f3]

theorem eraseLoc_eq (r : Range) : ∀ {ls : List Range}, (∃ l ∈ ls, l.eq r = true) → FModel.eraseLoc r ls = some (ls.eraseP (·.eq r))
  | [], h => by obtain ⟨_, h, _⟩ := h; cases h
  | x :: xs, h => by
    unfold FModel.eraseLoc
    cases hx : x.eq r with
    | true => simp [hx]
    | false =>
      have : ∃ l ∈ xs, l.eq r = true := by
        obtain ⟨l, hl, h2⟩ := h
        rcases List.mem_cons.1 hl with rfl | hl
        · rw [hx] at h2; cases h2
        · exact ⟨l, hl, h2⟩
      rw [eraseLoc_eq r this]
      simp [hx]

theorem describes_unlocate (E : Env) (h : Describes d m) {a : Attr} (ha : a ∈ d.attrs) {r : Range} (hr : ∃ l ∈ a.locs, l.eq r = true) :
    ∃ m', m.exec E (.removeLocation (.name a.name) r) = .ok m' ∧ Describes (d.edit (.unlocate a.name r)) m' ∧ m'.features = m.features := by
  obtain ⟨i, f, q, f1, f2, f3, _⟩ := h.feat a ha
  have hres : m.resolve (.name a.name) = some i := getFeature_mem h.wf.names f1
  obtain ⟨m', k1, k2, k3, k4, k5⟩ := updFeat_ok (fun f => { f with attr := { f.attr with locs := a.locs.eraseP (·.eq r) } }) f2
  have h2 := relocated_of_upd f2 k2 k3 k4 k5
  have hfe : m.feat? i = some f := by simp [FModel.feat?, heap_of_data f2]
  have h1 : m.exec E (.removeLocation (.name a.name) r) = .ok m' := by
    simp only [FModel.exec, FModel.execRemoveLocation, hres, hfe, f3, eraseLoc_eq r hr, k1, FModel.outOf]
  have w' := wf_exec E h.wf h.bound (o := .removeLocation (.name a.name) r) (by
    obtain ⟨l, hl, hlr⟩ := hr
    exact ⟨i, f, hres, known_of_mem f1, f2, l, by rw [f3]; exact hl, hlr⟩) h1
  refine ⟨m', h1, describes_relocated h f1 h2 w' (g := fun a => { a with locs := a.locs.eraseP (·.eq r) }) rfl ?_ (List.mem_map_of_mem ha), h2.outer.1⟩
  intro b hb e
  have : b = a := h.attr_inj ha hb e
  subst this
  rw [if_pos rfl]

/-! ### Moving a feature -/

theorem describes_move (E : Env) (h : Describes d m) {p c : Str} (hcn : c ∈ d.attrs.map Attr.name) (hp : d.Has p) (hu : ¬ d.Under c p)
    (hg : ∀ k, (p, k) ∉ d.groups) :
    ∃ m', m.exec E (.addChild (.name p) (.name c)) = .ok m' ∧ Describes (d.edit (.move p c)) m' ∧ m'.features = m.features := by
  have w := h.wf
  obtain ⟨ci, hci⟩ := (h.names c).2 (.inr hcn)
  obtain ⟨pi, hpi⟩ := (h.names p).2 hp
  have hkc := known_of_mem hci
  have hkp := known_of_mem hpi
  obtain ⟨r, rf, r1, r2, r3, r4⟩ := h.root
  have hroot : m.root ≠ some ci := by
    intro e
    rw [r1] at e; cases e
    exact h.root_new (w.id_unique hci r2 ▸ hcn)
  have hbel : ¬ Below m ci pi := fun hb => hu ((h.under_iff hci hpi).2 hb)
  have hne : ci ≠ pi := by rintro rfl; exact hbel .refl
  obtain ⟨m', h1, h2⟩ := execAddChild_ok (pr := .name p) (cr := .name c) w (getFeature_mem w.names hpi) (getFeature_mem w.names hci)
    (.inl hkp) (.inl hkc) hroot hne
  have w' := wf_of_moved w h2 (.inl hkp) (.inl hkc) hroot hbel
  refine ⟨m', h1, ?_, h2.rest.features⟩
  have hf := h2.rest.features
  have hst := fun cl => store_eq h2.rest.booleans h2.rest.nonBooleans h2.rest.mixeds cl
  have hget : m'.getFeature = m.getFeature := getFeature_congr hf
  have hisf : ∀ x, IsFeat m x → IsFeat m' x := by rintro x ⟨f, hf⟩; exact ⟨f, by rw [h2.data]; exact hf⟩
  have hfp : ∀ {x q}, x ≠ ci → FParent m x q → FParent m' x q := by
    intro x q hx hq
    induction hq with
    | direct a b => exact .direct (by rw [h2.par, upd_ne _ _ hx]; exact a) (hisf _ b)
    | skip a b _ ih =>
      refine .skip (by rw [h2.par, upd_ne _ _ hx]; exact a) (by obtain ⟨k, hk⟩ := b; exact ⟨k, by rw [h2.data]; exact hk⟩) (ih ?_)
      rintro rfl
      obtain ⟨f, hf⟩ := w.known_data hkc
      obtain ⟨k, hk⟩ := b
      rw [hf] at hk; cases hk
  have hrc : ∀ {x k}, data m x = some (.rel k) → x ≠ ci ∧ x ≠ pi := by
    intro x k hx
    constructor
    · rintro rfl
      obtain ⟨f, hf⟩ := w.known_data hkc
      rw [hf] at hx; cases hx
    · rintro rfl
      obtain ⟨f, hf⟩ := w.known_data hkp
      rw [hf] at hx; cases hx
  refine
    { wf := w'
      bound := bound_keep h.bound (allStored_eq h2.rest.booleans h2.rest.nonBooleans h2.rest.mixeds)
        (fun e he _ => by rw [hf]; exact he)
      name := by rw [h2.rest.name]; exact h.name
      path := by rw [h2.rest.path]; exact h.path
      commit := by rw [h2.rest.commit]; exact h.commit
      distinct := h.distinct
      root_new := h.root_new
      names := by intro n; rw [hf]; exact h.names n
      root := ⟨r, rf, by rw [h2.rest.root]; exact r1, by rw [hf]; exact r2, by rw [h2.data]; exact r3, r4⟩
      feat := ?_
      groups_known := h.groups_known
      grouped := ?_
      ungrouped := ?_
      rels := ?_
      store := fun cl => by rw [hst, hget]; exact h.store cl
      registered := ?_ }
  · intro a ha
    obtain ⟨i, f, q, f1, f2, f3, f4, f5⟩ := h.feat a ha
    simp only [Desc.edit]
    rw [hf, h2.data]
    by_cases hac : a.name = c
    · have : i = ci := w.entry_unique f1 (hac ▸ hci)
      subst this
      exact ⟨i, f, pi, f1, f2, f3, by rw [if_pos hac]; exact hpi, .direct (by rw [h2.par, upd_same]) (hisf _ (w.known_data hkp))⟩
    · have hne : i ≠ ci := by rintro rfl; exact hac (w.id_unique f1 hci)
      exact ⟨i, f, q, f1, f2, f3, by rw [if_neg hac]; exact f4, hfp hne f5⟩
  · intro x k j hgx hj
    rw [hf] at hj
    obtain ⟨t, t1, t2, t3⟩ := h.grouped x k j hgx hj
    have hjo : Owned m j := .inl (known_of_mem hj)
    have hjp : j ≠ pi := by rintro rfl; exact hg k (ids_inj w hj hpi ▸ hgx)
    obtain ⟨n1, n2⟩ := hrc t2
    have hto := (w.edge_par j t hjo (by rw [t1]; simp)).1
    refine ⟨t, ?_, by rw [h2.data]; exact t2, ?_⟩
    · rw [h2.edge j hjo hjp, t1]
      simp [n1]
    · intro y hy
      rw [h2.edge t hto n2] at hy
      exact hisf y (t3 y (List.mem_of_mem_erase hy))
  · intro x j hj hng y hy
    rw [hf] at hj
    have hjo : Owned m j := .inl (known_of_mem hj)
    by_cases hjp : j = pi
    · subst hjp
      rw [h2.edge_new, List.mem_append, List.mem_singleton] at hy
      rcases hy with hy | rfl
      · exact hisf y (h.ungrouped x j hj hng y (List.mem_of_mem_erase hy))
      · exact hisf _ (w.known_data hkc)
    · rw [h2.edge j hjo hjp] at hy
      exact hisf y (h.ungrouped x j hj hng y (List.mem_of_mem_erase hy))
  · intro t ht
    rw [h2.rest.rels] at ht
    obtain ⟨x, k, j, g1, g2, g3⟩ := h.rels t ht
    obtain ⟨k', hk'⟩ := w.rel_ok t ht
    exact ⟨x, k, j, g1, by rw [hf]; exact g2, by rw [h2.par, upd_ne _ _ (hrc hk').1]; exact g3⟩
  · intro i f hk' hdf
    have ho : Known m i := by unfold Known at *; rw [hf] at hk'; exact hk'
    rw [h2.data] at hdf
    simp only [hst]
    exact h.registered i f ho hdf

/-! ### Another root -/

theorem describes_root (E : Env) (h : Describes d m) (hk : ConstraintsKnown d) {n : Str} (hn : ¬ d.Has n)
    (hm : ∀ y ∈ d.constraints, d.root ∉ y.2.features) :
    ∃ m', m.exec E (.setRoot n) = .ok m' ∧ Describes (d.edit (.root n)) m' ∧ ∀ e ∈ m.features, e.1 ≠ d.root → e ∈ m'.features := by
  have w := h.wf
  obtain ⟨r, rf, r1, r2, r3, r4⟩ := h.root
  have hkr := known_of_mem r2
  have hnew : ∀ i, (n, i) ∉ m.features := fun i hi => hn ((h.names n).1 ⟨i, hi⟩)
  obtain ⟨m', i, h1, h2⟩ := C52_set_root w E r1 hnew
  have w' := wf_exec E w h.bound (o := .setRoot n) (by
    intro j ft hj hft
    rw [r1] at hj; cases hj
    exact .inr (h.not_mentioned r2 hm)) h1
  have hfree : ∀ x, Owned m x → x ≠ i := by
    rintro x ho rfl
    obtain ⟨d, hd⟩ := w.owned_data ho
    have := h2.new
    rw [heap_of_data hd] at this
    cases this
  have hri : r ≠ i := hfree r (.inl hkr)
  have hkeep : ∀ {x j}, (x, j) ∈ m.features → x ≠ d.root → (x, j) ∈ m'.features ∧ j ≠ r := by
    intro x j hj hx
    have : j ≠ r := by rintro rfl; exact hx (ids_inj w hj r2)
    exact ⟨(h2.features _).2 (.inl ⟨hj, this⟩), this⟩
  have hold : ∀ {x j}, (x, j) ∈ m'.features → (x = n ∧ j = i) ∨ ((x, j) ∈ m.features ∧ j ≠ r ∧ x ≠ d.root ∧ x ≠ n) := by
    intro x j hj
    rcases (h2.features _).1 hj with ⟨a, b⟩ | a
    · refine .inr ⟨a, b, ?_, ?_⟩
      · rintro rfl; exact b (names_inj w a r2)
      · rintro rfl; exact hnew j a
    · cases a; exact .inl ⟨rfl, rfl⟩
  have hnr : n ≠ d.root := fun e => hn (.inl e)
  have hd : ∀ x, Owned m x → x ≠ r → data m' x = data m x := fun x hx hxr => by
    rw [h2.data, upd_ne _ _ hxr, upd_ne _ _ (hfree x hx)]
  have hdi : data m' i = some (.feat { attr := { name := n, kind := .root } }) := by
    rw [h2.data, upd_ne _ _ (fun e => hri e.symm), upd_same]
  have hedg : ∀ x, Owned m x → x ≠ r → edg m' x = edg m x := fun x hx hxr => by
    rw [h2.edg, upd_ne _ _ hxr, upd_ne _ _ (hfree x hx)]
  have hedi : edg m' i = edg m r := by rw [h2.edg, upd_ne _ _ (fun e => hri e.symm), upd_same]
  have hpar : ∀ x, Owned m x → par m' x = if par m x = some r then some i else par m x := by
    intro x hx
    rw [h2.par]
    by_cases hpx : par m x = some r
    · rw [if_pos hpx, if_pos (w.par_edge x r hx hpx).2]
    · rw [if_neg hpx, if_neg (fun hc => hpx (w.edge_par r x (.inl hkr) hc).2), if_neg (hfree x hx)]
  have hnor : ∀ x ∈ edg m r, x ≠ r := by
    rintro x hx rfl
    have := (w.edge_par x x (.inl hkr) hx).2
    rw [w.root_par r1] at this; cases this
  have hnor' : ∀ y, Owned m y → ∀ x ∈ edg m y, x ≠ r := by
    rintro y hy x hx rfl
    have := (w.edge_par y x hy hx).2
    rw [w.root_par r1] at this; cases this
  have hisf : ∀ x, Owned m x → x ≠ r → IsFeat m x → IsFeat m' x := fun x hx hxr ⟨f, hf⟩ => ⟨f, by rw [hd x hx hxr]; exact hf⟩
  have hfp : ∀ {x q}, Owned m x → FParent m x q → FParent m' x (if q = r then i else q) := by
    intro x q hx hq
    induction hq with
    | @direct x q a b =>
      by_cases hqr : q = r
      · subst hqr
        rw [if_pos rfl]
        exact .direct (by rw [hpar x hx, if_pos a]) ⟨_, hdi⟩
      · rw [if_neg hqr]
        exact .direct (by rw [hpar x hx, if_neg (fun e => hqr (by rw [a] at e; exact Option.some.inj e))]; exact a)
          (hisf q (w.par_edge x q hx a).1 hqr b)
    | @skip x s q a b _ ih =>
      have hso := (w.par_edge x s hx a).1
      have hsr : s ≠ r := by
        rintro rfl
        obtain ⟨k, hk⟩ := b
        rw [r3] at hk; cases hk
      exact .skip (by rw [hpar x hx, if_neg (fun e => hsr (by rw [a] at e; exact Option.some.inj e))]; exact a)
        (by obtain ⟨k, hk⟩ := b; exact ⟨k, by rw [hd s hso hsr]; exact hk⟩) (ih hso)
  have hst := fun cl => store_eq h2.booleans h2.nonBooleans h2.mixeds cl
  have hgrp : ∀ x k, (x, k) ∈ (d.edit (.root n)).groups ↔
      (x = n ∧ (d.root, k) ∈ d.groups) ∨ (x ≠ d.root ∧ (x, k) ∈ d.groups) := by
    intro x k
    simp only [Desc.edit, List.mem_map, Prod.mk.injEq]
    constructor
    · rintro ⟨⟨y, k'⟩, g1, g2, rfl⟩
      simp only at g2
      split at g2
      · next e => subst e; exact .inl ⟨g2.symm, g1⟩
      · next e => subst g2; exact .inr ⟨e, g1⟩
    · rintro (⟨rfl, g⟩ | ⟨e, g⟩)
      · exact ⟨_, g, by simp, rfl⟩
      · exact ⟨_, g, by simp [e], rfl⟩
  refine ⟨m', h1, ?_, fun ⟨x, j⟩ he hx => (hkeep he hx).1⟩
  refine
    { wf := w'
      bound := bound_keep h.bound (allStored_eq h2.booleans h2.nonBooleans h2.mixeds) ?_
      name := by rw [h2.name]; exact h.name
      path := by rw [h2.path]; exact h.path
      commit := by rw [h2.commit]; exact h.commit
      distinct := h.distinct
      root_new := fun hx => hn (.inr hx)
      names := ?_
      root := ⟨i, _, h2.root, (h2.features _).2 (.inr rfl), hdi, rfl⟩
      feat := ?_
      groups_known := ?_
      grouped := ?_
      ungrouped := ?_
      rels := ?_
      store := ?_
      registered := ?_ }
  · rintro ⟨x, j⟩ he hme
    refine (hkeep he ?_).1
    rintro rfl
    exact h.not_mentioned he hm hme
  · intro x
    show _ ↔ x = n ∨ x ∈ d.attrs.map Attr.name
    constructor
    · rintro ⟨j, hj⟩
      rcases hold hj with ⟨rfl, _⟩ | ⟨a, _, b, _⟩
      · exact .inl rfl
      · exact .inr (((h.names x).1 ⟨j, a⟩).resolve_left b)
    · rintro (rfl | hx)
      · exact ⟨i, (h2.features _).2 (.inr rfl)⟩
      · obtain ⟨j, hj⟩ := (h.names x).2 (.inr hx)
        exact ⟨j, (hkeep hj (by rintro rfl; exact h.root_new hx)).1⟩
  · intro a ha
    have ha : a ∈ d.attrs := ha
    obtain ⟨j, f, q, f1, f2, f3, f4, f5⟩ := h.feat a ha
    have hjo : Owned m j := .inl (known_of_mem f1)
    obtain ⟨k1, k2⟩ := hkeep f1 (fun e => h.root_new (e ▸ List.mem_map_of_mem ha))
    refine ⟨j, f, _, k1, by rw [hd j hjo k2]; exact f2, f3, ?_, hfp hjo f5⟩
    simp only [Desc.edit]
    by_cases hpr : d.parent a.name = d.root
    · rw [hpr] at f4
      rw [if_pos hpr, if_pos (names_inj w f4 r2)]
      exact (h2.features _).2 (.inr rfl)
    · obtain ⟨k3, k4⟩ := hkeep f4 hpr
      rw [if_neg hpr, if_neg k4]
      exact k3
  · rintro ⟨x, k⟩ hg
    show x = n ∨ x ∈ d.attrs.map Attr.name
    rcases (hgrp x k).1 hg with ⟨rfl, _⟩ | ⟨a, b⟩
    · exact .inl rfl
    · exact .inr ((h.groups_known _ b).resolve_left a)
  · intro x k j hg hj
    have fin : ∀ j', Owned m j' → (∃ t, edg m j' = [t] ∧ data m t = some (.rel k) ∧ ∀ c ∈ edg m t, IsFeat m c) → edg m' j = edg m j' →
        ∃ t, edg m' j = [t] ∧ data m' t = some (.rel k) ∧ ∀ c ∈ edg m' t, IsFeat m' c := by
      rintro j' hjo ⟨t, t1, t2, t3⟩ e
      have hto := (w.edge_par j' t hjo (by rw [t1]; simp)).1
      have htr : t ≠ r := by rintro rfl; rw [r3] at t2; cases t2
      refine ⟨t, by rw [e]; exact t1, by rw [hd t hto htr]; exact t2, ?_⟩
      intro c hc
      rw [hedg t hto htr] at hc
      exact hisf c (w.edge_par t c hto hc).1 (hnor' t hto c hc) (t3 c hc)
    rcases (hgrp x k).1 hg with ⟨rfl, b⟩ | ⟨a, b⟩
    · rcases hold hj with ⟨_, rfl⟩ | ⟨_, _, _, c⟩
      · exact fin r (.inl hkr) (h.grouped _ k r b r2) hedi
      · exact absurd rfl c
    · rcases hold hj with ⟨rfl, _⟩ | ⟨j1, j2, _, _⟩
      · exact absurd (h.groups_known _ b) hn
      · have hjo : Owned m j := .inl (known_of_mem j1)
        exact fin j hjo (h.grouped x k j b j1) (hedg j hjo j2)
  · intro x j hj hng c hc
    rcases hold hj with ⟨rfl, rfl⟩ | ⟨j1, j2, j3, _⟩
    · rw [hedi] at hc
      exact hisf c (w.edge_par r c (.inl hkr) hc).1 (hnor c hc)
        (h.ungrouped d.root r r2 (fun k hk => hng k ((hgrp _ k).2 (.inl ⟨rfl, hk⟩))) c hc)
    · have hjo : Owned m j := .inl (known_of_mem j1)
      rw [hedg j hjo j2] at hc
      exact hisf c (w.edge_par j c hjo hc).1 (hnor' j hjo c hc)
        (h.ungrouped x j j1 (fun k hk => hng k ((hgrp _ k).2 (.inr ⟨j3, hk⟩))) c hc)
  · intro t ht
    rw [h2.rels] at ht
    obtain ⟨x, k, j, g1, g2, g3⟩ := h.rels t ht
    by_cases hx : x = d.root
    · subst hx
      have := names_inj w g2 r2
      subst this
      exact ⟨n, k, i, (hgrp _ k).2 (.inl ⟨rfl, g1⟩), (h2.features _).2 (.inr rfl), by rw [hpar t (.inr ht), if_pos g3]⟩
    · obtain ⟨k1, k2⟩ := hkeep g2 hx
      refine ⟨x, k, j, (hgrp _ k).2 (.inr ⟨hx, g1⟩), k1, ?_⟩
      rw [hpar t (.inr ht), if_neg, g3]
      rw [g3]
      exact fun e => k2 (Option.some.inj e)
  · intro cl
    rw [hst, h.store]
    show _ = (d.ofClass cl).map _
    apply List.map_congr_left
    intro x hx
    have hx := (List.mem_filter.1 hx).1
    have : x.2.features.map m.getFeature = x.2.features.map m'.getFeature := by
      apply List.map_congr_left
      intro y hy
      obtain ⟨j, hj⟩ := (h.names y).2 (hk x hx y hy)
      have : y ≠ d.root := by rintro rfl; exact hm x hx hy
      rw [getFeature_mem w.names hj, getFeature_mem w'.names (hkeep hj this).1]
    rw [this]
  · intro j f hkj hdf
    simp only [hst]
    obtain ⟨x, hj⟩ := known_name hkj
    rcases hold hj with ⟨rfl, rfl⟩ | ⟨j1, j2, _, _⟩
    · rw [hdi] at hdf; cases hdf
      have hno : ∀ cl (idx : Nat) (s : Stored), (m.store cl)[idx]? = some s → x ∉ s.tree.features := by
        intro cl idx s hs hx
        obtain ⟨y, h1, h2⟩ := h.stored_mem hs
        exact hn (hk y h1 _ (h2 ▸ hx))
      refine ⟨fun l => ⟨nofun, ?_⟩, fun r => ⟨nofun, ?_⟩, fun r => ⟨nofun, ?_⟩, fun r s hs _ => (List.count_eq_zero.2 (hno _ _ _ hs)).symm⟩
      · rintro ⟨s, s1, s2⟩; exact absurd (List.mem_of_getElem? s2) (hno _ _ _ s1)
      · rintro ⟨s, s1, _, s2⟩; exact absurd s2 (hno _ _ _ s1)
      · rintro ⟨s, s1, _, s2⟩; exact absurd s2 (hno _ _ _ s1)
    · rw [hd j (.inl (known_of_mem j1)) j2] at hdf
      exact h.registered j f (known_of_mem j1) hdf

/-! ### One modification -/

/-- A feature that keeps its name keeps its place in memory. -/
def Stable (d' : Desc) (m m' : FModel) : Prop := ∀ x i, (x, i) ∈ m.features → d'.Has x → (x, i) ∈ m'.features

theorem describes_edit (E : Env) (h : Describes d m) (hk : ConstraintsKnown d) {e : Edit} (he : d.Can e) {m0 : FModel}
    (h0 : ∀ a p, e = .add a p → ∃ i, m0.getFeature p = some i ∧ (p, i) ∈ m.features) :
    ∃ m', m.exec E (e.op m0) = .ok m' ∧ Describes (d.edit e) m' ∧ ConstraintsKnown (d.edit e) ∧ Stable (d.edit e) m m' := by
  have same : ∀ {d' m'}, m'.features = m.features → Stable d' m m' := fun e x i hi _ => by rw [e]; exact hi
  cases e with
  | add a p =>
    obtain ⟨c1, c2, c3, c4⟩ := he
    obtain ⟨i, i1, i2⟩ := h0 a p rfl
    obtain ⟨m', h1, h2, h3⟩ := describes_add E h hk i2 c1 c3 c4
    refine ⟨m', by simp only [Edit.op, i1]; exact h1, h2, ?_, fun x i hi _ => h3 _ hi⟩
    intro x hx n hn
    rcases hk x hx n hn with h' | h'
    · exact .inl h'
    · exact .inr (by simp only [Desc.edit, List.map_append, List.mem_append]; exact .inl h')
  | remove n b =>
    classical
    obtain ⟨c1, c2, c3⟩ := he
    obtain ⟨m', h1, h2, h3⟩ := describes_remove E h c1 c2 c3
    refine ⟨m', h1, h2, ?_, ?_⟩
    · intro x hx y hy
      rcases hk x hx y hy with h' | h'
      · exact .inl h'
      · obtain ⟨a, ha, rfl⟩ := List.mem_map.1 h'
        refine .inr (List.mem_map.2 ⟨a, ?_, rfl⟩)
        simp only [Desc.edit, List.mem_filter]
        exact ⟨ha, by simpa using fun hu => c3 _ hu x hx hy⟩
    · intro x i hi hx
      obtain ⟨j, hj⟩ := (h2.names x).2 hx
      rw [names_inj h.wf hi (h3 _ hj)]
      exact hj
  | group k n =>
    obtain ⟨c1, c2⟩ := he
    obtain ⟨i, hi⟩ := (h.names n).2 c1
    obtain ⟨m', h1, h2, h3⟩ := Xml.describes_addRelationship_ptr E h (k := k) hi c2
    obtain ⟨m2, e1, e2⟩ := describes_addRelationship E h (k := k) c1 c2
    have hr : m.exec E (.addRelationship k (.ptr (some i))) = m.exec E (.addRelationship k (.name n)) := by
      simp only [FModel.exec, FModel.execAddRelationship]
      have : (({ m.put m.next { data := .rel k } with next := m.next + 1, rels := m.rels ++ [m.next] } : FModel).resolve (.name n)) = some i :=
        getFeature_mem h.wf.names hi
      rw [this]; rfl
    rw [hr, e1] at h1
    cases h1
    exact ⟨_, e1, e2, hk, same h3⟩
  | ungroup n =>
    obtain ⟨k, c1⟩ := he
    obtain ⟨m', h1, h2, h3⟩ := describes_ungroup E h c1
    exact ⟨m', h1, h2, hk, same h3⟩
  | locate n r =>
    have he : n ∈ d.attrs.map Attr.name := he
    obtain ⟨m', h1, h2, h3⟩ := describes_locate E h he r
    refine ⟨m', h1, h2, ?_, same h3⟩
    intro x hx y hy
    have hy' := hk x hx y hy
    rw [← h.names, ← h3, h2.names] at hy'
    exact hy'
  | unlocate n r =>
    obtain ⟨a, ha, rfl, hr⟩ := he
    obtain ⟨m', h1, h2, h3⟩ := describes_unlocate E h ha hr
    refine ⟨m', h1, h2, ?_, same h3⟩
    intro x hx y hy
    have hy' := hk x hx y hy
    rw [← h.names, ← h3, h2.names] at hy'
    exact hy'
  | constrain k c =>
    have he : ∀ n ∈ c.features, d.Has n := he
    obtain ⟨m', h1, h2⟩ := describes_addConstraint E h (k := k) he
    refine ⟨m', h1, h2, ?_, ?_⟩
    · intro x hx y hy
      rcases List.mem_append.1 hx with hx | hx
      · exact hk x hx y hy
      · rw [List.mem_singleton] at hx; subst hx
        exact he y hy
    · obtain ⟨m2, e1, e2⟩ := execAddConstraint_spec h.wf k c
      have hb : (c.features.all fun n => (m.getFeature n).isSome) = true := by
        rw [List.all_eq_true]
        intro n hnn
        obtain ⟨i, hi⟩ := (h.names n).2 (he n hnn)
        rw [getFeature_mem h.wf.names hi]; rfl
      rw [if_pos hb] at e1
      have : m.exec E (.addConstraint k c) = .ok m2 := e1
      rw [h1] at this; cases this
      exact same e2.outer.features
  | name s => exact ⟨_, rfl, describes_meta h (p := d.path) (c := d.commit) (by rw [← h.path, ← h.commit]), hk, same rfl⟩
  | commit s => exact ⟨_, rfl, describes_meta h (n := d.name) (p := d.path) (by rw [← h.path, ← h.name]), hk, same rfl⟩
  | path s => exact ⟨_, rfl, describes_meta h (n := d.name) (c := d.commit) (by rw [← h.name, ← h.commit]), hk, same rfl⟩
  | root n =>
    obtain ⟨c1, c2⟩ := he
    obtain ⟨m', h1, h2, h3⟩ := describes_root E h hk c1 c2
    refine ⟨m', h1, h2, ?_, ?_⟩
    · intro x hx y hy
      rcases hk x hx y hy with rfl | h'
      · exact absurd hy (c2 x hx)
      · exact .inr h'
    · intro x i hi hx
      refine h3 _ hi ?_
      rintro rfl
      rcases hx with hx | hx
      · exact c1 (.inl hx.symm)
      · exact h.root_new hx
  | move p c =>
    obtain ⟨c1, c2, c3, c4⟩ := he
    obtain ⟨m', h1, h2, h3⟩ := describes_move E h c1 c2 c3 c4
    exact ⟨m', h1, h2, hk, same h3⟩

theorem describes_edits (E : Env) {m0 : FModel} (w0 : WF m0) : ∀ (es : List Edit) (d : Desc) (m : FModel) (K : Str → Prop), Describes d m → ConstraintsKnown d →
    (∀ x, K x → ∃ i, (x, i) ∈ m0.features ∧ (x, i) ∈ m.features) → Desc.CanAll K d es →
    ∃ m', FModel.outFold (FModel.exec E) m (es.map (·.op m0)) = .ok m' ∧ Describes (es.foldl Desc.edit d) m' ∧
      ConstraintsKnown (es.foldl Desc.edit d)
  | [], _, m, _, h, hk, _, _ => ⟨m, rfl, h, hk⟩
  | e :: es, d, m, K, h, hk, hK, hc => by
    obtain ⟨c1, c2, c3⟩ := hc
    obtain ⟨m1, h1, h2, h3, h4⟩ := describes_edit E h hk c1 (m0 := m0) (by
      rintro a p rfl
      obtain ⟨i, i1, i2⟩ := hK p (c2 a p rfl)
      exact ⟨i, getFeature_mem w0.names i1, i2⟩)
    obtain ⟨m', k1, k2⟩ := describes_edits E w0 es (d.edit e) m1 _ h2 h3 (by
      rintro x ⟨x1, x2⟩
      obtain ⟨i, i1, i2⟩ := hK x x1
      exact ⟨i, i1, h4 x i i2 x2⟩) c3
    exact ⟨m', by rw [List.map_cons, outFold_cons h1]; exact k1, k2⟩

theorem describes_transaction (E : Env) {es : List Edit} (h : Describes d m) (hk : ConstraintsKnown d) (hc : Desc.CanAll d.Has d es) :
    ∃ m', runTransaction E m es = some m' ∧ Describes (es.foldl Desc.edit d) m' ∧ ConstraintsKnown (es.foldl Desc.edit d) := by
  obtain ⟨m', h1, h2, h3⟩ := describes_edits E h.wf es d m d.Has h hk (fun x hx => by
    obtain ⟨i, hi⟩ := (h.names x).2 hx
    exact ⟨i, hi, hi⟩) hc
  refine ⟨m', ?_, h2, h3⟩
  unfold runTransaction
  rw [commitOps_ok h1 h2.wf]

theorem describes_script (E : Env) : ∀ (ts : List (List Edit)) (d : Desc) (m : FModel), Describes d m → ConstraintsKnown d → d.CanRun ts →
    ∃ m', runScript E m ts = some m' ∧ Describes (ts.flatten.foldl Desc.edit d) m' ∧ ConstraintsKnown (ts.flatten.foldl Desc.edit d)
  | [], _, m, h, hk, _ => ⟨m, rfl, h, hk⟩
  | t :: ts, d, m, h, hk, hc => by
    obtain ⟨m1, h1, h2, h3⟩ := describes_transaction E h hk hc.1
    obtain ⟨m', k1, k2⟩ := describes_script E ts _ m1 h2 h3 hc.2
    refine ⟨m', by simp [runScript, h1, k1], ?_⟩
    simpa using k2

end Verif

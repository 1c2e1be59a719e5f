import Verif.FM.ScriptLemmas
/-!
# Lemmas: scripts that lead from one description to another
-/

namespace Verif
open Verif.Spec Verif.Props

namespace Spec

/-- From every model described by the first description some script leads to a model described by the second. -/
def Leads (E : Env) (d d' : Desc) : Prop :=
  ConstraintsKnown d → ∀ m, Describes d m → ∃ ts m', runScript E m ts = some m' ∧ Describes d' m' ∧ ConstraintsKnown d'

end Spec

variable {d d' : Desc} {m m' : FModel} {E : Env}

/-! ### Composition -/

theorem runScript_append : ∀ (ts us : List (List Edit)) (m m' : FModel), runScript E m ts = some m' →
    runScript E m (ts ++ us) = runScript E m' us
  | [], _, m, m', h => by simp only [runScript, Option.some.injEq] at h; subst h; rfl
  | t :: ts, us, m, m', h => by
    simp only [runScript, List.cons_append] at h ⊢
    cases ht : runTransaction E m t with
    | none => rw [ht] at h; simp at h
    | some m1 =>
      rw [ht] at h
      exact runScript_append ts us m1 m' (by simpa using h)

theorem Leads.refl (d : Desc) : Leads E d d := fun hk m h => ⟨[], m, rfl, h, hk⟩

theorem Leads.trans {d1 d2 d3 : Desc} (h1 : Leads E d1 d2) (h2 : Leads E d2 d3) : Leads E d1 d3 := by
  intro hk m h
  obtain ⟨ts, m1, a1, a2, a3⟩ := h1 hk m h
  obtain ⟨us, m2, b1, b2, b3⟩ := h2 a3 m1 a2
  exact ⟨ts ++ us, m2, by rw [runScript_append ts us m m1 a1]; exact b1, b2, b3⟩

/-- Facts about the first description may be used. -/
theorem Leads.given (h : ∀ m, Describes d m → ConstraintsKnown d → Leads E d d') : Leads E d d' :=
  fun hk m hd => h m hd hk hk m hd

theorem Leads.edit {e : Edit} (he : d.Can e) : Leads E d (d.edit e) := by
  intro hk m h
  obtain ⟨m', h1, h2, h3⟩ := describes_transaction E (es := [e]) h hk ⟨he, by rintro a p rfl; exact he.2.1, trivial⟩
  exact ⟨[[e]], m', by simp [runScript, h1], h2, h3⟩

/-- Descriptions that say the same. -/
theorem Leads.like (hname : d'.name = d.name)
    (hpath : d'.path = d.path) (hcommit : d'.commit = d.commit) (hroot : d'.root = d.root)
    (hdist : (d'.attrs.map Attr.name).Nodup) (hattrs : ∀ a, a ∈ d'.attrs ↔ a ∈ d.attrs)
    (hpar : ∀ a ∈ d.attrs, d'.parent a.name = d.parent a.name) (hgroups : ∀ g, g ∈ d'.groups ↔ g ∈ d.groups)
    (hcons : d'.constraints = d.constraints) : Leads E d d' := by
  intro hk m h
  refine ⟨[], m, rfl, h.congr hname hpath hcommit hroot hdist hattrs hpar hgroups (by intro cl; unfold Desc.ofClass; rw [hcons]), ?_⟩
  intro x hx n hn
  rw [hcons] at hx
  rw [hroot]
  rcases hk x hx n hn with h' | h'
  · exact .inl h'
  · obtain ⟨a, ha, rfl⟩ := List.mem_map.1 h'
    exact .inr (List.mem_map.2 ⟨a, (hattrs a).2 ha, rfl⟩)

/-! ### Facts about descriptions of models -/

structure Spec.TreeDesc (d : Desc) : Prop where
  distinct : (d.attrs.map Attr.name).Nodup
  root_new : d.root ∉ d.attrs.map Attr.name
  groups_known : ∀ g ∈ d.groups, d.Has g.1
  one : ∀ n k k', (n, k) ∈ d.groups → (n, k') ∈ d.groups → k = k'
  kinds : ∀ a ∈ d.attrs, a.kind ≠ .root
  parents : ∀ a ∈ d.attrs, d.Has (d.parent a.name)
  under : ∀ a ∈ d.attrs, d.Under d.root a.name
  acyclic : ∀ a ∈ d.attrs, ¬ d.Under a.name (d.parent a.name)

theorem Spec.Describes.sound (h : Describes d m) : TreeDesc d where
  distinct := h.distinct
  root_new := h.root_new
  groups_known := h.groups_known
  one := by
    intro n k k' h1 h2
    obtain ⟨i, hi⟩ := (h.names n).2 (h.groups_known _ h1)
    obtain ⟨r, a1, a2, _⟩ := h.grouped n k i h1 hi
    obtain ⟨r', b1, b2, _⟩ := h.grouped n k' i h2 hi
    rw [a1] at b1; cases b1
    rw [a2] at b2; cases b2
    rfl
  kinds := by
    intro a ha hk
    obtain ⟨i, f, p, f1, f2, f3, _⟩ := h.feat a ha
    obtain ⟨r, rf, r1, r2, _⟩ := h.root
    have := h.wf.one_root i f (known_of_mem f1) f2 (by rw [f3]; exact hk)
    rw [r1] at this; cases this
    exact h.root_new (h.wf.id_unique f1 r2 ▸ List.mem_map_of_mem ha)
  parents := by
    intro a ha
    obtain ⟨i, f, p, _, _, _, f4, _⟩ := h.feat a ha
    exact h.has.2 ⟨p, f4⟩
  under := by
    intro a ha
    obtain ⟨i, f, p, f1, _⟩ := h.feat a ha
    obtain ⟨r, rf, r1, r2, _⟩ := h.root
    exact (h.under_iff r2 f1).2 (h.wf.reach i r (.inl (known_of_mem f1)) r1)
  acyclic := by
    intro a ha hu
    obtain ⟨i, f, p, f1, _, _, f4, f5⟩ := h.feat a ha
    have hb := (h.under_iff f1 f4).1 hu
    have h1 := h.wf.fparent_level (.inl (known_of_mem f1)) f5
    have h2 := h.wf.below_level (.inl (known_of_mem f4)) hb
    omega

theorem Spec.TreeDesc.attr_inj (s : TreeDesc d) {a b : Attr} (ha : a ∈ d.attrs) (hb : b ∈ d.attrs) (e : b.name = a.name) : b = a := by
  have := s.distinct
  generalize d.attrs = l at *
  induction l with
  | nil => cases ha
  | cons x xs ih =>
    rw [List.map_cons, List.nodup_cons] at this
    obtain ⟨t1, t2⟩ := this
    rcases List.mem_cons.1 ha with ha | ha
    · rcases List.mem_cons.1 hb with hb | hb
      · rw [ha, hb]
      · exact absurd (List.mem_map.2 ⟨b, hb, by rw [e, ha]⟩) t1
    · rcases List.mem_cons.1 hb with hb | hb
      · exact absurd (List.mem_map.2 ⟨a, ha, by rw [← e, hb]⟩) t1
      · exact ih ha hb t2

/-! ### Groups -/

/-- Whatever group a feature has can be dissolved. -/
theorem leads_ungroup (d : Desc) (q : Str) : Leads E d { d with groups := d.groups.filter fun g => g.1 ≠ q } := by
  refine Leads.given fun m hd hk => ?_
  by_cases h : ∃ k, (q, k) ∈ d.groups
  · exact Leads.edit (e := .ungroup q) h
  · refine Leads.like rfl rfl rfl rfl hd.distinct (fun _ => Iff.rfl) (fun _ _ => rfl) ?_ rfl
    intro g
    simp only [List.mem_filter, decide_eq_true_eq]
    exact ⟨fun h => h.1, fun hg => ⟨hg, by rintro rfl; exact h ⟨g.2, hg⟩⟩⟩

/-- Missing groups can be made. -/
theorem leads_regroup (s : TreeDesc d) (cs : List (CKind × Constraint)) : ∀ (rest gs : List (Str × RKind)),
    (∀ g, g ∈ gs ∨ g ∈ rest ↔ g ∈ d.groups) → Leads E { d with groups := gs, constraints := cs } { d with constraints := cs }
  | [], gs, h => Leads.like rfl rfl rfl rfl s.distinct (fun _ => Iff.rfl) (fun _ _ => rfl) (fun g => by rw [← h g]; simp) rfl
  | (n, k) :: rest, gs, h => by
    by_cases hg : (n, k) ∈ gs
    · refine leads_regroup s cs rest gs fun g => ?_
      rw [← h g]
      constructor
      · rintro (a | a)
        · exact .inl a
        · exact .inr (List.mem_cons_of_mem _ a)
      · rintro (a | a)
        · exact .inl a
        · rcases List.mem_cons.1 a with rfl | a
          · exact .inl hg
          · exact .inr a
    · have hn : (n, k) ∈ d.groups := (h _).1 (.inr (List.mem_cons_self ..))
      refine Leads.trans (Leads.edit (e := .group k n) ⟨s.groups_known _ hn, fun k' hk' => ?_⟩) ?_
      · have := s.one n k k' hn ((h _).1 (.inl hk'))
        subst this
        exact hg hk'
      · refine leads_regroup s cs rest (gs ++ [(n, k)]) fun g => ?_
        rw [← h g]
        simp only [List.mem_append, List.mem_cons, List.not_mem_nil, or_false]
        exact or_assoc

/-! ### Features -/

theorem nodup_map_perm {l l' : List Attr} (h : l.Perm l') (hn : (l.map Attr.name).Nodup) : (l'.map Attr.name).Nodup :=
  (h.map Attr.name).nodup_iff.1 hn

/-- Missing features can be added, if the features they go to have no group. -/
theorem leads_regrow (s : TreeDesc d) (gs : List (Str × RKind)) (cs : List (CKind × Constraint)) : ∀ (k : Nat) (As Ms : List Attr),
    Ms.length = k → (As ++ Ms).Perm d.attrs → (∀ a ∈ Ms, ∀ k, (d.parent a.name, k) ∉ gs) →
    Leads E { d with attrs := As, groups := gs, constraints := cs } { d with groups := gs, constraints := cs }
  | 0, As, Ms, hl, hp, _ => by
    have : Ms = [] := List.length_eq_zero_iff.1 hl
    subst this
    rw [List.append_nil] at hp
    exact Leads.like rfl rfl rfl rfl s.distinct (fun a => hp.mem_iff.symm) (fun _ _ => rfl) (fun _ => Iff.rfl) rfl
  | k + 1, As, Ms, hl, hp, hg => by
    have step : ∀ x, d.Under d.root x → (x = d.root ∨ x ∈ As.map Attr.name) ∨
        ∃ a ∈ Ms, d.parent a.name = d.root ∨ d.parent a.name ∈ As.map Attr.name := by
      intro x hx
      induction hx with
      | refl => exact .inl (.inl rfl)
      | @step a ha _ ih =>
        rcases ih with ih | ih
        · rcases List.mem_append.1 (hp.mem_iff.2 ha) with ha | ha
          · exact .inl (.inr (List.mem_map_of_mem ha))
          · exact .inr ⟨a, ha, ih⟩
        · exact .inr ih
    have hnd : ((As ++ Ms).map Attr.name).Nodup := nodup_map_perm hp.symm s.distinct
    rw [List.map_append, List.nodup_append] at hnd
    obtain ⟨a, ha, hpa⟩ : ∃ a ∈ Ms, d.parent a.name = d.root ∨ d.parent a.name ∈ As.map Attr.name := by
      cases Ms with
      | nil => cases hl
      | cons b Ms =>
        have hb : b ∈ d.attrs := hp.mem_iff.1 (List.mem_append_right _ (List.mem_cons_self ..))
        rcases step _ (s.under b hb) with (h | h) | h
        · exact absurd (h ▸ List.mem_map_of_mem hb) s.root_new
        · exact absurd rfl (hnd.2.2 _ h _ (List.mem_map_of_mem (List.mem_cons_self ..)))
        · exact h
    have had : a ∈ d.attrs := hp.mem_iff.1 (List.mem_append_right _ ha)
    have hperm : Ms.Perm (a :: Ms.erase a) := List.perm_cons_erase ha
    refine Leads.trans (Leads.edit (e := .add a (d.parent a.name)) ⟨s.kinds a had, hpa, ?_, hg a ha⟩) ?_
    · rintro (h | h)
      · exact s.root_new (h ▸ List.mem_map_of_mem had)
      · exact hnd.2.2 _ h _ (List.mem_map_of_mem ha) rfl
    · have hpar : (fun x => if x = a.name then d.parent a.name else d.parent x) = d.parent := by
        funext x; split
        · rename_i h; rw [h]
        · rfl
      simp only [Desc.edit, hpar]
      refine leads_regrow s gs cs k (As ++ [a]) (Ms.erase a) ?_ ?_ ?_
      · have := hperm.length_eq
        simp only [List.length_cons] at this
        omega
      · refine List.Perm.trans ?_ hp
        rw [List.append_assoc]
        exact List.Perm.append_left _ hperm.symm
      · exact fun b hb => hg b (List.mem_of_mem_erase hb)

theorem filter_perm {α} (p : α → Bool) : ∀ l : List α, (l.filter (fun a => !p a) ++ l.filter p).Perm l
  | [] => .refl _
  | a :: l => by
    cases h : p a with
    | true =>
      simp only [List.filter_cons, h, Bool.not_true, Bool.false_eq_true, if_false, if_true]
      exact (List.perm_middle).trans ((filter_perm p l).cons a)
    | false =>
      simp only [List.filter_cons, h, Bool.not_false, Bool.false_eq_true, if_false, if_true, List.cons_append]
      exact (filter_perm p l).cons a

open Classical in
theorem undo_remove (s : TreeDesc d) (n : Str) (b : Bool) : Leads E (d.edit (.remove n b)) d := by
  refine Leads.trans (leads_ungroup _ (d.parent n)) ?_
  simp only [Desc.edit]
  have hg1 : ∀ g, g ∈ (d.groups.filter fun g => !d.Under n g.1).filter (fun g => g.1 ≠ d.parent n) →
      g ∈ d.groups ∧ ¬ d.Under n g.1 ∧ g.1 ≠ d.parent n := by
    intro g hg
    obtain ⟨h1, h2⟩ := List.mem_filter.1 hg
    obtain ⟨h3, h4⟩ := List.mem_filter.1 h1
    exact ⟨h3, by simpa using h4, by simpa using h2⟩
  refine Leads.trans (d2 := { d with groups := (d.groups.filter fun g => !d.Under n g.1).filter (fun g => g.1 ≠ d.parent n) })
    (leads_regrow s _ d.constraints _ _ (d.attrs.filter fun a => decide (d.Under n a.name)) rfl (filter_perm _ _) ?_) ?_
  · intro a ha k hk
    obtain ⟨h1, h2, h3⟩ := hg1 _ hk
    have hu : d.Under n a.name := by simpa using (List.mem_filter.1 ha).2
    have hda : a ∈ d.attrs := (List.mem_filter.1 ha).1
    generalize hx : a.name = x at hu
    cases hu with
    | refl => exact h3 (by rw [hx])
    | @step c hc hu => exact h2 (by rw [hx]; exact hu)
  · refine leads_regroup s d.constraints d.groups _ fun g => ?_
    exact ⟨fun h => h.elim (fun h => (hg1 g h).1) id, .inr⟩

/-! ### Moving -/

theorem undo_move (s : TreeDesc d) {p c : Str} (hc : c ∈ d.attrs.map Attr.name) : Leads E (d.edit (.move p c)) d := by
  refine Leads.trans (leads_ungroup _ (d.parent c)) ?_
  simp only [Desc.edit]
  obtain ⟨a, ha, rfl⟩ := List.mem_map.1 hc
  refine Leads.trans (Leads.edit (e := .move (d.parent a.name) a.name) ⟨List.mem_map_of_mem ha, s.parents a ha, ?_, ?_⟩) ?_
  · intro hu
    refine s.acyclic a ha ?_
    generalize hd : ({ d with parent := fun x => if x = a.name then p else d.parent x,
                              groups := d.groups.filter fun g => g.1 ≠ d.parent a.name } : Desc) = d1 at hu
    have h1 : d1.attrs = d.attrs := by rw [← hd]
    have h2 : d1.parent = fun x => if x = a.name then p else d.parent x := by rw [← hd]
    clear hd
    generalize d.parent a.name = x at hu
    induction hu with
    | refl => exact .refl
    | @step b hb _ ih =>
      by_cases hba : b.name = a.name
      · rw [hba]; exact .refl
      · rw [h2] at ih
        simp only [if_neg hba] at ih
        exact .step (h1 ▸ hb) ih
  · intro k hk
    simpa using (List.mem_filter.1 hk).2
  · have hpar : (fun x => if x = a.name then d.parent a.name else if x = a.name then p else d.parent x) = d.parent := by
      funext x; by_cases h : x = a.name
      · rw [if_pos h, h]
      · rw [if_neg h, if_neg h]
    simp only [Desc.edit, hpar]
    refine leads_regroup s d.constraints d.groups _ fun g => ?_
    exact ⟨fun h => h.elim (fun h => (List.mem_filter.1 h).1) id, .inr⟩

/-! ### Locations -/

/-- The description with other locations for one feature. -/
def withLocs (d : Desc) (n : Str) (L : List Range) : Desc :=
  { d with attrs := d.attrs.map fun a => if a.name = n then { a with locs := L } else a }

theorem Range.eq_refl (r : Range) : r.eq r = true := by
  have hl : ∀ l : Loc, l.eq l = true := by intro l; simp [Loc.eq]
  have hm : ∀ l : MemberOffset, l.eq l = true := by intro l; simp [MemberOffset.eq]
  have h1 : ∀ o : Option Loc, optEq Loc.eq o o = true := by intro o; cases o <;> simp [optEq, hl]
  have h2 : ∀ o : Option MemberOffset, optEq MemberOffset.eq o o = true := by intro o; cases o <;> simp [optEq, hm]
  unfold Range.eq
  simp [h1, h2]

theorem withLocs_names (n : Str) (L : List Range) : (withLocs d n L).attrs.map Attr.name = d.attrs.map Attr.name := by
  simp only [withLocs, List.map_map]
  congr 1; funext a
  simp only [Function.comp]; split <;> rfl

theorem leads_clear {n : Str} (hn : n ∈ d.attrs.map Attr.name) : ∀ L, Leads E (withLocs d n L) (withLocs d n [])
  | [] => Leads.refl _
  | l :: L => by
    refine Leads.trans (Leads.edit (e := .unlocate n l) ?_) ?_
    · obtain ⟨a, ha, rfl⟩ := List.mem_map.1 hn
      refine ⟨{ a with locs := l :: L }, List.mem_map.2 ⟨a, ha, by rw [if_pos rfl]⟩, rfl, l, List.mem_cons_self .., Range.eq_refl l⟩
    · have : (withLocs d n (l :: L)).edit (.unlocate n l) = withLocs d n L := by
        simp only [Desc.edit, withLocs, List.map_map]
        congr 2; funext a
        simp only [Function.comp]
        by_cases h : a.name = n
        · simp [h, Range.eq_refl]
        · simp [h]
      rw [this]
      exact leads_clear hn L

theorem leads_fill {n : Str} (hn : n ∈ d.attrs.map Attr.name) : ∀ L' L, Leads E (withLocs d n L) (withLocs d n (L ++ L'))
  | [], L => by rw [List.append_nil]; exact Leads.refl _
  | l :: L', L => by
    refine Leads.trans (Leads.edit (e := .locate n l) ?_) ?_
    · show n ∈ (withLocs d n L).attrs.map Attr.name
      rw [withLocs_names]; exact hn
    · have : (withLocs d n L).edit (.locate n l) = withLocs d n (L ++ [l]) := by
        simp only [Desc.edit, withLocs, List.map_map]
        congr 2; funext a
        simp only [Function.comp]
        by_cases h : a.name = n
        · simp [h]
        · simp [h]
      rw [this, show L ++ l :: L' = (L ++ [l]) ++ L' by simp]
      exact leads_fill hn L' _

/-- Any locations can be replaced by any others. -/
theorem leads_locs {n : Str} (hn : n ∈ d.attrs.map Attr.name) (L L' : List Range) : Leads E (withLocs d n L) (withLocs d n L') :=
  Leads.trans (leads_clear hn L) (leads_fill hn L' [])

theorem withLocs_eq (s : TreeDesc d) {a : Attr} (ha : a ∈ d.attrs) (f : Attr → Attr) (L : List Range) (hf : f a = { a with locs := L }) :
    { d with attrs := d.attrs.map fun b => if b.name = a.name then f b else b } = withLocs d a.name L := by
  simp only [withLocs, Desc.mk.injEq, true_and, and_true]
  refine List.map_congr_left fun b hb => ?_
  by_cases h : b.name = a.name
  · have := s.attr_inj ha hb h
    subst this
    rw [if_pos rfl, if_pos rfl, hf]
  · rw [if_neg h, if_neg h]

theorem withLocs_self (s : TreeDesc d) {a : Attr} (ha : a ∈ d.attrs) : withLocs d a.name a.locs = d := by
  rw [← withLocs_eq s ha id a.locs rfl]
  have : (d.attrs.map fun b => if b.name = a.name then id b else b) = d.attrs := by
    conv => rhs; rw [← List.map_id d.attrs]
    exact List.map_congr_left fun b _ => by split <;> rfl
  rw [this]

theorem undo_locs (s : TreeDesc d) {a : Attr} (ha : a ∈ d.attrs) (f : Attr → Attr) (L : List Range) (hf : f a = { a with locs := L }) :
    Leads E { d with attrs := d.attrs.map fun b => if b.name = a.name then f b else b } d := by
  rw [withLocs_eq s ha f L hf]
  have := leads_locs (E := E) (List.mem_map_of_mem ha) L a.locs (d := d) (n := a.name)
  rwa [withLocs_self s ha] at this

/-! ### Every modification but one -/

theorem undo_edit (s : TreeDesc d) (hk : ConstraintsKnown d) {e : Edit} (he : d.Can e) (hc : ∀ k c, e ≠ .constrain k c) : Leads E (d.edit e) d := by
  cases e with
  | add a p =>
    obtain ⟨c1, c2, c3, c4⟩ := he
    have hpne : ∀ b ∈ d.attrs, b.name ≠ a.name := fun b hb h => c3 (.inr (h ▸ List.mem_map_of_mem hb))
    have hch : ∀ b ∈ (d.edit (.add a p)).attrs, (d.edit (.add a p)).parent b.name ≠ a.name := by
      intro b hb
      simp only [Desc.edit] at hb ⊢
      rcases List.mem_append.1 hb with hb | hb
      · rw [if_neg (hpne b hb)]
        intro h; exact c3 (h ▸ s.parents b hb)
      · rw [List.mem_singleton] at hb; subst hb
        rw [if_pos rfl]
        rintro rfl; exact c3 c2
    have hu : ∀ x, (d.edit (.add a p)).Under a.name x → x = a.name := by
      intro x hx
      induction hx with
      | refl => rfl
      | @step b hb _ ih => exact absurd ih (hch b hb)
    have hmen : ∀ y ∈ d.constraints, a.name ∉ y.2.features := fun y hy hn => c3 (hk y hy _ hn)
    refine Leads.trans (Leads.edit (e := .remove a.name false) ⟨?_, fun _ => hch, ?_⟩) ?_
    · simp [Desc.edit]
    · intro x hx y hy
      rw [hu x hx]
      exact hmen y hy
    · classical
      have hnu : ∀ x, x ≠ a.name → ¬ (d.edit (.add a p)).Under a.name x := fun x hx h => hx (hu x h)
      refine Leads.like rfl rfl rfl rfl s.distinct ?_ ?_ ?_ rfl
      · intro b
        rw [show (((d.edit (.add a p)).edit (.remove a.name false)).attrs) =
          (d.attrs ++ [a]).filter fun b => !(d.edit (.add a p)).Under a.name b.name from rfl]
        simp only [List.mem_filter, List.mem_append, List.mem_singleton, Bool.not_eq_true', decide_eq_false_iff_not]
        constructor
        · exact fun hb => ⟨.inl hb, hnu _ (hpne b hb)⟩
        · rintro ⟨hb | rfl, h⟩
          · exact hb
          · exact absurd .refl h
      · intro b hb
        rw [show (((d.edit (.add a p)).edit (.remove a.name false)).attrs) =
          (d.attrs ++ [a]).filter fun b => !(d.edit (.add a p)).Under a.name b.name from rfl] at hb
        simp only [List.mem_filter, List.mem_append, List.mem_singleton, Bool.not_eq_true', decide_eq_false_iff_not] at hb
        have : b.name ≠ a.name := by intro h; rw [h] at hb; exact hb.2 .refl
        simp only [Desc.edit, if_neg this]
      · intro g
        rw [show (((d.edit (.add a p)).edit (.remove a.name false)).groups) =
          d.groups.filter fun g => !(d.edit (.add a p)).Under a.name g.1 from rfl]
        simp only [List.mem_filter, Bool.not_eq_true', decide_eq_false_iff_not]
        exact ⟨fun hg => ⟨hg, hnu _ (fun h => c3 (h ▸ s.groups_known g hg))⟩, fun h => h.1⟩
  | remove n b => exact undo_remove s n b
  | group k n =>
    obtain ⟨c1, c2⟩ := he
    refine Leads.trans (leads_ungroup _ n) (Leads.like rfl rfl rfl rfl s.distinct (fun _ => Iff.rfl) (fun _ _ => rfl) ?_ rfl)
    intro g
    simp only [Desc.edit, List.mem_filter, List.mem_append, List.mem_singleton, decide_eq_true_eq]
    constructor
    · intro hg
      exact ⟨.inl hg, by rintro rfl; exact c2 _ hg⟩
    · rintro ⟨h | rfl, h2⟩
      · exact h
      · exact absurd rfl h2
  | ungroup n =>
    refine leads_regroup s d.constraints d.groups _ fun g => ?_
    exact ⟨fun h => h.elim (fun h => (List.mem_filter.1 h).1) id, .inr⟩
  | locate n r =>
    obtain ⟨a, ha, rfl⟩ := List.mem_map.1 (show n ∈ d.attrs.map Attr.name from he)
    exact undo_locs s ha (fun a => { a with locs := a.locs ++ [r] }) _ rfl
  | unlocate n r =>
    obtain ⟨a, ha, rfl, _⟩ := he
    exact undo_locs s ha (fun a => { a with locs := a.locs.eraseP (·.eq r) }) _ rfl
  | constrain k c => exact absurd rfl (hc k c)
  | name t => exact Leads.edit (d := d.edit (.name t)) (e := .name d.name) trivial
  | commit t => exact Leads.edit (d := d.edit (.commit t)) (e := .commit d.commit) trivial
  | path t => exact Leads.edit (d := d.edit (.path t)) (e := .path d.path) trivial
  | root n =>
    obtain ⟨c1, c2⟩ := he
    have hne : d.root ≠ n := fun h => c1 (.inl h.symm)
    refine Leads.trans (Leads.edit (e := .root d.root) ⟨?_, ?_⟩) ?_
    · rintro (h | h)
      · exact hne h
      · exact s.root_new h
    · exact fun y hy hn => c1 (hk y hy _ hn)
    · have hb : ∀ x, d.Has x → (if (if x = d.root then n else x) = n then d.root else if x = d.root then n else x) = x := by
        intro x hx
        by_cases h : x = d.root
        · simp [h]
        · rw [if_neg h, if_neg (fun e : x = n => c1 (e ▸ hx))]
      refine Leads.like rfl rfl rfl rfl s.distinct (fun _ => Iff.rfl) ?_ ?_ rfl
      · intro a ha
        exact (hb _ (s.parents a ha)).symm
      · intro g
        have : (d.groups.map fun g => (if g.1 = d.root then n else g.1, g.2)).map (fun g => (if g.1 = n then d.root else g.1, g.2)) = d.groups := by
          rw [List.map_map]
          conv => rhs; rw [← List.map_id d.groups]
          refine List.map_congr_left fun g hg => ?_
          simp only [Function.comp]
          rw [hb _ (s.groups_known g hg)]
          rfl
        show g ∈ d.groups ↔ g ∈ (d.groups.map fun g => (if g.1 = d.root then n else g.1, g.2)).map (fun g => (if g.1 = n then d.root else g.1, g.2))
        rw [this]
  | move p c => exact undo_move s he.1

theorem undo_edits (E : Env) : ∀ (es : List Edit) (d : Desc) (m : FModel), Describes d m → ConstraintsKnown d → ∀ K : Str → Prop,
    Desc.CanAll K d es → (∀ k c, .constrain k c ∉ es) → Leads E (es.foldl Desc.edit d) d
  | [], _, _, _, _, _, _, _ => Leads.refl _
  | e :: es, d, m, hm, hk, K, hc, hn => by
    obtain ⟨c1, c2, c3⟩ := hc
    obtain ⟨m1, _, h2, h3⟩ := describes_transaction E (es := [e]) hm hk ⟨c1, by rintro a p rfl; exact c1.2.1, trivial⟩
    exact Leads.trans (undo_edits E es (d.edit e) m1 h2 h3 _ c3 (fun k c hm => hn k c (List.mem_cons_of_mem _ hm)))
      (undo_edit hm.sound hk c1 (fun k c h => hn k c (h ▸ List.mem_cons_self ..)))

theorem undo_script (E : Env) : ∀ (ts : List (List Edit)) (d : Desc) (m : FModel), Describes d m → ConstraintsKnown d → d.CanRun ts →
    (∀ t ∈ ts, ∀ k c, .constrain k c ∉ t) → Leads E (ts.flatten.foldl Desc.edit d) d
  | [], _, _, _, _, _, _ => Leads.refl _
  | t :: ts, d, m, hm, hk, hc, hn => by
    obtain ⟨m1, _, h2, h3⟩ := describes_transaction E hm hk hc.1
    have := undo_script E ts _ m1 h2 h3 hc.2 (fun t ht => hn t (List.mem_cons_of_mem _ ht))
    simp only [List.flatten_cons, List.foldl_append]
    exact Leads.trans this (undo_edits E t d m hm hk _ hc.1 (hn t (List.mem_cons_self ..)))

/-! ### From one model to any other -/

theorem leads_constraints (d : Desc) (hk : ConstraintsKnown d) : ∀ (cs ds : List (CKind × Constraint)), d.constraints = ds ++ cs →
    Leads E { d with constraints := ds } d
  | [], ds, h => by
    rw [List.append_nil] at h
    rw [← h]; exact Leads.refl _
  | (k, c) :: cs, ds, h => by
    refine Leads.trans (Leads.edit (e := .constrain k c) ?_) ?_
    · exact fun n hn => hk (k, c) (by rw [h]; simp) n hn
    · exact leads_constraints d hk cs (ds ++ [(k, c)]) (by rw [h]; simp)

/-- Without constraints everything can be removed. -/
theorem leads_bare : ∀ (k : Nat) (d : Desc), d.attrs.length ≤ k → d.constraints = [] →
    Leads E d { d with attrs := [], groups := [] }
  | 0, d, hl, hc => by
    have ha : d.attrs = [] := List.length_eq_zero_iff.1 (by omega)
    refine Leads.trans (leads_ungroup d d.root) (Leads.given fun m hm _ => ?_)
    refine Leads.like rfl rfl rfl rfl .nil (by simp [ha]) (fun a h => by simp [ha] at h) ?_ rfl
    intro g
    simp only [List.not_mem_nil, false_iff]
    intro hg
    have h1 := hm.groups_known g hg
    have h2 := (List.mem_filter.1 hg).2
    simp [ha] at h1 h2
    exact h2 h1
  | k + 1, d, hl, hc => by
    cases ha : d.attrs with
    | nil => exact leads_bare k d (by simp [ha]) hc
    | cons a as =>
      classical
      refine Leads.trans (Leads.edit (e := .remove a.name true) ⟨by simp [ha], by simp, by simp [hc]⟩) ?_
      refine Leads.trans (leads_bare k _ ?_ hc) (Leads.refl _)
      have hlt : (d.edit (.remove a.name true)).attrs.length < d.attrs.length := by
        rw [show (d.edit (.remove a.name true)).attrs = d.attrs.filter fun b => !d.Under a.name b.name from rfl]
        rw [← List.countP_eq_length_filter]
        refine Nat.lt_of_le_of_ne List.countP_le_length ?_
        intro h
        have := List.countP_eq_length.1 h a (by simp [ha])
        simp at this
        exact this .refl
      omega

/-- From any model without constraints to any other model. -/
theorem leads_any (hs : TreeDesc d) (hk : ConstraintsKnown d) (d0 : Desc) (h0 : d0.constraints = []) : Leads E d0 d := by
  refine Leads.trans (leads_bare _ d0 (Nat.le_refl _) h0) ?_
  refine Leads.trans (Leads.edit (e := .name d.name) trivial) (Leads.trans (Leads.edit (e := .commit d.commit) trivial)
    (Leads.trans (Leads.edit (e := .path d.path) trivial) ?_))
  simp only [Desc.edit]
  have hroot : ∀ d0 : Desc, d0.attrs = [] → d0.groups = [] → d0.constraints = [] → d0.name = d.name → d0.commit = d.commit → d0.path = d.path →
      Leads E d0 { d with attrs := [], groups := [], constraints := [] } := by
    intro d0 ha hg hc h1 h2 h3
    by_cases hr : d0.root = d.root
    · exact Leads.like h1.symm h3.symm h2.symm hr.symm .nil (by simp [ha]) (by simp [ha]) (by simp [hg]) (by simp [hc])
    · refine Leads.trans (Leads.edit (e := .root d.root) ⟨?_, by simp [hc]⟩) ?_
      · rintro (h | h)
        · exact hr h.symm
        · simp [ha] at h
      · exact Leads.like h1.symm h3.symm h2.symm rfl .nil (by simp [Desc.edit, ha]) (by simp [Desc.edit, ha]) (by simp [Desc.edit, hg])
          (by simp [Desc.edit, hc])
  refine Leads.trans (hroot _ rfl rfl h0 rfl rfl rfl) ?_
  refine Leads.trans (leads_regrow hs [] [] _ [] d.attrs rfl (by simp) (by simp)) ?_
  refine Leads.trans (leads_regroup hs [] d.groups [] (by simp)) ?_
  exact leads_constraints d hk d.constraints [] (by simp)

end Verif

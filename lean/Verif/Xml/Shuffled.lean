import Verif.Xml.Canonical
/-!
# Documents that list the same options in another order
-/

namespace Verif.Spec
open Verif

/-- The same option; the lists in it may be in another order, and the lists of children and exclusions may
    repeat entries. -/
structure SameOption (o o' : DocOption) : Prop where
  name : o'.name = o.name
  output : o'.output = o.output
  parent : o'.parent = o.parent
  optional : o'.optional = o.optional
  values : o'.values = o.values
  step : o'.step = o.step
  locs : o'.locs = o.locs
  children : ∀ n, n ∈ o'.children ↔ n ∈ o.children
  implied : o'.implied.Perm o.implied
  excluded : ∀ n, n ∈ o'.excluded ↔ n ∈ o.excluded

/-- The same options in any order. -/
def SameOptions (l l' : List DocOption) : Prop :=
  ∃ ps : List (DocOption × DocOption), (∀ p ∈ ps, SameOption p.1 p.2) ∧ l = ps.map Prod.fst ∧ l'.Perm (ps.map Prod.snd)

/-- Documents with the same content. -/
structure SameContent (x y : Doc) : Prop where
  name : y.name = x.name
  path : y.path = x.path
  commit : y.commit = x.commit
  binary : SameOptions x.binary y.binary
  numeric : SameOptions (x.numeric.getD []) (y.numeric.getD [])
  constraints : y.constraints = x.constraints

end Verif.Spec

namespace Verif.Xml
open Verif Verif.Spec Verif.Sxfm

variable {x y : Spec.Doc} {d : Desc} {cwd : Str}

/-- The options of both documents, side by side. -/
theorem options_paired (h : SameContent x y) : ∃ ps : List ((Bool × DocOption) × (Bool × DocOption)),
    (∀ p ∈ ps, p.2.1 = p.1.1 ∧ SameOption p.1.2 p.2.2) ∧ x.options = ps.map Prod.fst ∧ y.options.Perm (ps.map Prod.snd) := by
  obtain ⟨ps, h1, h2, h3⟩ := h.binary
  obtain ⟨qs, k1, k2, k3⟩ := h.numeric
  refine ⟨ps.map (fun p => ((false, p.1), (false, p.2))) ++ qs.map fun p => ((true, p.1), (true, p.2)), ?_, ?_, ?_⟩
  · intro p hp
    rcases List.mem_append.1 hp with hp | hp <;> obtain ⟨q, hq, rfl⟩ := List.mem_map.1 hp
    · exact ⟨rfl, h1 q hq⟩
    · exact ⟨rfl, k1 q hq⟩
  · simp [Doc.options, h2, k2, Function.comp_def]
  · have e1 := h3.map (Prod.mk false)
    have e2 := k3.map (Prod.mk true)
    simpa [Doc.options, Function.comp_def] using e1.append e2

theorem attr_same {o o' : DocOption} (h : SameOption o o') (b : Bool) : o'.attr b = o.attr b := by
  simp [DocOption.attr, h.name, h.output, h.optional, h.values, h.step, h.locs]

theorem doc_attrs_perm (h : SameContent x y) : y.attrs.Perm x.attrs := by
  obtain ⟨ps, h1, h2, h3⟩ := options_paired h
  have e := (h3.filter fun o => !isRootName o.2.name).map fun o => o.2.attr o.1
  refine e.trans (.of_eq ?_)
  unfold Doc.attrs
  rw [h2]
  clear h2 h3 e
  induction ps with
  | nil => rfl
  | cons p ps ih =>
    obtain ⟨e1, e2⟩ := h1 p (by simp)
    have ih := ih fun q hq => h1 q (by simp [hq])
    simp only [List.map_cons, List.filter_cons, e2.name]
    split
    · simp only [List.map_cons, ih, e1, attr_same e2]
    · exact ih

theorem roots_perm (h : SameContent x y) : y.roots.Perm x.roots := by
  obtain ⟨ps, h1, h2, h3⟩ := options_paired h
  refine ((h3.map fun o => o.2.name).filter _).trans (.of_eq ?_)
  unfold Doc.roots
  rw [h2, List.map_map, List.map_map]
  congr 1
  exact List.map_congr_left fun p hp => (h1 p hp).2.name

theorem option_of (h : SameContent x y) {o' : Bool × DocOption} (ho : o' ∈ y.options) :
    ∃ o ∈ x.options, o'.1 = o.1 ∧ SameOption o.2 o'.2 := by
  obtain ⟨ps, h1, h2, h3⟩ := options_paired h
  obtain ⟨p, hp, rfl⟩ := List.mem_map.1 (h3.mem_iff.1 ho)
  exact ⟨p.1, by rw [h2]; exact List.mem_map_of_mem hp, (h1 p hp).1, (h1 p hp).2⟩

theorem option_to (h : SameContent x y) {o : Bool × DocOption} (ho : o ∈ x.options) :
    ∃ o' ∈ y.options, o'.1 = o.1 ∧ SameOption o.2 o'.2 := by
  obtain ⟨ps, h1, h2, h3⟩ := options_paired h
  rw [h2] at ho
  obtain ⟨p, hp, rfl⟩ := List.mem_map.1 ho
  exact ⟨p.2, h3.mem_iff.2 (List.mem_map_of_mem hp), (h1 p hp).1, (h1 p hp).2⟩

theorem constraints_same {o o' : DocOption} (h : SameOption o o') (z : CKind × Constraint) : z ∈ o'.constraints ↔ z ∈ o.constraints := by
  simp only [DocOption.constraints, List.mem_append, List.mem_map, h.name, h.implied.mem_iff, h.excluded]

/-- The constraints of the options. -/
theorem optionConstraints_same (h : SameContent x y) (z : CKind × Constraint) :
    z ∈ y.options.flatMap (fun o => o.2.constraints) ↔ z ∈ x.options.flatMap (fun o => o.2.constraints) := by
  simp only [List.mem_flatMap]
  constructor
  · rintro ⟨o', ho, hz⟩
    obtain ⟨o, h1, _, h2⟩ := option_of h ho
    exact ⟨o, h1, (constraints_same h2 z).1 hz⟩
  · rintro ⟨o, ho, hz⟩
    obtain ⟨o', h1, _, h2⟩ := option_to h ho
    exact ⟨o', h1, (constraints_same h2 z).2 hz⟩

/-- What the other document describes. -/
def shuffledDesc (d : Desc) (y : Spec.Doc) : Desc :=
  { d with
    attrs := y.attrs
    constraints := y.options.flatMap (fun o => o.2.constraints) ++ y.ofClass .boolean ++ y.ofClass .nonBoolean ++ y.ofClass .mixed }

theorem ofClass_same (h : SameContent x y) (cl : CClass) : y.ofClass cl = x.ofClass cl := by rw [Doc.ofClass, Doc.ofClass, h.constraints]

theorem shuffled_mem (h : SameContent x y) (hd : DocDescribes cwd x d) (z : CKind × Constraint) :
    z ∈ (shuffledDesc d y).constraints ↔ z ∈ d.constraints := by
  rw [hd.constraints]
  simp only [shuffledDesc, List.mem_append, optionConstraints_same h, ofClass_same h]

theorem shuffled_describes (h : SameContent x y) (hd : DocDescribes cwd x d) : DocDescribes cwd y (shuffledDesc d y) := by
  have hp := doc_attrs_perm h
  have hn : ∀ n, n ∈ y.attrs.map Attr.name ↔ n ∈ x.attrs.map Attr.name := fun n => (hp.map Attr.name).mem_iff
  refine ⟨by rw [h.name]; exact hd.name, by rw [h.path]; exact hd.path, by rw [h.commit]; exact hd.commit, ?_, rfl, ?_, ?_, ?_, ?_, ?_, hd.groups, rfl⟩
  · rcases hd.root with ⟨e1, e2⟩ | e
    · exact .inl ⟨(e1 ▸ roots_perm h).eq_nil, e2⟩
    · exact .inr (List.perm_singleton.1 (e ▸ roots_perm h))
  · exact (hp.map Attr.name).nodup_iff.2 hd.distinct
  · intro o' ho p hpar
    obtain ⟨o, h1, _, h2⟩ := option_of h ho
    rw [h2.parent] at hpar
    rw [hn, hn, h2.name]
    exact hd.parent o h1 p hpar
  · intro o' ho c hc
    obtain ⟨o, h1, _, h2⟩ := option_of h ho
    rw [hn, h2.name]
    exact hd.children o h1 c ((h2.children c).1 hc)
  · intro o' ho hm hnone hall
    obtain ⟨o, h1, _, h2⟩ := option_of h ho
    rw [h2.name] at hm hall ⊢
    rw [hn] at hm
    refine hd.no_parent o h1 hm (by rw [← h2.parent]; exact hnone) fun q hq hc => ?_
    obtain ⟨q', k1, _, k2⟩ := option_to h hq
    exact hall q' k1 ((k2.children _).2 hc)
  · obtain ⟨rk, hrk⟩ := hd.acyclic
    exact ⟨rk, fun a ha => hrk a (hp.mem_iff.1 ha)⟩

theorem same_option_ok {o o' : DocOption} (h : SameOption o o') (ho : o.Ok) : o'.Ok where
  name := by rw [h.name]; exact ho.name
  output := by rw [h.output]; exact ho.output
  parent := by rw [h.parent]; exact ho.parent
  children := fun t ht => ho.children t ((h.children t).1 ht)
  implied := fun t ht => ho.implied t (h.implied.mem_iff.1 ht)
  excluded := fun t ht => ho.excluded t ((h.excluded t).1 ht)
  values := by rw [h.values]; exact ho.values
  step := by rw [h.step]; exact ho.step
  locs := by rw [h.locs]; exact ho.locs

theorem shuffled_ok {sci : Str → Option Str} (h : SameContent x y) (hx : x.Ok sci) : y.Ok sci where
  name := by rw [h.name]; exact hx.name
  path := by rw [h.path]; exact hx.path
  commit := by rw [h.commit]; exact hx.commit
  binary := by
    intro o' ho
    obtain ⟨ps, h1, h2, h3⟩ := h.binary
    obtain ⟨p, hp, rfl⟩ := List.mem_map.1 (h3.mem_iff.1 ho)
    exact same_option_ok (h1 p hp) (hx.binary _ (by rw [h2]; exact List.mem_map_of_mem hp))
  numeric := by
    intro l hl o' ho
    obtain ⟨ps, h1, h2, h3⟩ := h.numeric
    rw [hl] at h3
    obtain ⟨p, hp, rfl⟩ := List.mem_map.1 (h3.mem_iff.1 ho)
    have hm : p.1 ∈ x.numeric.getD [] := by rw [h2]; exact List.mem_map_of_mem hp
    cases hn : x.numeric with
    | none => rw [hn] at hm; cases hm
    | some l' => rw [hn] at hm; exact same_option_ok (h1 p hp) (hx.numeric l' hn _ hm)
  constraints := by rw [h.constraints]; exact hx.constraints

theorem shuffled_known (h : SameContent x y) (hd : DocDescribes cwd x d) (hk : ConstraintsKnown d) : ConstraintsKnown (shuffledDesc d y) := by
  intro z hz n hn
  have := hk z ((shuffled_mem h hd z).1 hz) n hn
  rw [hd.attrs] at this
  exact this.imp id ((doc_attrs_perm h).map Attr.name).mem_iff.2

theorem shuffled_writable (h : SameContent x y) (hd : DocDescribes cwd x d) (hw : Writable d) : Writable (shuffledDesc d y) := by
  have ha : ∀ a, a ∈ y.attrs → a ∈ d.attrs := fun a ha => by rw [hd.attrs]; exact (doc_attrs_perm h).mem_iff.1 ha
  exact ⟨hw.name, hw.path, hw.commit, hw.root, fun a h' => hw.names a (ha a h'), fun a h' b h'' => hw.siblings a (ha a h') b (ha b h''),
    fun a h' => hw.kinds a (ha a h'), fun a h' => hw.locs a (ha a h'), shuffled_known h hd hw.known,
    fun z hz => hw.constraints z ((shuffled_mem h hd z).1 hz)⟩

/-! ## Both models say the same -/

theorem countP_options (a b : Str) {o o' : DocOption} (h : SameOption o o') :
    o'.constraints.countP (fun x => decide (x.2 = .bin .implies (.feature a) (.feature b))) =
      o.constraints.countP (fun x => decide (x.2 = .bin .implies (.feature a) (.feature b))) := by
  unfold DocOption.constraints
  rw [List.countP_append, List.countP_append, h.name, List.Perm.countP_eq _ (h.implied.map _)]
  congr 1
  rw [List.countP_eq_zero.2, List.countP_eq_zero.2] <;>
  · intro z hz
    obtain ⟨n, _, rfl⟩ := List.mem_map.1 hz
    simp [excludes]

theorem countP_paired (a b : Str) (h : SameContent x y) :
    (y.options.flatMap fun o => o.2.constraints).countP (fun x => decide (x.2 = .bin .implies (.feature a) (.feature b))) =
      (x.options.flatMap fun o => o.2.constraints).countP (fun x => decide (x.2 = .bin .implies (.feature a) (.feature b))) := by
  obtain ⟨ps, h1, h2, h3⟩ := options_paired h
  rw [List.Perm.countP_eq _ (h3.flatMap_right _), h2]
  clear h2 h3
  induction ps with
  | nil => rfl
  | cons p ps ih =>
    simp only [List.map_cons, List.flatMap_cons, List.countP_append]
    rw [countP_options a b (h1 p (by simp)).2, ih fun q hq => h1 q (by simp [hq])]

theorem option_simple {o : DocOption} {z : CKind × Constraint} (h : z ∈ o.constraints) : z.1 = .boolean ∧ simple z.2 = true := by
  simp only [DocOption.constraints, List.mem_append, List.mem_map] at h
  rcases h with ⟨n, _, rfl⟩ | ⟨n, _, rfl⟩ <;> exact ⟨rfl, rfl⟩

theorem own_options (l : List (Bool × DocOption)) (cl : CClass) :
    ((l.flatMap fun o => o.2.constraints).filter fun x => decide (x.1.cls = cl)).filter
      (fun x => !(decide (cl = .boolean) && simple x.2)) = [] := by
  rw [List.filter_filter, List.filter_eq_nil_iff]
  intro z hz
  obtain ⟨o, _, hz⟩ := List.mem_flatMap.1 hz
  obtain ⟨e1, e2⟩ := option_simple hz
  rw [e1, e2]
  cases cl <;> simp [CKind.cls]

theorem mates_exclude {d : Desc} {gs : List (Str × RKind)} (hg : ∀ n k, (n, k) ∈ gs ↔ k = .alternative ∧ Exclusive d n) {a b : Str}
    (hm : GroupMates { d with groups := gs } a b) : Excludes d a b := by
  obtain ⟨h1, h2, h3, h4, k, h5⟩ := hm
  obtain ⟨a', ha, rfl⟩ := List.mem_map.1 h2
  obtain ⟨b', hb, rfl⟩ := List.mem_map.1 h3
  have hx := ((hg _ _).1 h5).2
  exact hx.excludes a' (List.mem_filter.2 ⟨ha, by simp⟩) b' (List.mem_filter.2 ⟨hb, by simpa using h4.symm⟩) h1

theorem shuffled_same (h : SameContent x y) (hd : DocDescribes cwd x d) {gs gs' : List (Str × RKind)}
    (hg : ∀ n k, (n, k) ∈ gs ↔ k = .alternative ∧ Exclusive d n)
    (hg' : ∀ n k, (n, k) ∈ gs' ↔ k = .alternative ∧ Exclusive (shuffledDesc d y) n) :
    SaysSame { d with groups := gs } { shuffledDesc d y with groups := gs' } where
  name := rfl
  path := rfl
  commit := rfl
  root := rfl
  attrs := fun a ha => ⟨a, (doc_attrs_perm h).mem_iff.2 (hd.attrs ▸ ha), rfl⟩
  attrs' := fun a ha => ⟨a, by show a ∈ d.attrs; rw [hd.attrs]; exact (doc_attrs_perm h).mem_iff.1 ha, rfl⟩
  parent := fun _ _ => rfl
  excluded := by
    intro a b
    have e : Excludes (shuffledDesc d y) a b ↔ Excludes d a b := exists_congr fun k => shuffled_mem h hd _
    constructor
    · rintro (hx | hx)
      · exact .inl (e.1 hx)
      · exact .inl (e.1 (mates_exclude hg' hx))
    · rintro (hx | hx)
      · exact .inl (e.2 hx)
      · exact .inl (e.2 (mates_exclude hg hx))
  implied := by
    intro a b
    show (shuffledDesc d y).constraints.countP _ = d.constraints.countP _
    rw [hd.constraints]
    simp only [shuffledDesc, List.countP_append, ofClass_same h, countP_paired a b h]
  present := by
    intro cl
    have e : ∀ z, z ∈ (shuffledDesc d y).ofClass cl ↔ z ∈ d.ofClass cl := fun z => by
      rw [Desc.ofClass, Desc.ofClass, List.mem_filter, List.mem_filter, shuffled_mem h hd]
    show (shuffledDesc d y).ofClass cl = [] ↔ d.ofClass cl = []
    rw [List.eq_nil_iff_forall_not_mem, List.eq_nil_iff_forall_not_mem]
    exact forall_congr' fun z => not_congr (e z)
  texts := by
    intro cl
    congr 1
    show ((shuffledDesc d y).constraints.filter _).filter _ = (d.constraints.filter _).filter _
    rw [hd.constraints]
    simp only [shuffledDesc, List.filter_append, ofClass_same h, own_options]

end Verif.Xml

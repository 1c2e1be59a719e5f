import Verif.Solver.NoStep
import Verif.Props.Enumeration
import Verif.Props.XmlRoundTrip
import Verif.Props.Clone
/-!
# Configurations after writing, reading and cloning

C72 and C73.
-/

namespace Verif.Props
open Verif Verif.Spec Verif.Xml Verif.Z3Solver

variable {d d' : Desc} {m m' : FModel} {F : IntFloats}

theorem same_lists (h : Describes d m) (h' : Describes d' m') (c : DescClear F d) (c' : DescClear F d')
    (hv : ∀ a, DescValid F (notBothDesc d) a ↔ DescValid F (notBothDesc d') a) (hs : ∀ a c, DescShows d a c ↔ DescShows d' a c)
    (E E' : Env) (O O' : Oracle) (hO : ∀ k ts, O.check k ts ≠ .unknown) (hO' : ∀ k ts, O'.check k ts ≠ .unknown) :
    ∃ k, ∀ fuel, k ≤ fuel → SameLists (getAllConfigs E F O fuel m) (getAllConfigs E' F O' fuel m') := by
  obtain ⟨k, h1⟩ := C40_as_coded h.wf (clear_desc h c) E O hO
  obtain ⟨k', h2⟩ := C40_as_coded h'.wf (clear_desc h' c') E' O' hO'
  have hval : (∃ a, Valid F (notBothIn m) a) ↔ ∃ a, Valid F (notBothIn m') a := by
    simp only [valid_notBoth_desc h, valid_notBoth_desc h', hv]
  have hs' : ∀ a c, DescShows (notBothDesc d) a c ↔ DescShows (notBothDesc d') a c := by
    intro a c
    have e : ∀ d : Desc, DescShows (notBothDesc d) a c ↔ DescShows d a c := fun d =>
      ⟨fun s => ⟨s.root, s.has, s.only⟩, fun s => ⟨s.root, s.has, s.only⟩⟩
    rw [e, e, hs]
  refine ⟨max k k', fun fuel hf => ?_⟩
  rcases h1 fuel (by omega) with ⟨n1, e1⟩ | ⟨b1, l, e1, l1⟩
  · rcases h2 fuel (by omega) with ⟨_, e2⟩ | ⟨b2, _⟩
    · exact .inl ⟨e1, e2⟩
    · exact absurd (hval.2 b2) n1
  · rcases h2 fuel (by omega) with ⟨n2, _⟩ | ⟨_, l', e2, l2⟩
    · exact absurd (hval.1 b1) n2
    · exact .inr ⟨l, l', e1, e2, same_enumerations ((enumerates_desc h).1 l1) ((enumerates_desc h').1 l2) hv hs'⟩

/-! ## C72: writing and reading -/

theorem noXor_written (W : WrittenAs d d') (hw : Writable d) : ∀ x ∈ d'.constraints, NoXor x.2 :=
  noXor_writable (writable_of_written W hw)

/-- A model whose choices a document can carry has the same valid configurations when it was written and
    read again, and `getAllConfigs` lists the same for both.  The claim is this for every model that can be
    written; it fails for or-groups, groups with optional members, ranges and children that exclude each
    other outside of groups. -/
theorem C72_kept_partial (h : Describes d m) (hw : Writable d) (hc : DescClear F d) (hk : Carried d) (E E' E₁ E₂ : Env)
    (sci : Str → Option Str) (cwd : Str) {world : FModel} (hf : ∀ i, world.heap i ≠ none → i < world.next)
    (O O' : Oracle) (hO : ∀ k ts, O.check k ts ≠ .unknown) (hO' : ∀ k ts, O'.check k ts ≠ .unknown) :
    ∃ x m', write E m = some x ∧ load sci E' world cwd x = .built m' ∧ (∀ a, Valid F m a ↔ Valid F m' a) ∧
      ∃ k, ∀ fuel, k ≤ fuel → SameLists (getAllConfigs E₁ F O fuel m) (getAllConfigs E₂ F O' fuel m') := by
  obtain ⟨x, m', d', h1, _, h3, h4, h5⟩ := C33_roundtrip_partial h hw E E' sci cwd hf
  refine ⟨x, m', h1, h3, fun a => ?_, same_lists h h4 hc (written_clear h5 hk hc) (fun a => ?_) (fun a c => written_shows h5) E₁ E₂ O O' hO hO'⟩
  · rw [valid_desc h, valid_desc h4]
    exact written_valid h5 hk hc
  · rw [notBothDesc_id (noXor_writable hw), notBothDesc_id (noXor_written h5 hw)]
    exact written_valid h5 hk hc

section
variable (h : Describes d m) (hw : Writable d) {E E' : Env} {sci : Str → Option Str} {cwd : Str} {world : FModel}
  (hf : ∀ i, world.heap i ≠ none → i < world.next) {x : Xml} (hx : write E m = some x)
  (hl : load sci E' world cwd x = .built m')
include h hw hf hx hl

/-- After writing and reading no valid configuration has two members of a group, whatever kind of group
    it was. -/
theorem C72_members_exclude {n : Str} {k : RKind} (hg : (n, k) ∈ d.groups) {y z : Attr} (hy : y ∈ d.kids n) (hz : z ∈ d.kids n)
    (hne : y.name ≠ z.name) (hb : y.kind = .binary) (hb' : z.kind = .binary) {a : Assign} (hv : Valid F m' a) :
    ¬ (a.bool y.name = true ∧ a.bool z.name = true) := by
  obtain ⟨d', h4, h5⟩ := reread h hw hf hx hl
  obtain ⟨y1, y2⟩ := mem_kids.1 hy
  obtain ⟨z1, z2⟩ := mem_kids.1 hz
  have hnum : ∀ {b : Attr}, b ∈ d.attrs → b.kind = .binary → ¬ DNum d' b.name := by
    intro b hb hk hn
    obtain ⟨c, hc, e, vs, st, hk'⟩ := (written_num h5 _).1 hn
    have : c = b := eq_of_name h.distinct hc hb e
    subst this
    rw [hk] at hk'; cases hk'
  have hmem := (constraints_of_written h5 (excludes y.name z.name)).2 (.inl ⟨_, _, .inr ⟨rfl, .inr
    ⟨hne, List.mem_map.2 ⟨y, y1, rfl⟩, List.mem_map.2 ⟨z, z1, rfl⟩, y2.trans z2.symm, k, by rw [y2]; exact hg⟩⟩⟩)
  have := ((valid_desc h4).1 hv).constraints _ hmem
  rintro ⟨s1, s2⟩
  have this : meaning (dvalue d' a) a.div0 (.bin .excludes (.feature y.name) (.feature z.name)) = some (.bool true) := this
  simp [meaning, dvalue, hnum y1 hb, hnum z1 hb', opMeaning, s1, s2] at this

/-- So every valid configuration with two members of an or-group is lost. -/
theorem C72_or_lost {n : Str} (hg : (n, .or) ∈ d.groups) {y z : Attr} (hy : y ∈ d.kids n) (hz : z ∈ d.kids n)
    (hne : y.name ≠ z.name) (hb : y.kind = .binary) (hb' : z.kind = .binary) {a : Assign} (_ : Valid F m a)
    (hs : a.bool y.name = true ∧ a.bool z.name = true) : ¬ Valid F m' a :=
  fun hv => C72_members_exclude h hw hf hx hl hg hy hz hne hb hb' hv hs

/-- A model with a range that is not empty cannot be given to the solver any more after writing and
    reading: loading it reads a step function that is not there. -/
theorem C72_range_crashes {y : Attr} (hy : y ∈ d.attrs) {lo hi : Int} {st : Option StepFn} (hk : y.kind = .numeric (.range lo hi) st)
    (hle : lo ≤ hi) (E₁ : Env) (O : Oracle) (fuel : Nat) :
    initSolver E₁ F (fuel + 1) m' = .crash ∧ getAllConfigs E₁ F O (fuel + 1) m' = .crash ∧ isValid E₁ F O (fuel + 1) m' = none := by
  obtain ⟨d', h4, h5⟩ := reread h hw hf hx hl
  have hattr : ∀ i f, Known m' i → data m' i = some (.feat f) → f.attr.kind = .root ∨ ∃ b ∈ d.attrs, f.attr.kind = keptKind b.kind := by
    intro i f hi hd
    rcases h4.attr_of (h4.wf.entry_mem hi hd) hd with ⟨_, _, e⟩ | ⟨c, hc, e, _⟩
    · exact .inl (by rw [e])
    · obtain ⟨b, hb, rfl⟩ := (written_attr h5).1 hc
      exact .inr ⟨b, hb, by rw [e]; rfl⟩
  obtain ⟨i, f, p, f1, f2, f3, _⟩ := h4.feat (kept y) ((written_attr h5).2 ⟨y, hy, rfl⟩)
  have hinit : initSolver E₁ F (fuel + 1) m' = .crash := by
    refine load_no_step (lo := lo) (hi := hi) (st := none) h4.wf E₁ fuel ?_ ?_ (known_of_mem f1) f2 ?_ hle
    · intro i f hi hd e
      rcases hattr i f hi hd with e' | ⟨b, hb, e'⟩
      · rw [e'] at e; cases e
      · have := hw.kinds b hb
        rw [e'] at e
        cases hkb : b.kind with
        | unknown => rw [hkb] at this; exact this
        | _ => rw [hkb] at e; cases e
    · intro i f lo hi st hi' hd e
      rcases hattr i f hi' hd with e' | ⟨b, hb, e'⟩
      · rw [e'] at e; cases e
      · rw [e'] at e
        cases hkb : b.kind with
        | numeric v s => rw [hkb] at e; exact ((FKind.numeric.injEq ..).mp e).2.symm
        | _ => rw [hkb] at e; cases e
    · rw [f3]
      show keptKind y.kind = _
      rw [hk]
      rfl
  exact ⟨hinit, by unfold getAllConfigs; rw [hinit], by unfold isValid; rw [hinit]⟩

end

/-! ## C73: cloning -/

theorem clonedAttr_kinds {x : Attr} (h : x.kind ≠ .unknown) :
    ((clonedAttr x).kind = .binary ↔ x.kind = .binary) ∧ (x.kind = .binary → (clonedAttr x).opt = x.opt) ∧
    (∀ v st, (clonedAttr x).kind = .numeric v st → st = none ∧ ∃ st', x.kind = .numeric v st') ∧
    (∀ v st, x.kind = .numeric v st → (clonedAttr x).kind = .numeric v none) ∧ (clonedAttr x).kind ≠ .unknown := by
  unfold clonedAttr
  cases e : x.kind with
  | unknown => exact absurd e h
  | root => simp
  | binary => simp
  | numeric v st =>
    refine ⟨by simp, nofun, ?_, ?_, by simp⟩
    · intro v' st' h
      cases h
      exact ⟨rfl, st, rfl⟩
    · intro v' st' h
      cases h
      rfl

theorem cloned_kids (d : Desc) (n : Str) : d.cloned.kids n = (d.kids n).map clonedAttr := by
  unfold Desc.kids Desc.cloned
  rw [List.filter_map]
  congr 1
  exact List.filter_congr fun x _ => by simp [clonedAttr_name]

theorem cloned_num (hk : ∀ x ∈ d.attrs, x.kind ≠ .unknown) (n : Str) : DNum d.cloned n ↔ DNum d n := by
  constructor
  · rintro ⟨y, hy, rfl, vs, st, h⟩
    obtain ⟨x, hx, rfl⟩ := List.mem_map.1 hy
    obtain ⟨_, st', h'⟩ := (clonedAttr_kinds (hk x hx)).2.2.1 vs st h
    exact ⟨x, hx, (clonedAttr_name x).symm, vs, st', h'⟩
  · rintro ⟨x, hx, rfl, vs, st, h⟩
    exact ⟨clonedAttr x, List.mem_map_of_mem hx, clonedAttr_name x, vs, none, (clonedAttr_kinds (hk x hx)).2.2.2.1 vs st h⟩

theorem cloned_value (hk : ∀ x ∈ d.attrs, x.kind ≠ .unknown) (a : Assign) :
    dvalue d.cloned a = dvalue d a ∧ dvalue01 d.cloned a = dvalue01 d a ∧ dsort d.cloned = dsort d := by
  have e := fun n => propext (cloned_num hk n)
  refine ⟨?_, ?_, ?_⟩ <;> funext n
  · unfold dvalue; rw [e n]
  · unfold dvalue01; rw [e n]
  · unfold dsort; rw [e n]

/-- No range has values. -/
def NoRange (d : Desc) : Prop := ∀ x ∈ d.attrs, ∀ lo hi st, x.kind = .numeric (.range lo hi) st → hi < lo

theorem orbit_empty {g : Int → Option Int} {lo hi v : Int} (h : hi < lo) : ¬ Orbit g lo hi v := by
  intro o
  induction o with
  | start h' => omega
  | step _ _ _ ih => exact ih

theorem allowed_cloned (hr : NoRange d) {x : Attr} (hx : x ∈ d.attrs) {v : Values} {st st' st'' : Option StepFn} (hk : x.kind = .numeric v st)
    {w : Int} : Allowed F v st' w ↔ Allowed F v st'' w := by
  cases v with
  | list vs => exact .rfl
  | range lo hi =>
    have := hr x hx lo hi st hk
    exact ⟨fun h => (orbit_empty this h).elim, fun h => (orbit_empty this h).elim⟩

theorem cloned_valid (hk : ∀ x ∈ d.attrs, x.kind ≠ .unknown) (hr : NoRange d) (a : Assign) : DescValid F d a ↔ DescValid F d.cloned a := by
  obtain ⟨v1, v2, _⟩ := cloned_value hk a
  have hh : ∀ x, DHolds d.cloned a x ↔ DHolds d a x := by
    rintro ⟨k, c⟩
    cases k <;> simp only [DHolds, v1, v2, cloned_num hk]
  constructor
  · intro v
    refine ⟨v.root, ?_, ?_, ?_, ?_, ?_, fun x hx => (hh x).2 (v.constraints x hx)⟩
    · intro y hy hb hs
      obtain ⟨x, hx, rfl⟩ := List.mem_map.1 hy
      rw [clonedAttr_name] at hs ⊢
      exact v.parent x hx ((clonedAttr_kinds (hk x hx)).1.1 hb) hs
    · intro y hy hb ho hn hs
      obtain ⟨x, hx, rfl⟩ := List.mem_map.1 hy
      rw [clonedAttr_name] at hn hs ⊢
      have hb := (clonedAttr_kinds (hk x hx)).1.1 hb
      exact v.mandatory x hx hb ((clonedAttr_kinds (hk x hx)).2.1 hb ▸ ho) hn hs
    · intro n hg hs
      obtain ⟨x, hx, h1, h2⟩ := v.alternative n hg hs
      rw [cloned_kids]
      refine ⟨clonedAttr x, List.mem_map_of_mem hx, by rw [clonedAttr_name]; exact h1, ?_⟩
      intro y hy hsy
      obtain ⟨z, hz, rfl⟩ := List.mem_map.1 hy
      rw [clonedAttr_name] at hsy ⊢
      rw [clonedAttr_name]
      exact h2 z hz hsy
    · intro n hg hs
      obtain ⟨x, hx, h1⟩ := v.or n hg hs
      rw [cloned_kids]
      exact ⟨clonedAttr x, List.mem_map_of_mem hx, by rw [clonedAttr_name]; exact h1⟩
    · intro y hy vs st h
      obtain ⟨x, hx, rfl⟩ := List.mem_map.1 hy
      obtain ⟨_, st', h'⟩ := (clonedAttr_kinds (hk x hx)).2.2.1 vs st h
      rw [clonedAttr_name]
      exact (allowed_cloned hr hx h').1 (v.numeric x hx vs st' h')
  · intro v
    refine ⟨v.root, ?_, ?_, ?_, ?_, ?_, fun x hx => (hh x).1 (v.constraints x hx)⟩
    · intro x hx hb hs
      have := v.parent (clonedAttr x) (List.mem_map_of_mem hx) ((clonedAttr_kinds (hk x hx)).1.2 hb)
      rw [clonedAttr_name] at this
      exact this hs
    · intro x hx hb ho hn hs
      have := v.mandatory (clonedAttr x) (List.mem_map_of_mem hx) ((clonedAttr_kinds (hk x hx)).1.2 hb)
        (((clonedAttr_kinds (hk x hx)).2.1 hb).trans ho)
      rw [clonedAttr_name] at this
      exact this hn hs
    · intro n hg hs
      obtain ⟨y, hy, h1, h2⟩ := v.alternative n hg hs
      rw [cloned_kids] at hy h2
      obtain ⟨x, hx, rfl⟩ := List.mem_map.1 hy
      rw [clonedAttr_name] at h1 h2
      refine ⟨x, hx, h1, fun z hz hsz => ?_⟩
      have := h2 (clonedAttr z) (List.mem_map_of_mem hz)
      rw [clonedAttr_name] at this
      exact this hsz
    · intro n hg hs
      obtain ⟨y, hy, h1⟩ := v.or n hg hs
      rw [cloned_kids] at hy
      obtain ⟨x, hx, rfl⟩ := List.mem_map.1 hy
      rw [clonedAttr_name] at h1
      exact ⟨x, hx, h1⟩
    · intro x hx vs st h
      have := v.numeric (clonedAttr x) (List.mem_map_of_mem hx) vs none ((clonedAttr_kinds (hk x hx)).2.2.2.1 vs st h)
      rw [clonedAttr_name] at this
      exact (allowed_cloned hr hx h).1 this

theorem cloned_clear (hc : DescClear F d) (hr : NoRange d) : DescClear F d.cloned := by
  have hk := hc.kinds
  obtain ⟨_, _, hsort⟩ := cloned_value hk { bool := fun _ => false, int := fun _ => 0, div0 := fun _ => 0 }
  exact
  { root := hc.root
    names := by
      intro y hy
      obtain ⟨x, hx, rfl⟩ := List.mem_map.1 hy
      rw [clonedAttr_name]
      exact hc.names x hx
    leaves := hc.leaves
    kinds := by
      intro y hy
      obtain ⟨x, hx, rfl⟩ := List.mem_map.1 hy
      exact (clonedAttr_kinds (hk x hx)).2.2.2.2
    ranges := by
      intro y hy lo hi st h
      obtain ⟨x, hx, rfl⟩ := List.mem_map.1 hy
      obtain ⟨_, st', h'⟩ := (clonedAttr_kinds (hk x hx)).2.2.1 _ st h
      exact .out (hr x hx lo hi st' h')
    parents := by
      intro y hy hb
      obtain ⟨x, hx, rfl⟩ := List.mem_map.1 hy
      rw [cloned_num hk, clonedAttr_name]
      exact hc.parents x hx ((clonedAttr_kinds (hk x hx)).1.1 hb)
    owners := by
      intro g hg
      rw [cloned_num hk]
      exact hc.owners g hg
    members := by
      intro g hg y hy
      rw [cloned_kids] at hy
      obtain ⟨x, hx, rfl⟩ := List.mem_map.1 hy
      exact (clonedAttr_kinds (hk x (mem_kids.1 hx).1)).1.2 (hc.members g hg x hx)
    nonempty := by
      intro g hg ha e
      rw [cloned_kids] at e
      exact hc.nonempty g hg ha (List.map_eq_nil_iff.1 e)
    sorts := by
      intro x hx
      have := hc.sorts x hx
      obtain ⟨k, c⟩ := x
      cases k with
      | mixed i => exact this
      | _ => rw [hsort]; exact this }

theorem cloned_shows (hk : ∀ x ∈ d.attrs, x.kind ≠ .unknown) {a : Assign} {c : Config} : DescShows d a c ↔ DescShows d.cloned a c := by
  have hval : ∀ x ∈ d.attrs, attrValue (clonedAttr x) a = attrValue x a := by
    intro x hx
    unfold attrValue
    rw [clonedAttr_name]
    unfold clonedAttr
    cases e : x.kind with
    | unknown => exact absurd e (hk x hx)
    | binary => simp
    | _ => rfl
  constructor
  · intro s
    refine ⟨s.root, ?_, ?_⟩
    · intro y hy
      obtain ⟨x, hx, rfl⟩ := List.mem_map.1 hy
      rw [hval x hx, clonedAttr_name]
      exact s.has x hx
    · intro n hn
      rw [cloned_names]
      exact s.only n hn
  · intro s
    refine ⟨s.root, ?_, ?_⟩
    · intro x hx
      have := s.has (clonedAttr x) (List.mem_map_of_mem hx)
      rw [hval x hx, clonedAttr_name] at this
      exact this
    · intro n hn
      have := s.only n hn
      rw [cloned_names] at this
      exact this

/-- The clone of a described model whose numeric features have no ranges (or empty ones) has the valid
    configurations of the original, and `getAllConfigs` lists the same for both.  The claim is this for
    every model; it fails for ranges and where a group does not hold all children of its feature. -/
theorem C73_kept_partial (h : Describes d m) (hroot : c!"root" ∉ d.attrs.map Attr.name) (hk : ConstraintsKnown d)
    (hc : DescClear F d) (hr : NoRange d) (E E₁ E₂ : Env) (O O' : Oracle) (hO : ∀ k ts, O.check k ts ≠ .unknown)
    (hO' : ∀ k ts, O'.check k ts ≠ .unknown) :
    ∃ c, m.clone E = .built c ∧ (∀ a, Valid F m a ↔ Valid F c a) ∧
      ∃ k, ∀ fuel, k ≤ fuel → SameLists (getAllConfigs E₁ F O fuel m) (getAllConfigs E₂ F O' fuel c) := by
  obtain ⟨c, h1, h2⟩ := clone_describes h E hroot hk
  refine ⟨c, h1, fun a => ?_, same_lists h h2 hc (cloned_clear hc hr) (fun a => ?_) (fun a c => cloned_shows hc.kinds) E₁ E₂ O O' hO hO'⟩
  · rw [valid_desc h, valid_desc h2]
    exact cloned_valid hc.kinds hr a
  · exact cloned_valid (d := notBothDesc d) hc.kinds hr a

/-- If some range has values, the solver cannot be set up for the clone: it has no step function. -/
theorem C73_range_crashes (h : Describes d m) (hroot : c!"root" ∉ d.attrs.map Attr.name) (hk : ConstraintsKnown d)
    (hu : ∀ x ∈ d.attrs, x.kind ≠ .unknown) {y : Attr} (hy : y ∈ d.attrs) {lo hi : Int} {st : Option StepFn}
    (hyk : y.kind = .numeric (.range lo hi) st) (hle : lo ≤ hi) (E E₁ : Env) (O : Oracle) :
    ∃ c, m.clone E = .built c ∧ ∀ fuel, initSolver E₁ F (fuel + 1) c = .crash ∧
      getAllConfigs E₁ F O (fuel + 1) c = .crash ∧ isValid E₁ F O (fuel + 1) c = none := by
  obtain ⟨c, h1, h2⟩ := clone_describes h E hroot hk
  refine ⟨c, h1, fun fuel => ?_⟩
  have hattr : ∀ i f, Known c i → data c i = some (.feat f) → f.attr.kind = .root ∨ ∃ b ∈ d.attrs, f.attr.kind = (clonedAttr b).kind := by
    intro i f hi hd
    rcases h2.attr_of (h2.wf.entry_mem hi hd) hd with ⟨_, _, e⟩ | ⟨z, hz, e, _⟩
    · exact .inl (by rw [e])
    · obtain ⟨b, hb, rfl⟩ := List.mem_map.1 hz
      exact .inr ⟨b, hb, by rw [e]⟩
  obtain ⟨i, f, p, f1, f2, f3, _⟩ := h2.feat (clonedAttr y) (List.mem_map_of_mem hy)
  have hinit : initSolver E₁ F (fuel + 1) c = .crash := by
    refine load_no_step (lo := lo) (hi := hi) (st := none) h2.wf E₁ fuel ?_ ?_ (known_of_mem f1) f2 ?_ hle
    · intro i f hi hd e
      rcases hattr i f hi hd with e' | ⟨b, hb, e'⟩
      · rw [e'] at e; cases e
      · rw [e'] at e
        exact (clonedAttr_kinds (hu b hb)).2.2.2.2 e
    · intro i f lo hi st hi' hd e
      rcases hattr i f hi' hd with e' | ⟨b, hb, e'⟩
      · rw [e'] at e; cases e
      · rw [e'] at e
        exact ((clonedAttr_kinds (hu b hb)).2.2.1 _ _ e).1
    · rw [f3]
      exact (clonedAttr_kinds (hu y hy)).2.2.2.1 _ _ hyk
  exact ⟨hinit, by unfold getAllConfigs; rw [hinit], by unfold isValid; rw [hinit]⟩

/-! ## Where configurations are lost or gained -/

/-- `root` with children `A` and `B`, in a group or not, excluding each other or not. -/
def pairCalls (oa ob : Bool) (g : Option RKind) (x : Bool) : List BCall :=
  [.setVmName c!"M", .makeRoot c!"root", .makeFeature { name := c!"A", kind := .binary, opt := oa },
   .makeFeature { name := c!"B", kind := .binary, opt := ob }] ++
  (match g with | some k => [.emplaceRelationship k c!"root"] | none => []) ++
  (if x = true then [.addConstraint .boolean (.bin .excludes (.feature c!"A") (.feature c!"B")),
    .addConstraint .boolean (.bin .excludes (.feature c!"B") (.feature c!"A"))] else [])

def pairDesc (oa ob : Bool) (g : Option RKind) (x : Bool) : Desc where
  name := c!"M"
  path := []
  commit := []
  root := c!"root"
  attrs := attrsOf (pairCalls oa ob g x)
  parent := fun _ => c!"root"
  groups := groupsOf (pairCalls oa ob g x)
  constraints := constraintsOf (pairCalls oa ob g x)

theorem pair_buildable (oa ob : Bool) (g : Option RKind) (x : Bool) : Buildable (pairCalls oa ob g x) (pairDesc oa ob g x) where
  attrs := rfl
  kinds := by cases g <;> cases x <;> cases oa <;> cases ob <;> simp [pairCalls, attrsOf]
  distinct := by cases g <;> cases x <;> cases oa <;> cases ob <;> simp [pairCalls, attrsOf]
  root := .inr (by cases g <;> cases x <;> rfl)
  root_new := by cases g <;> cases x <;> cases oa <;> cases ob <;> simp [pairCalls, attrsOf, pairDesc]
  default_root := by cases g <;> cases x <;> cases oa <;> cases ob <;> simp [pairCalls, attrsOf]
  edges := by intro p c hx; cases g <;> cases x <;> simp [pairCalls] at hx
  no_edge := fun _ _ _ => rfl
  acyclic := ⟨fun n => if n = c!"root" then 0 else 1, by
    cases g <;> cases x <;> cases oa <;> cases ob <;> simp [pairCalls, attrsOf, pairDesc]⟩
  groups := rfl
  one_group := by cases g <;> cases x <;> simp [pairCalls, groupsOf]
  groups_known := by cases g <;> cases x <;> simp [pairCalls, groupsOf, pairDesc]
  constraints := rfl
  name := .inr (by cases g <;> cases x <;> rfl)
  path := .inl (by cases g <;> cases x <;> exact ⟨rfl, rfl⟩)
  commit := .inl (by cases g <;> cases x <;> exact ⟨rfl, rfl⟩)

theorem pair_attrs (oa ob : Bool) (g : Option RKind) (x : Bool) : (pairDesc oa ob g x).attrs =
    [{ name := c!"A", kind := .binary, opt := oa }, { name := c!"B", kind := .binary, opt := ob }] := by
  cases g <;> cases x <;> rfl

theorem pair_kids (oa ob : Bool) (g : Option RKind) (x : Bool) (n : Str) : (pairDesc oa ob g x).kids n =
    if n = c!"root" then [{ name := c!"A", kind := .binary, opt := oa }, { name := c!"B", kind := .binary, opt := ob }] else [] := by
  unfold Desc.kids
  rw [pair_attrs]
  by_cases h : n = c!"root"
  · subst h; rfl
  · have h' : ¬ c!"root" = n := fun e => h e.symm
    simp [pairDesc, h, h']

theorem pair_groups (oa ob : Bool) (g : Option RKind) (x : Bool) (n : Str) (k : RKind) :
    (n, k) ∈ (pairDesc oa ob g x).groups ↔ n = c!"root" ∧ g = some k := by
  cases g <;> cases x <;> simp [pairDesc, pairCalls, groupsOf, eq_comm]

theorem pair_constraints (oa ob : Bool) (g : Option RKind) (x : Bool) (y : CKind × Constraint) :
    y ∈ (pairDesc oa ob g x).constraints ↔ x = true ∧ (y = excludes c!"A" c!"B" ∨ y = excludes c!"B" c!"A") := by
  cases g <;> cases x <;> simp [pairDesc, pairCalls, constraintsOf, excludes]

theorem pair_known (oa ob : Bool) (g : Option RKind) (x : Bool) : ConstraintsKnown (pairDesc oa ob g x) := by
  intro y hy n hn
  rw [pair_attrs]
  obtain ⟨_, rfl | rfl⟩ := (pair_constraints ..).1 hy <;>
  · simp only [excludes, Constraint.features, List.cons_append, List.nil_append, List.mem_cons, List.not_mem_nil, or_false] at hn
    rcases hn with rfl | rfl <;> simp

theorem pair_writable (oa ob : Bool) (g : Option RKind) (x : Bool) : Writable (pairDesc oa ob g x) where
  name := .inr (show Solid c!"M" from solid_of (by decide))
  path := .inl rfl
  commit := .inl rfl
  root := rfl
  names := by
    intro a ha
    rw [pair_attrs] at ha
    simp only [List.mem_cons, List.not_mem_nil, or_false] at ha
    rcases ha with rfl | rfl
    · show Solid c!"A" ∧ isRootName c!"A" = false
      exact ⟨solid_of (by decide), by decide⟩
    · show Solid c!"B" ∧ isRootName c!"B" = false
      exact ⟨solid_of (by decide), by decide⟩
  siblings := by
    intro a ha b hb _ h
    rw [pair_attrs] at ha hb
    simp only [List.mem_cons, List.not_mem_nil, or_false] at ha hb
    rcases ha with rfl | rfl <;> rcases hb with rfl | rfl
    · rfl
    · have h : lower c!"A" = lower c!"B" := h
      exact absurd h (by decide)
    · have h : lower c!"B" = lower c!"A" := h
      exact absurd h (by decide)
    · rfl
  kinds := by
    intro a ha
    rw [pair_attrs] at ha
    simp only [List.mem_cons, List.not_mem_nil, or_false] at ha
    rcases ha with rfl | rfl <;> trivial
  locs := by
    intro a ha
    rw [pair_attrs] at ha
    simp only [List.mem_cons, List.not_mem_nil, or_false] at ha
    rcases ha with rfl | rfl <;> simp
  known := pair_known oa ob g x
  constraints := by
    intro y hy
    obtain ⟨_, rfl | rfl⟩ := (pair_constraints ..).1 hy <;> exact .inr ⟨rfl, rfl⟩

theorem pair_num (oa ob : Bool) (g : Option RKind) (x : Bool) (n : Str) : ¬ DNum (pairDesc oa ob g x) n := by
  rintro ⟨a, ha, _, vs, st, hk⟩
  rw [pair_attrs] at ha
  simp only [List.mem_cons, List.not_mem_nil, or_false] at ha
  rcases ha with rfl | rfl <;> cases hk

theorem pair_clear (oa ob : Bool) (g : Option RKind) (x : Bool) : DescClear F (pairDesc oa ob g x) where
  root := show Char.ofNat 0 ∉ c!"root" by decide
  names := by
    intro a ha
    rw [pair_attrs] at ha
    simp only [List.mem_cons, List.not_mem_nil, or_false] at ha
    rcases ha with rfl | rfl
    · show Char.ofNat 0 ∉ c!"A"
      decide
    · show Char.ofNat 0 ∉ c!"B"
      decide
  leaves := by
    intro y hy n hn
    obtain ⟨_, rfl | rfl⟩ := (pair_constraints ..).1 hy <;>
    · simp only [excludes, Constraint.features, List.cons_append, List.nil_append, List.mem_cons, List.not_mem_nil, or_false] at hn
      rcases hn with rfl | rfl <;> decide
  kinds := by
    intro a ha
    rw [pair_attrs] at ha
    simp only [List.mem_cons, List.not_mem_nil, or_false] at ha
    rcases ha with rfl | rfl <;> simp
  ranges := by
    intro a ha lo hi st hk
    exact absurd ⟨a, ha, rfl, _, _, hk⟩ (pair_num oa ob g x _)
  parents := fun a _ _ => pair_num oa ob g x _
  owners := fun _ _ => pair_num oa ob g x _
  members := by
    rintro ⟨n, k⟩ hg a ha
    rw [pair_kids] at ha
    split at ha
    · simp only [List.mem_cons, List.not_mem_nil, or_false] at ha
      rcases ha with rfl | rfl <;> rfl
    · cases ha
  nonempty := by
    rintro ⟨n, k⟩ hg _
    obtain ⟨rfl, _⟩ := (pair_groups ..).1 hg
    rw [pair_kids]
    simp
  sorts := by
    intro y hy
    obtain ⟨_, rfl | rfl⟩ := (pair_constraints ..).1 hy <;> simp [excludes, sortOf, dsort, pair_num, opSort]

/-- The selection of the root and, if told so, of `A` and `B`. -/
def pick (a b : Bool) : Assign :=
  ⟨fun n => if n = c!"A" then a else if n = c!"B" then b else decide (n = c!"root"), fun _ => 0, fun _ => 0⟩

theorem pair_model (oa ob : Bool) (g : Option RKind) (x : Bool) : ∃ m, Describes (pairDesc oa ob g x) m := by
  obtain ⟨m, _, h⟩ := C28_builds_partial nothing_fresh (stdEnv true) (pair_buildable oa ob g x) (pair_known oa ob g x)
  exact ⟨m, h⟩

theorem not_carried_excludes {oa ob : Bool} {g : Option RKind} {x : Bool} {d' : Desc} (W : WrittenAs (pairDesc oa ob g x) d') (F : IntFloats)
    (a b : Bool) (hab : (a && b) = false) (hg : (c!"root", .alternative) ∈ d'.groups → (a || b) = true)
    (hn : (c!"root", .alternative) ∉ d'.groups → (oa || a) = true ∧ (ob || b) = true) : DescValid F d' (pick a b) := by
  have hattr : ∀ y ∈ d'.attrs, y = { name := c!"A", kind := .binary, opt := oa } ∨ y = { name := c!"B", kind := .binary, opt := ob } := by
    intro y hy
    obtain ⟨z, hz, rfl⟩ := (written_attr W).1 hy
    rw [pair_attrs] at hz
    simp only [List.mem_cons, List.not_mem_nil, or_false] at hz
    rcases hz with rfl | rfl
    · exact .inl rfl
    · exact .inr rfl
  have hpar : ∀ y ∈ d'.attrs, d'.parent y.name = c!"root" := by
    intro y hy
    obtain ⟨z, hz, rfl⟩ := (written_attr W).1 hy
    show d'.parent z.name = _
    rw [W.parent z hz]
    rfl
  have hmem : ∀ k, (c!"root", k) ∈ d'.groups → k = .alternative := fun k h => ((W.groups _ _).1 h).1
  have hA : ({ name := c!"A", kind := .binary, opt := oa } : Attr) ∈ d'.kids c!"root" := by
    refine (written_kid W).2 ⟨{ name := c!"A", kind := .binary, opt := oa }, ?_, rfl⟩
    rw [pair_kids]
    simp
  have hB : ({ name := c!"B", kind := .binary, opt := ob } : Attr) ∈ d'.kids c!"root" := by
    refine (written_kid W).2 ⟨{ name := c!"B", kind := .binary, opt := ob }, ?_, rfl⟩
    rw [pair_kids]
    simp
  have hgroup : ∀ {n k}, (n, k) ∈ d'.groups → n = c!"root" ∧ k = .alternative := by
    intro n k h
    obtain ⟨h1, h2⟩ := (W.groups n k).1 h
    refine ⟨?_, h1⟩
    have := h2.many
    cases hk : d'.kids n with
    | nil => rw [hk] at this; simp at this
    | cons y l =>
      have hy : y ∈ d'.kids n := by rw [hk]; simp
      obtain ⟨y1, y2⟩ := mem_kids.1 hy
      rw [← y2, hpar y y1]
  refine ⟨by rw [W.root]; rfl, ?_, ?_, ?_, ?_, ?_, ?_⟩
  · intro y hy _ _
    rw [hpar y hy]
    rfl
  · intro y hy _ ho hn' _
    rw [hpar y hy] at hn'
    obtain ⟨h1, h2⟩ := hn (hn' _)
    rcases hattr y hy with rfl | rfl
    · have ho : oa = false := ho
      rw [ho] at h1
      simpa [pick] using h1
    · have ho : ob = false := ho
      rw [ho] at h2
      simpa [pick] using h2
  · intro n h _
    obtain ⟨rfl, _⟩ := hgroup h
    have hor := hg h
    cases a with
    | true =>
      cases b with
      | true => cases hab
      | false =>
        refine ⟨_, hA, rfl, ?_⟩
        intro y hy hs
        rcases hattr y (mem_kids.1 hy).1 with rfl | rfl
        · rfl
        · cases hs
    | false =>
      cases b with
      | false => cases hor
      | true =>
        refine ⟨_, hB, rfl, ?_⟩
        intro y hy hs
        rcases hattr y (mem_kids.1 hy).1 with rfl | rfl
        · cases hs
        · rfl
  · intro n h
    cases (hgroup h).2
  · intro y hy vs st hk
    rcases hattr y hy with rfl | rfl <;> cases hk
  · have hnum : ∀ n, ¬ DNum d' n := fun n h => pair_num oa ob g x n ((written_num W n).1 h)
    have hex : ∀ {p q : Str}, (p = c!"A" ∧ q = c!"B") ∨ (p = c!"B" ∧ q = c!"A") → DHolds d' (pick a b) (excludes p q) := by
      rintro p q (⟨rfl, rfl⟩ | ⟨rfl, rfl⟩)
      · show meaning (dvalue d' (pick a b)) _ _ = _
        simp [meaning, dvalue, hnum, opMeaning, pick]
        revert hab; cases a <;> cases b <;> decide
      · show meaning (dvalue d' (pick a b)) _ _ = _
        simp [meaning, dvalue, hnum, opMeaning, pick]
        revert hab; cases a <;> cases b <;> decide
    intro y hy
    rcases (constraints_of_written W y).1 hy with ⟨p, q, ⟨rfl, k, h⟩ | ⟨rfl, ⟨k, h⟩ | h⟩⟩ | ⟨z, h1, h2, rfl⟩
    · obtain ⟨_, h | h⟩ := (pair_constraints ..).1 h <;> simp [excludes] at h
    · obtain ⟨_, h | h⟩ := (pair_constraints ..).1 h
      · simp [excludes] at h
        exact hex (.inl h.2)
      · simp [excludes] at h
        exact hex (.inr h.2)
    · obtain ⟨hne, hp, hq, _⟩ := h
      rw [pair_attrs] at hp hq
      simp only [List.map_cons, List.map_nil, List.mem_cons, List.not_mem_nil, or_false] at hp hq
      rcases hp with rfl | rfl <;> rcases hq with rfl | rfl
      · exact absurd rfl hne
      · exact hex (.inl ⟨rfl, rfl⟩)
      · exact hex (.inr ⟨rfl, rfl⟩)
      · exact absurd rfl hne
    · obtain ⟨_, rfl | rfl⟩ := (pair_constraints ..).1 h1 <;> cases h2 rfl

/-- The claim fails in both directions: with an or-group of `A` and `B`, choosing both is valid before and
    not after; with an alternative of optional `A` and `B`, choosing none is valid after and not before;
    with mandatory children `A` and `B` that exclude each other, nothing is valid before but something is
    after. -/
theorem C72_fails (F : IntFloats) (E E' : Env) (sci : Str → Option Str) (cwd : Str) :
    (∃ m x m' a, Describes (pairDesc false false (some .or) false) m ∧ write E m = some x ∧
      load sci E' nothing cwd x = .built m' ∧ Valid F m a ∧ ¬ Valid F m' a) ∧
    (∃ m x m' a, Describes (pairDesc true true (some .alternative) false) m ∧ write E m = some x ∧
      load sci E' nothing cwd x = .built m' ∧ ¬ Valid F m a ∧ Valid F m' a) ∧
    (∃ m x m' a, Describes (pairDesc false false none true) m ∧ write E m = some x ∧
      load sci E' nothing cwd x = .built m' ∧ (∀ a, ¬ Valid F m a) ∧ Valid F m' a) := by
  refine ⟨?_, ?_, ?_⟩
  · obtain ⟨m, h⟩ := pair_model false false (some .or) false
    obtain ⟨x, m', d', h1, _, h3, h4, h5⟩ := C33_roundtrip_partial h (pair_writable ..) E E' sci cwd nothing_fresh
    have hv : Valid F m (pick true true) := by
      rw [valid_desc h]
      refine ⟨rfl, fun _ _ _ _ => rfl, ?_, ?_, ?_, ?_, ?_⟩
      · intro y hy _ _ hn
        exact absurd ((pair_groups false false (some .or) false _ .or).2 ⟨rfl, rfl⟩) (hn .or)
      · intro n hg
        cases ((pair_groups ..).1 hg).2
      · intro n hg _
        obtain ⟨rfl, _⟩ := (pair_groups ..).1 hg
        rw [pair_kids]
        exact ⟨_, by simp; exact .inl rfl, rfl⟩
      · intro y hy vs st hk
        exact absurd ⟨y, hy, rfl, _, _, hk⟩ (pair_num _ _ _ _ y.name)
      · intro y hy
        cases ((pair_constraints ..).1 hy).1
    refine ⟨m, x, m', pick true true, h, h1, h3, hv, ?_⟩
    refine C72_or_lost h (pair_writable ..) nothing_fresh h1 h3 ((pair_groups ..).2 ⟨rfl, rfl⟩)
      (y := { name := c!"A", kind := .binary, opt := false }) (z := { name := c!"B", kind := .binary, opt := false })
      (by rw [pair_kids]; simp) (by rw [pair_kids]; simp) (by decide) rfl rfl hv ⟨rfl, rfl⟩
  · obtain ⟨m, h⟩ := pair_model true true (some .alternative) false
    obtain ⟨x, m', d', h1, _, h3, h4, h5⟩ := C33_roundtrip_partial h (pair_writable ..) E E' sci cwd nothing_fresh
    refine ⟨m, x, m', pick false false, h, h1, h3, ?_, ?_⟩
    · intro v
      rw [valid_desc h] at v
      obtain ⟨y, hy, hs, _⟩ := v.alternative c!"root" ((pair_groups ..).2 ⟨rfl, rfl⟩) rfl
      rw [pair_kids] at hy
      simp only [if_true, List.mem_cons, List.not_mem_nil, or_false] at hy
      rcases hy with rfl | rfl <;> cases hs
    · rw [valid_desc h4]
      refine not_carried_excludes h5 F false false rfl ?_ (fun _ => ⟨rfl, rfl⟩)
      intro hg
      have := ((h5.groups _ _).1 hg).2.mandatory (kept { name := c!"A", kind := .binary, opt := true })
        ((written_kid h5).2 ⟨_, by rw [pair_kids]; simp, rfl⟩)
      cases this
  · obtain ⟨m, h⟩ := pair_model false false none true
    obtain ⟨x, m', d', h1, _, h3, h4, h5⟩ := C33_roundtrip_partial h (pair_writable ..) E E' sci cwd nothing_fresh
    refine ⟨m, x, m', pick true false, h, h1, h3, ?_, ?_⟩
    · intro a v
      rw [valid_desc h] at v
      have hsel : ∀ y ∈ (pairDesc false false none true).attrs, a.bool y.name = true := by
        intro y hy
        refine v.mandatory y hy ?_ ?_ ?_ v.root
        · rw [pair_attrs] at hy
          simp only [List.mem_cons, List.not_mem_nil, or_false] at hy
          rcases hy with rfl | rfl <;> rfl
        · rw [pair_attrs] at hy
          simp only [List.mem_cons, List.not_mem_nil, or_false] at hy
          rcases hy with rfl | rfl <;> rfl
        · intro k hg
          cases ((pair_groups ..).1 hg).2
      have hA := hsel { name := c!"A", kind := .binary } (by rw [pair_attrs]; simp)
      have hB := hsel { name := c!"B", kind := .binary } (by rw [pair_attrs]; simp)
      have := v.constraints (excludes c!"A" c!"B") ((pair_constraints ..).2 ⟨rfl, .inl rfl⟩)
      have this : meaning (dvalue _ a) _ _ = _ := this
      simp [meaning, dvalue, pair_num, opMeaning] at this
      have hA : a.bool c!"A" = true := hA
      have hB : a.bool c!"B" = true := hB
      rw [hA, hB] at this
      simp at this
    · rw [valid_desc h4]
      refine not_carried_excludes h5 F true false rfl (fun _ => rfl) ?_
      intro hn
      refine absurd ((h5.groups _ _).2 ⟨rfl, ?_, ?_, ?_⟩) hn
      · rw [(written_kids_perm h5 _).length_eq, List.length_map, pair_kids]
        simp
      · intro y hy
        obtain ⟨z, hz, rfl⟩ := (written_kid h5).1 hy
        rw [pair_kids] at hz
        simp only [if_true, List.mem_cons, List.not_mem_nil, or_false] at hz
        rcases hz with rfl | rfl <;> rfl
      · intro y hy z hz hne
        obtain ⟨y, hy', rfl⟩ := (written_kid h5).1 hy
        obtain ⟨z, hz', rfl⟩ := (written_kid h5).1 hz
        refine (excludes_of_written h5 _ _).2 (.inl ⟨.boolean, (pair_constraints ..).2 ⟨rfl, ?_⟩⟩)
        rw [pair_kids] at hy' hz'
        simp only [if_true, List.mem_cons, List.not_mem_nil, or_false] at hy' hz'
        rcases hy' with rfl | rfl <;> rcases hz' with rfl | rfl
        · exact absurd rfl hne
        · exact .inl rfl
        · exact .inr rfl
        · exact absurd rfl hne

/-- Where a group does not hold all children of its feature the clone has other configurations: here `B` is
    a mandatory child beside the group of `A`, so that both are always selected; in the clone only one
    of them can be. -/
theorem C73_fails (F : IntFloats) : ∃ m c a, WF m ∧ m.clone (stdEnv true) = .built c ∧ Valid F m a ∧ ¬ Valid F c a := by
  let m := ofNodes [featNode "root" none [1, 3] .root, ⟨.rel .alternative, some 0, [2]⟩, featNode "A" (some 1) [],
    featNode "B" (some 0) []] (some 0) [(c!"root", 0), (c!"A", 2), (c!"B", 3)] [1]
  have hw : WF m := wf_of_check (fun i => i) (ofNodes_fresh _ _ _ _ _) (by decide)
  obtain ⟨c, h1, h2⟩ := BuildRes.of_passes (r := m.clone (stdEnv true))
    (p := fun c => decide (7 ∈ c.rels) && decide (data c 7 = some (.rel .alternative)) && decide (par c 7 = some 4) &&
      decide (data c 4 = some (.feat { attr := { name := c!"root", kind := .root } })) && decide (5 ∈ edg c 7) && decide (6 ∈ edg c 7) &&
      decide (data c 5 = some (.feat { attr := { name := c!"A", kind := .binary } })) &&
      decide (data c 6 = some (.feat { attr := { name := c!"B", kind := .binary } }))) (by decide)
  simp only [Bool.and_eq_true, decide_eq_true_eq] at h2
  obtain ⟨⟨⟨⟨⟨⟨⟨r1, r2⟩, r3⟩, r4⟩, r5⟩, r6⟩, r7⟩, r8⟩ := h2
  have hk : ∀ {i}, Known m i → i = 0 ∨ i = 2 ∨ i = 3 := by
    intro i hi
    obtain ⟨e, he, rfl⟩ := List.mem_map.1 hi
    have he : e ∈ [(c!"root", 0), (c!"A", 2), (c!"B", 3)] := he
    simp only [List.mem_cons, List.not_mem_nil, or_false] at he
    rcases he with rfl | rfl | rfl <;> simp
  have hsel : ∀ {i}, Known m i → Selected m (pick true true) i := by
    intro i hi
    rcases hk hi with rfl | rfl | rfl <;> exact ⟨_, rfl, rfl⟩
  refine ⟨m, c, pick true true, hw, h1, ⟨?_, ?_, ?_, ?_, ?_, ?_, ?_, ?_⟩, ?_⟩
  · intro r hr
    cases hr
    exact ⟨_, rfl, rfl⟩
  · intro i f p hi _ _ hp _
    exact hsel (fparent_fst hw (.inl hi) hp)
  · intro i f p hi _ _ _ _ _ _
    exact hsel hi
  · intro r p hr hd hp _
    have hr : r ∈ [1] := hr
    simp only [List.mem_cons, List.not_mem_nil, or_false] at hr
    subst hr
    refine ⟨2, by decide, ⟨_, rfl, rfl⟩, ?_⟩
    intro c' hc' _
    have hc' : c' ∈ [2] := hc'
    simpa using hc'
  · intro r p hr hd
    have hr : r ∈ [1] := hr
    simp only [List.mem_cons, List.not_mem_nil, or_false] at hr
    subst hr
    cases hd
  · intro i f vs st hi hd hkd
    rcases hk hi with rfl | rfl | rfl <;> cases hd <;> cases hkd
  · intro c hc; cases hc
  · intro c hc; cases hc
  · intro v
    obtain ⟨b, _, _, hb⟩ := v.alternative 7 4 r1 r2 r3 ⟨_, r4, rfl⟩
    have e1 := hb 5 r5 ⟨_, r7, rfl⟩
    have e2 := hb 6 r6 ⟨_, r8, rfl⟩
    rw [← e1] at e2
    cases e2

/-! ## Not vacuous -/

/-- An alternative of `A`, with a group of its own of a single member `S`, and `B`, with an optional child
    `C` and a number. -/
def richCalls : List BCall :=
  [.setVmName c!"M", .makeRoot c!"root", .makeFeature { name := c!"A", kind := .binary, output := c!"-a" },
   .makeFeature { name := c!"B", kind := .binary }, .emplaceRelationship .alternative c!"root",
   .makeFeature { name := c!"S", kind := .binary }, .addEdge c!"A" c!"S", .emplaceRelationship .or c!"A",
   .makeFeature { name := c!"C", kind := .binary, opt := true }, .addEdge c!"B" c!"C",
   .makeFeature { name := c!"N", kind := .numeric (.list [-1, 5]) none }, .addEdge c!"B" c!"N",
   .addConstraint .boolean (.bin .implies (.feature c!"C") (.feature c!"B")),
   .addConstraint .boolean (.bin .excludes (.bin .and (.feature c!"A") (.feature c!"S")) (.feature c!"B")),
   .addConstraint .nonBoolean (.bin .greater (.feature c!"N") (.int 2))]

def richDesc : Desc where
  name := c!"M"
  path := []
  commit := []
  root := c!"root"
  attrs := attrsOf richCalls
  parent := fun n => if n = c!"S" then c!"A" else if n = c!"C" then c!"B" else if n = c!"N" then c!"B" else c!"root"
  groups := groupsOf richCalls
  constraints := constraintsOf richCalls

theorem rich_buildable : Buildable richCalls richDesc where
  attrs := rfl
  kinds := by decide
  distinct := by decide
  root := .inr (by decide)
  root_new := by decide
  default_root := by decide
  edges := by
    intro p c hx
    simp [richCalls] at hx
    rcases hx with ⟨rfl, rfl⟩ | ⟨rfl, rfl⟩ | ⟨rfl, rfl⟩ <;> decide
  no_edge := by
    intro a ha hx
    have h1 : a.name ≠ c!"S" := by rintro e; rw [e] at hx; exact hx c!"A" (by decide)
    have h2 : a.name ≠ c!"C" := by rintro e; rw [e] at hx; exact hx c!"B" (by decide)
    have h3 : a.name ≠ c!"N" := by rintro e; rw [e] at hx; exact hx c!"B" (by decide)
    simp [richDesc, h1, h2, h3]
  acyclic := ⟨fun n => if n = c!"root" then 0 else if n = c!"A" then 1 else if n = c!"B" then 1 else 2, by decide⟩
  groups := rfl
  one_group := by decide
  groups_known := by decide
  constraints := rfl
  name := .inr (by decide)
  path := .inl (by decide)
  commit := .inl (by decide)

theorem rich_known : ConstraintsKnown richDesc := by unfold ConstraintsKnown; decide

theorem rich_attr {a : Attr} (ha : a ∈ richDesc.attrs) :
    a = { name := c!"A", kind := .binary, output := c!"-a" } ∨ a = { name := c!"B", kind := .binary } ∨
    a = { name := c!"S", kind := .binary } ∨ a = { name := c!"C", kind := .binary, opt := true } ∨
    a = { name := c!"N", kind := .numeric (.list [-1, 5]) none } := by
  rw [show richDesc.attrs = attrsOf richCalls from rfl] at ha
  simpa only [attrsOf, richCalls, List.filterMap_cons, List.filterMap_nil, List.mem_cons, List.not_mem_nil, or_false] using ha

theorem rich_constraint {x : CKind × Constraint} (hx : x ∈ richDesc.constraints) :
    x = (.boolean, .bin .implies (.feature c!"C") (.feature c!"B")) ∨
    x = (.boolean, .bin .excludes (.bin .and (.feature c!"A") (.feature c!"S")) (.feature c!"B")) ∨
    x = (.nonBoolean, .bin .greater (.feature c!"N") (.int 2)) := by
  rw [show richDesc.constraints = constraintsOf richCalls from rfl] at hx
  simpa only [constraintsOf, richCalls, List.filterMap_cons, List.filterMap_nil, List.mem_cons, List.not_mem_nil, or_false] using hx

theorem rich_writable : Writable richDesc where
  name := .inr (solid_of (by decide))
  path := .inl rfl
  commit := .inl rfl
  root := rfl
  names := by
    intro a ha
    rcases rich_attr ha with rfl | rfl | rfl | rfl | rfl
    all_goals exact ⟨solid_of (by decide), by decide⟩
  siblings := by decide
  kinds := by
    intro a ha
    rcases rich_attr ha with rfl | rfl | rfl | rfl | rfl
    · trivial
    · trivial
    · trivial
    · trivial
    · refine ⟨by decide, ?_⟩
      intro v hv
      simp only [List.mem_cons, List.not_mem_nil, or_false] at hv
      rcases hv with rfl | rfl <;> exact ⟨by decide, by decide⟩
  locs := by
    intro a ha
    rcases rich_attr ha with rfl | rfl | rfl | rfl | rfl <;> simp
  known := rich_known
  constraints := by
    intro x hx
    rcases rich_constraint hx with rfl | rfl | rfl
    · exact .inr ⟨rfl, rfl⟩
    · exact .inl ⟨by simp [IdentNames, IsIdent]; decide, by simp [Spec.Readable], by simp [FitsInt64]⟩
    · exact .inl ⟨by simp [IdentNames, IsIdent]; decide, by simp [Spec.Readable], by simp [FitsInt64, IsInt64]; decide⟩

theorem rich_num (n : Str) : DNum richDesc n ↔ n = c!"N" := by
  constructor
  · rintro ⟨a, ha, rfl, vs, st, hk⟩
    rcases rich_attr ha with rfl | rfl | rfl | rfl | rfl <;> first | rfl | cases hk
  · rintro rfl
    exact ⟨{ name := c!"N", kind := .numeric (.list [-1, 5]) none }, by decide, rfl, _, _, rfl⟩

theorem rich_groups {n : Str} {k : RKind} (h : (n, k) ∈ richDesc.groups) : (n = c!"root" ∧ k = .alternative) ∨ (n = c!"A" ∧ k = .or) := by
  rw [show richDesc.groups = groupsOf richCalls from rfl] at h
  simpa only [groupsOf, richCalls, List.filterMap_cons, List.filterMap_nil, List.mem_cons, List.not_mem_nil, or_false, Prod.mk.injEq] using h

theorem rich_clear : DescClear F richDesc where
  root := by decide
  names := by decide
  leaves := by decide
  kinds := by decide
  ranges := by
    intro a ha lo hi st hk
    rcases rich_attr ha with rfl | rfl | rfl | rfl | rfl <;> cases hk
  parents := by
    intro a ha hk
    rw [rich_num]
    rcases rich_attr ha with rfl | rfl | rfl | rfl | rfl
    all_goals decide
  owners := by
    rintro ⟨n, k⟩ hg
    rw [rich_num]
    rcases rich_groups hg with ⟨rfl, rfl⟩ | ⟨rfl, rfl⟩ <;> decide
  members := by
    rintro ⟨n, k⟩ hg
    rcases rich_groups hg with ⟨rfl, rfl⟩ | ⟨rfl, rfl⟩ <;> decide
  nonempty := by
    rintro ⟨n, k⟩ hg
    rcases rich_groups hg with ⟨rfl, rfl⟩ | ⟨rfl, rfl⟩ <;> decide
  sorts := by
    intro x hx
    rcases rich_constraint hx with rfl | rfl | rfl <;> simp [sortOf, dsort, rich_num, opSort]

theorem rich_carried : Carried richDesc where
  groups := by
    intro n k hg
    rcases rich_groups hg with ⟨rfl, rfl⟩ | ⟨rfl, rfl⟩ <;> decide
  other := by
    intro n hx
    have h2 := hx.many
    cases hk : richDesc.kids n with
    | nil => rw [hk] at h2; simp at h2
    | cons y l =>
      have hy : y ∈ richDesc.kids n := by rw [hk]; simp
      obtain ⟨y1, y2⟩ := mem_kids.1 hy
      have hn : n = c!"root" ∨ n = c!"A" ∨ n = c!"B" := by
        rw [← y2]
        rcases rich_attr y1 with rfl | rfl | rfl | rfl | rfl <;> decide
      rcases hn with rfl | rfl | rfl
      · exact ⟨.alternative, by decide⟩
      · exact ⟨.or, by decide⟩
      · have := hx.mandatory { name := c!"C", kind := .binary, opt := true } (by decide)
        cases this
  values := by
    intro x hx v st hk
    rcases rich_attr hx with rfl | rfl | rfl | rfl | rfl <;> cases hk
    exact ⟨_, rfl, by decide⟩

/-- The conditions of both partial theorems are met by a model with two groups, a number, constraints of
    three sorts and a valid configuration. -/
example : ∃ m, Describes richDesc m ∧ Writable richDesc ∧ DescClear exactFloats richDesc ∧ Carried richDesc ∧
    c!"root" ∉ richDesc.attrs.map Attr.name ∧ ConstraintsKnown richDesc ∧ NoRange richDesc ∧
    Valid exactFloats m ⟨fun n => decide (n ∈ [c!"root", c!"B", c!"C"]), fun _ => 5, fun _ => 0⟩ := by
  obtain ⟨m, _, h⟩ := C28_builds_partial nothing_fresh (stdEnv true) rich_buildable rich_known
  refine ⟨m, h, rich_writable, rich_clear, rich_carried, by decide, rich_known, ?_, ?_⟩
  · intro a ha lo hi st hk
    rcases rich_attr ha with rfl | rfl | rfl | rfl | rfl <;> cases hk
  · rw [valid_desc h]
    refine ⟨by decide, by decide, ?_, ?_, ?_, ?_, ?_⟩
    · intro a ha hb ho hn
      rcases rich_attr ha with rfl | rfl | rfl | rfl | rfl
      · exact absurd (by decide) (hn .alternative)
      · exact absurd (by decide) (hn .alternative)
      · exact absurd (by decide) (hn .or)
      · cases ho
      · cases hb
    · intro n hg _
      rcases rich_groups hg with ⟨rfl, h⟩ | ⟨rfl, h⟩
      · exact ⟨{ name := c!"B", kind := .binary }, by decide, by decide, by decide⟩
      · cases h
    · intro n hg hs
      rcases rich_groups hg with ⟨rfl, h⟩ | ⟨rfl, h⟩
      · cases h
      · exact absurd hs (by decide)
    · intro a ha vs st hk
      rcases rich_attr ha with rfl | rfl | rfl | rfl | rfl <;> cases hk
      show (5 : Int) ∈ [-1, 5]
      simp
    · intro x hx
      rcases rich_constraint hx with rfl | rfl | rfl <;> simp [DHolds, meaning, dvalue, rich_num, opMeaning]

/-- A model with a range and a step function. -/
def rangeCalls : List BCall :=
  [.setVmName c!"M", .makeRoot c!"root", .makeFeature { name := c!"N", kind := .numeric (.range 1 4) (some plusTwo) }]

def rangeDesc : Desc where
  name := c!"M"
  path := []
  commit := []
  root := c!"root"
  attrs := attrsOf rangeCalls
  parent := fun _ => c!"root"
  groups := []
  constraints := []

/-- The original of a model for which the solver crashes once it was written and read, or cloned, can be
    given to the solver and has a valid configuration. -/
example : ∃ m, Describes rangeDesc m ∧ Writable rangeDesc ∧ DescClear exactFloats rangeDesc ∧
    ({ name := c!"N", kind := .numeric (.range 1 4) (some plusTwo) } : Attr) ∈ rangeDesc.attrs ∧
    c!"root" ∉ rangeDesc.attrs.map Attr.name ∧ ConstraintsKnown rangeDesc ∧ (∀ x ∈ rangeDesc.attrs, x.kind ≠ .unknown) ∧
    Valid exactFloats m ⟨fun n => decide (n = c!"root"), fun _ => 3, fun _ => 0⟩ := by
  have hb : Buildable rangeCalls rangeDesc :=
    { attrs := rfl, kinds := by decide, distinct := by decide, root := .inr (by decide), root_new := by decide,
      default_root := by decide, edges := by intro p c hx; simp [rangeCalls] at hx
      no_edge := fun _ _ _ => rfl, acyclic := ⟨fun n => if n = c!"root" then 0 else 1, by decide⟩
      groups := rfl, one_group := by decide, groups_known := by decide, constraints := rfl, name := .inr (by decide)
      path := .inl (by decide), commit := .inl (by decide) }
  have hattr : ∀ {a}, a ∈ rangeDesc.attrs → a = { name := c!"N", kind := .numeric (.range 1 4) (some plusTwo) } := by
    intro a ha
    rw [show rangeDesc.attrs = attrsOf rangeCalls from rfl] at ha
    simpa only [attrsOf, rangeCalls, List.filterMap_cons, List.filterMap_nil, List.mem_cons, List.not_mem_nil, or_false] using ha
  have hk : ConstraintsKnown rangeDesc := by intro x hx; cases hx
  obtain ⟨m, _, h⟩ := C28_builds_partial nothing_fresh (stdEnv true) hb hk
  refine ⟨m, h, ?_, ?_, by decide, by decide, hk, by decide, ?_⟩
  · exact
    { name := .inr (solid_of (by decide)), path := .inl rfl, commit := .inl rfl, root := rfl
      names := by intro a ha; rw [hattr ha]; exact ⟨solid_of (by decide), by decide⟩
      siblings := by decide
      kinds := by intro a ha; rw [hattr ha]; exact ⟨⟨by decide, by decide⟩, by decide, by decide⟩
      locs := by intro a ha; rw [hattr ha]; simp
      known := hk
      constraints := by intro x hx; cases hx }
  · exact
    { root := by decide, names := by decide, leaves := by decide, kinds := by decide
      ranges := by
        intro a ha lo hi st hk
        rw [hattr ha] at hk
        cases hk
        exact .step (by decide) (plusTwo_step 1) (.step (by decide) (plusTwo_step 3) (.out (by decide)))
      parents := by intro a ha hk; rw [hattr ha] at hk; cases hk
      owners := by intro g hg; cases hg
      members := by intro g hg; cases hg
      nonempty := by intro g hg; cases hg
      sorts := by intro x hx; cases hx }
  · rw [valid_desc h]
    refine ⟨by decide, by decide, ?_, ?_, ?_, ?_, ?_⟩
    · intro a ha hb; rw [hattr ha] at hb; cases hb
    · intro n hg; cases hg
    · intro n hg; cases hg
    · intro a ha vs st hk
      rw [hattr ha] at hk
      cases hk
      exact .step (.start (by decide)) (plusTwo_step 1) (show (3 : Int) ≤ 4 by decide)
    · intro x hx; cases hx

end Verif.Props

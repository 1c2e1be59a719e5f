import Verif.Solver.DescValid
import Verif.Xml.Stable
/-!
# Models with the same configurations

When a model that was written and read again has the configurations of the original.
-/

namespace Verif.Spec
open Verif Verif.Xml

/-- Two runs that list all configurations come to the same result: both find none, or both list the same
    configurations, possibly in another order. -/
def SameLists (r r' : Z3Solver.LRes) : Prop :=
  (r = .err .unsat ∧ r' = .err .unsat) ∨
  ∃ l l', r = .ok l ∧ r' = .ok l' ∧ l.length = l'.length ∧
    (∀ c ∈ l, ∃ c' ∈ l', ∀ n, c.value n = c'.value n) ∧ ∀ c' ∈ l', ∃ c ∈ l, ∀ n, c.value n = c'.value n

/-- What a document can carry of the choices in a model: every group has a member and no optional one, and
    is an alternative or has a single member; children that all exclude each other are in such a group; the
    values of numeric features are lists of `int` values. -/
structure Carried (d : Desc) : Prop where
  groups : ∀ n k, (n, k) ∈ d.groups → d.kids n ≠ [] ∧ (∀ x ∈ d.kids n, x.opt = false) ∧
    (k = .alternative ∨ (d.kids n).length = 1)
  other : ∀ n, Exclusive d n → ∃ k, (n, k) ∈ d.groups
  values : ∀ x ∈ d.attrs, ∀ v st, x.kind = .numeric v st →
    ∃ vs, v = .list vs ∧ ∀ y ∈ vs, -2147483648 ≤ y ∧ y < 2147483648

end Verif.Spec

namespace Verif
open Verif.Spec Verif.Xml

variable {d d' : Desc} {m m' : FModel} {F : IntFloats} {a : Assign}

/-! ## Validity without exclusive or -/

theorem valid_tree : Valid F m a ↔ TreeValid F m a ∧
    (∀ c ∈ m.booleans ++ m.nonBooleans, meaning (value m a) a.div0 c.tree = some (.bool true)) ∧ ∀ c ∈ m.mixeds, MixedHolds m a c :=
  ⟨fun v => ⟨⟨v.root, v.parent, v.mandatory, v.alternative, v.or, v.numeric⟩, v.boolean, v.mixed⟩,
   fun v => ⟨v.1.root, v.1.parent, v.1.mandatory, v.1.alternative, v.1.or, v.1.numeric, v.2.1, v.2.2⟩⟩

/-- The valid configurations of a model are those of its description. -/
theorem valid_desc (h : Describes d m) : Valid F m a ↔ DescValid F d a := by
  rw [valid_tree, treeValid_desc h, descValid_iff]
  refine and_congr_right fun _ => ?_
  have hb : ∀ s, s ∈ m.booleans ++ m.nonBooleans ↔ s ∈ m.store .boolean ∨ s ∈ m.store .nonBoolean := fun s => List.mem_append
  have hm : ∀ s, s ∈ m.mixeds ↔ s ∈ m.store .mixed := fun s => .rfl
  constructor
  · rintro ⟨v1, v2⟩ ⟨k, c⟩ hy
    have hst := (mem_store h k.cls _).2 ⟨_, hy, rfl, rfl⟩
    cases k with
    | boolean =>
      have := v1 _ ((hb _).2 (.inl hst))
      rw [value_desc h] at this
      exact this
    | nonBoolean =>
      have := v1 _ ((hb _).2 (.inr hst))
      rw [value_desc h] at this
      exact this
    | mixed i =>
      have := v2 _ ((hm _).2 hst) i rfl
      simp only [value01_desc h, isNum_desc h] at this
      exact this
  · intro v
    constructor
    · intro s hs
      have : ∃ x ∈ d.constraints, x.1.cls ≠ .mixed ∧ s = ⟨x.2, x.2.features.map m.getFeature, x.1.info⟩ := by
        rcases (hb s).1 hs with hs | hs
        · obtain ⟨x, hx, hc, e⟩ := (mem_store h _ s).1 hs
          exact ⟨x, hx, by simp [hc], e⟩
        · obtain ⟨x, hx, hc, e⟩ := (mem_store h _ s).1 hs
          exact ⟨x, hx, by simp [hc], e⟩
      obtain ⟨⟨k, c⟩, hx, hc, rfl⟩ := this
      have := v (k, c) hx
      rw [value_desc h]
      cases k with
      | boolean => exact this
      | nonBoolean => exact this
      | mixed i => exact absurd rfl hc
    · intro s hs i hi
      obtain ⟨⟨k, c⟩, hx, hc, rfl⟩ := (mem_store h _ s).1 ((hm s).1 hs)
      cases k with
      | boolean => cases hi
      | nonBoolean => cases hi
      | mixed j =>
        cases hi
        have := v (.mixed i, c) hx
        simp only [value01_desc h, isNum_desc h]
        exact this

/-! ## Constraints read back -/

theorem meaning_readBack (ρ : Str → ZVal) (q : Int → Int) : ∀ c : Constraint, meaning ρ q (readBack c) = meaning ρ q c
  | .bin op l r => by
    have hl := meaning_readBack ρ q l
    have hr := meaning_readBack ρ q r
    cases op with
    | excludes =>
      simp only [readBack, meaning, hl, hr]
      cases meaning ρ q l with
      | none => rfl
      | some x =>
        cases meaning ρ q r with
        | none => rfl
        | some y =>
          cases x with
          | bool x =>
            cases y with
            | bool y => cases x <;> cases y <;> rfl
            | int y => rfl
          | int x => cases y <;> rfl
    | _ => simp only [readBack, meaning, hl, hr]
  | .un op c => by cases op <;> simp only [readBack, meaning, meaning_readBack ρ q c]
  | .int v => rfl
  | .feature n => rfl

theorem sortOf_readBack (κ : Str → ZSort) : ∀ c : Constraint, sortOf κ (readBack c) = sortOf κ c
  | .bin op l r => by
    have hl := sortOf_readBack κ l
    have hr := sortOf_readBack κ r
    cases op with
    | excludes =>
      simp only [readBack, sortOf, hl, hr]
      cases sortOf κ l with
      | none => rfl
      | some x =>
        cases sortOf κ r with
        | none => rfl
        | some y => cases x <;> cases y <;> rfl
    | _ => simp only [readBack, sortOf, hl, hr]
  | .un op c => by cases op <;> simp only [readBack, sortOf, sortOf_readBack κ c]
  | .int v => rfl
  | .feature n => rfl

theorem features_readBack : ∀ c : Constraint, (readBack c).features = c.features
  | .bin op l r => by
    have hl := features_readBack l
    have hr := features_readBack r
    cases op <;> simp only [readBack, Constraint.features, hl, hr]
  | .un op c => by simp only [readBack, Constraint.features, features_readBack c]
  | .int v => rfl
  | .feature n => rfl

theorem noXor_readable : ∀ {c : Constraint}, Readable c → NoXor c
  | .bin _ _ _, h => ⟨h.1, noXor_readable h.2.2.1, noXor_readable h.2.2.2⟩
  | .un _ c, h => noXor_readable (c := c) h
  | .int _, _ => trivial
  | .feature _, _ => trivial

theorem noXor_simple {c : Constraint} (h : simple c = true) : NoXor c := by
  obtain ⟨a, b, rfl | rfl⟩ := simple_iff.1 h
  · exact ⟨by simp, trivial, trivial⟩
  · exact ⟨by simp, trivial, trivial⟩

theorem noXor_writable (hw : Writable d) : ∀ x ∈ d.constraints, NoXor x.2 := by
  intro x hx
  rcases hw.constraints x hx with h | h
  · exact noXor_readable h.2.1
  · exact noXor_simple h.2

/-! ## Same configurations -/

theorem differ_irrefl {c c' : Config} (h : Differ c c') (e : ∀ n, c.value n = c'.value n) : False := by
  obtain ⟨n, hn⟩ := h
  exact hn (e n)

/-- A list without repetition whose elements all occur in another one is not longer. -/
theorem length_le_of_covers : ∀ {l l' : List Config}, l.Pairwise Differ → (∀ c ∈ l, ∃ c' ∈ l', ∀ n, c.value n = c'.value n) →
    l.length ≤ l'.length
  | [], _, _, _ => Nat.zero_le _
  | c :: l, l', hp, h => by
    obtain ⟨h1, h2⟩ := List.pairwise_cons.1 hp
    obtain ⟨c', hc', e⟩ := h c (List.mem_cons_self ..)
    obtain ⟨s, t, rfl⟩ := List.append_of_mem hc'
    have : l.length ≤ (s ++ t).length := by
      refine length_le_of_covers h2 fun b hb => ?_
      obtain ⟨b', hb', e'⟩ := h b (List.mem_cons_of_mem _ hb)
      refine ⟨b', ?_, e'⟩
      rcases List.mem_append.1 hb' with hb' | hb'
      · exact List.mem_append_left _ hb'
      · rcases List.mem_cons.1 hb' with rfl | hb'
        · exact (differ_irrefl (h1 b hb) fun n => (e n).trans (e' n).symm).elim
        · exact List.mem_append_right _ hb'
    simp only [List.length_append, List.length_cons] at this ⊢
    omega

/-- Two configurations showing the same assignment have the same values. -/
theorem shows_value {c c' : Config} (h : DescShows d a c) (h' : DescShows d a c') (n : Str) : c.value n = c'.value n := by
  by_cases hn : n = d.root ∨ n ∈ d.attrs.map Attr.name
  · rcases hn with rfl | hn
    · rw [h.root, h'.root]
    · obtain ⟨x, hx, rfl⟩ := List.mem_map.1 hn
      rw [h.has x hx, h'.has x hx]
  · have h1 : c.value n = none := by
      cases hv : c.value n with
      | none => rfl
      | some v => exact absurd (h.only n (by rw [hv]; simp)) hn
    have h2 : c'.value n = none := by
      cases hv : c'.value n with
      | none => rfl
      | some v => exact absurd (h'.only n (by rw [hv]; simp)) hn
    rw [h1, h2]

/-- Lists of all configurations of descriptions with the same configurations are the same up to order. -/
theorem same_enumerations {l l' : List Config} (e : DescEnumerates F d l) (e' : DescEnumerates F d' l')
    (hv : ∀ a, DescValid F d a ↔ DescValid F d' a) (hs : ∀ a c, DescShows d a c ↔ DescShows d' a c) :
    l.length = l'.length ∧ (∀ c ∈ l, ∃ c' ∈ l', ∀ n, c.value n = c'.value n) ∧ ∀ c' ∈ l', ∃ c ∈ l, ∀ n, c.value n = c'.value n := by
  have h1 : ∀ c ∈ l, ∃ c' ∈ l', ∀ n, c.value n = c'.value n := by
    intro c hc
    obtain ⟨b, hb, hs1⟩ := e.valid c hc
    obtain ⟨c', hc', hs2⟩ := e'.all b ((hv b).1 hb)
    exact ⟨c', hc', shows_value hs1 ((hs b c').2 hs2)⟩
  have h2 : ∀ c' ∈ l', ∃ c ∈ l, ∀ n, c.value n = c'.value n := by
    intro c' hc'
    obtain ⟨b, hb, hs1⟩ := e'.valid c' hc'
    obtain ⟨c, hc, hs2⟩ := e.all b ((hv b).2 hb)
    exact ⟨c, hc, shows_value hs2 ((hs b c').2 hs1)⟩
  refine ⟨Nat.le_antisymm (length_le_of_covers e.differ h1) (length_le_of_covers e'.differ fun c' hc' => ?_), h1, h2⟩
  obtain ⟨c, hc, h⟩ := h2 c' hc'
  exact ⟨c, hc, fun n => (h n).symm⟩

/-! ## What a document carries -/

theorem int32_of_fits {v : Int} (h : -2147483648 ≤ v ∧ v < 2147483648) : int32 v = v := by
  unfold int32
  rw [Int.bmod_def]
  split <;> omega

theorem keptList_of_fits : ∀ {vs : List Int}, (∀ v ∈ vs, -2147483648 ≤ v ∧ v < 2147483648) → keptList vs = vs
  | [], _ => rfl
  | [_], _ => rfl
  | v :: w :: vs, h => by
    rw [keptList, int32_of_fits (h v (List.mem_cons_self ..)), keptList_of_fits fun x hx => h x (List.mem_cons_of_mem _ hx)]
    simp

theorem mem_kids {n : Str} {x : Attr} : x ∈ d.kids n ↔ x ∈ d.attrs ∧ d.parent x.name = n := by simp [Desc.kids]

section
variable (W : WrittenAs d d')
include W

theorem written_attr {y : Attr} : y ∈ d'.attrs ↔ ∃ x ∈ d.attrs, kept x = y := by
  rw [W.attrs.mem_iff, List.mem_map]

theorem written_names : d'.attrs.map Attr.name ⊆ d.attrs.map Attr.name ∧ d.attrs.map Attr.name ⊆ d'.attrs.map Attr.name := by
  constructor
  · intro n hn
    obtain ⟨y, hy, rfl⟩ := List.mem_map.1 hn
    obtain ⟨x, hx, rfl⟩ := (written_attr W).1 hy
    exact List.mem_map.2 ⟨x, hx, rfl⟩
  · intro n hn
    obtain ⟨x, hx, rfl⟩ := List.mem_map.1 hn
    exact List.mem_map.2 ⟨kept x, (written_attr W).2 ⟨x, hx, rfl⟩, rfl⟩

theorem written_kids_perm (n : Str) : (d'.kids n).Perm ((d.kids n).map kept) := by
  have e : (d.kids n).map kept = (d.attrs.map kept).filter fun a => decide (d'.parent a.name = n) := by
    rw [List.filter_map]
    unfold Desc.kids
    congr 1
    exact List.filter_congr fun a ha => by
      show decide (d.parent a.name = n) = decide (d'.parent a.name = n)
      rw [W.parent a ha]
  rw [e]
  exact W.attrs.filter _

theorem written_kid {n : Str} {y : Attr} : y ∈ d'.kids n ↔ ∃ x ∈ d.kids n, kept x = y := by
  rw [(written_kids_perm W n).mem_iff, List.mem_map]

theorem written_num (n : Str) : DNum d' n ↔ DNum d n := by
  constructor
  · rintro ⟨y, hy, rfl, vs, st, hk⟩
    obtain ⟨x, hx, rfl⟩ := (written_attr W).1 hy
    refine ⟨x, hx, rfl, ?_⟩
    have hk : keptKind x.kind = .numeric vs st := hk
    cases e : x.kind with
    | numeric v s => exact ⟨v, s, rfl⟩
    | _ => rw [e] at hk; cases hk
  · rintro ⟨x, hx, rfl, vs, st, hk⟩
    exact ⟨kept x, (written_attr W).2 ⟨x, hx, rfl⟩, rfl, keptValues vs, none, by show keptKind x.kind = _; rw [hk]; rfl⟩

theorem written_value (a : Assign) : dvalue d' a = dvalue d a ∧ dvalue01 d' a = dvalue01 d a ∧ dsort d' = dsort d := by
  have e := fun n => propext (written_num W n)
  refine ⟨?_, ?_, ?_⟩ <;> funext n
  · unfold dvalue; rw [e n]
  · unfold dvalue01; rw [e n]
  · unfold dsort; rw [e n]

theorem written_holds (k : CKind) (c : Constraint) : DHolds d' a (k, readBack c) ↔ DHolds d a (k, c) := by
  obtain ⟨h1, h2, _⟩ := written_value W a
  cases k <;> simp only [DHolds, h1, h2, meaning_readBack, features_readBack, written_num W]

variable (K : Carried d)
include K

theorem written_group (n : Str) : (n, .alternative) ∈ d'.groups ↔ (∃ k, (n, k) ∈ d.groups) ∧ 2 ≤ (d.kids n).length := by
  have hl : (d'.kids n).length = (d.kids n).length := by rw [(written_kids_perm W n).length_eq, List.length_map]
  rw [W.groups]
  constructor
  · rintro ⟨_, hx⟩
    refine ⟨?_, hl ▸ hx.many⟩
    by_cases hg : ∃ k, (n, k) ∈ d.groups
    · exact hg
    · refine K.other n ⟨hl ▸ hx.many, ?_, ?_⟩
      · intro x hk
        exact hx.mandatory (kept x) ((written_kid W).2 ⟨x, hk, rfl⟩)
      · intro x hk y hk' hne
        have := hx.excludes (kept x) ((written_kid W).2 ⟨x, hk, rfl⟩) (kept y) ((written_kid W).2 ⟨y, hk', rfl⟩) hne
        rcases (excludes_of_written W _ _).1 this with h | ⟨_, _, _, _, k, h⟩
        · exact h
        · refine absurd ⟨k, ?_⟩ hg
          rw [← (mem_kids.1 hk).2]
          exact h
  · rintro ⟨⟨k, hg⟩, h2⟩
    refine ⟨rfl, hl ▸ h2, ?_, ?_⟩
    · intro y hy
      obtain ⟨x, hx, rfl⟩ := (written_kid W).1 hy
      exact (K.groups n k hg).2.1 x hx
    · intro y hy z hz hne
      obtain ⟨x, hx, rfl⟩ := (written_kid W).1 hy
      obtain ⟨x', hx', rfl⟩ := (written_kid W).1 hz
      obtain ⟨a1, a2⟩ := mem_kids.1 hx
      obtain ⟨b1, b2⟩ := mem_kids.1 hx'
      exact (excludes_of_written W _ _).2 (.inr ⟨hne, List.mem_map.2 ⟨x, a1, rfl⟩, List.mem_map.2 ⟨x', b1, rfl⟩,
        a2.trans b2.symm, k, by show (d.parent x.name, k) ∈ _; rw [a2]; exact hg⟩)

theorem written_group_kind {n : Str} {k : RKind} (h : (n, k) ∈ d'.groups) : k = .alternative ∧ (∃ k, (n, k) ∈ d.groups) ∧ 2 ≤ (d.kids n).length := by
  have := ((W.groups n k).1 h).1
  subst this
  exact ⟨rfl, (written_group W K n).1 h⟩

omit W in
theorem written_numeric {x : Attr} (hx : x ∈ d.attrs) {vs : Values} {st : Option StepFn} (h : keptKind x.kind = .numeric vs st) :
    ∃ st', x.kind = .numeric vs st' ∧ ∃ l, vs = .list l := by
  cases hk : x.kind with
  | numeric v s =>
    obtain ⟨l, rfl, hl⟩ := K.values x hx v s hk
    rw [hk] at h
    simp only [keptKind, keptValues, keptList_of_fits hl, FKind.numeric.injEq] at h
    obtain ⟨rfl, rfl⟩ := h
    exact ⟨s, rfl, l, rfl⟩
  | _ => rw [hk] at h; cases h

omit W K in
theorem keptKind_binary {k : FKind} : keptKind k = .binary ↔ k = .binary := by
  cases k <;> simp [keptKind]

variable (C : DescClear F d)
include C

omit W K in
/-- Features of one group are no numbers. -/
theorem mate_not_num {x y : Str} (h : GroupMates d x y) : ¬ DNum d x ∧ ¬ DNum d y := by
  obtain ⟨_, hx, hy, hp, k, hg⟩ := h
  have key : ∀ {z}, z ∈ d.attrs.map Attr.name → (d.parent z, k) ∈ d.groups → ¬ DNum d z := by
    rintro z hz hg ⟨b, hb, rfl, vs, st, hk⟩
    have := C.members _ hg b (mem_kids.2 ⟨hb, rfl⟩)
    rw [hk] at this; cases this
  exact ⟨key hx hg, key hy (hp ▸ hg)⟩

/-- What was read back is as clear as what was written. -/
theorem written_clear : DescClear F d' := by
  obtain ⟨_, _, hsort⟩ := written_value W { bool := fun _ => false, int := fun _ => 0, div0 := fun _ => 0 }
  have hsimple : ∀ {k : CKind} {op : BinOp} {x y : Str}, (op = .implies ∨ op = .excludes) →
      (k, .bin op (.feature x) (.feature y)) ∈ d.constraints → sortOf (dsort d) (.bin op (.feature x) (.feature y)) = some .bool := by
    intro k op x y ho hm
    have := C.sorts _ hm
    cases k with
    | mixed i => rcases ho with rfl | rfl <;> · simp [sortOf, opSort] at this
    | boolean => exact this
    | nonBoolean => exact this
  exact
  { root := W.root ▸ C.root
    names := by
      intro y hy
      obtain ⟨x, hx, rfl⟩ := (written_attr W).1 hy
      exact C.names x hx
    leaves := by
      intro c hc n hn
      rcases (constraints_of_written W c).1 hc with ⟨x, y, ⟨rfl, k, h⟩ | ⟨rfl, ⟨k, h⟩ | h⟩⟩ | ⟨y, h1, _, rfl⟩
      · exact C.leaves _ h n hn
      · exact C.leaves _ h n hn
      · obtain ⟨_, hx, hy, _⟩ := h
        simp only [excludes, Constraint.features, List.cons_append, List.nil_append, List.mem_cons, List.not_mem_nil, or_false] at hn
        rcases hn with rfl | rfl
        · obtain ⟨b, hb, rfl⟩ := List.mem_map.1 hx
          exact C.names b hb
        · obtain ⟨b, hb, rfl⟩ := List.mem_map.1 hy
          exact C.names b hb
      · exact C.leaves y h1 n (by rwa [features_readBack] at hn)
    kinds := by
      intro y hy e
      obtain ⟨x, hx, rfl⟩ := (written_attr W).1 hy
      have e : keptKind x.kind = .unknown := e
      cases hk : x.kind with
      | unknown => exact C.kinds x hx hk
      | _ => rw [hk] at e; cases e
    ranges := by
      intro y hy lo hi st hk
      obtain ⟨x, hx, rfl⟩ := (written_attr W).1 hy
      obtain ⟨_, _, l, e⟩ := written_numeric K hx hk
      cases e
    parents := by
      intro y hy hk
      obtain ⟨x, hx, rfl⟩ := (written_attr W).1 hy
      rw [written_num W, show (kept x).name = x.name from rfl, W.parent x hx]
      exact C.parents x hx (keptKind_binary.1 hk)
    owners := by
      rintro ⟨n, k⟩ hg
      obtain ⟨_, ⟨k', hg'⟩, _⟩ := written_group_kind W K hg
      rw [written_num W]
      exact C.owners (n, k') hg'
    members := by
      rintro ⟨n, k⟩ hg y hy
      obtain ⟨_, ⟨k', hg'⟩, _⟩ := written_group_kind W K hg
      obtain ⟨x, hx, rfl⟩ := (written_kid W).1 hy
      exact keptKind_binary.2 (C.members _ hg' x hx)
    nonempty := by
      rintro ⟨n, k⟩ hg _ e
      have e : d'.kids n = [] := e
      obtain ⟨_, _, h2⟩ := written_group_kind W K hg
      have := (written_kids_perm W n).length_eq
      rw [e, List.length_map] at this
      simp only [List.length_nil] at this
      omega
    sorts := by
      intro c hc
      rcases (constraints_of_written W c).1 hc with ⟨x, y, ⟨rfl, k, h⟩ | ⟨rfl, ⟨k, h⟩ | h⟩⟩ | ⟨y, h1, _, rfl⟩
      · show sortOf (dsort d') _ = _
        rw [hsort]
        exact hsimple (.inl rfl) h
      · show sortOf (dsort d') _ = _
        rw [hsort]
        exact hsimple (.inr rfl) h
      · show sortOf (dsort d') _ = _
        rw [hsort]
        obtain ⟨n1, n2⟩ := mate_not_num C h
        simp [excludes, sortOf, dsort, n1, n2, opSort]
      · have := C.sorts y h1
        obtain ⟨k, c⟩ := y
        cases k with
        | mixed i => exact (sortOf_readBack _ c).trans this
        | _ => exact (sortOf_readBack _ c).trans (by rw [hsort]; exact this) }

/-- What was read back has the same valid configurations. -/
theorem written_valid : DescValid F d a ↔ DescValid F d' a := by
  obtain ⟨hv1, hv2, _⟩ := written_value W a
  have single : ∀ {n : Str} {k : RKind}, (n, k) ∈ d.groups → (d.kids n).length < 2 → ∃ x, d.kids n = [x] ∧ x.opt = false ∧ x.kind = .binary := by
    intro n k hg hl
    obtain ⟨h1, h2, _⟩ := K.groups n k hg
    cases hk : d.kids n with
    | nil => exact absurd hk h1
    | cons x l =>
      have : l = [] := by
        rw [hk, List.length_cons] at hl
        exact List.length_eq_zero_iff.1 (by omega)
      subst this
      have hx : x ∈ d.kids n := by rw [hk]; simp
      exact ⟨x, rfl, h2 x hx, C.members _ hg x hx⟩
  have holds_bool : ∀ {k : CKind} {op : BinOp} {x y : Str}, (op = .implies ∨ op = .excludes) →
      (k, .bin op (.feature x) (.feature y)) ∈ d.constraints →
      (DHolds d a (k, .bin op (.feature x) (.feature y)) ↔ DHolds d' a (.boolean, .bin op (.feature x) (.feature y))) := by
    intro k op x y ho hm
    have := C.sorts _ hm
    cases k with
    | mixed i => rcases ho with rfl | rfl <;> · simp [sortOf, opSort] at this
    | boolean => simp only [DHolds, hv1]
    | nonBoolean => simp only [DHolds, hv1]
  constructor
  · intro v
    refine ⟨W.root ▸ v.root, ?_, ?_, ?_, ?_, ?_, ?_⟩
    · intro y hy hk hs
      obtain ⟨x, hx, rfl⟩ := (written_attr W).1 hy
      show a.bool (d'.parent x.name) = true
      rw [W.parent x hx]
      exact v.parent x hx (keptKind_binary.1 hk) hs
    · intro y hy hk ho hn hs
      obtain ⟨x, hx, rfl⟩ := (written_attr W).1 hy
      have hk := keptKind_binary.1 hk
      have hn : ∀ k, (d'.parent x.name, k) ∉ d'.groups := hn
      have hs : a.bool (d'.parent x.name) = true := hs
      rw [W.parent x hx] at hn hs
      show a.bool x.name = true
      by_cases hg : ∃ k, (d.parent x.name, k) ∈ d.groups
      · obtain ⟨k, hg⟩ := hg
        have hl : (d.kids (d.parent x.name)).length < 2 := by
          refine Nat.lt_of_not_le fun h2 => ?_
          exact hn .alternative ((written_group W K _).2 ⟨⟨k, hg⟩, h2⟩)
        obtain ⟨z, hz, _⟩ := single hg hl
        have hxk : x ∈ d.kids (d.parent x.name) := mem_kids.2 ⟨hx, rfl⟩
        rw [hz] at hxk
        simp only [List.mem_cons, List.not_mem_nil, or_false] at hxk
        subst hxk
        have : ∃ b ∈ d.kids (d.parent x.name), a.bool b.name = true := by
          cases k with
          | alternative =>
            obtain ⟨b, hb, h1, _⟩ := v.alternative _ hg hs
            exact ⟨b, hb, h1⟩
          | or => exact v.or _ hg hs
        obtain ⟨b, hb, hsb⟩ := this
        rw [hz] at hb
        simp only [List.mem_cons, List.not_mem_nil, or_false] at hb
        subst hb
        exact hsb
      · exact v.mandatory x hx hk ho (fun k h => hg ⟨k, h⟩) hs
    · intro n hg hs
      obtain ⟨⟨k, hg'⟩, h2⟩ := (written_group W K n).1 hg
      have hk : k = .alternative := by
        rcases (K.groups n k hg').2.2 with h | h
        · exact h
        · omega
      subst hk
      obtain ⟨x, hx, h1, h2⟩ := v.alternative n hg' hs
      refine ⟨kept x, (written_kid W).2 ⟨x, hx, rfl⟩, h1, ?_⟩
      intro y hy hsy
      obtain ⟨z, hz, rfl⟩ := (written_kid W).1 hy
      exact h2 z hz hsy
    · intro n hg
      cases (written_group_kind W K hg).1
    · intro y hy vs st hk
      obtain ⟨x, hx, rfl⟩ := (written_attr W).1 hy
      obtain ⟨st', hk', l, rfl⟩ := written_numeric K hx hk
      exact v.numeric x hx _ st' hk'
    · intro c hc
      rcases (constraints_of_written W c).1 hc with ⟨x, y, ⟨rfl, k, h⟩ | ⟨rfl, ⟨k, h⟩ | h⟩⟩ | ⟨y, h1, _, rfl⟩
      · exact (holds_bool (.inl rfl) h).1 (v.constraints _ h)
      · exact (holds_bool (.inr rfl) h).1 (v.constraints _ h)
      · obtain ⟨n1, n2⟩ := mate_not_num C h
        obtain ⟨hne, hx, hy, hp, k, hg⟩ := h
        obtain ⟨b, hb, rfl⟩ := List.mem_map.1 hx
        obtain ⟨b', hb', rfl⟩ := List.mem_map.1 hy
        have hkb : b ∈ d.kids (d.parent b.name) := mem_kids.2 ⟨hb, rfl⟩
        have hkb' : b' ∈ d.kids (d.parent b.name) := mem_kids.2 ⟨hb', hp.symm⟩
        have hk : k = .alternative := by
          rcases (K.groups _ k hg).2.2 with h | h
          · exact h
          · obtain ⟨z, hz⟩ := List.length_eq_one_iff.1 h
            rw [hz] at hkb hkb'
            simp only [List.mem_cons, List.not_mem_nil, or_false] at hkb hkb'
            exact absurd (by rw [hkb, hkb']) hne
        subst hk
        have hnot : ¬ (a.bool b.name = true ∧ a.bool b'.name = true) := by
          rintro ⟨s1, s2⟩
          have hps := v.parent b hb (C.members _ hg b hkb) s1
          obtain ⟨z, _, _, hz⟩ := v.alternative _ hg hps
          exact hne ((hz b hkb s1).trans (hz b' hkb' s2).symm)
        show meaning (dvalue d' a) a.div0 _ = _
        rw [hv1]
        simp only [meaning, dvalue, n1, n2, if_false, opMeaning]
        cases h1 : a.bool b.name <;> cases h2 : a.bool b'.name <;> simp [h1, h2] at hnot ⊢
      · exact (written_holds W y.1 y.2).2 (v.constraints y h1)
  · intro v
    have ones : ∀ {n : Str} {k : RKind}, (n, k) ∈ d.groups → (d.kids n).length < 2 → a.bool n = true →
        ∃ x ∈ d.kids n, a.bool x.name = true ∧ ∀ y ∈ d.kids n, a.bool y.name = true → y.name = x.name := by
      intro n k hg hl hs
      obtain ⟨x, hx, ho, hk⟩ := single hg hl
      have hxk : x ∈ d.kids n := by rw [hx]; simp
      obtain ⟨h1, h2⟩ := mem_kids.1 hxk
      refine ⟨x, hxk, ?_, ?_⟩
      · refine v.mandatory (kept x) ((written_attr W).2 ⟨x, h1, rfl⟩) (keptKind_binary.2 hk) ho ?_ ?_
        · intro k' hg'
          have hg' : (d'.parent x.name, k') ∈ d'.groups := hg'
          rw [W.parent x h1, h2] at hg'
          have := (written_group_kind W K hg').2.2
          omega
        · show a.bool (d'.parent x.name) = true
          rw [W.parent x h1, h2]
          exact hs
      · intro y hy _
        rw [hx] at hy
        simp only [List.mem_cons, List.not_mem_nil, or_false] at hy
        rw [hy]
    refine ⟨W.root ▸ v.root, ?_, ?_, ?_, ?_, ?_, ?_⟩
    · intro x hx hk hs
      have := v.parent (kept x) ((written_attr W).2 ⟨x, hx, rfl⟩) (keptKind_binary.2 hk) hs
      have this : a.bool (d'.parent x.name) = true := this
      rwa [W.parent x hx] at this
    · intro x hx hk ho hn hs
      refine v.mandatory (kept x) ((written_attr W).2 ⟨x, hx, rfl⟩) (keptKind_binary.2 hk) ho ?_ ?_
      · intro k' hg'
        have hg' : (d'.parent x.name, k') ∈ d'.groups := hg'
        rw [W.parent x hx] at hg'
        obtain ⟨_, ⟨k, hg⟩, _⟩ := written_group_kind W K hg'
        exact hn k hg
      · show a.bool (d'.parent x.name) = true
        rw [W.parent x hx]
        exact hs
    · intro n hg hs
      by_cases h2 : 2 ≤ (d.kids n).length
      · obtain ⟨y, hy, h1, h2⟩ := v.alternative n ((written_group W K n).2 ⟨⟨_, hg⟩, h2⟩) hs
        obtain ⟨x, hx, rfl⟩ := (written_kid W).1 hy
        exact ⟨x, hx, h1, fun z hz hsz => h2 (kept z) ((written_kid W).2 ⟨z, hz, rfl⟩) hsz⟩
      · exact ones hg (Nat.lt_of_not_le h2) hs
    · intro n hg hs
      have hl : (d.kids n).length = 1 := by
        rcases (K.groups n _ hg).2.2 with h | h
        · cases h
        · exact h
      obtain ⟨x, hx, h1, _⟩ := ones hg (by omega) hs
      exact ⟨x, hx, h1⟩
    · intro x hx vs st hk
      obtain ⟨l, rfl, hl⟩ := K.values x hx vs st hk
      have := v.numeric (kept x) ((written_attr W).2 ⟨x, hx, rfl⟩) (.list l) none (by
        show keptKind x.kind = _
        rw [hk]
        simp only [keptKind, keptValues, keptList_of_fits hl])
      exact this
    · intro y hy
      by_cases hs : y.1 = .boolean ∧ simple y.2 = true
      · obtain ⟨k, c⟩ := y
        obtain ⟨rfl, hs⟩ := hs
        obtain ⟨p, q, rfl | rfl⟩ := simple_iff.1 hs
        · exact (holds_bool (.inl rfl) hy).2 (v.constraints _ ((constraints_of_written W _).2 (.inl ⟨p, q, .inl ⟨rfl, _, hy⟩⟩)))
        · exact (holds_bool (.inr rfl) hy).2 (v.constraints _ ((constraints_of_written W _).2 (.inl ⟨p, q, .inr ⟨rfl, .inl ⟨_, hy⟩⟩⟩)))
      · refine (written_holds W y.1 y.2).1 (v.constraints _ ((constraints_of_written W _).2 (.inr ⟨y, hy, fun hb => ?_, rfl⟩)))
        cases h : simple y.2 with
        | false => rfl
        | true => exact absurd ⟨hb, h⟩ hs

omit K C in
/-- Configurations show the same of both. -/
theorem written_shows {c : Config} : DescShows d a c ↔ DescShows d' a c := by
  have hval : ∀ x ∈ d.attrs, attrValue (kept x) a = attrValue x a := by
    intro x _
    show (match keptKind x.kind with | .numeric _ _ => ZVal.int (a.int x.name) | _ => .bool (a.bool x.name)) = _
    unfold attrValue
    cases x.kind <;> rfl
  obtain ⟨n1, n2⟩ := written_names W
  constructor
  · intro s
    refine ⟨W.root ▸ s.root, ?_, ?_⟩
    · intro y hy
      obtain ⟨x, hx, rfl⟩ := (written_attr W).1 hy
      rw [hval x hx]
      exact s.has x hx
    · intro n hn
      rw [W.root]
      exact (s.only n hn).imp id fun h => n2 h
  · intro s
    refine ⟨W.root ▸ s.root, ?_, ?_⟩
    · intro x hx
      rw [← hval x hx]
      exact s.has (kept x) ((written_attr W).2 ⟨x, hx, rfl⟩)
    · intro n hn
      have := s.only n hn
      rw [W.root] at this
      exact this.imp id fun h => n1 h

end

end Verif

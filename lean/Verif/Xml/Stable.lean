import Verif.Xml.WriteDoc
/-!
# Models that are read back as they are

Models of which writing loses nothing, and that every model read back is one of them.
-/

namespace Verif.Spec
open Verif Verif.Xml

/-- Nothing of the model is lost: features have only members that are written, groups are those that
    are detected, implications and exclusions between features are Boolean constraints, and printing
    keeps the others. -/
structure Faithful (d : Desc) : Prop where
  attrs : ∀ a ∈ d.attrs, kept a = a
  groups : ∀ n k, (n, k) ∈ d.groups ↔ k = .alternative ∧ Exclusive d n
  implies : ∀ a b, Implies d a b → implies a b ∈ d.constraints
  excludes : ∀ a b, Excludes d a b → excludes a b ∈ d.constraints
  others : ∀ x ∈ d.constraints, (x.1 = .boolean ∧ simple x.2 = true) ∨ readBack x.2 = x.2

/-- The same model up to the order of features and of implications and exclusions. -/
structure SameModel (d d' : Desc) : Prop where
  name : d'.name = d.name
  path : d'.path = d.path
  commit : d'.commit = d.commit
  root : d'.root = d.root
  attrs : d'.attrs.Perm d.attrs
  parent : ∀ a ∈ d.attrs, d'.parent a.name = d.parent a.name
  groups : ∀ g, g ∈ d'.groups ↔ g ∈ d.groups
  constraints : ∀ x, x ∈ d'.constraints ↔ x ∈ d.constraints
  boolean : (d'.ofClass .boolean).filter (fun x => !simple x.2) = (d.ofClass .boolean).filter (fun x => !simple x.2)
  nonBoolean : d'.ofClass .nonBoolean = d.ofClass .nonBoolean
  mixed : d'.ofClass .mixed = d.ofClass .mixed

end Verif.Spec

namespace Verif.Xml
open Verif Verif.Spec Verif.Sxfm

variable {d d' : Desc}

theorem mem_ofClass {x : CKind × Constraint} {cl : CClass} : x ∈ d.ofClass cl ↔ x ∈ d.constraints ∧ x.1.cls = cl := by
  simp [Desc.ofClass]

theorem cls_boolean {k : CKind} (h : k.cls = .boolean) : k = .boolean := by
  cases k <;> first | rfl | cases h

theorem simple_iff {c : Constraint} : simple c = true ↔
    ∃ a b, c = .bin .implies (.feature a) (.feature b) ∨ c = .bin .excludes (.feature a) (.feature b) := by
  constructor
  · intro h
    unfold simple at h
    split at h
    · next a b => exact ⟨a, b, .inl rfl⟩
    · next a b => exact ⟨a, b, .inr rfl⟩
    · cases h
  · rintro ⟨a, b, rfl | rfl⟩ <;> rfl

theorem readBack_idem : ∀ c : Constraint, readBack (readBack c) = readBack c
  | .bin op l r => by
    have hl := readBack_idem l
    have hr := readBack_idem r
    cases op <;> simp [readBack, hl, hr]
  | .un op c => by simp [readBack, readBack_idem c]
  | .int v => rfl
  | .feature n => rfl

theorem feature_of_readBack {c : Constraint} {n : Str} (h : readBack c = .feature n) : c = .feature n := by
  cases c with
  | bin op l r => cases op <;> simp [readBack] at h
  | un op c => simp [readBack] at h
  | int v => simp [readBack] at h
  | feature n => simpa [readBack] using h

theorem readBack_not_simple {c : Constraint} (h : simple c = false) : simple (readBack c) = false := by
  cases hs : simple (readBack c) with
  | false => rfl
  | true =>
    obtain ⟨a, b, e | e⟩ := simple_iff.1 hs
    · have : c = .bin .implies (.feature a) (.feature b) := by
        cases c with
        | bin op l r =>
          cases op with
          | implies =>
            simp only [readBack, Constraint.bin.injEq, true_and] at e
            rw [feature_of_readBack e.1, feature_of_readBack e.2]
          | _ => simp [readBack] at e
        | un op c => simp [readBack] at e
        | int v => simp [readBack] at e
        | feature n => simp [readBack] at e
      rw [this] at h; cases h
    · exfalso
      cases c with
      | bin op l r => cases op <;> simp [readBack] at e
      | un op c => simp [readBack] at e
      | int v => simp [readBack] at e
      | feature n => simp [readBack] at e

theorem readable_readBack : ∀ {c : Constraint}, Readable c → Readable (readBack c)
  | .bin op l r, h => by
    obtain ⟨h1, h2, h3, h4⟩ := h
    have hl := readable_readBack h3
    have hr := readable_readBack h4
    cases op <;> simp_all [readBack, Readable]
  | .un op c, h => readable_readBack (c := c) h
  | .int v, h => h
  | .feature n, h => h

theorem fits_readBack : ∀ {c : Constraint}, FitsInt64 c → FitsInt64 (readBack c)
  | .bin op l r, h => by
    obtain ⟨h3, h4⟩ := h
    have hl := fits_readBack h3
    have hr := fits_readBack h4
    cases op <;> simp_all [readBack, FitsInt64]
  | .un op c, h => fits_readBack (c := c) h
  | .int v, h => h
  | .feature n, h => h

theorem writable_readBack {c : Constraint} (h : ConstraintWritable c) : ConstraintWritable (readBack c) :=
  ⟨(Props.identNames_readBack c).2 h.1, readable_readBack h.2.1, fits_readBack h.2.2⟩

/-! ## The parts of a feature -/

theorem int32_idem (v : Int) : int32 (int32 v) = int32 v := by
  unfold int32
  rw [Int.bmod_bmod]

theorem keptList_idem : ∀ vs : List Int, keptList (keptList vs) = keptList vs
  | [] => rfl
  | [v] => rfl
  | v :: w :: vs => by
    have ih := keptList_idem (w :: vs)
    have hne : keptList (w :: vs) ≠ [] := by cases vs <;> simp [keptList]
    rw [keptList]
    · cases hk : keptList (w :: vs) with
      | nil => exact absurd hk hne
      | cons a l =>
        rw [hk] at ih
        rw [keptList, int32_idem, ih]
        simp
    · simp

theorem kept_idem (a : Attr) : kept (kept a) = kept a := by
  unfold kept
  have hk : keptKind (keptKind a.kind) = keptKind a.kind := by
    cases a.kind with
    | numeric v s =>
      cases v with
      | range lo hi => rfl
      | list vs => simp only [keptKind, keptValues, keptList_idem]
    | _ => rfl
  have hl : (a.locs.map keptRange).map keptRange = a.locs.map keptRange := by
    rw [List.map_map]; rfl
  simp only [hk, hl]

/-! ## The same model -/

section
variable (W : WrittenAs d d')
include W

/-- The constraints of what is read back. -/
theorem constraints_of_written (x : CKind × Constraint) : x ∈ d'.constraints ↔
    (∃ a b, (x = implies a b ∧ Implies d a b) ∨ (x = excludes a b ∧ (Excludes d a b ∨ GroupMates d a b))) ∨
    ∃ y ∈ d.constraints, (y.1 = .boolean → simple y.2 = false) ∧ x = (y.1, readBack y.2) := by
  obtain ⟨l, hl, hm⟩ := W.boolean
  have hx : x ∈ d'.constraints ↔ x ∈ d'.ofClass x.1.cls := by rw [mem_ofClass]; simp
  rw [hx, ← hm]
  constructor
  · intro hx
    cases hc : x.1.cls with
    | boolean =>
      rw [hc, hl] at hx
      rcases List.mem_append.1 hx with hx | hx
      · exact .inl hx
      · obtain ⟨y, hy, rfl⟩ := List.mem_map.1 hx
        obtain ⟨h1, h2⟩ := List.mem_filter.1 hy
        exact .inr ⟨y, (mem_ofClass.1 h1).1, fun _ => by simpa using h2, rfl⟩
    | nonBoolean =>
      rw [hc, W.nonBoolean] at hx
      obtain ⟨y, hy, rfl⟩ := List.mem_map.1 hx
      obtain ⟨h1, h2⟩ := mem_ofClass.1 hy
      refine .inr ⟨y, h1, fun e => ?_, rfl⟩
      rw [e] at h2; cases h2
    | mixed =>
      rw [hc, W.mixed] at hx
      obtain ⟨y, hy, rfl⟩ := List.mem_map.1 hx
      obtain ⟨h1, h2⟩ := mem_ofClass.1 hy
      refine .inr ⟨y, h1, fun e => ?_, rfl⟩
      rw [e] at h2; cases h2
  · rintro (hx | ⟨y, h1, h2, rfl⟩)
    · have hb : x.1.cls = .boolean := by
        obtain ⟨a, b, ⟨rfl, _⟩ | ⟨rfl, _⟩⟩ := (hm x).1 hx <;> rfl
      rw [hb, hl]
      exact List.mem_append_left _ hx
    · cases hc : y.1.cls with
      | boolean =>
        rw [hl]
        exact List.mem_append_right _ (List.mem_map.2 ⟨y, List.mem_filter.2 ⟨mem_ofClass.2 ⟨h1, hc⟩, by
          simp [h2 (cls_boolean hc)]⟩, rfl⟩)
      | nonBoolean =>
        rw [W.nonBoolean]
        exact List.mem_map.2 ⟨y, mem_ofClass.2 ⟨h1, hc⟩, rfl⟩
      | mixed =>
        rw [W.mixed]
        exact List.mem_map.2 ⟨y, mem_ofClass.2 ⟨h1, hc⟩, rfl⟩

theorem excludes_of_written (a b : Str) : Excludes d' a b ↔ Excludes d a b ∨ GroupMates d a b := by
  constructor
  · rintro ⟨k, hk⟩
    rcases (constraints_of_written W _).1 hk with ⟨x, y, ⟨e, _⟩ | ⟨e, h⟩⟩ | ⟨y, h1, h2, h3⟩
    · simp [implies] at e
    · simp only [excludes, Prod.mk.injEq, Constraint.bin.injEq, Constraint.feature.injEq, true_and] at e
      obtain ⟨_, rfl, rfl⟩ := e
      exact h
    · exfalso
      have e := congrArg Prod.snd h3
      dsimp only at e
      cases hy : y.2 with
      | bin op l r => rw [hy] at e; cases op <;> simp [readBack] at e
      | un op c => rw [hy] at e; simp [readBack] at e
      | int v => rw [hy] at e; simp [readBack] at e
      | feature n => rw [hy] at e; simp [readBack] at e
  · intro h
    exact ⟨.boolean, (constraints_of_written W _).2 (.inl ⟨a, b, .inr ⟨rfl, h⟩⟩)⟩

theorem implies_of_written (a b : Str) : Implies d' a b ↔ Implies d a b := by
  constructor
  · rintro ⟨k, hk⟩
    rcases (constraints_of_written W _).1 hk with ⟨x, y, ⟨e, h⟩ | ⟨e, h⟩⟩ | ⟨y, h1, h2, h3⟩
    · simp only [implies, Prod.mk.injEq, Constraint.bin.injEq, Constraint.feature.injEq, true_and] at e
      obtain ⟨_, rfl, rfl⟩ := e
      exact h
    · simp [excludes] at e
    · have e := congrArg Prod.snd h3
      dsimp only at e
      have hs : simple (readBack y.2) = true := by rw [← e]; rfl
      have hy : simple y.2 = true := by
        cases h : simple y.2 with
        | true => rfl
        | false => rw [readBack_not_simple h] at hs; cases hs
      obtain ⟨p, q, hy | hy⟩ := simple_iff.1 hy
      · rw [hy] at e
        simp only [readBack, Constraint.bin.injEq, Constraint.feature.injEq, true_and] at e
        obtain ⟨rfl, rfl⟩ := e
        exact ⟨y.1, by rw [← hy]; exact h1⟩
      · rw [hy] at e; simp [readBack] at e
  · intro h
    exact ⟨.boolean, (constraints_of_written W _).2 (.inl ⟨a, b, .inl ⟨rfl, h⟩⟩)⟩

theorem same_of_faithful (hf : Faithful d) : SameModel d d' := by
  have hm : d.attrs.map kept = d.attrs := by
    conv => rhs; rw [← List.map_id d.attrs]
    exact List.map_congr_left fun a ha => hf.attrs a ha
  have hq := W.attrs
  rw [hm] at hq
  have hmates : ∀ a b, GroupMates d a b → Excludes d a b := by
    rintro a b ⟨hne, ha, hb, hp, k, hk⟩
    obtain ⟨_, he⟩ := (hf.groups _ k).1 hk
    obtain ⟨a', ha', rfl⟩ := List.mem_map.1 ha
    obtain ⟨b', hb', rfl⟩ := List.mem_map.1 hb
    exact he.excludes a' (List.mem_filter.2 ⟨ha', by simp⟩) b' (List.mem_filter.2 ⟨hb', by simp [hp]⟩) hne
  have hex : ∀ a b, Excludes d' a b ↔ Excludes d a b := fun a b =>
    (excludes_of_written W a b).trans ⟨fun h => h.elim id (hmates a b), .inl⟩
  have hkids : ∀ n, (d'.kids n).Perm (d.kids n) := by
    intro n
    have e : d.kids n = d.attrs.filter fun a => decide (d'.parent a.name = n) := by
      unfold Desc.kids
      exact List.filter_congr fun a ha => by rw [W.parent a ha]
    rw [e]
    exact hq.filter _
  have hexc : ∀ n, Exclusive d' n ↔ Exclusive d n := by
    intro n
    constructor
    · intro h
      exact ⟨by rw [← (hkids n).length_eq]; exact h.many, fun a ha => h.mandatory a ((hkids n).mem_iff.2 ha),
        fun a ha b hb hne => (hex _ _).1 (h.excludes a ((hkids n).mem_iff.2 ha) b ((hkids n).mem_iff.2 hb) hne)⟩
    · intro h
      exact ⟨by rw [(hkids n).length_eq]; exact h.many, fun a ha => h.mandatory a ((hkids n).mem_iff.1 ha),
        fun a ha b hb hne => (hex _ _).2 (h.excludes a ((hkids n).mem_iff.1 ha) b ((hkids n).mem_iff.1 hb) hne)⟩
  have hback : ∀ cl, ∀ y ∈ d.ofClass cl, (cl = .boolean → simple y.2 = false) → (y.1, readBack y.2) = y := by
    intro cl y hy hs
    obtain ⟨h1, h2⟩ := mem_ofClass.1 hy
    rcases hf.others y h1 with ⟨h3, h4⟩ | h3
    · rw [h3] at h2
      rw [hs h2.symm] at h4
      cases h4
    · rw [h3]
  have hmap : ∀ l : List (CKind × Constraint), (∀ y ∈ l, (y.1, readBack y.2) = y) → l.map (fun y => (y.1, readBack y.2)) = l := by
    intro l hl
    conv => rhs; rw [← List.map_id l]
    exact List.map_congr_left hl
  refine ⟨W.name, W.path, W.commit, W.root, hq, W.parent, ?_, ?_, ?_, ?_, ?_⟩
  · rintro ⟨n, k⟩
    rw [W.groups, hf.groups, hexc]
  · intro x
    rw [constraints_of_written W]
    constructor
    · rintro (⟨a, b, ⟨rfl, h⟩ | ⟨rfl, h⟩⟩ | ⟨y, h1, h2, rfl⟩)
      · exact hf.implies a b h
      · exact hf.excludes a b (h.elim id (hmates a b))
      · rw [hback y.1.cls y (mem_ofClass.2 ⟨h1, rfl⟩) fun e => h2 (cls_boolean e)]
        exact h1
    · intro hx
      by_cases hs : x.1 = .boolean ∧ simple x.2 = true
      · obtain ⟨h1, h2⟩ := hs
        obtain ⟨a, b, h2 | h2⟩ := simple_iff.1 h2
        · exact .inl ⟨a, b, .inl ⟨Prod.ext h1 h2, x.1, by rw [← h2]; exact hx⟩⟩
        · exact .inl ⟨a, b, .inr ⟨Prod.ext h1 h2, .inl ⟨x.1, by rw [← h2]; exact hx⟩⟩⟩
      · have hs' : x.1 = .boolean → simple x.2 = false := fun e => by
          cases h : simple x.2 with
          | false => rfl
          | true => exact absurd ⟨e, h⟩ hs
        exact .inr ⟨x, hx, hs', (hback x.1.cls x (mem_ofClass.2 ⟨hx, rfl⟩) fun e => hs' (cls_boolean e)).symm⟩
  · obtain ⟨l, hl, hm⟩ := W.boolean
    rw [hl, List.filter_append, List.filter_eq_nil_iff.2, hmap, List.filter_filter]
    · simp
    · intro y hy
      obtain ⟨h1, h2⟩ := List.mem_filter.1 hy
      exact hback .boolean y h1 fun _ => by simpa using h2
    · intro y hy
      obtain ⟨a, b, ⟨rfl, _⟩ | ⟨rfl, _⟩⟩ := (hm y).1 hy <;> simp [implies, excludes, simple]
  · rw [W.nonBoolean, hmap]
    exact fun y hy => hback .nonBoolean y hy nofun
  · rw [W.mixed, hmap]
    exact fun y hy => hback .mixed y hy nofun

/-- What is read back is read back again as it is. -/
theorem faithful_of_written : Faithful d' where
  attrs := by
    intro a ha
    obtain ⟨b, hb, rfl⟩ := List.mem_map.1 (W.attrs.mem_iff.1 ha)
    exact kept_idem b
  groups := W.groups
  implies := by
    intro a b h
    exact (constraints_of_written W _).2 (.inl ⟨a, b, .inl ⟨rfl, (implies_of_written W a b).1 h⟩⟩)
  excludes := by
    intro a b h
    exact (constraints_of_written W _).2 (.inl ⟨a, b, .inr ⟨rfl, (excludes_of_written W a b).1 h⟩⟩)
  others := by
    intro x hx
    rcases (constraints_of_written W x).1 hx with ⟨a, b, ⟨rfl, _⟩ | ⟨rfl, _⟩⟩ | ⟨y, _, _, rfl⟩
    · exact .inl ⟨rfl, rfl⟩
    · exact .inl ⟨rfl, rfl⟩
    · exact .inr (readBack_idem _)

theorem writable_of_written (hw : Writable d) : Writable d' where
  name := by rw [W.name]; exact hw.name
  path := by rw [W.path]; exact hw.path
  commit := by rw [W.commit]; exact hw.commit
  root := by rw [W.root]; exact hw.root
  names := by
    intro a ha
    obtain ⟨b, hb, rfl⟩ := List.mem_map.1 (W.attrs.mem_iff.1 ha)
    exact hw.names b hb
  siblings := by
    intro a ha b hb hp hl
    obtain ⟨a, ha', rfl⟩ := List.mem_map.1 (W.attrs.mem_iff.1 ha)
    obtain ⟨b, hb', rfl⟩ := List.mem_map.1 (W.attrs.mem_iff.1 hb)
    exact hw.siblings a ha' b hb' (by rw [← W.parent a ha', ← W.parent b hb']; exact hp) hl
  kinds := by
    intro a ha
    obtain ⟨b, hb, rfl⟩ := List.mem_map.1 (W.attrs.mem_iff.1 ha)
    have := hw.kinds b hb
    show KindWritable (keptKind b.kind)
    cases hk : b.kind with
    | numeric v s =>
      rw [hk] at this
      cases v with
      | range lo hi => exact this
      | list vs =>
        refine ⟨?_, keptList_int64 this.2⟩
        have hne := this.1
        cases vs with
        | nil => exact absurd rfl hne
        | cons v vs => cases vs <;> simp [keptList]
    | _ => rw [hk] at this; exact this
  locs := by
    intro a ha r hr
    obtain ⟨b, hb, rfl⟩ := List.mem_map.1 (W.attrs.mem_iff.1 ha)
    obtain ⟨r, hr', rfl⟩ := List.mem_map.1 hr
    have := hw.locs b hb r hr'
    exact ⟨this.start, this.stop, this.path, this.first, this.last⟩
  known := by
    have hn : ∀ n, n ∈ d'.attrs.map Attr.name ↔ n ∈ d.attrs.map Attr.name := by
      intro n
      rw [(W.attrs.map Attr.name).mem_iff, List.map_map]
      rfl
    intro x hx n hx'
    rw [W.root, hn]
    rcases (constraints_of_written W x).1 hx with ⟨a, b, ⟨rfl, k, h⟩ | ⟨rfl, h⟩⟩ | ⟨y, h1, _, rfl⟩
    · exact hw.known _ h n (by simpa [implies, Constraint.features] using hx')
    · rcases h with ⟨k, h⟩ | h
      · exact hw.known _ h n (by simpa [excludes, Constraint.features] using hx')
      · have : n = a ∨ n = b := by simpa [excludes, Constraint.features] using hx'
        rcases this with rfl | rfl
        · exact .inr h.2.1
        · exact .inr h.2.2.1
    · rw [readBack_features] at hx'
      exact hw.known y h1 n hx'
  constraints := by
    intro x hx
    rcases (constraints_of_written W x).1 hx with ⟨a, b, ⟨rfl, _⟩ | ⟨rfl, _⟩⟩ | ⟨y, h1, h2, rfl⟩
    · exact .inr ⟨rfl, rfl⟩
    · exact .inr ⟨rfl, rfl⟩
    · rcases hw.constraints y h1 with h | ⟨h3, h4⟩
      · exact .inl (writable_readBack h)
      · rw [h2 h3] at h4; cases h4

end

end Verif.Xml

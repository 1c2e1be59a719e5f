import Verif.Xml.Stable
import Verif.FM.Clone
/-!
# The document does not depend on how the model is stored

Two models that say the same are written as the same document.
-/

namespace Verif.Spec
open Verif Verif.Xml Verif.Sxfm

/-- The constraints of a class that are written in the element of the class. -/
def ownElement (d : Desc) (cl : CClass) : List (CKind × Constraint) :=
  (d.ofClass cl).filter fun x => !(decide (cl = .boolean) && simple x.2)

/-- The two models say the same as far as documents can tell.  The order of features, of implications and of
    exclusions does not matter. -/
structure SaysSame (d d' : Desc) : Prop where
  name : d'.name = d.name
  path : d'.path = d.path
  commit : d'.commit = d.commit
  root : d'.root = d.root
  attrs : ∀ a ∈ d.attrs, ∃ a' ∈ d'.attrs, kept a' = kept a
  attrs' : ∀ a' ∈ d'.attrs, ∃ a ∈ d.attrs, kept a' = kept a
  parent : ∀ a ∈ d.attrs, d'.parent a.name = d.parent a.name
  excluded : ∀ a b, (Excludes d' a b ∨ GroupMates d' a b) ↔ (Excludes d a b ∨ GroupMates d a b)
  implied : ∀ a b, impliesCount d' a b = impliesCount d a b
  /-- a class has constraints in both or in neither -/
  present : ∀ cl, d'.ofClass cl = [] ↔ d.ofClass cl = []
  texts : ∀ cl, (ownElement d' cl).map (fun x => (x.1, x.2.toStr)) = (ownElement d cl).map fun x => (x.1, x.2.toStr)

/-- How often a feature implies another in constraints that are not Boolean. -/
def elsewhere (d : Desc) (a b : Str) : Nat :=
  d.constraints.countP fun x => decide (x.1.cls ≠ .boolean ∧ x.2 = .bin .implies (.feature a) (.feature b))

/-- No feature implies itself and no implication between features is kept among other than Boolean constraints. -/
structure Calm (d : Desc) : Prop where
  self : ∀ a, ¬ Implies d a a
  own : ∀ a b, elsewhere d a b = 0

/-- Without Boolean constraints no exclusion is written. -/
def NoneNew (d : Desc) : Prop := d.ofClass .boolean = [] → ∀ a b, ¬ Implies d a b ∧ ¬ Excludes d a b ∧ ¬ GroupMates d a b

end Verif.Spec

namespace Verif.Xml
open Verif Verif.Spec Verif.Sxfm

/-- Features of the same name. -/
def Twin (m m' : FModel) (i j : Id) : Prop := ∃ n, (n, i) ∈ m.features ∧ (n, j) ∈ m'.features

inductive Twins (m m' : FModel) : List Id → List Id → Prop
  | nil : Twins m m' [] []
  | cons {i j is js} : Twin m m' i j → Twins m m' is js → Twins m m' (i :: is) (j :: js)

variable {d d' : Desc} {m m' : FModel}

theorem low_eq (w : WF m) {n : Str} {i : Id} (h : (n, i) ∈ m.features) : m.low i = lower n := by
  obtain ⟨g, g1, g2⟩ := w.feat_ok _ h
  simp only at g1 g2
  simp [FModel.low, nameOf_of_data g1, g2]

theorem kept_name (a : Attr) : (kept a).name = a.name := rfl

section
variable (h : Describes d m) (h' : Describes d' m') (S : SaysSame d d')
include h h' S

theorem names_same (n : Str) : (∃ i, (n, i) ∈ m.features) ↔ ∃ j, (n, j) ∈ m'.features := by
  rw [h.names, h'.names, S.root]
  refine or_congr Iff.rfl ?_
  rw [List.mem_map, List.mem_map]
  constructor
  · rintro ⟨a, ha, rfl⟩
    obtain ⟨a', h1, h2⟩ := S.attrs a ha
    exact ⟨a', h1, by have e := congrArg Attr.name h2; exact e⟩
  · rintro ⟨a', ha, rfl⟩
    obtain ⟨a, h1, h2⟩ := S.attrs' a' ha
    exact ⟨a, h1, by have e := congrArg Attr.name h2; exact e.symm⟩

omit S in
theorem twin_eq {i j k l : Id} (t : Twin m m' i j) (t' : Twin m m' k l) : i = k ↔ j = l := by
  obtain ⟨n, h1, h2⟩ := t
  obtain ⟨n', h3, h4⟩ := t'
  constructor
  · rintro rfl
    have := h.wf.id_unique h1 h3
    subst this
    exact h'.wf.entry_unique h2 h4
  · rintro rfl
    have := h'.wf.id_unique h2 h4
    subst this
    exact h.wf.entry_unique h1 h3

omit S in
theorem twin_low {i j : Id} (t : Twin m m' i j) : m.low i = m'.low j := by
  obtain ⟨n, h1, h2⟩ := t
  rw [low_eq h.wf h1, low_eq h'.wf h2]

/-- Features of the same name have parents of the same name. -/
theorem twin_parent {i j : Id} (t : Twin m m' i j) : (m.parentFeature i = some none ∧ m'.parentFeature j = some none) ∨
    ∃ p q, m.parentFeature i = some (some p) ∧ m'.parentFeature j = some (some q) ∧ Twin m m' p q := by
  obtain ⟨n, h1, h2⟩ := t
  obtain ⟨r, p1, p2⟩ := parentFeature_spec h.wf (.inl (known_of_mem h1))
  obtain ⟨r', q1, q2⟩ := parentFeature_spec h'.wf (.inl (known_of_mem h2))
  rcases entry_cases h h1 with ⟨rfl, hr, _⟩ | ⟨a, ha, rfl, f, p, _, _, h6, h7⟩
  · rcases entry_cases h' h2 with ⟨_, hr', _⟩ | ⟨a', ha', e, _⟩
    · left
      rw [p1, q1]
      cases r with
      | some p => exact absurd ((p2 p).1 rfl) (root_no_fparent h.wf hr)
      | none =>
        cases r' with
        | some p => exact absurd ((q2 p).1 rfl) (root_no_fparent h'.wf hr')
        | none => exact ⟨rfl, rfl⟩
    · exact absurd (List.mem_map_of_mem (f := Attr.name) ha') (by rw [e, ← S.root]; exact h'.root_new)
  · rcases entry_cases h' h2 with ⟨e, _⟩ | ⟨a', ha', e, f', p', _, _, h6', h7'⟩
    · exact absurd (List.mem_map_of_mem (f := Attr.name) ha) (by rw [e, S.root]; exact h.root_new)
    · right
      refine ⟨p, p', by rw [p1, (p2 p).2 h7], by rw [q1, (q2 p').2 h7'], d.parent a.name, h6, ?_⟩
      rw [S.parent a ha] at h6'
      exact h6'

theorem twins_trace : ∀ (fuel fuel' : Nat) {i j : Id} {acc acc' t t' : List Id}, Twin m m' i j → Twins m m' acc acc' →
    m.trace fuel i acc = some t → m'.trace fuel' j acc' = some t' → Twins m m' t t'
  | 0, _, _, _, _, _, _, _, _, _, h1, _ => by cases h1
  | _ + 1, 0, _, _, _, _, _, _, _, _, _, h2 => by cases h2
  | fuel + 1, fuel' + 1, i, j, acc, acc', t, t', tw, ta, h1, h2 => by
    unfold FModel.trace at h1 h2
    rcases twin_parent h h' S tw with ⟨e1, e2⟩ | ⟨p, q, e1, e2, tp⟩
    · rw [e1] at h1; rw [e2] at h2
      cases h1; cases h2
      exact .cons tw ta
    · rw [e1] at h1; rw [e2] at h2
      exact twins_trace fuel fuel' tp (.cons tw ta) h1 h2

omit S in
theorem twins_lessTrace {a a' : List Id} (ta : Twins m m' a a') : ∀ {b b'}, Twins m m' b b' → m.lessTrace a b = m'.lessTrace a' b' := by
  induction ta with
  | nil => intro b b' tb; cases tb <;> simp [FModel.lessTrace]
  | @cons x y _ _ t ts ih =>
    intro b b' tb
    cases tb with
    | nil => simp [FModel.lessTrace]
    | @cons x' y' _ _ t' ts' =>
      simp only [FModel.lessTrace]
      rw [ih ts', twin_low h h' t, twin_low h h' t']
      by_cases e : x = x'
      · rw [if_pos e, if_pos ((twin_eq h h' t t').1 e)]
      · rw [if_neg e, if_neg (fun e' => e ((twin_eq h h' t t').2 e'))]

/-- Features of the same names are compared with the same result. -/
theorem twin_less {a a' b b' : Id} (ta : Twin m m' a a') (tb : Twin m m' b b') : m.less a b = m'.less a' b' := by
  obtain ⟨_, a1, a2⟩ := id ta
  obtain ⟨_, b1, b2⟩ := id tb
  obtain ⟨r, _, hr, _⟩ := h.wf.root_ok
  obtain ⟨r', _, hr', _⟩ := h'.wf.root_ok
  have tr := fun {x n} (hx : (n, x) ∈ m.features) => trace_spec h.wf hr (m.next + 1) x [] (known_of_mem hx)
    (by have := h.wf.level_lt (.inl (known_of_mem hx)); omega)
  have tr' := fun {x n} (hx : (n, x) ∈ m'.features) => trace_spec h'.wf hr' (m'.next + 1) x [] (known_of_mem hx)
    (by have := h'.wf.level_lt (.inl (known_of_mem hx)); omega)
  obtain ⟨p, p1, _⟩ := tr a1
  obtain ⟨q, q1, _⟩ := tr b1
  obtain ⟨p', p1', _⟩ := tr' a2
  obtain ⟨q', q1', _⟩ := tr' b2
  have t1 := twins_trace h h' S _ _ ta .nil p1 p1'
  have t2 := twins_trace h h' S _ _ tb .nil q1 q1'
  unfold FModel.less
  rw [p1, q1, p1', q1']
  simp only [List.append_nil, if_true] at t1 t2 ⊢
  rw [twins_lessTrace h h' t1 t2]

theorem twins_exist : ∀ {l : List Id}, (∀ i ∈ l, Known m i) → ∃ l', Twins m m' l l'
  | [], _ => ⟨[], .nil⟩
  | i :: l, hl => by
    obtain ⟨l', t⟩ := twins_exist (l := l) fun j hj => hl j (by simp [hj])
    obtain ⟨n, f, h1, _⟩ := known_entry h.wf (hl i (by simp))
    obtain ⟨j, hj⟩ := (names_same h h' S n).1 ⟨i, h1⟩
    exact ⟨j :: l', .cons ⟨n, h1, hj⟩ t⟩

omit S in
theorem twins_count {l l' : List Id} (t : Twins m m' l l') {i j : Id} (tw : Twin m m' i j) : l.count i = l'.count j := by
  induction t with
  | nil => rfl
  | @cons x y _ _ t1 _ ih =>
    by_cases e : x = i
    · rw [e, (twin_eq h h' t1 tw).1 e, List.count_cons_self, List.count_cons_self, ih]
    · rw [List.count_cons_of_ne e, List.count_cons_of_ne (fun e' => e ((twin_eq h h' t1 tw).2 e')), ih]

omit h h' S in
theorem twins_known {l l' : List Id} (t : Twins m m' l l') : ∀ j ∈ l', Known m' j := by
  induction t with
  | nil => intro j hj; cases hj
  | cons t1 _ ih =>
    obtain ⟨n, _, h2⟩ := t1
    intro j hj
    rcases List.mem_cons.1 hj with rfl | hj
    · exact known_of_mem h2
    · exact ih j hj

omit h h' S in
theorem twins_mem {l l' : List Id} (t : Twins m m' l l') {j : Id} (hj : j ∈ l') : ∃ i ∈ l, Twin m m' i j := by
  induction t with
  | nil => cases hj
  | cons t1 _ ih =>
    rcases List.mem_cons.1 hj with rfl | hj
    · exact ⟨_, by simp, t1⟩
    · obtain ⟨i, h1, h2⟩ := ih hj
      exact ⟨i, by simp [h1], h2⟩

theorem twins_sorted {l l' : List Id} (t : Twins m m' l l') (hs : l.Pairwise fun a b => m.less b a = some false) :
    l'.Pairwise fun a b => m'.less b a = some false := by
  induction t with
  | nil => exact .nil
  | cons t1 ts ih =>
    rw [List.pairwise_cons] at hs ⊢
    refine ⟨fun j hj => ?_, ih hs.2⟩
    obtain ⟨i, hi, tw⟩ := twins_mem ts hj
    rw [← twin_less h h' S tw t1]
    exact hs.1 i hi

/-- Sorted lists with the same names are the same lists of names. -/
theorem sorted_twins (hs' : SiblingsDiffer m') {l l' : List Id} (hl : ∀ i ∈ l, Known m i) (hl' : ∀ i ∈ l', Known m' i)
    (ho : l.Pairwise fun a b => m.less b a = some false) (ho' : l'.Pairwise fun a b => m'.less b a = some false)
    (hc : ∀ i j, Twin m m' i j → l.count i = l'.count j) : Twins m m' l l' := by
  obtain ⟨k, t⟩ := twins_exist h h' S hl
  have hk := twins_known t
  have hp : k.Perm l' := by
    rw [List.perm_iff_count]
    intro j
    by_cases hj : Known m' j
    · obtain ⟨n, f, h1, _⟩ := known_entry h'.wf hj
      obtain ⟨i, hi⟩ := (names_same h h' S n).2 ⟨j, h1⟩
      rw [← twins_count h h' t ⟨n, hi, h1⟩, hc i j ⟨n, hi, h1⟩]
    · rw [List.count_eq_zero.2 fun hm => hj (hk j hm), List.count_eq_zero.2 fun hm => hj (hl' j hm)]
  have e : k = l' := by
    refine hp.eq_of_pairwise ?_ (twins_sorted h h' S t ho) ho'
    intro a b ha hb hab hba
    apply Classical.byContradiction
    intro hne
    rcases Props.C26_total_partial h'.wf hs' (hk a ha) (hl' b hb) hne with e | e
    · rw [hba] at e; cases e
    · rw [hab] at e; cases e
  exact e ▸ t

omit S in
theorem namesOf?_twins {l l' : List Id} (t : Twins m m' l l') : namesOf? m l = namesOf? m' l' := by
  induction t with
  | nil => rfl
  | cons t1 _ ih =>
    obtain ⟨n, h1, h2⟩ := t1
    obtain ⟨g, g1, g2⟩ := h.wf.feat_ok _ h1
    obtain ⟨g', g1', g2'⟩ := h'.wf.feat_ok _ h2
    simp only at g1 g2 g1' g2'
    unfold namesOf?
    rw [nameOf_of_data g1, nameOf_of_data g1', g2, g2', ih]

/-- The same for the written names. -/
theorem names_eq (hs' : SiblingsDiffer m') {l l' : List Id} (hl : ∀ i ∈ l, Known m i) (hl' : ∀ i ∈ l', Known m' i)
    (ho : l.Pairwise fun a b => m.less b a = some false) (ho' : l'.Pairwise fun a b => m'.less b a = some false)
    {ns ns' : List Str} (hn : namesOf? m l = some ns) (hn' : namesOf? m' l' = some ns') (hc : ∀ b, ns.count b = ns'.count b) : ns = ns' := by
  have t := sorted_twins h h' S hs' hl hl' ho ho' (by
    rintro i j ⟨n, h1, h2⟩
    rw [← namesOf?_count h.wf h1 hl hn, ← namesOf?_count h'.wf h2 hl' hn', hc])
  have := namesOf?_twins h h' t
  rw [hn, hn'] at this
  exact Option.some.inj this

/-! ## The parts of a feature -/

theorem childNames_same (hs : SiblingsDiffer m) (hs' : SiblingsDiffer m') (E E' : Env) {i j : Id} (t : Twin m m' i j) :
    childNames E m i = childNames E' m' j := by
  obtain ⟨n, hi, hj⟩ := t
  obtain ⟨ns, e1, e2⟩ := childNames_spec h hs E hi
  obtain ⟨ns', e1', e2'⟩ := childNames_spec h' hs' E' hj
  obtain ⟨cs, c1, c2, c3, _⟩ := children_desc h E hi
  obtain ⟨cs', c1', c2', c3', _⟩ := children_desc h' E' hj
  have hk : ∀ c ∈ cs, Known m c := fun c hc => by
    obtain ⟨a, _, f, h5, _⟩ := c3 c hc
    exact known_of_mem h5
  have hk' : ∀ c ∈ cs', Known m' c := fun c hc => by
    obtain ⟨a, _, f, h5, _⟩ := c3' c hc
    exact known_of_mem h5
  obtain ⟨l, o1, o2, o3⟩ := ordered_spec h.wf hs hk
  obtain ⟨l', o1', o2', o3'⟩ := ordered_spec h'.wf hs' hk'
  have n1 : namesOf? m l = some ns := by
    unfold childNames at e1
    simpa only [c1, o1] using e1
  have n1' : namesOf? m' l' = some ns' := by
    unfold childNames at e1'
    simpa only [c1', o1'] using e1'
  have kl : ∀ c ∈ l, Known m c := fun c hc => hk c (o2.mem_iff.1 hc)
  have kl' : ∀ c ∈ l', Known m' c := fun c hc => hk' c (o2'.mem_iff.1 hc)
  rw [e1, e1', names_eq h h' S hs' kl kl' o3 o3' n1 n1']
  intro b
  have nd := namesOf?_nodup h.wf kl (o2.nodup_iff.2 c2) n1
  have nd' := namesOf?_nodup h'.wf kl' (o2'.nodup_iff.2 c2') n1'
  rw [nd.count, nd'.count]
  have : b ∈ ns ↔ b ∈ ns' := by
    rw [e2, e2']
    constructor
    · rintro ⟨a, ha, rfl, hp⟩
      obtain ⟨a', h1, h2⟩ := S.attrs a ha
      have e : a'.name = a.name := by have e := congrArg Attr.name h2; exact e
      exact ⟨a', h1, e, by rw [S.parent a ha]; exact hp⟩
    · rintro ⟨a', ha, rfl, hp⟩
      obtain ⟨a, h1, h2⟩ := S.attrs' a' ha
      have e : a'.name = a.name := by have e := congrArg Attr.name h2; exact e
      exact ⟨a, h1, e.symm, by rw [e, ← S.parent a h1, ← e]; exact hp⟩
  by_cases hb : b ∈ ns
  · rw [if_pos hb, if_pos (this.1 hb)]
  · rw [if_neg hb, if_neg fun x => hb (this.2 x)]

theorem parentElem_same {i j : Id} (t : Twin m m' i j) : parentElem m i = parentElem m' j := by
  unfold parentElem
  rcases twin_parent h h' S t with ⟨e1, e2⟩ | ⟨p, q, e1, e2, n, h1, h2⟩
  · rw [e1, e2]
  · obtain ⟨g, g1, g2⟩ := h.wf.feat_ok _ h1
    obtain ⟨g', g1', g2'⟩ := h'.wf.feat_ok _ h2
    simp only at g1 g2 g1' g2'
    rw [e1, e2]
    simp only [nameOf_of_data g1, nameOf_of_data g1', g2, g2']

theorem impliedNames_same (hs : SiblingsDiffer m) (hs' : SiblingsDiffer m') (hk : ConstraintsKnown d) (hk' : ConstraintsKnown d') {n : Str}
    {i j : Id} (hi : (n, i) ∈ m.features) (hj : (n, j) ∈ m'.features) {f f' : Feat} (hf : data m i = some (.feat f))
    (hf' : data m' j = some (.feat f')) : impliedNames m f = impliedNames m' f' := by
  obtain ⟨ns, e1, e2⟩ := impliedNames_spec h hs hk hi hf
  obtain ⟨ns', e1', e2'⟩ := impliedNames_spec h' hs' hk' hj hf'
  obtain ⟨ts, t1, t2, _⟩ := targets_op h hk .implies (n := f.attr.name) (h.registered i f (known_of_mem hi) hf).2.1
  obtain ⟨ts', t1', t2', _⟩ := targets_op h' hk' .implies (n := f'.attr.name) (h'.registered j f' (known_of_mem hj) hf').2.1
  obtain ⟨l, o1, o2, o3⟩ := ordered_spec h.wf hs t2
  obtain ⟨l', o1', o2', o3'⟩ := ordered_spec h'.wf hs' t2'
  have n1 : namesOf? m l = some ns := by
    unfold impliedNames at e1
    simpa only [t1, o1] using e1
  have n1' : namesOf? m' l' = some ns' := by
    unfold impliedNames at e1'
    simpa only [t1', o1'] using e1'
  rw [e1, e1', names_eq h h' S hs' (fun c hc => t2 c (o2.mem_iff.1 hc)) (fun c hc => t2' c (o2'.mem_iff.1 hc)) o3 o3' n1 n1']
  intro b
  rw [impliedNames_count h hs hk hi hf e1, impliedNames_count h' hs' hk' hj hf' e1', S.implied]

omit h' S in
theorem insertNew_sorted (hs : SiblingsDiffer m) : ∀ (ts : List Id) {l l' : List Id}, (∀ j ∈ ts, Known m j) → (∀ j ∈ l, Known m j) →
    l.Pairwise (fun a b => m.less b a = some false) → insertNew m l ts = some l' → l'.Pairwise (fun a b => m.less b a = some false)
  | [], l, l', _, _, hp, e => by cases e; exact hp
  | i :: ts, l, l', ht, hl, hp, e => by
    unfold insertNew at e
    by_cases hi : i ∈ l
    · rw [if_pos hi] at e
      exact insertNew_sorted hs ts (fun j hj => ht j (by simp [hj])) hl hp e
    · rw [if_neg hi] at e
      have hki := ht i (by simp)
      obtain ⟨l1, h1, h2, h3⟩ := Props.vecRun_spec h.wf hs [.insert i] l l (by
        intro o ho f hf
        rw [List.mem_singleton] at ho
        subst ho
        rcases hf with hf | hf
        · cases hf; exact hki
        · cases hf) hl hp (.refl _)
      have e' : m.vecStep l (.insert i) = some l1 := by
        rw [FModel.vecRun] at h1
        cases hv : m.vecStep l (.insert i) with
        | none => rw [hv] at h1; cases h1
        | some l2 => rw [hv] at h1; exact h1
      rw [e'] at e
      refine insertNew_sorted hs ts (fun j hj => ht j (by simp [hj])) ?_ h2 e
      intro j hj
      rw [h3.mem_iff] at hj
      simp only [Props.contents, List.mem_cons] at hj
      rcases hj with rfl | hj
      · exact hki
      · exact hl j hj

theorem excludedNames_same (hs : SiblingsDiffer m) (hs' : SiblingsDiffer m') (hk : ConstraintsKnown d) (hk' : ConstraintsKnown d') (E E' : Env)
    {n : Str} {i j : Id} (hi : (n, i) ∈ m.features) (hj : (n, j) ∈ m'.features) {f f' : Feat} (hf : data m i = some (.feat f))
    (hf' : data m' j = some (.feat f')) : excludedNames E m i f = excludedNames E' m' j f' := by
  have key : ∀ {d : Desc} {m : FModel} (h : Describes d m) (hs : SiblingsDiffer m) (hk : ConstraintsKnown d) (E : Env) {i : Id} (hi : (n, i) ∈ m.features)
      {f : Feat} (hf : data m i = some (.feat f)), ∃ l ns, (∀ c ∈ l, Known m c) ∧ l.Pairwise (fun a b => m.less b a = some false) ∧
      namesOf? m l = some ns ∧ excludedNames E m i f = some ns ∧ ns.Nodup ∧ ∀ b, b ∈ ns ↔ Excludes d n b ∨ GroupMates d n b := by
    intro d m h hs hk E i hi f hf
    obtain ⟨ts, h1, h2, h3⟩ := targets_op h hk .excludes (n := f.attr.name) (h.registered i f (known_of_mem hi) hf).2.2.1
    obtain ⟨sib, s1, s2, s3⟩ := groupSiblings_spec h E hi
    obtain ⟨l, h4, h5, h6⟩ := ordered_spec h.wf hs s2
    have hl : ∀ j ∈ l, Known m j := fun j hj => s2 j (h5.mem_iff.1 hj)
    obtain ⟨l', h7, h8⟩ := insertNew_spec h.wf hs ts l h2 hl h6
    obtain ⟨ns, e1, e2⟩ := excludedNames_spec h hs hk E hi hf
    refine ⟨l', ns, fun j hj => ((h8 j).1 hj).elim (hl j) (h2 j), insertNew_sorted h hs ts h2 hl h6 h7, ?_, e1,
      excludedNames_nodup h hs hk E hi hf e1, e2⟩
    unfold excludedNames excluded at e1
    simpa only [s1, h4, h1, h7] using e1
  obtain ⟨l, ns, a1, a2, a3, a4, a5, a6⟩ := key h hs hk E hi hf
  obtain ⟨l', ns', b1, b2, b3, b4, b5, b6⟩ := key h' hs' hk' E' hj hf'
  rw [a4, b4, names_eq h h' S hs' a1 b1 a2 b2 a3 b3]
  intro b
  rw [a5.count, b5.count]
  have : b ∈ ns ↔ b ∈ ns' := by rw [a6, b6, S.excluded]
  by_cases hb : b ∈ ns
  · rw [if_pos hb, if_pos (this.1 hb)]
  · rw [if_neg hb, if_neg fun x => hb (this.2 x)]

end

/-! ## The attributes -/

theorem keptList_cons {v : Int} {vs : List Int} (h : vs ≠ []) : keptList (v :: vs) = int32 v :: keptList vs := by
  cases vs with
  | nil => exact absurd rfl h
  | cons w vs => rw [keptList]; simp

theorem valuesText_kept : ∀ vs : List Int, valuesText (keptList vs) = valuesText vs
  | [] => rfl
  | [v] => rfl
  | v :: w :: vs => by
    have ih := valuesText_kept (w :: vs)
    have hne : keptList (w :: vs) ≠ [] := by cases vs <;> simp [keptList]
    rw [keptList_cons (by simp)]
    cases hk : keptList (w :: vs) with
    | nil => exact absurd hk hne
    | cons a l =>
      rw [hk] at ih
      have e1 : valuesText (int32 v :: a :: l) = (valuesText (a :: l)).map fun t => intText (toInt (int32 v)) ++ ';' :: t := by
        rw [valuesText]; simp
      have e2 : valuesText (v :: w :: vs) = (valuesText (w :: vs)).map fun t => intText (toInt v) ++ ';' :: t := by
        rw [valuesText]; simp
      rw [e1, e2, ih, toInt_eq, toInt_eq, int32_idem]

theorem numericElem_kept (k : FKind) : numericElem (keptKind k) = numericElem k := by
  cases k with
  | numeric v s =>
    cases v with
    | range lo hi => rfl
    | list vs => simp only [keptKind, keptValues, numericElem, valuesText_kept]
  | _ => rfl

theorem writeRanges_kept : ∀ rs : List Range, writeRanges (rs.map keptRange) = writeRanges rs
  | [] => rfl
  | r :: rs => by
    have : writeRange (keptRange r) = writeRange r := rfl
    rw [List.map_cons, writeRanges, writeRanges, this, writeRanges_kept rs]

theorem locationsElem_kept (rs : List Range) : locationsElem (rs.map keptRange) = locationsElem rs := by
  unfold locationsElem
  rw [writeRanges_kept]
  by_cases hr : rs = []
  · subst hr; rfl
  · rw [if_neg hr, if_neg (by simpa using hr)]

theorem attr_named {l : List Attr} (hn : (l.map Attr.name).Nodup) {a b : Attr} (ha : a ∈ l) (hb : b ∈ l) (e : a.name = b.name) : a = b := by
  induction l with
  | nil => cases ha
  | cons c l ih =>
    rw [List.map_cons, List.nodup_cons] at hn
    rcases List.mem_cons.1 ha with h1 | h1 <;> rcases List.mem_cons.1 hb with h2 | h2
    · rw [h1, h2]
    · exact absurd (List.mem_map.2 ⟨b, h2, by rw [← e, h1]⟩) hn.1
    · exact absurd (List.mem_map.2 ⟨a, h1, by rw [e, h2]⟩) hn.1
    · exact ih hn.2 h1 h2

/-- Twins differ only in what documents do not say. -/
theorem twin_attr (h : Describes d m) (h' : Describes d' m') (S : SaysSame d d') {n : Str} {i j : Id} (hi : (n, i) ∈ m.features)
    (hj : (n, j) ∈ m'.features) {f f' : Feat} (hf : data m i = some (.feat f)) (hf' : data m' j = some (.feat f')) :
    kept f'.attr = kept f.attr := by
  rcases entry_cases h hi with ⟨e1, _, g, e2, e3⟩ | ⟨a, ha, e1, g, _, e2, e3, _⟩ <;>
    rcases entry_cases h' hj with ⟨e1', _, g', e2', e3'⟩ | ⟨a', ha', e1', g', _, e2', e3', _⟩ <;>
    (rw [hf] at e2; rw [hf'] at e2'; cases e2; cases e2')
  · rw [e3, e3', S.root]
  · obtain ⟨b, hb, e⟩ := S.attrs' a' ha'
    have en : a'.name = b.name := by have e := congrArg Attr.name e; exact e
    exact absurd (List.mem_map.2 ⟨b, hb, by rw [← en, e1', e1]⟩) h.root_new
  · obtain ⟨b, hb, e⟩ := S.attrs a ha
    have en : b.name = a.name := by have e := congrArg Attr.name e; exact e
    exact absurd (List.mem_map.2 ⟨b, hb, by rw [en, e1, e1']⟩) h'.root_new
  · obtain ⟨b, hb, e⟩ := S.attrs a ha
    have en : b.name = a.name := by have e := congrArg Attr.name e; exact e
    have : b = a' := attr_named h'.distinct hb ha' (by rw [en, e1, e1'])
    rw [e3, e3', ← this, e]

theorem feature_same (h : Describes d m) (h' : Describes d' m') (hw : Writable d) (hw' : Writable d') (S : SaysSame d d') (E E' : Env)
    {i j : Id} (t : Twin m m' i j) :
    writeFeature E m i = writeFeature E' m' j ∧ isBinary m i = isBinary m' j ∧ isNumeric m i = isNumeric m' j := by
  obtain ⟨n, hi, hj⟩ := t
  obtain ⟨f, hf, _⟩ := h.wf.feat_ok _ hi
  obtain ⟨f', hf', _⟩ := h'.wf.feat_ok _ hj
  simp only at hf hf'
  have hs := siblings_differ h hw
  have hs' := siblings_differ h' hw'
  have e := twin_attr h h' S hi hj hf hf'
  have en : f'.attr.name = f.attr.name := by have e := congrArg Attr.name e; exact e
  have eo : f'.attr.opt = f.attr.opt := by have e := congrArg Attr.opt e; exact e
  have ek : keptKind f'.attr.kind = keptKind f.attr.kind := by have e := congrArg Attr.kind e; exact e
  have el : f'.attr.locs.map keptRange = f.attr.locs.map keptRange := by have e := congrArg Attr.locs e; exact e
  refine ⟨?_, ?_, ?_⟩
  · unfold writeFeature
    rw [feat?_of_data hf, feat?_of_data hf']
    simp only
    rw [parentElem_same h h' S ⟨n, hi, hj⟩, childNames_same h h' S hs hs' E E' ⟨n, hi, hj⟩,
      impliedNames_same h h' S hs hs' hw.known hw'.known hi hj hf hf',
      excludedNames_same h h' S hs hs' hw.known hw'.known E E' hi hj hf hf', ← numericElem_kept f'.attr.kind, ek, numericElem_kept,
      ← locationsElem_kept f'.attr.locs, el, locationsElem_kept, en, eo]
  · unfold isBinary
    rw [feat?_of_data hf, feat?_of_data hf']
    simp only
    revert ek
    cases f.attr.kind <;> cases f'.attr.kind <;> simp [keptKind]
  · unfold isNumeric
    rw [feat?_of_data hf, feat?_of_data hf']
    simp only
    revert ek
    cases f.attr.kind <;> cases f'.attr.kind <;> simp [keptKind]

theorem features_same (h : Describes d m) (h' : Describes d' m') (hw : Writable d) (hw' : Writable d') (S : SaysSame d d') (E E' : Env)
    {l l' : List Id} (t : Twins m m' l l') :
    writeFeatures E m (l.filter (isBinary m)) = writeFeatures E' m' (l'.filter (isBinary m')) ∧
      writeFeatures E m (l.filter (isNumeric m)) = writeFeatures E' m' (l'.filter (isNumeric m')) := by
  induction t with
  | nil => exact ⟨rfl, rfl⟩
  | @cons x y _ _ t1 _ ih =>
    obtain ⟨e1, e2, e3⟩ := feature_same h h' hw hw' S E E' t1
    refine ⟨?_, ?_⟩
    · rw [List.filter_cons, List.filter_cons, ← e2]
      split
      · unfold writeFeatures
        rw [e1, ih.1]
      · exact ih.1
    · rw [List.filter_cons, List.filter_cons, ← e3]
      split
      · unfold writeFeatures
        rw [e1, ih.2]
      · exact ih.2

theorem ownElement_eq (d : Desc) (cl : CClass) : ownElement d cl = writtenClass d cl := by
  unfold ownElement writtenClass
  by_cases hc : cl = .boolean
  · subst hc; simp
  · simp [hc]

theorem groups_same (h : Describes d m) (h' : Describes d' m') (S : SaysSame d d') (n : Str) (cl : CClass) :
    constraintGroup m n cl = constraintGroup m' n cl := by
  rw [constraintGroup_spec h, constraintGroup_spec h']
  unfold classDoc
  by_cases he : d.ofClass cl = []
  · rw [if_pos he, if_pos ((S.present cl).2 he)]
  · rw [if_neg he, if_neg fun e => he ((S.present cl).1 e)]
    have e := S.texts cl
    rw [ownElement_eq, ownElement_eq] at e
    have k : ∀ l : List (CKind × Constraint), (docConstraints l).map DocConstraint.toXml =
        (l.map fun x => (x.1, x.2.toStr)).map fun y => DocConstraint.toXml ⟨y.2, .int 0, y.1⟩ := by
      intro l
      rw [docConstraints, List.map_map, List.map_map]
      apply List.map_congr_left
      intro x _
      obtain ⟨k, c⟩ := x
      cases k <;> rfl
    simp only [groupXml, k, e]

/-- Two models that say the same are written as the same document. -/
theorem same_document (h : Describes d m) (h' : Describes d' m') (hw : Writable d) (hw' : Writable d') (S : SaysSame d d') (E E' : Env) :
    write E m = write E' m' := by
  obtain ⟨_, l, _, e1, _, n1, k1, _⟩ := Props.C25_preorder h.wf E
  obtain ⟨_, l', _, e1', _, n1', k1', _⟩ := Props.C25_preorder h'.wf E'
  have t : Twins m m' l l' := by
    refine sorted_twins h h' S (siblings_differ h' hw') (fun i hi => (k1 i).1 hi) (fun i hi => (k1' i).1 hi)
      (Props.C26_iteration_agrees h.wf E e1) (Props.C26_iteration_agrees h'.wf E' e1') ?_
    rintro i j ⟨n, hi, hj⟩
    rw [n1.count, n1'.count, if_pos ((k1 i).2 (known_of_mem hi)), if_pos ((k1' j).2 (known_of_mem hj))]
  obtain ⟨b, c⟩ := features_same h h' hw hw' S E E' t
  unfold write
  simp only [e1, e1', b, c, groups_same h h' S, h.name, h'.name, h.path, h'.path, h.commit, h'.commit, S.name, S.path, S.commit]

/-! ## Models that say the same -/

theorem same_refl (d : Desc) : SaysSame d d where
  name := rfl
  path := rfl
  commit := rfl
  root := rfl
  attrs := fun a ha => ⟨a, ha, rfl⟩
  attrs' := fun a ha => ⟨a, ha, rfl⟩
  parent := fun _ _ => rfl
  excluded := fun _ _ => Iff.rfl
  implied := fun _ _ => rfl
  present := fun _ => Iff.rfl
  texts := fun _ => rfl

theorem kept_cloned {a : Attr} (h : KindWritable a.kind) : kept (clonedAttr a) = kept a := by
  unfold clonedAttr
  cases hk : a.kind with
  | unknown => rw [hk] at h; exact h.elim
  | root => rw [hk] at h; exact h.elim
  | binary => simp [kept, hk]
  | numeric v s => simp [kept, hk, keptKind]

theorem same_cloned (hw : Writable d) : SaysSame d d.cloned where
  name := rfl
  path := rfl
  commit := rfl
  root := rfl
  attrs := fun a ha => ⟨clonedAttr a, List.mem_map_of_mem ha, kept_cloned (hw.kinds a ha)⟩
  attrs' := by
    intro a' ha'
    obtain ⟨a, ha, rfl⟩ := List.mem_map.1 ha'
    exact ⟨a, ha, kept_cloned (hw.kinds a ha)⟩
  parent := fun _ _ => rfl
  excluded := by
    intro a b
    unfold GroupMates
    rw [cloned_names]
    rfl
  implied := fun _ _ => rfl
  present := fun _ => Iff.rfl
  texts := fun _ => rfl

theorem clonedAttr_same {a : Attr} (h : KindWritable a.kind) : KindWritable (clonedAttr a).kind ∧ (clonedAttr a).locs = a.locs := by
  unfold clonedAttr
  cases hk : a.kind with
  | unknown => rw [hk] at h; exact h.elim
  | root => rw [hk] at h; exact h.elim
  | binary => simp [KindWritable]
  | numeric v s => rw [hk] at h; exact ⟨h, rfl⟩

theorem writable_cloned (hw : Writable d) : Writable d.cloned where
  name := hw.name
  path := hw.path
  commit := hw.commit
  root := hw.root
  names := by
    intro a' ha'
    obtain ⟨a, ha, rfl⟩ := List.mem_map.1 ha'
    rw [clonedAttr_name]
    exact hw.names a ha
  siblings := by
    intro a' ha' b' hb' hp hl
    obtain ⟨a, ha, rfl⟩ := List.mem_map.1 ha'
    obtain ⟨b, hb, rfl⟩ := List.mem_map.1 hb'
    rw [clonedAttr_name, clonedAttr_name] at hp hl ⊢
    exact hw.siblings a ha b hb hp hl
  kinds := by
    intro a' ha'
    obtain ⟨a, ha, rfl⟩ := List.mem_map.1 ha'
    exact (clonedAttr_same (hw.kinds a ha)).1
  locs := by
    intro a' ha'
    obtain ⟨a, ha, rfl⟩ := List.mem_map.1 ha'
    rw [(clonedAttr_same (hw.kinds a ha)).2]
    exact hw.locs a ha
  known := by
    intro x hx n hn
    rw [cloned_names]
    exact hw.known x hx n hn
  constraints := hw.constraints

/-! ## What was read back -/

theorem toStr_readBack : ∀ c : Constraint, (readBack c).toStr = c.toStr
  | .bin op l r => by
    have hl := toStr_readBack l
    have hr := toStr_readBack r
    cases op <;> simp [readBack, Constraint.toStr, hl, hr, BinOp.text, BinOp.rightPrefix, UnOp.text]
  | .un op c => by simp [readBack, Constraint.toStr, toStr_readBack c]
  | .int _ => rfl
  | .feature _ => rfl

theorem readBack_implies {c : Constraint} {a b : Str} :
    readBack c = .bin .implies (.feature a) (.feature b) ↔ c = .bin .implies (.feature a) (.feature b) := by
  have hf : ∀ {c : Constraint} {n : Str}, readBack c = .feature n → c = .feature n := by
    intro c n h
    cases c with
    | bin op l r => cases op <;> simp [readBack] at h
    | un op c => simp [readBack] at h
    | int v => simp [readBack] at h
    | feature n => simpa [readBack] using h
  constructor
  · intro h
    cases c with
    | bin op l r =>
      cases op <;> simp [readBack] at h
      rw [hf h.1, hf h.2]
    | un op c => simp [readBack] at h
    | int v => simp [readBack] at h
    | feature n => simp [readBack] at h
  · rintro rfl; rfl

theorem countP_classes (d : Desc) (p : Constraint → Bool) : d.constraints.countP (fun x => p x.2) =
    (d.ofClass .boolean).countP (fun x => p x.2) + d.constraints.countP (fun x => decide (x.1.cls ≠ .boolean) && p x.2) := by
  unfold Desc.ofClass
  induction d.constraints with
  | nil => rfl
  | cons x l ih =>
    rw [List.countP_cons, List.countP_cons, List.filter_cons, ih]
    by_cases hc : x.1.cls = .boolean
    · simp [hc, List.countP_cons]; omega
    · simp [hc]; omega

theorem countP_other (d : Desc) (p : Constraint → Bool) : d.constraints.countP (fun x => decide (x.1.cls ≠ .boolean) && p x.2) =
    (d.ofClass .nonBoolean).countP (fun x => p x.2) + (d.ofClass .mixed).countP (fun x => p x.2) := by
  unfold Desc.ofClass
  induction d.constraints with
  | nil => rfl
  | cons x l ih =>
    rw [List.countP_cons, List.filter_cons, List.filter_cons, ih]
    cases hc : x.1.cls <;> simp [List.countP_cons] <;> omega

theorem elsewhere_eq (d : Desc) (a b : Str) : elsewhere d a b =
    d.constraints.countP fun x => decide (x.1.cls ≠ .boolean) && decide (x.2 = .bin .implies (.feature a) (.feature b)) := by
  unfold elsewhere
  apply List.countP_congr
  intro x _
  simp

section
variable (W : WrittenAs d d')
include W

theorem elsewhere_written (a b : Str) : elsewhere d' a b = elsewhere d a b := by
  rw [elsewhere_eq, elsewhere_eq, countP_other d' fun c => decide (c = .bin .implies (.feature a) (.feature b)), 
    countP_other d fun c => decide (c = .bin .implies (.feature a) (.feature b)), W.nonBoolean, W.mixed, List.countP_map, List.countP_map]
  congr 1 <;>
  · apply List.countP_congr
    intro x _
    simp [readBack_implies]

/-- How often a feature implies another after the model was written and read. -/
theorem implied_written (a b : Str) : impliesCount d' a b = (if a = b then 2 else 1) * impliesCount d a b + elsewhere d a b := by
  unfold impliesCount
  rw [countP_classes d' fun c => decide (c = .bin .implies (.feature a) (.feature b)), ← elsewhere_eq, elsewhere_written W]
  congr 1
  have := W.implied a b
  unfold impliesCount at this
  rw [← this, List.count_eq_countP]
  apply List.countP_congr
  intro x hx
  have hc : x.1.cls = .boolean := by
    rw [Desc.ofClass, List.mem_filter] at hx
    simpa using hx.2
  obtain ⟨k, c⟩ := x
  cases k <;> simp [CKind.cls] at hc
  simp [implies]

theorem present_written (cl : CClass) (hn : cl = .boolean → NoneNew d) : d'.ofClass cl = [] ↔ d.ofClass cl = [] := by
  cases cl with
  | nonBoolean => rw [W.nonBoolean, List.map_eq_nil_iff]
  | mixed => rw [W.mixed, List.map_eq_nil_iff]
  | boolean =>
    obtain ⟨l, e, hl⟩ := W.boolean
    rw [e]
    constructor
    · intro h
      rw [List.append_eq_nil_iff, List.map_eq_nil_iff] at h
      obtain ⟨rfl, h2⟩ := h
      rw [List.eq_nil_iff_forall_not_mem]
      intro x hx
      have hs : simple x.2 = true := by
        rw [List.filter_eq_nil_iff] at h2
        simpa using h2 x hx
      have hx' : x ∈ d.constraints := (List.mem_filter.1 hx).1
      obtain ⟨k, c⟩ := x
      have hm : ∃ y : CKind × Constraint, y ∈ ([] : List (CKind × Constraint)) := by
        unfold simple at hs
        split at hs
        · next a b e' => have e' : c = _ := e'; subst e'; exact ⟨implies a b, (hl _).2 ⟨a, b, .inl ⟨rfl, k, hx'⟩⟩⟩
        · next a b e' => have e' : c = _ := e'; subst e'; exact ⟨excludes a b, (hl _).2 ⟨a, b, .inr ⟨rfl, .inl ⟨k, hx'⟩⟩⟩⟩
        · cases hs
      obtain ⟨_, hm⟩ := hm
      cases hm
    · intro h
      have := hn rfl h
      rw [h, List.filter_nil, List.map_nil, List.append_nil, List.eq_nil_iff_forall_not_mem]
      intro x hx
      obtain ⟨a, b, ⟨_, h1⟩ | ⟨_, h1 | h1⟩⟩ := (hl x).1 hx
      · exact (this a b).1 h1
      · exact (this a b).2.1 h1
      · exact (this a b).2.2 h1

theorem mates_written {a b : Str} (hm : GroupMates d' a b) : Excludes d' a b := by
  obtain ⟨h1, h2, h3, h4, k, h5⟩ := hm
  obtain ⟨a', ha, rfl⟩ := List.mem_map.1 h2
  obtain ⟨b', hb, rfl⟩ := List.mem_map.1 h3
  have hx := ((W.groups _ _).1 h5).2
  exact hx.excludes a' (List.mem_filter.2 ⟨ha, by simp⟩) b' (List.mem_filter.2 ⟨hb, by simp [h4]⟩) h1

/-- What was read back says the same, unless implications are repeated. -/
theorem same_written (hc : Calm d) (hn : NoneNew d) : SaysSame d d' where
  name := W.name
  path := W.path
  commit := W.commit
  root := W.root
  attrs := fun a ha => ⟨kept a, W.attrs.mem_iff.2 (List.mem_map_of_mem ha), kept_idem a⟩
  attrs' := by
    intro a' ha'
    obtain ⟨a, ha, rfl⟩ := List.mem_map.1 (W.attrs.mem_iff.1 ha')
    exact ⟨a, ha, kept_idem a⟩
  parent := W.parent
  excluded := by
    intro a b
    rw [← excludes_of_written W]
    exact ⟨fun h => h.elim id (mates_written W), .inl⟩
  implied := by
    intro a b
    rw [implied_written W, hc.own, Nat.add_zero]
    split
    · next e =>
      subst e
      have : impliesCount d a a = 0 := by
        rw [impliesCount, List.countP_eq_zero]
        intro x hx he
        obtain ⟨k, c⟩ := x
        have : c = .bin .implies (.feature a) (.feature a) := by simpa using he
        subst this
        exact hc.self a ⟨k, hx⟩
      omega
    · omega
  present := fun cl => present_written W cl fun _ => hn
  texts := by
    intro cl
    rw [ownElement_eq, ownElement_eq]
    have e : ∀ l : List (CKind × Constraint), (l.map fun x => (x.1, readBack x.2)).map (fun x => (x.1, x.2.toStr)) = l.map fun x => (x.1, x.2.toStr) := by
      intro l
      rw [List.map_map]
      exact List.map_congr_left fun x _ => by simp [toStr_readBack]
    cases cl with
    | nonBoolean => simp only [writtenClass, reduceCtorEq, if_false, W.nonBoolean, e]
    | mixed => simp only [writtenClass, reduceCtorEq, if_false, W.mixed, e]
    | boolean =>
      obtain ⟨l, el, hl⟩ := W.boolean
      simp only [writtenClass, if_true, el, List.filter_append]
      rw [List.filter_eq_nil_iff.2, List.nil_append, List.filter_eq_self.2, e]
      · intro x hx
        obtain ⟨y, hy, rfl⟩ := List.mem_map.1 hx
        have hs : simple y.2 = false := by simpa using (List.mem_filter.1 hy).2
        have := readBack_simple hs
        simp only [Bool.not_eq_true']
        cases hr : simple (readBack y.2) with
        | false => rfl
        | true =>
          unfold simple at hr
          split at hr
          · next a b e => exact absurd e (this a b).1
          · next a b e => exact absurd e (this a b).2
          · cases hr
      · intro x hx
        obtain ⟨a, b, ⟨rfl, _⟩ | ⟨rfl, _⟩⟩ := (hl x).1 hx <;> simp [implies, excludes, simple]

theorem calm_written : Calm d' ↔ Calm d := by
  constructor <;> intro h
  · exact ⟨fun a ha => h.self a ((implies_of_written W a a).2 ha), fun a b => by rw [← elsewhere_written W]; exact h.own a b⟩
  · exact ⟨fun a ha => h.self a ((implies_of_written W a a).1 ha), fun a b => by rw [elsewhere_written W]; exact h.own a b⟩

theorem noneNew_written : NoneNew d' := by
  intro h a b
  obtain ⟨l, e, hl⟩ := W.boolean
  rw [h] at e
  have el : l = [] := (List.append_eq_nil_iff.1 e.symm).1
  subst el
  have hi : ¬ Implies d' a b := fun hi => by
    have := (hl (implies a b)).2 ⟨a, b, .inl ⟨rfl, (implies_of_written W a b).1 hi⟩⟩
    cases this
  have he : ¬ Excludes d' a b := fun hx => by
    have := (hl (excludes a b)).2 ⟨a, b, .inr ⟨rfl, (excludes_of_written W a b).1 hx⟩⟩
    cases this
  exact ⟨hi, he, fun hm => he (mates_written W hm)⟩

end

/-! ## What the model says itself -/

/-- How often the model holds an implication. -/
def implications (m : FModel) (a b : Str) : Nat :=
  let p : Stored → Bool := fun s => decide (s.tree = .bin .implies (.feature a) (.feature b))
  (m.store .boolean).countP p + ((m.store .nonBoolean).countP p + (m.store .mixed).countP p)

theorem implications_eq (h : Describes d m) (a b : Str) : implications m a b = impliesCount d a b := by
  unfold impliesCount
  rw [countP_classes d fun c => decide (c = .bin .implies (.feature a) (.feature b)), 
    countP_other d fun c => decide (c = .bin .implies (.feature a) (.feature b))]
  unfold implications
  simp only [h.store, List.countP_map]
  rfl

theorem impliesCount_zero {d : Desc} {a b : Str} : impliesCount d a b = 0 ↔ ¬ Implies d a b := by
  rw [impliesCount, List.countP_eq_zero]
  constructor
  · rintro h ⟨k, hk⟩
    exact h _ hk (by simp)
  · rintro h ⟨k, c⟩ hx he
    have : c = .bin .implies (.feature a) (.feature b) := by simpa using he
    subst this
    exact h ⟨k, hx⟩

/-- The element for Boolean constraints is there if and only if there are any. -/
theorem boolean_element (h : Describes d m) {E : Env} {x : Xml} (hx : write E m = some x) :
    d.ofClass .boolean = [] ↔ ∀ c ∈ x.kids, c.name ≠ c!"booleanConstraints" := by
  unfold write at hx
  split at hx
  · cases hx
  · split at hx
    · next e1 e2 e3 e4 e5 =>
      cases hx
      rw [constraintGroup_spec h] at e3 e4 e5
      cases e3; cases e4; cases e5
      have hg : ∀ (n : Str) (cl : CClass), n ≠ c!"booleanConstraints" → ∀ c ∈ groupXml n DocConstraint.toXml (classDoc d cl), c.name ≠ c!"booleanConstraints" := by
        intro n cl hn c hc
        unfold groupXml at hc
        split at hc
        · cases hc
        · rw [List.mem_singleton] at hc
          subst hc
          exact hn
      by_cases he : d.ofClass .boolean = []
      · refine ⟨fun _ c hc => ?_, fun _ => he⟩
        simp only [Xml.kids, List.mem_cons, List.mem_append] at hc
        rcases hc with rfl | rfl | (hc | hc) | hc
        · simp [group, Xml.name]
        · simp [group, Xml.name]
        · rw [classDoc, if_pos he] at hc; cases hc
        · exact hg _ _ (by simp) c hc
        · exact hg _ _ (by simp) c hc
      · refine ⟨fun e => absurd e he, fun hall => ?_⟩
        refine absurd rfl (hall (group c!"booleanConstraints" ((docConstraints (writtenClass d .boolean)).map DocConstraint.toXml)) ?_)
        simp only [Xml.kids, List.mem_cons, List.mem_append]
        refine .inr (.inr (.inl (.inl ?_)))
        rw [classDoc, if_neg he]
        simp [groupXml]
    · cases hx

end Verif.Xml

import Verif.Xml.Write
/-!
# How often an implied option is written

The writer lists the target of an implication as often as the implication is listed by the feature.
-/

namespace Verif.Xml
open Verif Verif.Spec Verif.Sxfm

variable {d : Desc} {m : FModel}

/-- The constraint at an address is between these features. -/
def between (m : FModel) (a b : Str) (r : CRoot) : Bool :=
  match (m.store r.cls)[r.idx]? with
  | some s => match s.tree with
    | .bin _ (.feature x) (.feature y) => decide (x = a) && decide (y = b)
    | _ => false
  | none => false

theorem between_iff {a b : Str} {r : CRoot} {s : Stored} (hs : (m.store r.cls)[r.idx]? = some s) :
    between m a b r = true ↔ ∃ op, s.tree = .bin op (.feature a) (.feature b) := by
  unfold between
  rw [hs]
  dsimp only
  split
  · next op x y e => rw [e]; simp
  · next hno =>
    constructor
    · intro h; cases h
    · rintro ⟨op, e⟩; exact absurd e (hno _ _ _)

theorem targets_count (h : Describes d m) (hk : ConstraintsKnown d) (n : Str) {b : Str} {j : Id} (hb : (b, j) ∈ m.features) :
    ∀ (rs : List CRoot) {ts : List Id}, (∀ r ∈ rs, ∃ s, (m.store r.cls)[r.idx]? = some s) → targets m n rs = some ts →
      ts.count j = rs.countP (between m n b)
  | [], ts, _, h1 => by cases h1; rfl
  | r :: rs, ts, hr, h1 => by
    obtain ⟨s, hs⟩ := hr r (by simp)
    obtain ⟨x, hx, hcl, rfl⟩ := stored_desc h hs
    obtain ⟨ts', h2, _⟩ := targets_spec h hk n rs fun x hx => hr x (by simp [hx])
    have ih := targets_count h hk n hb rs (fun x hx => hr x (by simp [hx])) h2
    have hbt := between_iff (m := m) (a := n) (b := b) hs
    dsimp only at hbt
    by_cases ht : ∃ op a b, x.2 = .bin op (.feature a) (.feature b)
    · obtain ⟨op, a, b', ht⟩ := ht
      have hfs : x.2.features = [a, b'] := by rw [ht]; rfl
      have hl := leafName_eq h (c := x.2) (i := x.1.info) (k := 0) (n := a) (by rw [hfs]; rfl)
      obtain ⟨j', hj⟩ : ∃ j, (b', j) ∈ m.features := (h.names b').2 (hk x hx b' (by rw [hfs]; simp))
      have hg := getFeature_mem h.wf.names hj
      have hbind : (x.2.features.map m.getFeature)[1]? = some (some j') := by rw [hfs]; simp [hg]
      have hbranch : targets m n (r :: rs) = if a = n then (targets m n rs).map (j' :: ·) else targets m n rs := by
        rw [targets, hs]
        simp only
        rw [hl]
        split
        · rw [hbind]
        · rename_i hno
          exact absurd ht (fun e => hno _ _ _ e)
      rw [hbranch, h2] at h1
      rw [ht] at hbt
      by_cases ha : a = n
      · rw [if_pos ha] at h1
        cases h1
        subst ha
        by_cases hbb : b' = b
        · subst hbb
          have := h.wf.entry_unique hb hj
          subst this
          rw [List.count_cons_self, List.countP_cons_of_pos (hbt.2 ⟨op, rfl⟩), ih]
        · have hne : j' ≠ j := fun e => hbb (h.wf.id_unique hj (e ▸ hb))
          rw [List.count_cons_of_ne hne, List.countP_cons_of_neg (by rw [hbt]; rintro ⟨_, e⟩; cases e; exact hbb rfl), ih]
      · rw [if_neg ha] at h1
        cases h1
        rw [List.countP_cons_of_neg (by rw [hbt]; rintro ⟨_, e⟩; cases e; exact ha rfl), ih]
    · have hbranch : targets m n (r :: rs) = targets m n rs := by
        rw [targets, hs]
        simp only
        split
        · rename_i op a b e
          exact absurd ⟨op, a, b, e⟩ ht
        · rfl
      rw [hbranch, h2] at h1
      cases h1
      rw [List.countP_cons_of_neg (by rw [hbt]; rintro ⟨op, e⟩; exact ht ⟨op, _, _, e⟩), ih]

/-- The addresses of all constraints. -/
def roots (m : FModel) (cl : CClass) : List CRoot := (List.range (m.store cl).length).map fun i => ⟨cl, i⟩

def allRoots (m : FModel) : List CRoot := roots m .boolean ++ roots m .nonBoolean ++ roots m .mixed

theorem mem_roots {cl : CClass} {r : CRoot} : r ∈ roots m cl ↔ r.cls = cl ∧ r.idx < (m.store cl).length := by
  unfold roots
  rw [List.mem_map]
  constructor
  · rintro ⟨i, hi, rfl⟩; exact ⟨rfl, List.mem_range.1 hi⟩
  · rintro ⟨rfl, hi⟩; exact ⟨r.idx, List.mem_range.2 hi, rfl⟩

theorem roots_nodup (cl : CClass) : (roots m cl).Nodup :=
  List.pairwise_map.2 (List.nodup_range.imp fun h e => h (by cases e; rfl))

theorem mem_allRoots {r : CRoot} : r ∈ allRoots m ↔ r.idx < (m.store r.cls).length := by
  unfold allRoots
  rw [List.mem_append, List.mem_append, mem_roots, mem_roots, mem_roots]
  constructor
  · rintro ((⟨h, h'⟩ | ⟨h, h'⟩) | ⟨h, h'⟩) <;> rw [h] <;> exact h'
  · intro h
    cases hc : r.cls <;> rw [hc] at h
    · exact .inl (.inl ⟨rfl, h⟩)
    · exact .inl (.inr ⟨rfl, h⟩)
    · exact .inr ⟨rfl, h⟩

theorem allRoots_nodup : (allRoots m).Nodup := by
  unfold allRoots
  rw [List.nodup_append, List.nodup_append]
  refine ⟨⟨roots_nodup _, roots_nodup _, ?_⟩, roots_nodup _, ?_⟩
  · rintro a ha b hb rfl
    have h1 := (mem_roots.1 ha).1
    rw [(mem_roots.1 hb).1] at h1; cases h1
  · rintro a ha b hb rfl
    have h2 := (mem_roots.1 hb).1
    rcases List.mem_append.1 ha with h | h <;> rw [(mem_roots.1 h).1] at h2 <;> cases h2

/-- Counting in a list whose members occur in `l` equally often. -/
theorem countP_scaled {α} [DecidableEq α] {p q : α → Bool} {w : Nat} : ∀ {l : List α}, l.Nodup → ∀ {k : List α}, (∀ x ∈ k, p x = true → x ∈ l) →
    (∀ x ∈ l, (if p x then k.count x else 0) = if q x then w else 0) → k.countP p = w * l.countP q
  | [], _, k, hm, _ => by
    rw [List.countP_nil, Nat.mul_zero, List.countP_eq_zero]
    intro x hx hp
    cases hm x hx hp
  | x :: l, hn, k, hm, hc => by
    have hn' := List.nodup_cons.1 hn
    have ih := countP_scaled (p := p) (q := q) (w := w) hn'.2 (k := k.filter fun y => decide (y ≠ x)) (by
      intro y hy hp
      obtain ⟨h1, h2⟩ := List.mem_filter.1 hy
      rcases List.mem_cons.1 (hm y h1 hp) with rfl | h
      · simp at h2
      · exact h) (by
      intro y hy
      have hne : y ≠ x := fun e => hn'.1 (e ▸ hy)
      rw [List.count_filter (by simpa using hne)]
      exact hc y (List.mem_cons_of_mem _ hy))
    have hx := hc x (List.mem_cons_self ..)
    have hsplit : k.countP p = (if p x then k.count x else 0) + (k.filter fun y => decide (y ≠ x)).countP p := by
      clear hm hc ih hx
      induction k with
      | nil => simp
      | cons y k ihk =>
        by_cases hy : y = x
        · subst hy
          rw [List.filter_cons_of_neg (by simp), List.count_cons_self, List.countP_cons, ihk]
          by_cases hp : p y = true
          · simp only [hp, if_true]; omega
          · simp [hp]
        · rw [List.filter_cons_of_pos (by simpa using hy), List.count_cons_of_ne hy, List.countP_cons, List.countP_cons, ihk]
          omega
    rw [hsplit, hx, ih, List.countP_cons]
    by_cases hq : q x = true
    · simp only [hq, if_true, Nat.mul_add, Nat.mul_one]; omega
    · simp [hq]

theorem countP_range_get {α} (p : α → Bool) (f : Nat → Bool) : ∀ (l : List α), (∀ i x, l[i]? = some x → f i = p x) →
    (List.range l.length).countP f = l.countP p := by
  intro l
  induction l generalizing f with
  | nil => intro _; rfl
  | cons a l ih =>
    intro hf
    rw [List.length_cons, List.range_succ_eq_map, List.countP_cons, List.countP_cons, List.countP_map,
      ih (f ∘ Nat.succ) (fun i x hx => hf (i + 1) x (by simpa using hx)), hf 0 a rfl]

/-- Is the constraint at the address this implication? -/
def isImplication (m : FModel) (a b : Str) (r : CRoot) : Bool :=
  match (m.store r.cls)[r.idx]? with
  | some s => decide (s.tree = .bin .implies (.feature a) (.feature b))
  | none => false

theorem countP_split (p : CKind × Constraint → Bool) : ∀ l : List (CKind × Constraint),
    l.countP p = (l.filter fun x => decide (x.1.cls = .boolean)).countP p + (l.filter fun x => decide (x.1.cls = .nonBoolean)).countP p +
      (l.filter fun x => decide (x.1.cls = .mixed)).countP p
  | [] => rfl
  | x :: l => by
    have ih := countP_split p l
    cases hc : x.1.cls <;> simp only [List.filter_cons, hc, List.countP_cons, decide_true, if_true, reduceCtorEq, decide_false, Bool.false_eq_true, if_false, ih] <;> omega

theorem countP_roots (h : Describes d m) (a b : Str) (cl : CClass) : (roots m cl).countP (isImplication m a b) =
    (d.ofClass cl).countP fun x => decide (x.2 = .bin .implies (.feature a) (.feature b)) := by
  unfold roots
  rw [List.countP_map, countP_range_get (fun s : Stored => decide (s.tree = .bin .implies (.feature a) (.feature b)))]
  · rw [h.store cl, List.countP_map]
    rfl
  · intro i x hx
    simp only [Function.comp, isImplication, hx]

theorem countP_allRoots (h : Describes d m) (a b : Str) : (allRoots m).countP (isImplication m a b) = impliesCount d a b := by
  unfold allRoots impliesCount
  rw [List.countP_append, List.countP_append, countP_roots h, countP_roots h, countP_roots h, countP_split _ d.constraints]
  rfl

/-- The target of an implication is listed as often as there are such implications, twice as often if it is the feature itself. -/
theorem implied_count (h : Describes d m) (hk : ConstraintsKnown d) {n : Str} {i : Id} {f : Feat} (hi : (n, i) ∈ m.features)
    (hf : data m i = some (.feat f)) {b : Str} {j : Id} (hb : (b, j) ∈ m.features) {ts : List Id}
    (ht : targets m f.attr.name f.implications = some ts) :
    ts.count j = (if n = b then 2 else 1) * impliesCount d n b := by
  obtain ⟨g, g1, g2⟩ := h.wf.feat_ok _ hi
  simp only at g1 g2
  rw [hf] at g1; cases g1
  obtain ⟨_, r2, _, r4⟩ := h.registered i f (known_of_mem hi) hf
  rw [g2] at r2 r4 ht
  rw [targets_count h hk n hb _ (fun r hr => by obtain ⟨s, hs, _⟩ := (r2 r).1 hr; exact ⟨s, hs⟩) ht, ← countP_allRoots h]
  refine countP_scaled allRoots_nodup ?_ ?_
  · intro r hr _
    obtain ⟨s, hs, _⟩ := (r2 r).1 hr
    exact mem_allRoots.2 (List.getElem?_eq_some_iff.1 hs).1
  · intro r hr
    obtain ⟨s, hs⟩ : ∃ s, (m.store r.cls)[r.idx]? = some s := ⟨_, List.getElem?_eq_getElem (mem_allRoots.1 hr)⟩
    have hbt := between_iff (a := n) (b := b) hs
    have him : isImplication m n b r = decide (s.tree = .bin .implies (.feature n) (.feature b)) := by
      unfold isImplication; rw [hs]
    rw [him]
    by_cases ht : s.tree = .bin .implies (.feature n) (.feature b)
    · rw [if_pos (hbt.2 ⟨_, ht⟩), r4 r s hs ⟨_, _, ht⟩, ht]
      by_cases hnb : n = b
      · subst hnb; simp [Constraint.features]
      · have : b ≠ n := fun e => hnb e.symm
        simp [Constraint.features, hnb, this]
    · simp only [ht, decide_false, Bool.false_eq_true, if_false]
      by_cases hp : between m n b r = true
      · rw [if_pos hp, List.count_eq_zero]
        intro hm
        obtain ⟨s', hs', ⟨x, y, e⟩, _⟩ := (r2 r).1 hm
        rw [hs] at hs'; cases hs'
        obtain ⟨op, e'⟩ := hbt.1 hp
        rw [e'] at e; cases e
        exact ht e'
      · rw [if_neg hp]

theorem namesOf?_count (w : WF m) {b : Str} {j : Id} (hb : (b, j) ∈ m.features) : ∀ {l : List Id} {ns : List Str}, (∀ i ∈ l, Known m i) →
    namesOf? m l = some ns → ns.count b = l.count j
  | [], ns, _, h => by cases h; rfl
  | i :: l, ns, hl, h => by
    obtain ⟨n, f, h3, h4, h5⟩ := known_entry w (hl i (by simp))
    unfold namesOf? at h
    rw [nameOf_of_data h4, h5] at h
    cases hn : namesOf? m l with
    | none => rw [hn] at h; cases h
    | some ns' =>
      rw [hn] at h; cases h
      have ih := namesOf?_count w hb (fun i hi => hl i (by simp [hi])) hn
      by_cases he : n = b
      · subst he
        have := w.entry_unique h3 hb
        subst this
        rw [List.count_cons_self, List.count_cons_self, ih]
      · have hne : i ≠ j := fun e => he (w.id_unique h3 (e ▸ hb))
        rw [List.count_cons_of_ne he, List.count_cons_of_ne hne, ih]

/-- How often an option is written as implied. -/
theorem impliedNames_count (h : Describes d m) (hs : SiblingsDiffer m) (hk : ConstraintsKnown d) {n : Str} {i : Id} {f : Feat}
    (hi : (n, i) ∈ m.features) (hf : data m i = some (.feat f)) {ns : List Str} (hns : impliedNames m f = some ns) (b : Str) :
    ns.count b = (if n = b then 2 else 1) * impliesCount d n b := by
  obtain ⟨g, g1, g2⟩ := h.wf.feat_ok _ hi
  simp only at g1 g2
  rw [hf] at g1; cases g1
  obtain ⟨ns', n1, n2⟩ := impliedNames_spec h hs hk hi hf
  rw [hns] at n1; cases n1
  by_cases hb : ∃ j, (b, j) ∈ m.features
  · obtain ⟨j, hb⟩ := hb
    obtain ⟨ts, h1, h2, h3⟩ := targets_op h hk .implies (n := f.attr.name) (h.registered i f (known_of_mem hi) hf).2.1
    obtain ⟨l, h4, h5, _⟩ := ordered_spec h.wf hs h2
    unfold impliedNames at hns
    rw [h1] at hns
    dsimp only at hns
    rw [h4] at hns
    dsimp only at hns
    rw [namesOf?_count h.wf hb (fun j hj => h2 j (h5.mem_iff.1 hj)) hns, h5.count_eq, implied_count h hk hi hf hb h1]
  · have h0 : ¬ Implies d n b := fun ⟨k, hc⟩ => hb ((h.names b).2 (hk _ hc b (by simp [Constraint.features])))
    have h1 : impliesCount d n b = 0 := by
      unfold impliesCount
      rw [List.countP_eq_zero]
      intro x hx he
      simp only [decide_eq_true_eq] at he
      exact h0 ⟨x.1, by rw [← he]; exact hx⟩
    rw [h1, Nat.mul_zero, List.count_eq_zero]
    exact fun hm => h0 ((n2 b).1 hm)

theorem vecStep_nodup {l l' : List Id} {i : Id} (hl : l.Nodup) (hi : i ∉ l) (h : m.vecStep l (.insert i) = some l') : l'.Nodup := by
  unfold FModel.vecStep at h
  dsimp only at h
  split at h
  · exact (upperInsert_perm h).nodup_iff.2 (List.nodup_cons.2 ⟨hi, hl⟩)
  · cases h

theorem insertNew_nodup : ∀ (ts : List Id) {l l' : List Id}, l.Nodup → insertNew m l ts = some l' → l'.Nodup
  | [], l, l', hl, h => by cases h; exact hl
  | i :: ts, l, l', hl, h => by
    unfold insertNew at h
    by_cases hi : i ∈ l
    · rw [if_pos hi] at h
      exact insertNew_nodup ts hl h
    · rw [if_neg hi] at h
      cases hv : m.vecStep l (.insert i) with
      | none => rw [hv] at h; cases h
      | some l1 =>
        rw [hv] at h
        exact insertNew_nodup ts (vecStep_nodup hl hi hv) h

theorem namesOf?_nodup (w : WF m) {l : List Id} {ns : List Str} (hl : ∀ i ∈ l, Known m i) (hn : l.Nodup) (h : namesOf? m l = some ns) :
    ns.Nodup := by
  obtain ⟨ns', h1, h2⟩ := namesOf?_spec w hl
  rw [h] at h1; cases h1
  rw [List.nodup_iff_count]
  intro b
  by_cases hb : b ∈ ns
  · obtain ⟨j, _, hj⟩ := (h2 b).1 hb
    rw [namesOf?_count w hj hl h]
    exact List.nodup_iff_count.1 hn j
  · rw [List.count_eq_zero.2 hb]; omega

theorem groupSiblings_nodup (h : Describes d m) (E : Env) {n : Str} {i : Id} (hi : (n, i) ∈ m.features) {l : List Id}
    (hl : groupSiblings E m i = some l) : l.Nodup := by
  unfold groupSiblings at hl
  cases hh : m.heap i with
  | none => rw [hh] at hl; cases hl
  | some nd =>
    rw [hh] at hl
    dsimp only at hl
    cases hp : nd.parent with
    | none => rw [hp] at hl; cases hl; exact .nil
    | some p =>
      rw [hp] at hl
      dsimp only at hl
      cases hq : m.heap p with
      | none => rw [hq] at hl; cases hl
      | some pn =>
        rw [hq] at hl
        dsimp only at hl
        split at hl
        · have ho : Owned m p := (h.wf.par_edge i p (.inl (known_of_mem hi)) (by simp [par, hh, hp])).1
          obtain ⟨cs, c1, c2, _⟩ := childrenF h.wf E ho
          rw [c1] at hl
          cases hl
          exact (E.setOrder_perm _).nodup_iff.2 (c2.filter _)
        · cases hl; exact .nil

/-- Every excluded option is written once. -/
theorem excludedNames_nodup (h : Describes d m) (hs : SiblingsDiffer m) (hk : ConstraintsKnown d) (E : Env) {n : Str} {i : Id} {f : Feat}
    (hi : (n, i) ∈ m.features) (hf : data m i = some (.feat f)) {ns : List Str} (hns : excludedNames E m i f = some ns) : ns.Nodup := by
  obtain ⟨ts, h1, h2, h3⟩ := targets_op h hk .excludes (n := f.attr.name) (h.registered i f (known_of_mem hi) hf).2.2.1
  obtain ⟨sib, s1, s2, s3⟩ := groupSiblings_spec h E hi
  obtain ⟨l, h4, h5, h6⟩ := ordered_spec h.wf hs s2
  have hl : ∀ j ∈ l, Known m j := fun j hj => s2 j (h5.mem_iff.1 hj)
  obtain ⟨l', h7, h8⟩ := insertNew_spec h.wf hs ts l h2 hl h6
  unfold excludedNames excluded at hns
  simp only [s1, h4, h1, h7] at hns
  exact namesOf?_nodup h.wf (fun j hj => ((h8 j).1 hj).elim (hl j) (h2 j))
    (insertNew_nodup ts (h5.nodup_iff.2 (groupSiblings_nodup h E hi s1)) h7) hns

end Verif.Xml

import Verif.Constraint.HeapSpec
/-!
# Lemmas about constraint objects
-/

namespace Verif
open Verif.Spec

variable {nm : Nat → Option Str} {lf : Nat → Bool} {s s' : CState}

theorem Spec.Held.reads {p i c l} (h : Held nm s p i c l) : Reads nm s i c := by
  induction h with
  | bin h _ _ a b => exact .bin h a b
  | un h _ a => exact .un h a
  | int h => exact .int h
  | feature h e => exact .feature h e

theorem Spec.Held.self {p i c l} (h : Held nm s p i c l) : i ∈ l := by cases h <;> simp

theorem Spec.Held.used {p i c l} (h : Held nm s p i c l) : ∀ k ∈ l, s.objs k ≠ none := by
  induction h with
  | bin h _ _ a b =>
    intro k hk
    rcases List.mem_cons.1 hk with rfl | hk
    · rw [h]; simp
    · rcases List.mem_append.1 hk with hk | hk
      · exact a k hk
      · exact b k hk
  | un h _ a =>
    intro k hk
    rcases List.mem_cons.1 hk with rfl | hk
    · rw [h]; simp
    · exact a k hk
  | int h => intro k hk; simp at hk; rw [hk, h]; simp
  | feature h e => intro k hk; simp at hk; rw [hk, h]; simp

theorem Spec.Held.congr {p i c l} (h : Held nm s p i c l) (e : ∀ k ∈ l, s'.objs k = s.objs k) : Held nm s' p i c l := by
  induction h with
  | bin h _ _ a b =>
    refine .bin ((e _ (by simp)).trans h) (a fun k hk => e k ?_) (b fun k hk => e k ?_) <;> simp [hk]
  | un h _ a => exact .un ((e _ (by simp)).trans h) (a fun k hk => e k (by simp [hk]))
  | int h => exact .int ((e _ (by simp)).trans h)
  | feature h q => exact .feature ((e _ (by simp)).trans h) q

theorem Spec.Reads.congr {i c} (h : Reads nm s i c) (e : ∀ k, s.objs k ≠ none → s'.objs k = s.objs k) : Reads nm s' i c := by
  induction h with
  | bin h _ _ a b => exact .bin ((e _ (by rw [h]; simp)).trans h) a b
  | un h _ a => exact .un ((e _ (by rw [h]; simp)).trans h) a
  | int h => exact .int ((e _ (by rw [h]; simp)).trans h)
  | feature h q => exact .feature ((e _ (by rw [h]; simp)).trans h) q

/-- The tree with another parent pointer at its root. -/
theorem Spec.Held.reparent {i c l} (h : Held nm s none i c l) (hn : l.Nodup) {p : Option Nat} {o : CObj} (ho : s.objs i = some o)
    (hi : s'.objs i = some { o with parent := p }) (e : ∀ k ∈ l, k ≠ i → s'.objs k = s.objs k) : Held nm s' p i c l := by
  cases h with
  | bin h a b =>
    rw [h] at ho; cases ho
    have := List.nodup_cons.1 hn
    refine .bin hi (a.congr fun k hk => e k (by simp [hk]) ?_) (b.congr fun k hk => e k (by simp [hk]) ?_)
    · rintro rfl; exact this.1 (by simp [hk])
    · rintro rfl; exact this.1 (by simp [hk])
  | un h a =>
    rw [h] at ho; cases ho
    have := List.nodup_cons.1 hn
    refine .un hi (a.congr fun k hk => e k (by simp [hk]) ?_)
    rintro rfl; exact this.1 hk
  | int h => rw [h] at ho; cases ho; exact .int hi
  | feature h q => rw [h] at ho; cases ho; exact .feature hi q

theorem fresh_lt (hf : Fresh s) {k : Nat} (h : s.objs k ≠ none) : k < s.next := by
  rcases Nat.lt_or_ge k s.next with a | a
  · exact a
  · exact absurd (hf k a) h

theorem alloc_objs (d : CData) (k : Nat) :
    (s.alloc d).1.objs k = if k = s.next then some ⟨d, none⟩ else s.objs k := rfl

theorem alloc_fresh (hf : Fresh s) (d : CData) : Fresh (s.alloc d).1 := by
  intro k hk
  have hk : s.next + 1 ≤ k := hk
  rw [alloc_objs, if_neg (by omega)]
  exact hf k (by omega)

/-- The effect of a constructor of binary constraints. -/
theorem newBin_spec (hf : Fresh s) (op : BinOp) {l r : Nat} {a b : Constraint} {la lb : List Nat} (ha : Held nm s none l a la)
    (hb : Held nm s none r b lb) (hn : (la ++ lb).Nodup) :
    ∃ s', s.newBin op l r = some (s', s.next) ∧ Fresh s' ∧ s'.next = s.next + 1 ∧
      Held nm s' none s.next (.bin op a b) (s.next :: (la ++ lb)) ∧
      (∀ k, k ≠ s.next → k ≠ l → k ≠ r → s'.objs k = s.objs k) ∧
      ∀ k, k ≠ s.next → (s'.objs k).map CObj.data = (s.objs k).map CObj.data := by
  obtain ⟨n1, n2, n3⟩ := List.nodup_append.1 hn
  have hl := ha.used _ ha.self
  have hr := hb.used _ hb.self
  have hlt := fresh_lt hf hl
  have hrt := fresh_lt hf hr
  have hlr : l ≠ r := fun e => n3 l ha.self r hb.self e
  obtain ⟨ol, el⟩ := Option.ne_none_iff_exists'.1 hl
  obtain ⟨or, er⟩ := Option.ne_none_iff_exists'.1 hr
  have e1 : (s.alloc (.bin op l r)).1.objs l = some ol := by rw [alloc_objs, if_neg (by omega)]; exact el
  let s2 : CState := ⟨upd (s.alloc (.bin op l r)).1.objs l (some { ol with parent := some s.next }), s.next + 1⟩
  have e2 : s2.objs r = some or := by
    show upd _ _ _ r = _
    rw [upd_ne _ _ (Ne.symm hlr), alloc_objs, if_neg (by omega)]; exact er
  let s3 : CState := ⟨upd s2.objs r (some { or with parent := some s.next }), s.next + 1⟩
  have hother : ∀ k, k ≠ s.next → k ≠ l → k ≠ r → s3.objs k = s.objs k := by
    intro k h1 h2 h3
    show upd _ _ _ k = _
    rw [upd_ne _ _ h3]
    show upd _ _ _ k = _
    rw [upd_ne _ _ h2, alloc_objs, if_neg h1]
  have hl3 : s3.objs l = some { ol with parent := some s.next } := by
    show upd _ _ _ l = _
    rw [upd_ne _ _ hlr]
    show upd _ _ _ l = _
    rw [upd_same]
  have hr3 : s3.objs r = some { or with parent := some s.next } := by
    show upd _ _ _ r = _
    rw [upd_same]
  have hi3 : s3.objs s.next = some ⟨.bin op l r, none⟩ := by
    show upd _ _ _ s.next = _
    rw [upd_ne _ _ (Nat.ne_of_gt hrt)]
    show upd _ _ _ s.next = _
    rw [upd_ne _ _ (Nat.ne_of_gt hlt), alloc_objs, if_pos rfl]
  have hnext : ∀ k, s.objs k ≠ none → k ≠ s.next := fun k hk => Nat.ne_of_lt (fresh_lt hf hk)
  refine ⟨s3, ?_, ?_, rfl, ?_, hother, ?_⟩
  · unfold CState.newBin
    simp only [CState.setParent]
    rw [e1]
    show Option.map _ (match s2.objs r with | none => none | some o => some _) = _
    rw [e2]
    rfl
  · intro k hk
    have hk : s.next + 1 ≤ k := hk
    rw [hother k (by omega) (by omega) (by omega)]
    exact hf k (by omega)
  · refine .bin hi3 (ha.reparent n1 el hl3 ?_) (hb.reparent n2 er hr3 ?_)
    · intro k hk hkl
      exact hother k (hnext k (ha.used k hk)) hkl (fun e => n3 k hk r hb.self e)
    · intro k hk hkr
      exact hother k (hnext k (hb.used k hk)) (fun e => n3 l ha.self k hk e.symm) hkr
  · intro k hk
    by_cases h1 : k = l
    · subst h1; rw [hl3, el]; rfl
    · by_cases h2 : k = r
      · subst h2; rw [hr3, er]; rfl
      · rw [hother k hk h1 h2]

theorem newUn_spec (hf : Fresh s) (op : UnOp) {c : Nat} {a : Constraint} {la : List Nat} (ha : Held nm s none c a la)
    (hn : la.Nodup) :
    ∃ s', s.newUn op c = some (s', s.next) ∧ Fresh s' ∧ s'.next = s.next + 1 ∧
      Held nm s' none s.next (.un op a) (s.next :: la) ∧
      (∀ k, k ≠ s.next → k ≠ c → s'.objs k = s.objs k) ∧
      ∀ k, k ≠ s.next → (s'.objs k).map CObj.data = (s.objs k).map CObj.data := by
  have hl := ha.used _ ha.self
  have hlt := fresh_lt hf hl
  obtain ⟨o, el⟩ := Option.ne_none_iff_exists'.1 hl
  have e1 : (s.alloc (.un op c)).1.objs c = some o := by rw [alloc_objs, if_neg (by omega)]; exact el
  let s2 : CState := ⟨upd (s.alloc (.un op c)).1.objs c (some { o with parent := some s.next }), s.next + 1⟩
  have hother : ∀ k, k ≠ s.next → k ≠ c → s2.objs k = s.objs k := by
    intro k h1 h2
    show upd _ _ _ k = _
    rw [upd_ne _ _ h2, alloc_objs, if_neg h1]
  have hl2 : s2.objs c = some { o with parent := some s.next } := by
    show upd _ _ _ c = _
    rw [upd_same]
  have hi2 : s2.objs s.next = some ⟨.un op c, none⟩ := by
    show upd _ _ _ s.next = _
    rw [upd_ne _ _ (Nat.ne_of_gt hlt), alloc_objs, if_pos rfl]
  have hnext : ∀ k, s.objs k ≠ none → k ≠ s.next := fun k hk => Nat.ne_of_lt (fresh_lt hf hk)
  refine ⟨s2, ?_, ?_, rfl, ?_, hother, ?_⟩
  · unfold CState.newUn
    simp only [CState.setParent]
    rw [e1]
    rfl
  · intro k hk
    have hk : s.next + 1 ≤ k := hk
    rw [hother k (by omega) (by omega)]
    exact hf k (by omega)
  · refine .un hi2 (ha.reparent hn el hl2 ?_)
    intro k hk hkl
    exact hother k (hnext k (ha.used k hk)) hkl
  · intro k hk
    by_cases h1 : k = c
    · subst h1; rw [hl2, el]; rfl
    · rw [hother k hk h1]

/-- What `clone` does from state `s`. -/
structure Cloned (nm : Nat → Option Str) (s s' : CState) (i' : Nat) (c : Constraint) (l : List Nat) : Prop where
  fresh : Fresh s'
  held : Held nm s' none i' c l
  nodup : l.Nodup
  new : ∀ k ∈ l, s.next ≤ k
  old : ∀ k, k < s.next → s'.objs k = s.objs k
  own : OwnLeaves s' l
  mono : s.next ≤ s'.next

theorem Cloned.below {i' c l} (h : Cloned nm s s' i' c l) : ∀ k ∈ l, k < s'.next :=
  fun k hk => fresh_lt h.fresh (h.held.used k hk)

/-- Two cloned operands are put together. -/
theorem cloned_bin {s1 s2 : CState} {x y : Nat} {a b : Constraint} {la lb : List Nat} (op : BinOp)
    (h1 : Cloned nm s s1 x a la) (h2 : Cloned nm s1 s2 y b lb) (sw : Bool) :
    ∃ s' l, s2.newBin op (if sw then y else x) (if sw then x else y) = some (s', s2.next) ∧
      Cloned nm s s' s2.next (.bin op (if sw then b else a) (if sw then a else b)) l := by
  have ha : Held nm s2 none x a la := h1.held.congr fun k hk => h2.old k (h1.below k hk)
  have hna : (la ++ lb).Nodup := by
    rw [List.nodup_append]
    refine ⟨h1.nodup, h2.nodup, fun k hk j hj e => ?_⟩
    have := h1.below k hk
    have := h2.new j hj
    omega
  have hnb : (lb ++ la).Nodup := (List.perm_append_comm.nodup_iff).1 hna
  have key : ∃ s' l', s2.newBin op (if sw then y else x) (if sw then x else y) = some (s', s2.next) ∧ Fresh s' ∧
      s'.next = s2.next + 1 ∧ Held nm s' none s2.next (.bin op (if sw then b else a) (if sw then a else b)) (s2.next :: l') ∧
      (∀ k, k ≠ s2.next → k ≠ x → k ≠ y → s'.objs k = s2.objs k) ∧
      (∀ k, k ≠ s2.next → (s'.objs k).map CObj.data = (s2.objs k).map CObj.data) ∧ l'.Perm (la ++ lb) := by
    cases sw with
    | false =>
      obtain ⟨s', q1, q2, q3, q4, q5, q7⟩ := newBin_spec h2.fresh op ha h2.held hna
      exact ⟨s', _, q1, q2, q3, q4, q5, q7, .refl _⟩
    | true =>
      obtain ⟨s', q1, q2, q3, q4, q5, q7⟩ := newBin_spec h2.fresh op h2.held ha hnb
      exact ⟨s', _, q1, q2, q3, q4, fun k c1 c2 c3 => q5 k c1 c3 c2, q7, List.perm_append_comm⟩
  obtain ⟨s', l', q1, q2, q3, q4, q5, q7, q6⟩ := key
  refine ⟨s', s2.next :: l', q1, ?_⟩
  have hx := h1.new x h1.held.self
  have hy := h2.new y h2.held.self
  have m1 := h1.mono
  have m2 := h2.mono
  have hbel : ∀ k ∈ la ++ lb, k < s2.next ∧ s.next ≤ k := by
    intro k hk
    rcases List.mem_append.1 hk with hk | hk
    · exact ⟨Nat.lt_of_lt_of_le (h1.below k hk) m2, h1.new k hk⟩
    · exact ⟨h2.below k hk, Nat.le_trans m1 (h2.new k hk)⟩
  refine ⟨q2, q4, ?_, ?_, ?_, ?_, by omega⟩
  · rw [List.nodup_cons]
    refine ⟨fun hk => ?_, q6.nodup_iff.2 hna⟩
    exact absurd (hbel _ (q6.mem_iff.1 hk)).1 (Nat.lt_irrefl _)
  · intro k hk
    rcases List.mem_cons.1 hk with rfl | hk
    · omega
    · exact (hbel k (q6.mem_iff.1 hk)).2
  · intro k hk
    rw [q5 k (by omega) (by omega) (by omega), h2.old k (by omega), h1.old k hk]
  · intro k hk f p he
    rcases List.mem_cons.1 hk with rfl | hk
    · cases q4 with | bin q _ _ => rw [q] at he; cases he
    · have hk := q6.mem_iff.1 hk
      -- the reference is that of the operand
      have hdata : ∃ p', s2.objs k = some ⟨.feature f, p'⟩ := by
        have := q7 k (Nat.ne_of_lt (hbel k hk).1)
        rw [he] at this
        cases hs : s2.objs k with
        | none => rw [hs] at this; cases this
        | some o =>
          obtain ⟨d, p'⟩ := o
          rw [hs] at this
          simp at this
          exact ⟨p', by rw [this]⟩
      obtain ⟨p', hd⟩ := hdata
      rcases List.mem_append.1 hk with hk | hk
      · rw [h2.old k (h1.below k hk)] at hd
        exact h1.own k hk f p' hd
      · exact h2.own k hk f p' hd

theorem cloned_un {s1 : CState} {x : Nat} {a : Constraint} {la : List Nat} (op : UnOp) (h1 : Cloned nm s s1 x a la) :
    ∃ s' l, s1.newUn op x = some (s', s1.next) ∧ Cloned nm s s' s1.next (.un op a) l := by
  obtain ⟨s', q1, q2, q3, q4, q5, q7⟩ := newUn_spec h1.fresh op h1.held h1.nodup
  have hx := h1.new x h1.held.self
  have m1 := h1.mono
  refine ⟨s', _, q1, q2, q4, ?_, ?_, ?_, ?_, by omega⟩
  · rw [List.nodup_cons]
    exact ⟨fun hk => absurd (h1.below _ hk) (Nat.lt_irrefl _), h1.nodup⟩
  · intro k hk
    rcases List.mem_cons.1 hk with rfl | hk
    · omega
    · exact h1.new k hk
  · intro k hk
    rw [q5 k (by omega) (by omega), h1.old k hk]
  · intro k hk f p he
    rcases List.mem_cons.1 hk with rfl | hk
    · cases q4 with | un q _ => rw [q] at he; cases he
    · have := q7 k (Nat.ne_of_lt (h1.below k hk))
      rw [he] at this
      cases hs : s1.objs k with
      | none => rw [hs] at this; cases this
      | some o =>
        obtain ⟨d, p'⟩ := o
        rw [hs] at this
        simp at this
        exact h1.own k hk f p' (by rw [hs, this])

theorem cloned_leaf (hf : Fresh s) {d : CData} {c : Constraint} (hd : ∀ s' : CState, ∀ i, s'.objs i = some ⟨d, none⟩ → Held nm s' none i c [i])
    (ho : ∀ f, d = .feature f → ∃ n, f = .own n) : Cloned nm s (s.alloc d).1 s.next c [s.next] := by
  refine ⟨alloc_fresh hf d, hd _ _ (by rw [alloc_objs, if_pos rfl]), by simp, by simp, ?_, ?_, Nat.le_succ _⟩
  · intro k hk; rw [alloc_objs, if_neg (by omega)]
  · intro k hk f p he
    simp at hk; subst hk
    rw [alloc_objs, if_pos rfl] at he
    simp at he
    exact ho f he.1

/-- `clone` ends, and its result is the tree on new objects. -/
theorem clone_spec {i : Nat} {c : Constraint} (h : Reads nm s i c) (lf : Nat → Bool) : ∃ N, ∀ n, N ≤ n → ∀ s0, Fresh s0 →
    (∀ k, s.objs k ≠ none → s0.objs k = s.objs k) → ∃ s' i' l, CState.clone nm lf n s0 i = some (s', i') ∧ Cloned nm s0 s' i' c l := by
  induction h with
  | @bin i op l r p a b h ha hb iha ihb =>
    obtain ⟨N1, h1⟩ := iha
    obtain ⟨N2, h2⟩ := ihb
    refine ⟨N1 + N2 + 1, fun n hn s0 hf he => ?_⟩
    obtain ⟨n, rfl⟩ : ∃ k, n = k + 1 := ⟨n - 1, by omega⟩
    have hi : s0.objs i = some ⟨.bin op l r, p⟩ := (he i (by rw [h]; simp)).trans h
    unfold CState.clone
    rw [hi]
    simp only
    have next : ∀ {s1 x c l}, Cloned nm s0 s1 x c l → ∀ k, s.objs k ≠ none → s1.objs k = s.objs k := by
      intro s1 x c l hc k hk
      rw [hc.old k (fresh_lt hf (by rw [he k hk]; exact hk)), he k hk]
    cases lf i with
    | true =>
      obtain ⟨s1, x, la, k1, c1⟩ := h1 n (by omega) s0 hf he
      obtain ⟨s2, y, lb, k2, c2⟩ := h2 n (by omega) s1 c1.fresh (next c1)
      rw [if_pos rfl, k1]
      simp only [k2]
      obtain ⟨s', l, e1, e2⟩ := cloned_bin op c1 c2 false
      exact ⟨s', _, l, e1, e2⟩
    | false =>
      obtain ⟨s1, x, la, k1, c1⟩ := h2 n (by omega) s0 hf he
      obtain ⟨s2, y, lb, k2, c2⟩ := h1 n (by omega) s1 c1.fresh (next c1)
      rw [if_neg (by simp), k1]
      simp only [k2]
      obtain ⟨s', l, e1, e2⟩ := cloned_bin op c1 c2 true
      exact ⟨s', _, l, e1, e2⟩
  | @un i op c p a h ha iha =>
    obtain ⟨N1, h1⟩ := iha
    refine ⟨N1 + 1, fun n hn s0 hf he => ?_⟩
    obtain ⟨n, rfl⟩ : ∃ k, n = k + 1 := ⟨n - 1, by omega⟩
    have hi : s0.objs i = some ⟨.un op c, p⟩ := (he i (by rw [h]; simp)).trans h
    unfold CState.clone
    rw [hi]
    simp only
    obtain ⟨s1, x, la, k1, c1⟩ := h1 n (by omega) s0 hf he
    rw [k1]
    obtain ⟨s', l, e1, e2⟩ := cloned_un op c1
    exact ⟨s', _, l, e1, e2⟩
  | @int i v p h =>
    refine ⟨1, fun n hn s0 hf he => ?_⟩
    obtain ⟨n, rfl⟩ : ∃ k, n = k + 1 := ⟨n - 1, by omega⟩
    have hi : s0.objs i = some ⟨.int v, p⟩ := (he i (by rw [h]; simp)).trans h
    unfold CState.clone
    rw [hi]
    exact ⟨_, _, _, rfl, cloned_leaf hf (fun s' i h => .int h) (by simp)⟩
  | @feature i f n p h e =>
    refine ⟨1, fun n hn s0 hf he => ?_⟩
    obtain ⟨n, rfl⟩ : ∃ k, n = k + 1 := ⟨n - 1, by omega⟩
    have hi : s0.objs i = some ⟨.feature f, p⟩ := (he i (by rw [h]; simp)).trans h
    unfold CState.clone
    rw [hi]
    simp only [e]
    exact ⟨_, _, _, rfl, cloned_leaf hf (fun s' i h => .feature h rfl) (by simp)⟩

theorem clone_mono {n m : Nat} : ∀ {s0 s1 : CState} {i j : Nat}, CState.clone nm lf n s0 i = some (s1, j) → n ≤ m →
    CState.clone nm lf m s0 i = some (s1, j) := by
  induction n generalizing m with
  | zero => intro s0 s1 i j h; simp [CState.clone] at h
  | succ n ih =>
    intro s0 s1 i j h hm
    obtain ⟨m, rfl⟩ : ∃ k, m = k + 1 := ⟨m - 1, by omega⟩
    have hm : n ≤ m := by omega
    unfold CState.clone at h ⊢
    cases hi : s0.objs i with
    | none => rw [hi] at h; cases h
    | some o =>
      rw [hi] at h
      obtain ⟨d, p⟩ := o
      cases d with
      | bin op l r =>
        simp only at h ⊢
        by_cases hl : lf i
        · rw [if_pos hl] at h ⊢
          cases h1 : CState.clone nm lf n s0 l with
          | none => rw [h1] at h; cases h
          | some x =>
            rw [h1] at h
            rw [ih h1 hm]
            simp only at h ⊢
            cases h2 : CState.clone nm lf n x.1 r with
            | none => rw [h2] at h; cases h
            | some y => rw [h2] at h; rw [ih h2 hm]; exact h
        · rw [if_neg hl] at h ⊢
          cases h1 : CState.clone nm lf n s0 r with
          | none => rw [h1] at h; cases h
          | some x =>
            rw [h1] at h
            rw [ih h1 hm]
            simp only at h ⊢
            cases h2 : CState.clone nm lf n x.1 l with
            | none => rw [h2] at h; cases h
            | some y => rw [h2] at h; rw [ih h2 hm]; exact h
      | un op c =>
        simp only at h ⊢
        cases h1 : CState.clone nm lf n s0 c with
        | none => rw [h1] at h; cases h
        | some x => rw [h1] at h; rw [ih h1 hm]; exact h
      | int v => exact h
      | feature f => exact h

/-- `toString` of the object is the text of the tree. -/
theorem text_spec {i : Nat} {c : Constraint} (h : Reads nm s i c) : ∃ N, ∀ n, N ≤ n → CState.text nm n s i = some c.toStr := by
  induction h with
  | bin h ha hb iha ihb =>
    obtain ⟨N1, h1⟩ := iha
    obtain ⟨N2, h2⟩ := ihb
    refine ⟨N1 + N2 + 1, fun n hn => ?_⟩
    obtain ⟨n, rfl⟩ : ∃ k, n = k + 1 := ⟨n - 1, by omega⟩
    unfold CState.text
    rw [h]
    simp only [h1 n (by omega), h2 n (by omega), Constraint.toStr]
  | un h ha iha =>
    obtain ⟨N1, h1⟩ := iha
    refine ⟨N1 + 1, fun n hn => ?_⟩
    obtain ⟨n, rfl⟩ : ∃ k, n = k + 1 := ⟨n - 1, by omega⟩
    unfold CState.text
    rw [h]
    simp only [h1 n (by omega), Constraint.toStr]
    rfl
  | int h =>
    refine ⟨1, fun n hn => ?_⟩
    obtain ⟨n, rfl⟩ : ∃ k, n = k + 1 := ⟨n - 1, by omega⟩
    unfold CState.text
    rw [h]; rfl
  | feature h e =>
    refine ⟨1, fun n hn => ?_⟩
    obtain ⟨n, rfl⟩ : ∃ k, n = k + 1 := ⟨n - 1, by omega⟩
    unfold CState.text
    rw [h]; exact e

/-- From an object of a tree one climbs to its root. -/
theorem climb {p : Option Nat} {i : Nat} {c : Constraint} {l : List Nat} (h : Held nm s p i c l) {R : Nat} {N : Nat}
    (hi : ∀ n, N ≤ n → CState.getRoot n s i = some R) : ∃ M, ∀ j ∈ l, ∀ n, M ≤ n → CState.getRoot n s j = some R := by
  induction h generalizing N with
  | @bin p i op x y a b la lb h ha hb iha ihb =>
    have up : ∀ {j d}, s.objs j = some ⟨d, some i⟩ → ∀ n, N + 1 ≤ n → CState.getRoot n s j = some R := by
      intro j d hj n hn
      obtain ⟨n, rfl⟩ : ∃ k, n = k + 1 := ⟨n - 1, by omega⟩
      unfold CState.getRoot
      rw [hj]
      exact hi n (by omega)
    have top : ∀ {c l x}, Held nm s (some i) x c l → ∃ d, s.objs x = some ⟨d, some i⟩ := by
      intro c l x hx
      cases hx with
      | bin h _ _ => exact ⟨_, h⟩
      | un h _ => exact ⟨_, h⟩
      | int h => exact ⟨_, h⟩
      | feature h _ => exact ⟨_, h⟩
    obtain ⟨d1, e1⟩ := top ha
    obtain ⟨d2, e2⟩ := top hb
    obtain ⟨M1, m1⟩ := iha (up e1)
    obtain ⟨M2, m2⟩ := ihb (up e2)
    refine ⟨N + M1 + M2, fun j hj n hn => ?_⟩
    rcases List.mem_cons.1 hj with rfl | hj
    · exact hi n (by omega)
    · rcases List.mem_append.1 hj with hj | hj
      · exact m1 j hj n (by omega)
      · exact m2 j hj n (by omega)
  | @un p i op x a la h ha iha =>
    have e1 : ∃ d, s.objs x = some ⟨d, some i⟩ := by
      cases ha with
      | bin h _ _ => exact ⟨_, h⟩
      | un h _ => exact ⟨_, h⟩
      | int h => exact ⟨_, h⟩
      | feature h _ => exact ⟨_, h⟩
    obtain ⟨d, e1⟩ := e1
    obtain ⟨M1, m1⟩ := iha (N := N + 1) (by
      intro n hn
      obtain ⟨n, rfl⟩ : ∃ k, n = k + 1 := ⟨n - 1, by omega⟩
      unfold CState.getRoot
      rw [e1]
      exact hi n (by omega))
    refine ⟨N + M1, fun j hj n hn => ?_⟩
    rcases List.mem_cons.1 hj with rfl | hj
    · exact hi n (by omega)
    · exact m1 j hj n (by omega)
  | int h => exact ⟨N, fun j hj n hn => by simp at hj; subst hj; exact hi n hn⟩
  | feature h e => exact ⟨N, fun j hj n hn => by simp at hj; subst hj; exact hi n hn⟩

theorem root_spec {i : Nat} {c : Constraint} {l : List Nat} (h : Held nm s none i c l) :
    ∃ M, ∀ j ∈ l, ∀ n, M ≤ n → CState.getRoot n s j = some i := by
  refine climb h (N := 1) ?_
  intro n hn
  obtain ⟨n, rfl⟩ : ∃ k, n = k + 1 := ⟨n - 1, by omega⟩
  unfold CState.getRoot
  cases h with
  | bin h _ _ => rw [h]
  | un h _ => rw [h]
  | int h => rw [h]
  | feature h _ => rw [h]

theorem Spec.OwnedTrees.perm {ts ts'} (h : OwnedTrees nm s ts) (hp : ts.Perm ts') : OwnedTrees nm s ts' :=
  ⟨h.fresh, fun t ht => h.held t (hp.mem_iff.2 ht), (hp.flatMap_right _).nodup_iff.1 h.apart⟩

theorem pick {α β} {f : α → β} {ts : List α} {c : β} {rs : List β} (h : (ts.map f).Perm (c :: rs)) :
    ∃ t ts1, ts.Perm (t :: ts1) ∧ f t = c ∧ (ts1.map f).Perm rs := by
  have hm : c ∈ ts.map f := h.mem_iff.2 (by simp)
  obtain ⟨t, ht, rfl⟩ := List.mem_map.1 hm
  obtain ⟨l1, l2, rfl⟩ := List.append_of_mem ht
  have hp : (l1 ++ t :: l2).Perm (t :: (l1 ++ l2)) := List.perm_middle
  exact ⟨t, l1 ++ l2, hp, rfl, List.Perm.cons_inv (((hp.map f).symm.trans h))⟩

theorem held_setFeature {p : Option Nat} {i : Nat} {c : Constraint} {l : List Nat} (h : Held nm s p i c l) {k f : Nat} {n : Str}
    (hn : nm f = some n) (hs : s.setFeature k f = some s') : ∃ c', Held nm s' p i c' l := by
  unfold CState.setFeature at hs
  cases hk : s.objs k with
  | none => rw [hk] at hs; cases hs
  | some o =>
    rw [hk] at hs
    obtain ⟨d, q⟩ := o
    cases d with
    | bin => cases hs
    | un => cases hs
    | int => cases hs
    | feature g =>
      simp only at hs
      cases hs
      have other : ∀ {j d p}, s.objs j = some ⟨d, p⟩ → (∀ g, d ≠ .feature g) →
          upd s.objs k (some ⟨.feature (.ptr (some f)), q⟩) j = some ⟨d, p⟩ := by
        intro j d p hj hd
        have : j ≠ k := by rintro rfl; rw [hk] at hj; cases hj; exact hd _ rfl
        rw [upd_ne _ _ this, hj]
      induction h with
      | bin h _ _ iha ihb =>
        obtain ⟨a, ha⟩ := iha
        obtain ⟨b, hb⟩ := ihb
        exact ⟨_, .bin (other h (by simp)) ha hb⟩
      | un h _ iha =>
        obtain ⟨a, ha⟩ := iha
        exact ⟨_, .un (other h (by simp)) ha⟩
      | int h => exact ⟨_, .int (other h (by simp))⟩
      | @feature p i f' n' h e =>
        by_cases hik : i = k
        · subst hik
          rw [hk] at h; cases h
          exact ⟨_, .feature (f := .ptr (some f)) (by show upd _ _ _ _ = _; rw [upd_same]) hn⟩
        · exact ⟨_, .feature (by show upd _ _ _ _ = _; rw [upd_ne _ _ hik]; exact h) e⟩

theorem choose_trees {P : Nat → Constraint → List Nat → Prop} : ∀ (ts : List (Nat × Constraint × List Nat)),
    (∀ t ∈ ts, ∃ c', P t.1 c' t.2.2) → ∃ ts' : List (Nat × Constraint × List Nat), ts'.map Prod.fst = ts.map Prod.fst ∧ (ts'.map fun t => t.2.2) = (ts.map fun t => t.2.2) ∧
      ∀ t ∈ ts', P t.1 t.2.1 t.2.2
  | [], _ => ⟨[], rfl, rfl, by simp⟩
  | t :: ts, h => by
    obtain ⟨c', hc⟩ := h t (by simp)
    obtain ⟨ts', h1, h2, h3⟩ := choose_trees ts fun t ht => h t (by simp [ht])
    refine ⟨(t.1, c', t.2.2) :: ts', by simp [h1], by simp [h2], ?_⟩
    intro x hx
    rcases List.mem_cons.1 hx with rfl | hx
    · exact hc
    · exact h3 x hx

theorem Spec.OwnedTrees.leaf {ts} (h : OwnedTrees nm s ts) {d : CData} {c : Constraint}
    (hd : ∀ s' : CState, ∀ i, s'.objs i = some ⟨d, none⟩ → Held nm s' none i c [i]) :
    OwnedTrees nm (s.alloc d).1 ((s.next, c, [s.next]) :: ts) := by
  have hne : ∀ t ∈ ts, ∀ k ∈ t.2.2, k ≠ s.next := fun t ht k hk => Nat.ne_of_lt (fresh_lt h.fresh ((h.held t ht).used k hk))
  refine ⟨alloc_fresh h.fresh d, ?_, ?_⟩
  · intro t ht
    rcases List.mem_cons.1 ht with rfl | ht
    · exact hd _ _ (by rw [alloc_objs, if_pos rfl])
    · exact (h.held t ht).congr fun k hk => by rw [alloc_objs, if_neg (hne t ht k hk)]
  · rw [List.flatMap_cons, List.singleton_append, List.nodup_cons]
    refine ⟨?_, h.apart⟩
    intro hm
    obtain ⟨t, ht, hk⟩ := List.mem_flatMap.1 hm
    exact hne t ht _ hk rfl

/-- The steps keep the forest. -/
theorem forest_step {x y : CState × List Nat} (h : CStep nm lf x y) {ts} (hx : OwnedTrees nm x.1 ts)
    (hr : (ts.map Prod.fst).Perm x.2) : ∃ ts', OwnedTrees nm y.1 ts' ∧ (ts'.map Prod.fst).Perm y.2 := by
  cases h with
  | int v => exact ⟨_, hx.leaf (d := .int v) (fun s' i h => .int h), hr.cons _⟩
  | feature f n hn => exact ⟨_, hx.leaf (d := .feature f) (fun s' i h => .feature h hn), hr.cons _⟩
  | @un s rs rs' s' i c op hp he =>
    obtain ⟨t, ts1, p1, rfl, p2⟩ := pick (hr.trans hp)
    have h1 := hx.perm p1
    have hnd := h1.apart
    rw [List.flatMap_cons, List.nodup_append] at hnd
    obtain ⟨s1, q1, q2, q3, q4, q5, _⟩ := newUn_spec h1.fresh op (h1.held t (by simp)) hnd.1
    rw [q1] at he; cases he
    have hlt : ∀ u ∈ t :: ts1, ∀ k ∈ u.2.2, k ≠ s.next := fun u hu k hk => Nat.ne_of_lt (fresh_lt h1.fresh ((h1.held u hu).used k hk))
    refine ⟨(s.next, .un op t.2.1, s.next :: t.2.2) :: ts1, ⟨q2, ?_, ?_⟩, p2.cons _⟩
    · intro u hu
      rcases List.mem_cons.1 hu with rfl | hu
      · exact q4
      · refine (h1.held u (by simp [hu])).congr fun k hk => q5 k (hlt u (by simp [hu]) k hk) ?_
        rintro rfl
        exact hnd.2.2 _ (h1.held t (by simp)).self _ (List.mem_flatMap.2 ⟨u, hu, hk⟩) rfl
    · rw [List.flatMap_cons, List.cons_append, List.nodup_cons]
      refine ⟨?_, h1.apart⟩
      intro hm
      obtain ⟨u, hu, hk⟩ := List.mem_flatMap.1 (show s.next ∈ (t :: ts1).flatMap fun t => t.2.2 by rw [List.flatMap_cons]; exact hm)
      exact hlt u hu _ hk rfl
  | @bin s rs rs' s' i l r op hp he =>
    obtain ⟨t, ts0, p1, rfl, p2⟩ := pick (hr.trans hp)
    obtain ⟨u, ts1, p3, rfl, p4⟩ := pick p2
    have h1 := hx.perm (p1.trans (p3.cons _))
    have hnd := h1.apart
    rw [List.flatMap_cons, List.flatMap_cons, ← List.append_assoc, List.nodup_append] at hnd
    obtain ⟨s1, q1, q2, q3, q4, q5, _⟩ := newBin_spec h1.fresh op (h1.held t (by simp)) (h1.held u (by simp)) hnd.1
    rw [q1] at he; cases he
    have hlt : ∀ v ∈ t :: u :: ts1, ∀ k ∈ v.2.2, k ≠ s.next := fun v hv k hk => Nat.ne_of_lt (fresh_lt h1.fresh ((h1.held v hv).used k hk))
    refine ⟨(s.next, .bin op t.2.1 u.2.1, s.next :: (t.2.2 ++ u.2.2)) :: ts1, ⟨q2, ?_, ?_⟩, p4.cons _⟩
    · intro v hv
      rcases List.mem_cons.1 hv with rfl | hv
      · exact q4
      · refine (h1.held v (by simp [hv])).congr fun k hk => q5 k (hlt v (by simp [hv]) k hk) ?_ ?_
        · rintro rfl
          exact hnd.2.2 _ (List.mem_append_left _ (h1.held t (by simp)).self) _ (List.mem_flatMap.2 ⟨v, hv, hk⟩) rfl
        · rintro rfl
          exact hnd.2.2 _ (List.mem_append_right _ (h1.held u (by simp)).self) _ (List.mem_flatMap.2 ⟨v, hv, hk⟩) rfl
    · rw [List.flatMap_cons, List.cons_append, List.nodup_cons]
      refine ⟨?_, ?_⟩
      · intro hm
        obtain ⟨v, hv, hk⟩ := List.mem_flatMap.1 (show s.next ∈ (t :: u :: ts1).flatMap fun t => t.2.2 by
          rw [List.flatMap_cons, List.flatMap_cons, ← List.append_assoc]; exact hm)
        exact hlt v hv _ hk rfl
      · have := h1.apart
        rw [List.flatMap_cons, List.flatMap_cons, ← List.append_assoc] at this
        exact this
  | @clone s rs s' fuel i j c hc he =>
    obtain ⟨N, hN⟩ := clone_spec hc lf
    obtain ⟨s1, i1, l, e1, e2⟩ := hN N (Nat.le_refl _) s hx.fresh (fun _ _ => rfl)
    have k1 := clone_mono he (Nat.le_add_right fuel N)
    rw [clone_mono e1 (Nat.le_add_left N fuel)] at k1
    cases k1
    have hlt : ∀ t ∈ ts, ∀ k ∈ t.2.2, k < s.next := fun t ht k hk => fresh_lt hx.fresh ((hx.held t ht).used k hk)
    refine ⟨(j, c, l) :: ts, ⟨e2.fresh, ?_, ?_⟩, hr.cons _⟩
    · intro t ht
      rcases List.mem_cons.1 ht with rfl | ht
      · exact e2.held
      · exact (hx.held t ht).congr fun k hk => e2.old k (hlt t ht k hk)
    · rw [List.flatMap_cons, List.nodup_append]
      refine ⟨e2.nodup, hx.apart, fun a ha b hb e => ?_⟩
      obtain ⟨t, ht, hk⟩ := List.mem_flatMap.1 hb
      exact absurd (hlt t ht b hk) (Nat.not_lt.2 (e ▸ e2.new a ha))
  | @setFeature s rs s' i f n hn he =>
    obtain ⟨ts', h1, h2, h3⟩ := choose_trees (P := fun i c l => Held nm s' none i c l) ts
      fun t ht => held_setFeature (hx.held t ht) hn he
    refine ⟨ts', ⟨?_, h3, ?_⟩, h1 ▸ hr⟩
    · intro k hk
      unfold CState.setFeature at he
      cases hi : s.objs i with
      | none => rw [hi] at he; cases he
      | some o =>
        rw [hi] at he
        obtain ⟨d, q⟩ := o
        cases d <;> simp only at he <;> cases he
        have : k ≠ i := by
          rintro rfl
          have : s.objs k = none := hx.fresh k hk
          rw [hi] at this; cases this
        show upd _ _ _ k = none
        rw [upd_ne _ _ this]
        exact hx.fresh k hk
    · have e : ∀ l : List (Nat × Constraint × List Nat), (l.flatMap fun t => t.2.2) = (l.map fun t => t.2.2).flatten := fun l =>
        List.flatMap_def
      rw [e, h2, ← e]
      exact hx.apart
  | @drop s rs rs' c hp =>
    obtain ⟨t, ts1, p1, rfl, p2⟩ := pick (hr.trans hp)
    have h1 := hx.perm p1
    refine ⟨ts1, ⟨h1.fresh, fun u hu => h1.held u (by simp [hu]), ?_⟩, p2⟩
    have := h1.apart
    rw [List.flatMap_cons, List.nodup_append] at this
    exact this.2.1

theorem forest_steps {x y : CState × List Nat} (h : CSteps nm lf x y) : ∀ {ts}, OwnedTrees nm x.1 ts → (ts.map Prod.fst).Perm x.2 →
    ∃ ts', OwnedTrees nm y.1 ts' ∧ (ts'.map Prod.fst).Perm y.2 := by
  induction h with
  | nil => exact fun h1 h2 => ⟨_, h1, h2⟩
  | cons hs _ ih =>
    intro ts h1 h2
    obtain ⟨ts', h3, h4⟩ := forest_step hs h1 h2
    exact ih h3 h4

end Verif

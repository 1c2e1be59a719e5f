import Verif.Source.HeldLemmas
/-!
# Property C90: location objects held by a Python program
-/

namespace Verif.Props
open Verif Verif.Held Verif.FModel Verif.Spec

/-- The locations of a feature with the first numbers as identities. -/
def numbered (rs : List Range) : Locs := { here := rs.zipIdx.map fun p => (p.2, p.1) }

theorem numbered_ids (rs : List Range) : (numbered rs).here.map Prod.fst = List.range rs.length := by
  simp only [numbered, List.map_map]
  rw [show (Prod.fst ∘ fun p : Range × Nat => (p.2, p.1)) = Prod.snd from rfl, List.zipIdx_map_snd, List.range_eq_range']

theorem numbered_items (rs : List Range) : (numbered rs).here.map Prod.snd = rs := by
  simp only [numbered, List.map_map]
  rw [show (Prod.snd ∘ fun p : Range × Nat => (p.2, p.1)) = Prod.fst from rfl, List.zipIdx_map_fst]

theorem numbered_sees (rs : List Range) (cap : Nat) : Sees (World.fresh rs cap) (numbered rs) where
  items := (numbered_items rs).symm
  ids := by rw [numbered_ids]; exact List.nodup_range
  held := rfl
  iters := rfl
  usable := by simp [World.fresh]

/-- As long as no location is removed, and none is added beyond the capacity of the vector, every location object
    denotes the location it was made for: reading shows what this location holds now, assigning changes it, loops
    hand out what was there when they began. -/
theorem C90_denotes_partial (grow : Nat → Nat) (rs : List Range) (cap : Nat) {qs : List LocCall}
    (hr : ∀ j, .remove j ∉ qs) (hc : rs.length + adds qs ≤ cap) :
    ∃ replies w b, (World.fresh rs cap).calls grow qs = some (replies, w) ∧ AllAnswers (numbered rs) qs replies b ∧
      w.vec.items = b.here.map Prod.snd := by
  obtain ⟨replies, w, b, h1, h2, h3⟩ := sees_calls grow qs (numbered_sees rs cap) hr hc
  exact ⟨replies, w, b, h1, h2, h3.items⟩

private theorem assigned_unique {c : Change} {r x y : Range} (h : Assigned c r x) (g : Assigned c r y) : x = y := by
  cases h <;> cases g <;> simp_all

private theorem nodup_value {l : List (Nat × Range)} (h : (l.map Prod.fst).Nodup) {x r r'} (h1 : (x, r) ∈ l) (h2 : (x, r') ∈ l) :
    r = r' := by
  induction l with
  | nil => cases h1
  | cons p l ih =>
    rw [List.map_cons, List.nodup_cons] at h
    rcases List.mem_cons.1 h1 with rfl | h1
    · rcases List.mem_cons.1 h2 with e | h2
      · exact (Prod.mk.inj e).2.symm
      · exact absurd (List.mem_map_of_mem (f := Prod.fst) h2) h.1
    · rcases List.mem_cons.1 h2 with e | h2
      · subst e; exact absurd (List.mem_map_of_mem (f := Prod.fst) (l := l) (a := (x, r)) (by assumption)) h.1
      · exact ih h.2 h1 h2

/-- What a call should answer is determined. -/
theorem C90_expected_reply {a b b' : Locs} {q r r'} (h : (a.here.map Prod.fst).Nodup) (h1 : Answers a q r b)
    (h2 : Answers a q r' b') : r = r' := by
  cases h1 with
  | iter => cases h2; rfl
  | next e m =>
    cases h2 with
    | next e' m' => rw [e] at e'; cases e'; rw [nodup_value h m m']
    | stop e' => rw [e] at e'; cases e'
    | noIter e' => rw [e] at e'; cases e'
  | stop e =>
    cases h2 with
    | next e' m' => rw [e] at e'; cases e'
    | stop e' => rfl
    | noIter e' => rw [e] at e'; cases e'
  | noIter e =>
    cases h2 with
    | next e' m' => rw [e] at e'; cases e'
    | stop e' => rw [e] at e'; cases e'
    | noIter e' => rfl
  | read e m =>
    cases h2 with
    | read e' m' => rw [e] at e'; cases e'; rw [nodup_value h m m']
    | noObject e' => rw [e] at e'; cases e'
  | noObject e =>
    cases h2 with
    | read e' m' => rw [e] at e'; cases e'
    | noObject e' => rfl
  | change e m s _ =>
    cases h2 with
    | change => rfl
    | changeNone e' m' s' =>
      rw [e] at e'; cases e'
      have := nodup_value h m m'; subst this
      exact absurd s (s' _)
    | changeNoObject e' => rw [e] at e'; cases e'
  | changeNone e m s =>
    cases h2 with
    | change e' m' s' _ =>
      rw [e] at e'; cases e'
      have := nodup_value h m m'; subst this
      exact absurd s' (s _)
    | changeNone => rfl
    | changeNoObject e' => rw [e] at e'; cases e'
  | changeNoObject e =>
    cases h2 with
    | change e' => rw [e] at e'; cases e'
    | changeNone e' => rw [e] at e'; cases e'
    | changeNoObject => rfl
  | add => cases h2; rfl
  | update e m _ _ =>
    cases h2 with
    | update => rfl
    | updateNone g => exact absurd m (by rw [g (_, _) (by rw [e]; exact List.mem_append_right _ (List.mem_cons_self ..))]; simp)
  | updateNone g =>
    cases h2 with
    | update e m _ _ => exact absurd m (by rw [g (_, _) (by rw [e]; exact List.mem_append_right _ (List.mem_cons_self ..))]; simp)
    | updateNone => rfl
  | remove e =>
    cases h2 with
    | remove => rfl
    | removeNoObject e' => rw [e] at e'; cases e'
  | removeNoObject e =>
    cases h2 with
    | remove e' => rw [e] at e'; cases e'
    | removeNoObject => rfl

private def lo (n : Nat) : Range := ⟨[c!"f"], some ⟨n, 1⟩, none, .necessary, none, none⟩

/-- A program that reads, assigns, adds and goes on reading. -/
example : ((World.fresh [lo 1, lo 2] 4).calls (fun _ => 0)
    [.iter, .next 0, .next 0, .change 0 (.startLine 7), .add (lo 3), .read 0, .read 1, .next 0]).map Prod.fst
    = some [.none, .object (lo 1), .object (lo 2), .none, .none, .value (lo 7), .value (lo 2), .stopIteration] := by
  decide

/-! ## Loops that assign -/

private theorem next_at (grow : Nat → Nat) {v : LVec} {held : List Slot} {i : PyIter} (hb : i.buf = v.buf) (hn : i.step.pos ≠ i.stop)
    {r} (hr : v.items[i.step.pos]? = some r) :
    (World.mk v held [i]).call grow (.next 0) = some (.object r, ⟨v, held ++ [⟨v.buf, i.step.pos⟩], [i.step]⟩) := by
  simp [World.call, hb, step_buf, step_stop, hn, LVec.at, hr]

private theorem next_stop (grow : Nat → Nat) {v : LVec} {held : List Slot} {i : PyIter} (hb : i.buf = v.buf) (hn : i.step.pos = i.stop) :
    (World.mk v held [i]).call grow (.next 0) = some (.stopIteration, ⟨v, held, [⟨i.step.buf, i.step.pos, i.step.stop, true⟩]⟩) := by
  simp [World.call, hb, step_stop, hn]

/-- A loop that assigns to a property of every location assigns to each of them, and changes nothing else. -/
theorem C90_assign_loop (grow : Nat → Nat) (c : Change) (rs : List Range) (cap : Nat) (h : ∀ r ∈ rs, ∃ r', Assigned c r r') :
    ∃ w, (∀ fuel, rs.length < fuel → (World.fresh rs cap).forEach grow (fun j => [.change j c]) fuel = .done w) ∧
      w.vec.items.length = rs.length ∧ ∀ (n : Nat) (r r' : Range), rs[n]? = some r → w.vec.items[n]? = some r' → Assigned c r r' := by
  have key : ∀ (post pre : List Range) (held : List Slot) (i : PyIter), i.buf = 0 → i.stop = pre.length + post.length →
      i.step.pos = pre.length → (∀ r ∈ post, ∃ r', Assigned c r r') →
      ∃ (post' : List Range) (w : World), w.vec.items = pre ++ post' ∧ post'.length = post.length ∧
        (∀ (n : Nat) (r r' : Range), post[n]? = some r → post'[n]? = some r' → Assigned c r r') ∧
        ∀ fuel, post.length < fuel → (World.mk ⟨0, pre ++ post, cap⟩ held [i]).loop grow (fun j => [.change j c]) 0 fuel = .done w := by
    intro post
    induction post with
    | nil =>
      intro pre held i hb hs hp _
      refine ⟨[], ⟨⟨0, pre ++ [], cap⟩, held, [⟨i.step.buf, i.step.pos, i.step.stop, true⟩]⟩, rfl, rfl, by simp, fun fuel hf => ?_⟩
      · obtain ⟨f, rfl⟩ : ∃ f, fuel = f + 1 := ⟨fuel - 1, by simp at hf; omega⟩
        rw [World.loop, next_stop grow (v := ⟨0, pre ++ [], cap⟩) hb (by rw [hs, hp]; rfl)]
    | cons r post ih =>
      intro pre held i hb hs hp ha
      obtain ⟨r', hr'⟩ := ha r (by simp)
      have hon : ∃ y, c.on r = some y := by
        cases e : c.on r with
        | none => exact absurd hr' (on_none e r')
        | some y => exact ⟨y, rfl⟩
      obtain ⟨y, hy⟩ := hon
      obtain ⟨post', w, h1, h2, h3, h4⟩ := ih (pre ++ [y]) (held ++ [⟨0, pre.length⟩]) i.step ((step_buf i).trans hb)
        (by rw [step_stop, hs]; simp; omega) (by rw [step_step, hp]; simp) (fun r hr => ha r (List.mem_cons_of_mem _ hr))
      refine ⟨y :: post', w, by simp [h1], by simp [h2], ?_, fun fuel hf => ?_⟩
      · intro n x x' e e'
        cases n with
        | zero => simp only [List.getElem?_cons_zero, Option.some.injEq] at e e'; subst e; subst e'; exact on_some hy
        | succ n => exact h3 n x x' (by simpa using e) (by simpa using e')
      · obtain ⟨f, rfl⟩ : ∃ f, fuel = f + 1 := ⟨fuel - 1, by simp at hf; omega⟩
        rw [World.loop, next_at grow (v := ⟨0, pre ++ r :: post, cap⟩) hb (by rw [hs, hp]; simp) (r := r) (by simp [hp])]
        simp only [hp, List.length_append, List.length_cons, List.length_nil, Nat.zero_add, Nat.add_sub_cancel,
          World.calls, World.call, List.getElem?_append_right (Nat.le_refl _), Nat.sub_self, List.getElem?_cons_zero,
          LVec.at, if_true, Option.map_some, hy, LVec.put, List.set_append_right _ _ (Nat.le_refl _), List.set_cons_zero]
        have := h4 f (by simpa using hf)
        simpa using this
  obtain ⟨post', w, h1, h2, h3, h4⟩ := key rs [] [] ⟨0, 0, rs.length, true⟩ rfl (by simp) rfl h
  refine ⟨w, fun fuel hf => ?_, by simp [h1, h2], by simpa [h1] using h3⟩
  exact h4 fuel hf

example : ∀ r ∈ [lo 1, lo 2], ∃ r', Assigned (.category .inessential) r r' := fun r _ => ⟨_, .category _ r⟩

/-! ## Adding -/

/-- Adding a location when the vector is full makes every location object and every iterator unusable. -/
theorem C90_add_invalidates (grow : Nat → Nat) {w : World} (hf : w.vec.cap ≤ w.vec.items.length) (r : Range) :
    ∃ w', w.call grow (.add r) = some (.none, w') ∧ w'.vec.items = w.vec.items ++ [r] ∧ w'.held = w.held ∧ w'.iters = w.iters ∧
      (∀ j s, w.held[j]? = some s → s.buf = w.vec.buf → w'.call grow (.read j) = none) ∧
      (∀ k i, w.iters[k]? = some i → i.buf = w.vec.buf → w'.call grow (.next k) = none) := by
  have hn : ¬ w.vec.items.length < w.vec.cap := by omega
  refine ⟨{ w with vec := w.vec.push grow r }, rfl, by simp [LVec.push, hn], rfl, rfl, ?_, ?_⟩
  · intro j s hj hb
    have : ¬ s.buf = w.vec.buf + 1 := by omega
    simp [World.call, hj, LVec.at, LVec.push, hn, this]
  · intro k i hk hb
    have : ¬ i.buf = w.vec.buf + 1 := by omega
    simp [World.call, hk, LVec.push, hn, this]

/-- A loop that adds a location in each round is undefined if the vector has no room, as it is after making the
    feature from a list of locations. -/
theorem C90_add_loop (grow : Nat → Nat) {rs : List Range} (h : rs ≠ []) (r : Range) (fuel : Nat) :
    (World.fresh rs rs.length).forEach grow (fun _ => [.add r]) (fuel + 2) = .undefined := by
  obtain ⟨a, t, rfl⟩ := List.exists_cons_of_ne_nil h
  have h1 := next_at grow (v := ⟨0, a :: t, (a :: t).length⟩) (held := []) (i := ⟨0, 0, (a :: t).length, true⟩) rfl (by simp [PyIter.step])
    (r := a) (by simp [PyIter.step])
  simp only [World.forEach, World.fresh, World.call, List.nil_append, List.length_nil]
  rw [World.loop, h1]
  simp only [World.calls, World.call, LVec.push, Nat.lt_irrefl, if_false, Option.map_some]
  rw [World.loop]
  simp [World.call, PyIter.step]

/-! ## Removing -/

/-- What location objects show after a location has been removed: those of earlier locations what they did, those of
    the removed and of later locations the location behind, and the last one nothing that is defined. -/
theorem C90_after_remove (grow : Nat → Nat) {w : World} {j : Nat} {s : Slot} {r : Range} (hj : w.held[j]? = some s)
    (hr : w.vec.at s = some r) :
    ∃ k w', k ≤ s.idx ∧ k < w.vec.items.length ∧ w.call grow (.remove j) = some (.none, w') ∧ w'.vec.items = w.vec.items.eraseIdx k ∧
      ∀ (n : Nat) (t : Slot), w.held[n]? = some t → t.buf = w.vec.buf →
        w'.call grow (.read n) =
          (if t.idx < k then w.vec.items[t.idx]? else w.vec.items[t.idx + 1]?).map fun x => (.value x, w') := by
  have hb : s.buf = w.vec.buf := by
    unfold LVec.at at hr
    by_cases e : s.buf = w.vec.buf
    · exact e
    · rw [if_neg e] at hr; cases hr
  have hs : w.vec.items[s.idx]? = some r := by simpa [LVec.at, hb] using hr
  rcases eraseLoc_split r w.vec.items with ⟨h1, -⟩ | ⟨l, r0, t, h1, h2, h3, h4⟩
  · have := h1 r (List.mem_of_getElem? hs)
    rw [range_eq_self] at this; cases this
  · have he : w.vec.items.eraseIdx l.length = l ++ t := by
      rw [h1, List.eraseIdx_append_of_length_le (Nat.le_refl _), Nat.sub_self]; rfl
    refine ⟨l.length, { w with vec := { w.vec with items := l ++ t } }, ?_, by rw [h1]; simp, ?_, he.symm, ?_⟩
    · rcases Nat.lt_or_ge s.idx l.length with hl | hl
      · rw [h1, List.getElem?_append_left hl] at hs
        have := h3 r (List.mem_of_getElem? hs)
        rw [range_eq_self] at this; cases this
      · exact hl
    · simp [World.call, hj, hr, h4]
    · intro n u hn hu
      simp only [World.call, hn, LVec.at, hu, if_true]
      rw [h1]
      by_cases hl : u.idx < l.length
      · simp [hl, List.getElem?_append_left hl]
      · rw [if_neg hl, List.getElem?_append_right (by omega), List.getElem?_append_right (by omega),
          show u.idx + 1 - l.length = (u.idx - l.length) + 1 by omega, List.getElem?_cons_succ]

/-- Removing a location makes the object of the next location show the one after it, or be undefined. -/
theorem C90_remove_shifts (grow : Nat → Nat) (a b c : Range) (cap : Nat) :
    ((World.fresh [a, b, c] cap).calls grow [.iter, .next 0, .next 0, .remove 0, .read 1]).map Prod.fst
      = some [.none, .object a, .object b, .none, .value c] ∧
    (World.fresh [a, b] cap).calls grow [.iter, .next 0, .next 0, .remove 0, .read 1] = none := by
  have ha := range_eq_self a
  constructor
  · simp [World.fresh, World.calls, World.call, PyIter.step, LVec.at, eraseLoc, ha]
  · simp [World.fresh, World.calls, World.call, PyIter.step, LVec.at, eraseLoc, ha]

private theorem remove_at (grow : Nat → Nat) {v : LVec} {held : List Slot} {iters : List PyIter} {j n : Nat}
    (hj : held[j]? = some ⟨v.buf, n⟩) (hn : n < v.items.length) :
    ∃ rs, rs.length + 1 = v.items.length ∧ (World.mk v held iters).call grow (.remove j) = some (.none, ⟨{ v with items := rs }, held, iters⟩) := by
  have hr : v.at ⟨v.buf, n⟩ = some v.items[n] := by simp [LVec.at, hn]
  rcases eraseLoc_split v.items[n] v.items with ⟨h1, -⟩ | ⟨l, r0, t, h1, -, -, h4⟩
  · have := h1 _ (List.getElem_mem hn)
    rw [range_eq_self] at this; cases this
  · refine ⟨l ++ t, by rw [h1]; simp only [List.length_append, List.length_cons]; omega, ?_⟩
    simp [World.call, hj, hr, h4]

/-- A loop that removes each location from the feature it iterates over is undefined as soon as there are two
    locations, whatever they are. -/
theorem C90_remove_loop (grow : Nat → Nat) {rs : List Range} (h : 2 ≤ rs.length) (cap : Nat) :
    ∀ fuel, rs.length ≤ fuel → (World.fresh rs cap).forEach grow (fun j => [.remove j]) fuel = .undefined := by
  have key : ∀ (k n : Nat) (items : List Range) (held : List Slot) (i : PyIter), i.buf = 0 → i.stop = rs.length →
      i.step.pos = n → items.length + n = rs.length → n + k = rs.length → 1 ≤ k → ∀ fuel, k ≤ fuel →
      (World.mk ⟨0, items, cap⟩ held [i]).loop grow (fun j => [.remove j]) 0 fuel = .undefined ∨ (n = 0 ∧ k = 1) := by
    intro k
    induction k with
    | zero => intro n items held i _ _ _ _ _ h1; omega
    | succ k ih =>
      intro n items held i hb hs hp hl hk _ fuel hf
      obtain ⟨f, rfl⟩ : ∃ f, fuel = f + 1 := ⟨fuel - 1, by omega⟩
      by_cases hn : n < items.length
      · by_cases hk0 : k = 0
        · exact .inr (by omega)
        · refine .inl ?_
          rw [World.loop, next_at grow (v := ⟨0, items, cap⟩) hb (by omega) (r := items[n]) (by rw [hp]; simp [hn])]
          obtain ⟨rs', h1, h2⟩ := remove_at grow (v := ⟨0, items, cap⟩) (held := held ++ [⟨0, n⟩]) (iters := [i.step])
            (j := held.length) (n := n) (by simp) hn
          simp only [hp, List.length_append, List.length_cons, List.length_nil, Nat.zero_add, Nat.add_sub_cancel, World.calls, h2]
          rcases ih (n + 1) rs' (held ++ [⟨0, n⟩]) i.step ((step_buf i).trans hb) ((step_stop i).trans hs)
            (by rw [step_step, hp]) (by simp only at h1; omega) (by omega) (by omega) f (by omega) with h | h
          · exact h
          · omega
      · refine .inl ?_
        have hne : i.step.pos ≠ i.stop := by omega
        rw [World.loop]
        have : (World.mk ⟨0, items, cap⟩ held [i]).call grow (.next 0) = none := by
          simp only [World.call, List.getElem?_cons_zero, hb, if_true, step_stop, hne, if_false, LVec.at, step_buf]
          rw [hp, List.getElem?_eq_none (by omega)]; rfl
        rw [this]
  intro fuel hf
  rcases key rs.length 0 rs [] ⟨0, 0, rs.length, true⟩ rfl rfl rfl (by omega) (by omega) (by omega) fuel hf with h' | h'
  · exact h'
  · omega

/-- With one location the loop ends as it should. -/
theorem C90_remove_loop_one (grow : Nat → Nat) (r : Range) (cap fuel : Nat) :
    ∃ w, (World.fresh [r] cap).forEach grow (fun j => [.remove j]) (fuel + 2) = .done w ∧ w.vec.items = [] := by
  have h := range_eq_self r
  simp [World.forEach, World.fresh, World.loop, World.calls, World.call, PyIter.step, LVec.at, eraseLoc, h]

/-- Collecting the objects of all locations. -/
def collect (n : Nat) : List LocCall := .iter :: List.replicate n (.next 0)

theorem collect_run (grow : Nat → Nat) (rs : List Range) (cap : Nat) :
    ∃ replies, (World.fresh rs cap).calls grow (collect rs.length) = some (replies,
      ⟨⟨0, rs, cap⟩, (List.range rs.length).map (Slot.mk 0), [if rs = [] then ⟨0, 0, 0, true⟩ else ⟨0, rs.length - 1, rs.length, false⟩]⟩) := by
  have key : ∀ (k n : Nat) (i : PyIter), i.buf = 0 → i.stop = rs.length → i.step.pos = n → n + k = rs.length →
      ∃ replies, (World.mk ⟨0, rs, cap⟩ ((List.range n).map (Slot.mk 0)) [i]).calls grow (List.replicate k (.next 0)) = some (replies,
        ⟨⟨0, rs, cap⟩, (List.range rs.length).map (Slot.mk 0), [if k = 0 then i else ⟨0, rs.length - 1, rs.length, false⟩]⟩) := by
    intro k
    induction k with
    | zero => intro n i _ _ _ hk; exact ⟨[], by simp at hk; subst hk; rfl⟩
    | succ k ih =>
      intro n i hb hs hp hk
      have hn : n < rs.length := by omega
      obtain ⟨replies, h⟩ := ih (n + 1) i.step ((step_buf i).trans hb) ((step_stop i).trans hs) (by rw [step_step, hp]) (by omega)
      refine ⟨.object rs[n] :: replies, ?_⟩
      rw [List.replicate_succ, World.calls, next_at grow (v := ⟨0, rs, cap⟩) hb (by omega) (r := rs[n]) (by rw [hp]; simp [hn])]
      rw [List.range_succ, List.map_append] at h
      simp only [hp]
      simp only [List.map_cons, List.map_nil] at h
      rw [h]
      by_cases h0 : k = 0
      · subst h0
        have : i.step = ⟨0, rs.length - 1, rs.length, false⟩ := by
          have h1 := (step_buf i).trans hb
          have h2 := (step_stop i).trans hs
          have h3 := step_first i
          have h4 : i.step.pos = rs.length - 1 := by omega
          cases e : i.step; simp_all
        simp [this]
      · simp [h0]
  obtain ⟨replies, h⟩ := key rs.length 0 ⟨0, 0, rs.length, true⟩ rfl rfl rfl (by omega)
  refine ⟨.none :: replies, ?_⟩
  show ((World.mk ⟨0, rs, cap⟩ [] [⟨0, 0, rs.length, true⟩]).calls grow (List.replicate rs.length (.next 0))).map _ = _
  simp only [List.range_zero, List.map_nil] at h
  rw [h]
  cases rs <;> simp

theorem calls_append (grow : Nat → Nat) (w : World) (qs ps : List LocCall) :
    w.calls grow (qs ++ ps) = (w.calls grow qs).bind fun x => (x.2.calls grow ps).map fun y => (x.1 ++ y.1, y.2) := by
  induction qs generalizing w with
  | nil => simp [World.calls]
  | cons q qs ih =>
    simp only [List.cons_append, World.calls]
    cases w.call grow q with
    | none => rfl
    | some x =>
      simp only [ih]
      cases x.2.calls grow qs with
      | none => rfl
      | some y =>
        simp only [Option.bind_some, Option.map_some]
        cases y.2.calls grow ps <;> simp

private theorem held_at {n k : Nat} (h : n < k) : ((List.range k).map (Slot.mk 0))[n]? = some ⟨0, n⟩ := by simp [h]

/-- Removing the locations of a list of all objects, last one first, removes them all. -/
theorem C90_remove_backwards (grow : Nat → Nat) (rs : List Range) (cap : Nat) :
    ∃ replies w, (World.fresh rs cap).calls grow (collect rs.length ++ (List.range rs.length).reverse.map .remove) = some (replies, w) ∧
      w.vec.items = [] := by
  obtain ⟨replies, h⟩ := collect_run grow rs cap
  rw [calls_append, h, Option.bind_some]
  generalize [if rs = [] then (⟨0, 0, 0, true⟩ : PyIter) else ⟨0, rs.length - 1, rs.length, false⟩] = its
  have key : ∀ (n : Nat) (items : List Range), items.length = n → n ≤ rs.length →
      ∃ rp w, (World.mk ⟨0, items, cap⟩ ((List.range rs.length).map (Slot.mk 0)) its).calls grow ((List.range n).reverse.map .remove)
        = some (rp, w) ∧ w.vec.items = [] := by
    intro n
    induction n with
    | zero => intro items h0 _; exact ⟨[], _, rfl, List.length_eq_zero_iff.1 h0⟩
    | succ n ih =>
      intro items h0 hle
      obtain ⟨rs', h1, h2⟩ := remove_at grow (v := ⟨0, items, cap⟩) (held := (List.range rs.length).map (Slot.mk 0)) (iters := its)
        (j := n) (n := n) (held_at (by omega)) (by simp only; omega)
      obtain ⟨rp, w, h3, h4⟩ := ih rs' (by simp only at h1; omega) (by omega)
      refine ⟨.none :: rp, w, ?_, h4⟩
      rw [List.range_succ, List.reverse_append, List.reverse_singleton, List.singleton_append, List.map_cons, World.calls, h2]
      simp only [h3, Option.map_some]
  obtain ⟨rp, w, h1, h2⟩ := key rs.length rs rfl (Nat.le_refl _)
  exact ⟨replies ++ rp, w, by simp only [h1, Option.map_some], h2⟩

/-- Removing them first one first is undefined as soon as there are two: making a list of the objects first, as one
    would to be safe, does not help. -/
theorem C90_remove_forwards (grow : Nat → Nat) {rs : List Range} (h2 : 2 ≤ rs.length) (cap : Nat) :
    (World.fresh rs cap).calls grow (collect rs.length ++ (List.range rs.length).map .remove) = none := by
  obtain ⟨replies, h⟩ := collect_run grow rs cap
  rw [calls_append, h, Option.bind_some]
  generalize [if rs = [] then (⟨0, 0, 0, true⟩ : PyIter) else ⟨0, rs.length - 1, rs.length, false⟩] = its
  have key : ∀ (k n : Nat) (items : List Range), items.length + n = rs.length → n + k = rs.length → 1 ≤ n → 1 ≤ k →
      (World.mk ⟨0, items, cap⟩ ((List.range rs.length).map (Slot.mk 0)) its).calls grow ((List.range' n k).map .remove) = none := by
    intro k
    induction k with
    | zero => intro n items _ _ _ hk; omega
    | succ k ih =>
      intro n items hl hk hn _
      rw [List.range'_succ, List.map_cons, World.calls]
      by_cases hlt : n < items.length
      · obtain ⟨rs', h3, h4⟩ := remove_at grow (v := ⟨0, items, cap⟩) (held := (List.range rs.length).map (Slot.mk 0)) (iters := its)
          (j := n) (n := n) (held_at (by omega)) hlt
        rw [h4]
        simp only [ih (n + 1) rs' (by simp only at h3; omega) (by omega) (by omega) (by omega), Option.map_none]
      · have : (World.mk ⟨0, items, cap⟩ ((List.range rs.length).map (Slot.mk 0)) its).call grow (.remove n) = none := by
          have hn' : n < rs.length := by omega
          simp only [World.call, List.getElem?_map, List.getElem?_range hn', Option.map_some, LVec.at, if_true]
          rw [List.getElem?_eq_none (by omega)]; rfl
        rw [this]
  obtain ⟨rs', h3, h4⟩ := remove_at grow (v := ⟨0, rs, cap⟩) (held := (List.range rs.length).map (Slot.mk 0)) (iters := its)
    (j := 0) (n := 0) (held_at (by omega)) (by simp only; omega)
  have e : List.range rs.length = 0 :: List.range' 1 (rs.length - 1) := by
    rw [List.range_eq_range', show rs.length = (rs.length - 1) + 1 by omega, List.range'_succ]; rfl
  have : (World.mk ⟨0, rs, cap⟩ ((List.range rs.length).map (Slot.mk 0)) its).calls grow ((List.range rs.length).map .remove) = none := by
    conv => lhs; rw [show (List.range rs.length).map LocCall.remove = .remove 0 :: (List.range' 1 (rs.length - 1)).map .remove from by rw [e]; rfl]
    rw [World.calls, h4]
    simp only [key (rs.length - 1) 1 rs' (by simp only at h3; omega) (by omega) (by omega) (by omega), Option.map_none]
  rw [this]; rfl

end Verif.Props

import Verif.Source.Held
/-!
# What location objects show: proofs
-/

namespace Verif.Held
open Verif Verif.FModel Verif.Spec

theorem replaceLoc_split (old new : Range) : (rs : List Range) →
    ((∀ r ∈ rs, r.eq old = false) ∧ replaceLoc old new rs = (rs, false)) ∨
    ∃ l r0 t, rs = l ++ r0 :: t ∧ r0.eq old = true ∧ (∀ r ∈ l, r.eq old = false) ∧
      replaceLoc old new rs = (l ++ new :: t, true)
  | [] => .inl ⟨by simp, rfl⟩
  | x :: xs => by
    by_cases hx : x.eq old = true
    · exact .inr ⟨[], x, xs, rfl, hx, by simp, by simp [replaceLoc, hx]⟩
    · rcases replaceLoc_split old new xs with ⟨h1, h2⟩ | ⟨l, r0, t, h1, h2, h3, h4⟩
      · refine .inl ⟨?_, by simp [replaceLoc, hx, h2]⟩
        intro r hr
        rcases List.mem_cons.1 hr with rfl | hr
        · simpa using hx
        · exact h1 r hr
      · refine .inr ⟨x :: l, r0, t, by simp [h1], h2, ?_, by simp [replaceLoc, hx, h4]⟩
        intro r hr
        rcases List.mem_cons.1 hr with rfl | hr
        · simpa using hx
        · exact h3 r hr

theorem eraseLoc_split (r : Range) : (rs : List Range) →
    ((∀ x ∈ rs, x.eq r = false) ∧ eraseLoc r rs = none) ∨
    ∃ l r0 t, rs = l ++ r0 :: t ∧ r0.eq r = true ∧ (∀ x ∈ l, x.eq r = false) ∧ eraseLoc r rs = some (l ++ t)
  | [] => .inl ⟨by simp, rfl⟩
  | x :: xs => by
    by_cases hx : x.eq r = true
    · exact .inr ⟨[], x, xs, rfl, hx, by simp, by simp [eraseLoc, hx]⟩
    · rcases eraseLoc_split r xs with ⟨h1, h2⟩ | ⟨l, r0, t, h1, h2, h3, h4⟩
      · refine .inl ⟨?_, by simp [eraseLoc, hx, h2]⟩
        intro y hy
        rcases List.mem_cons.1 hy with rfl | hy
        · simpa using hx
        · exact h1 y hy
      · refine .inr ⟨x :: l, r0, t, by simp [h1], h2, ?_, by simp [eraseLoc, hx, h4]⟩
        intro y hy
        rcases List.mem_cons.1 hy with rfl | hy
        · simpa using hx
        · exact h3 y hy

/-- The identity at an address. -/
def look (buf : Nat) (ids : List Nat) (s : Slot) : Option Nat := if s.buf = buf then ids[s.idx]? else none

/-- What an iterator has yet to hand out. -/
def rest (ids : List Nat) (i : PyIter) : List Nat := (ids.take i.stop).drop i.step.pos

/-- An iterator that can be used. -/
structure Usable (buf n : Nat) (i : PyIter) : Prop where
  buf : i.buf = buf
  stop : i.stop ≤ n
  pos : i.step.pos ≤ i.stop

/-- The program sees the locations with their identities. -/
structure Sees (w : World) (a : Locs) : Prop where
  items : w.vec.items = a.here.map Prod.snd
  ids : (a.here.map Prod.fst).Nodup
  held : w.held.map (look w.vec.buf (a.here.map Prod.fst)) = a.objects.map some
  iters : w.iters.map (rest (a.here.map Prod.fst)) = a.iters
  usable : ∀ i ∈ w.iters, Usable w.vec.buf a.here.length i

theorem step_buf (i : PyIter) : i.step.buf = i.buf := by unfold PyIter.step; split <;> rfl

theorem step_stop (i : PyIter) : i.step.stop = i.stop := by unfold PyIter.step; split <;> rfl

theorem step_first (i : PyIter) : i.step.first = false := by
  unfold PyIter.step
  by_cases h : i.first = true
  · rw [if_pos h]
  · rw [if_neg h]; simpa using h

theorem step_step (i : PyIter) : i.step.step.pos = i.step.pos + 1 := by
  have h := step_first i
  generalize i.step = j at h ⊢
  simp [PyIter.step, h]

theorem Sees.object {w a} (h : Sees w a) {j : Nat} {s : Slot} (hj : w.held[j]? = some s) :
    ∃ x r, a.objects[j]? = some x ∧ s.buf = w.vec.buf ∧ a.here[s.idx]? = some (x, r) ∧ w.vec.at s = some r := by
  have e := congrArg (·[j]?) h.held
  simp only [List.getElem?_map, hj, Option.map_some] at e
  cases hx : a.objects[j]? with
  | none => rw [hx] at e; cases e
  | some x =>
    rw [hx] at e
    simp only [Option.map_some, Option.some.injEq] at e
    unfold look at e
    by_cases hb : s.buf = w.vec.buf
    · rw [if_pos hb, List.getElem?_map] at e
      cases hp : a.here[s.idx]? with
      | none => rw [hp] at e; cases e
      | some p =>
        rw [hp] at e
        simp only [Option.map_some, Option.some.injEq] at e
        refine ⟨x, p.2, rfl, hb, by rw [← e], ?_⟩
        simp [LVec.at, hb, h.items, hp]
    · rw [if_neg hb] at e; cases e

theorem Sees.noObject {w a} (h : Sees w a) {j : Nat} (hj : w.held[j]? = none) : a.objects[j]? = none := by
  have e := congrArg (·[j]?) h.held
  simp only [List.getElem?_map, hj, Option.map_none] at e
  cases hx : a.objects[j]? with
  | none => rfl
  | some x => rw [hx] at e; cases e

/-- Rewriting one location keeps the view. -/
theorem Sees.rewrite {w a} (h : Sees w a) {l t : List (Nat × Range)} {x r0} (r : Range) (e : a.here = l ++ (x, r0) :: t) :
    Rewritten x r a { a with here := l ++ (x, r) :: t } ∧
    Sees { w with vec := { w.vec with items := (l ++ (x, r) :: t).map Prod.snd } } { a with here := l ++ (x, r) :: t } := by
  have hi : (l ++ (x, r) :: t).map Prod.fst = a.here.map Prod.fst := by rw [e]; simp
  have hl : (l ++ (x, r) :: t).length = a.here.length := by rw [e]; simp
  refine ⟨⟨l, r0, t, e, rfl, rfl, rfl⟩, rfl, ?_, ?_, ?_, ?_⟩
  · simp only [hi]; exact h.ids
  · simp only [hi]; exact h.held
  · simp only [hi]; exact h.iters
  · simp only [hl]; exact h.usable

theorem on_some {c : Change} {r r' : Range} (h : c.on r = some r') : Assigned c r r' := by
  cases c with
  | path p => simp only [Change.on, Option.some.injEq] at h; subst h; exact .path ..
  | category c => simp only [Change.on, Option.some.injEq] at h; subst h; exact .category ..
  | startLine n =>
    simp only [Change.on, Option.map_eq_some_iff] at h
    obtain ⟨l, h1, rfl⟩ := h; exact .startLine h1
  | startColumn n =>
    simp only [Change.on, Option.map_eq_some_iff] at h
    obtain ⟨l, h1, rfl⟩ := h; exact .startColumn h1
  | endLine n =>
    simp only [Change.on, Option.map_eq_some_iff] at h
    obtain ⟨l, h1, rfl⟩ := h; exact .endLine h1
  | endColumn n =>
    simp only [Change.on, Option.map_eq_some_iff] at h
    obtain ⟨l, h1, rfl⟩ := h; exact .endColumn h1

theorem on_none {c : Change} {r : Range} (h : c.on r = none) (r' : Range) : ¬ Assigned c r r' := by
  intro g
  cases g <;> simp_all [Change.on]

/-- A fresh identity. -/
theorem exists_fresh (ids : List Nat) : ∃ x, ∀ y ∈ ids, y ≠ x := by
  refine ⟨ids.foldr max 0 + 1, fun y hy e => ?_⟩
  have : ∀ (l : List Nat), y ∈ l → y ≤ l.foldr max 0 := by
    intro l hl
    induction l with
    | nil => cases hl
    | cons z l ih =>
      rcases List.mem_cons.1 hl with rfl | h
      · exact Nat.le_max_left ..
      · exact Nat.le_trans (ih h) (Nat.le_max_right ..)
  have := this ids hy
  omega

/-- Not a removal, and no adding beyond the capacity. -/
def Stays (w : World) : LocCall → Prop
  | .remove _ => False
  | .add _ => w.vec.items.length < w.vec.cap
  | _ => True

theorem sees_call (grow : Nat → Nat) {w a} (h : Sees w a) {q : LocCall} (hq : Stays w q) :
    ∃ r w' b, w.call grow q = some (r, w') ∧ Answers a q r b ∧ Sees w' b := by
  cases q with
  | iter =>
    refine ⟨_, _, _, rfl, .iter a, h.items, h.ids, h.held, ?_, ?_⟩
    · simp only [List.map_append, List.map_cons, List.map_nil, h.iters]
      have hl : w.vec.items.length = (a.here.map Prod.fst).length := by rw [h.items]; simp
      simp only [rest, PyIter.step, if_true, List.drop_zero, hl, List.take_length]
    · intro i hi
      rcases List.mem_append.1 hi with hi | hi
      · exact h.usable i hi
      · simp only [List.mem_singleton] at hi
        subst hi
        exact ⟨rfl, by simp [h.items], by simp [PyIter.step]⟩
  | next k =>
    cases hk : w.iters[k]? with
    | none =>
      refine ⟨.noSuchObject, w, a, by simp [World.call, hk], .noIter ?_, h⟩
      have e := congrArg (·[k]?) h.iters
      simp only [List.getElem?_map, hk, Option.map_none] at e
      exact e.symm
    | some i =>
      have hu := h.usable i (List.mem_of_getElem? hk)
      have ha : a.iters[k]? = some (rest (a.here.map Prod.fst) i) := by
        have e := congrArg (·[k]?) h.iters
        simp only [List.getElem?_map, hk, Option.map_some] at e
        exact e.symm
      have hk' : k < w.iters.length := (List.getElem?_eq_some_iff.1 hk).1
      by_cases he : i.step.pos = i.stop
      · refine ⟨.stopIteration, { w with iters := w.iters.set k ⟨i.step.buf, i.step.pos, i.step.stop, true⟩ }, a, ?_, .stop ?_, ?_⟩
        · simp [World.call, hk, hu.buf, step_stop, he]
        · rw [ha]; simp [rest, he]
        · have h1 : (⟨i.step.buf, i.step.pos, i.step.stop, true⟩ : PyIter).step.pos = i.stop := by
            rw [← he]; rfl
          have h2 : (⟨i.step.buf, i.step.pos, i.step.stop, true⟩ : PyIter).stop = i.stop := step_stop i
          refine ⟨h.items, h.ids, h.held, ?_, ?_⟩
          · rw [← h.iters, List.map_set]
            apply List.ext_getElem?
            intro n
            by_cases hn : n = k
            · subst hn
              rw [List.getElem?_set_self (by simpa using hk')]
              simp only [List.getElem?_map, hk, Option.map_some, rest, h1]
              rw [he, step_stop]
            · rw [List.getElem?_set_ne (Ne.symm hn)]
          · intro j hj
            rcases List.mem_or_eq_of_mem_set hj with hj | rfl
            · exact h.usable j hj
            · exact ⟨by rw [← hu.buf]; exact step_buf i, by rw [h2]; exact hu.stop, by rw [h1, h2]; exact Nat.le_refl _⟩
      · have hlt : i.step.pos < i.stop := Nat.lt_of_le_of_ne hu.pos he
        have hn : i.step.pos < a.here.length := Nat.lt_of_lt_of_le hlt hu.stop
        have hr : rest (a.here.map Prod.fst) i
            = (a.here[i.step.pos]'hn).1 :: ((a.here.map Prod.fst).take i.stop).drop (i.step.pos + 1) := by
          unfold rest
          rw [List.drop_eq_getElem_cons (by simp; omega)]
          simp
        refine ⟨.object (a.here[i.step.pos]'hn).2,
          { w with iters := w.iters.set k i.step, held := w.held ++ [⟨w.vec.buf, i.step.pos⟩] }, _, ?_,
          .next (ha.trans (congrArg some hr)) (List.getElem_mem hn), ?_⟩
        · simp [World.call, hk, hu.buf, step_stop, step_buf, he, LVec.at, h.items, hn]
        · refine ⟨h.items, h.ids, ?_, ?_, ?_⟩
          · simp only [List.map_append, List.map_cons, List.map_nil, h.held, look, if_true]
            simp [hn]
          · rw [← h.iters, List.map_set]
            congr 1
            simp [rest, step_step, step_stop]
          · intro j hj
            rcases List.mem_or_eq_of_mem_set hj with hj | rfl
            · exact h.usable j hj
            · exact ⟨by rw [← hu.buf]; exact step_buf i, by rw [step_stop]; exact hu.stop,
                by rw [step_step, step_stop]; exact hlt⟩
  | read j =>
    cases hj : w.held[j]? with
    | none => exact ⟨_, w, a, by simp [World.call, hj], .noObject (h.noObject hj), h⟩
    | some s =>
      obtain ⟨x, r, h1, h2, h3, h4⟩ := h.object hj
      exact ⟨.value r, w, a, by simp [World.call, hj, h4], .read h1 (List.mem_of_getElem? h3), h⟩
  | change j c =>
    cases hj : w.held[j]? with
    | none => exact ⟨_, w, a, by simp [World.call, hj], .changeNoObject (h.noObject hj), h⟩
    | some s =>
      obtain ⟨x, r, h1, h2, h3, h4⟩ := h.object hj
      cases hc : c.on r with
      | none =>
        exact ⟨.attributeError, w, a, by simp [World.call, hj, h4, hc],
          .changeNone h1 (List.mem_of_getElem? h3) (on_none hc), h⟩
      | some r' =>
        obtain ⟨hlt, he⟩ := List.getElem?_eq_some_iff.1 h3
        have hs : a.here = a.here.take s.idx ++ (x, r) :: a.here.drop (s.idx + 1) := by
          rw [← he, ← List.drop_eq_getElem_cons hlt, List.take_append_drop]
        obtain ⟨g1, g2⟩ := h.rewrite r' hs
        refine ⟨.none, _, _, ?_, .change h1 (List.mem_of_getElem? h3) (on_some hc) g1, g2⟩
        simp only [World.call, hj, h4, hc, Option.map_some, LVec.put, h.items]
        have e : (a.here.map Prod.snd).set s.idx r' = (a.here.take s.idx ++ (x, r') :: a.here.drop (s.idx + 1)).map Prod.snd := by
          have : a.here.take s.idx ++ (x, r') :: a.here.drop (s.idx + 1) = a.here.set s.idx (x, r') := by
            rw [List.set_eq_take_append_cons_drop, if_pos hlt]
          rw [this, List.map_set]
        rw [e]
  | add r =>
    obtain ⟨x, hx⟩ := exists_fresh (a.here.map Prod.fst)
    have hc : w.vec.items.length < w.vec.cap := hq
    refine ⟨.none, { w with vec := { w.vec with items := w.vec.items ++ [r] } }, _, by simp [World.call, LVec.push, hc],
      .add (x := x) (fun p hp => hx p.1 (List.mem_map_of_mem hp)), ?_, ?_, ?_, ?_, ?_⟩
    · simp [h.items]
    · simp only [List.map_append, List.map_cons, List.map_nil]
      exact List.nodup_append.2 ⟨h.ids, by simp, by intro y hy z hz; simp at hz; subst hz; exact hx y hy⟩
    · rw [← h.held]
      refine List.map_congr_left fun s hs => ?_
      obtain ⟨j, hj⟩ := List.getElem?_of_mem hs
      obtain ⟨y, r1, h1, h2, h3, h4⟩ := h.object hj
      have hlt := (List.getElem?_eq_some_iff.1 h3).1
      simp only [look, h2, if_true, List.map_append]
      rw [List.getElem?_append_left (by simpa using hlt)]
    · rw [← h.iters]
      refine List.map_congr_left fun i hi => ?_
      have hu := h.usable i hi
      simp only [rest, List.map_append]
      rw [List.take_append_of_le_length (by simpa using hu.stop)]
    · intro i hi
      have hu := h.usable i hi
      exact ⟨hu.buf, Nat.le_trans hu.stop (by simp), hu.pos⟩
  | update old new =>
    rcases replaceLoc_split old new w.vec.items with ⟨h1, h2⟩ | ⟨l, r0, t, h1, h2, h3, h4⟩
    · refine ⟨.bool false, w, a, by simp [World.call, h2], .updateNone fun p hp => h1 _ ?_, h⟩
      rw [h.items]; exact List.mem_map_of_mem hp
    · have e := h.items.symm.trans h1
      obtain ⟨l', t', e1, e2, e3⟩ := List.map_eq_append_iff.1 e
      obtain ⟨p, t'', e4, e5, e6⟩ := List.map_eq_cons_iff.1 e3
      subst e2; subst e6; subst e5
      have hs : a.here = l' ++ (p.1, p.2) :: t'' := by rw [e1, e4]
      obtain ⟨g1, g2⟩ := h.rewrite new hs
      refine ⟨.bool true, _, _, ?_, .update hs h2 (fun q hq => h3 _ (List.mem_map_of_mem hq)) g1, g2⟩
      simp [World.call, h4]
  | remove j => exact absurd hq id

/-- How many locations a program adds. -/
def adds : List LocCall → Nat
  | [] => 0
  | .add _ :: qs => adds qs + 1
  | _ :: qs => adds qs

theorem call_vec (grow : Nat → Nat) {w w' : World} {q r} (h : w.call grow q = some (r, w')) (hq : ∀ j, q ≠ .remove j)
    (hc : w.vec.items.length + adds [q] ≤ w.vec.cap) :
    w'.vec.cap = w.vec.cap ∧ w'.vec.items.length = w.vec.items.length + adds [q] := by
  cases q with
  | iter => simp only [World.call, Option.some.injEq, Prod.mk.injEq] at h; obtain ⟨-, rfl⟩ := h; exact ⟨rfl, rfl⟩
  | next k =>
    simp only [World.call] at h
    cases hk : w.iters[k]? with
    | none => rw [hk] at h; simp only [Option.some.injEq, Prod.mk.injEq] at h; obtain ⟨-, rfl⟩ := h; exact ⟨rfl, rfl⟩
    | some i =>
      rw [hk] at h
      simp only at h
      by_cases hb : i.buf = w.vec.buf
      · rw [if_pos hb] at h
        by_cases he : i.step.pos = i.step.stop
        · rw [if_pos he] at h
          simp only [Option.some.injEq, Prod.mk.injEq] at h; obtain ⟨-, rfl⟩ := h; exact ⟨rfl, rfl⟩
        · rw [if_neg he, Option.map_eq_some_iff] at h
          obtain ⟨x, -, h⟩ := h
          simp only [Prod.mk.injEq] at h; obtain ⟨-, rfl⟩ := h; exact ⟨rfl, rfl⟩
      · rw [if_neg hb] at h; cases h
  | read j =>
    simp only [World.call] at h
    cases hj : w.held[j]? with
    | none => rw [hj] at h; simp only [Option.some.injEq, Prod.mk.injEq] at h; obtain ⟨-, rfl⟩ := h; exact ⟨rfl, rfl⟩
    | some s =>
      rw [hj] at h
      simp only [Option.map_eq_some_iff] at h
      obtain ⟨x, -, h⟩ := h
      simp only [Prod.mk.injEq] at h; obtain ⟨-, rfl⟩ := h; exact ⟨rfl, rfl⟩
  | change j c =>
    simp only [World.call] at h
    cases hj : w.held[j]? with
    | none => rw [hj] at h; simp only [Option.some.injEq, Prod.mk.injEq] at h; obtain ⟨-, rfl⟩ := h; exact ⟨rfl, rfl⟩
    | some s =>
      rw [hj] at h
      simp only [Option.map_eq_some_iff] at h
      obtain ⟨x, -, h⟩ := h
      cases hc : c.on x with
      | none => rw [hc] at h; simp only [Prod.mk.injEq] at h; obtain ⟨-, rfl⟩ := h; exact ⟨rfl, rfl⟩
      | some y =>
        rw [hc] at h; simp only [Prod.mk.injEq] at h; obtain ⟨-, rfl⟩ := h
        exact ⟨rfl, by simp [LVec.put, adds]⟩
  | add r =>
    simp only [adds] at hc
    have : w.vec.items.length < w.vec.cap := by omega
    simp only [World.call, LVec.push, if_pos this, Option.some.injEq, Prod.mk.injEq] at h; obtain ⟨-, rfl⟩ := h
    exact ⟨rfl, by simp [adds]⟩
  | update old new =>
    simp only [World.call, Option.some.injEq, Prod.mk.injEq] at h; obtain ⟨-, rfl⟩ := h
    refine ⟨rfl, ?_⟩
    rcases replaceLoc_split old new w.vec.items with ⟨-, h2⟩ | ⟨l, r0, t, h1, -, -, h4⟩
    · simp [h2, adds]
    · show (replaceLoc old new w.vec.items).1.length = _
      rw [h4]; simp [h1, adds]
  | remove j => exact absurd rfl (hq j)

theorem sees_calls (grow : Nat → Nat) : (qs : List LocCall) → ∀ {w a}, Sees w a → (∀ j, .remove j ∉ qs) →
    w.vec.items.length + adds qs ≤ w.vec.cap →
    ∃ rs w' b, w.calls grow qs = some (rs, w') ∧ AllAnswers a qs rs b ∧ Sees w' b
  | [], w, a, h, _, _ => ⟨[], w, a, rfl, .nil a, h⟩
  | q :: qs, w, a, h, hr, hc => by
    have hq : ∀ j, q ≠ .remove j := fun j e => hr j (by simp [e])
    have ha : adds (q :: qs) = adds [q] + adds qs := by cases q <;> simp [adds, Nat.add_comm]
    have hs : Stays w q := by
      cases q <;> simp only [Stays]
      · simp only [adds] at hc; omega
      · exact absurd rfl (hq _)
    obtain ⟨r, w1, b, h1, h2, h3⟩ := sees_call grow h hs
    obtain ⟨g1, g2⟩ := call_vec grow h1 hq (by omega)
    obtain ⟨rs, w2, c, h4, h5, h6⟩ := sees_calls grow qs h3 (fun j e => hr j (List.mem_cons_of_mem _ e)) (by omega)
    exact ⟨r :: rs, w2, c, by simp [World.calls, h1, h4], .cons h2 h5, h6⟩

theorem range_eq_self (r : Range) : r.eq r = true := by
  simp [Range.eq, optEq, Loc.eq, MemberOffset.eq]
  cases r.start <;> cases r.stop <;> cases r.member <;> simp

end Verif.Held

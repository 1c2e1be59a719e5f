import Verif.FM.Closed
import Verif.Props.SideBySide
/-!
# Property C100: every object is freed exactly once

`Exact` is stated on the heap of `Desk`: a program with any number of models.
-/

namespace Verif.Props
open Verif Spec Xml Desk

variable {D D' : Desk} {sci : Str → Option Str} {E : Env}

/-- The heap holds exactly the objects the models in the variables of the program own; no object has two owners, and none is in
    the containers of its owner twice. -/
structure Exact (D : Desk) : Prop where
  heap : ∀ i, D.heap i ≠ none ↔ ∃ k m, get D k = some m ∧ Owned m i
  one : ∀ i j k m m', get D j = some m → get D k = some m' → Owned m i → Owned m' i → j = k
  once : ∀ k m, get D k = some m → (m.features.map Prod.snd ++ m.rels).Nodup
  names : ∀ k m, get D k = some m → (m.features.map Prod.fst).Nodup
  fresh : ∀ i, D.heap i ≠ none → i < D.next

/-! ## Calls -/

theorem ledger_fresh {w : FModel} (hw : ∀ i, w.heap i ≠ none → i < w.next) : Ledger (fun i => w.heap i ≠ none) w.fresh := by
  have hn : w.heap w.next = none := by
    cases hh : w.heap w.next with
    | none => rfl
    | some n => exact absurd (hw w.next (by rw [hh]; simp)) (Nat.lt_irrefl _)
  refine ⟨by simp [FModel.fresh], by simp [ownedIds, FModel.fresh], fun i => ?_, fun i hi => ?_, fun i hi => ?_⟩
  · by_cases h : i = w.next
    · subst h; simp [ownedIds, FModel.fresh]
    · simp [ownedIds, FModel.fresh, h]
  · simp [ownedIds, FModel.fresh] at hi; subst hi; simpa using hn
  · simp only [FModel.fresh] at hi ⊢
    by_cases h : i = w.next
    · subst h; exact Nat.lt_succ_self _
    · rw [if_neg h] at hi; exact Nat.lt_succ_of_lt (hw i hi)

theorem ledger_build {w m : FModel} {b : ModelBuilder} (hw : ∀ i, w.heap i ≠ none → i < w.next) (h : w.build E b = .built m) : Ledger (fun i => w.heap i ≠ none) m := by
  have C := ledger_closed (fun i => w.heap i ≠ none)
  unfold FModel.build at h
  have h1 := C.commitOps (E := E) b.feats (ledger_fresh hw)
  cases e1 : w.fresh.commitOps E b.feats with
  | ub => rw [e1] at h; cases h
  | err _ _ => rw [e1] at h; cases h
  | ok m1 =>
    rw [e1] at h h1
    simp only at h
    have h2 := C.commitOps (E := E) b.model h1
    cases e2 : m1.commitOps E b.model with
    | ub => rw [e2] at h; cases h
    | err _ _ => rw [e2] at h; cases h
    | ok m2 =>
      rw [e2] at h h2
      simp only at h
      have h3 := C.commitOps (E := E) b.rels h2
      cases e3 : m2.commitOps E b.rels with
      | ub => rw [e3] at h; cases h
      | err _ _ => rw [e3] at h; cases h
      | ok m3 => rw [e3] at h h3; cases h; exact h3

theorem ledger_load {w m : FModel} {cwd : Str} {x : Xml} (hw : ∀ i, w.heap i ≠ none → i < w.next) (h : load sci E w cwd x = .built m) : Ledger (fun i => w.heap i ≠ none) m := by
  unfold load at h
  cases e1 : parseVm sci cwd x with
  | crash => rw [e1] at h; cases h
  | fail => rw [e1] at h; cases h
  | ok calls =>
    rw [e1] at h
    simp only at h
    cases e2 : w.build E (builderOf calls) with
    | null => rw [e2] at h; cases h
    | ub => rw [e2] at h; cases h
    | built m1 =>
      rw [e2] at h
      simp only at h
      have h1 := ledger_build hw e2
      have h2 : OutP (Ledger fun i => w.heap i ≠ none) (detectAlternatives E m1) := by
        unfold detectAlternatives
        cases m1.iterate E with
        | none => trivial
        | some is =>
          simp only
          cases altOps E m1 is with
          | none => trivial
          | some os => exact (ledger_closed _).commitOps os h1
      cases e3 : detectAlternatives E m1 with
      | ub => rw [e3] at h; cases h
      | err _ m2 => rw [e3] at h h2; cases h; exact h2
      | ok m2 => rw [e3] at h h2; cases h; exact h2

theorem ledger_clone {m c : FModel} (hw : ∀ i, m.heap i ≠ none → i < m.next) (h : m.clone E = .built c) : Ledger (fun i => m.heap i ≠ none) c := by
  unfold FModel.clone at h
  cases e1 : m.cloneCalls E with
  | none => rw [e1] at h; cases h
  | some b =>
    rw [e1] at h
    simp only at h
    cases e2 : m.build E b with
    | ub => rw [e2] at h; cases h
    | built m1 => rw [e2] at h; cases h; exact ledger_build hw e2
    | null =>
      rw [e2] at h
      by_cases ha : E.asserts = true
      · simp [ha] at h
      · simp [ha] at h

theorem ledger_copyExec {G : Id → Prop} {m : FModel} (h : Ledger G m) (o : Op) : OutP (Ledger G) (m.copyExec E o) := by
  have C := ledger_closed G
  cases o with
  | addFeature a p =>
    cases p with
    | none => exact C.exec (E := E) (.addFeature a none) h
    | some p =>
      simp only [FModel.copyExec]
      cases m.translate (some p) with
      | none => trivial
      | some p => exact C.exec (E := E) (.addFeature a p) h
  | removeFeature f r =>
    simp only [FModel.copyExec]
    cases m.translate (m.resolve f) with
    | none => trivial
    | some i => exact C.exec (E := E) (.removeFeature (.ptr i) r) h
  | addRelationship k f =>
    simp only [FModel.copyExec]
    cases m.translate (m.resolve f) with
    | none => trivial
    | some i => exact C.exec (E := E) (.addRelationship k (.ptr i)) h
  | removeRelationship f =>
    simp only [FModel.copyExec]
    cases m.translate (m.resolve f) with
    | none => trivial
    | some i => exact C.exec (E := E) (.removeRelationship (.ptr i)) h
  | addLocation f r =>
    simp only [FModel.copyExec]
    cases m.translate (m.resolve f) with
    | none => trivial
    | some i => exact C.exec (E := E) (.addLocation (.ptr i) r) h
  | removeLocation f r =>
    simp only [FModel.copyExec]
    cases m.translate (m.resolve f) with
    | none => trivial
    | some i => exact C.exec (E := E) (.removeLocation (.ptr i) r) h
  | addChild p c => exact h
  | addConstraint k c => exact C.exec (E := E) (.addConstraint k c) h
  | setName n => exact C.exec (E := E) (.setName n) h
  | setCommit n => exact C.exec (E := E) (.setCommit n) h
  | setPath n => exact C.exec (E := E) (.setPath n) h
  | setRoot n => exact C.exec (E := E) (.setRoot n) h

theorem ledger_copyRun {G : Id → Prop} : ∀ (os : List Op) (m c : FModel), Ledger G m → FModel.copyRun E m os = some c → Ledger G c
  | [], m, c, h, e => by simp only [FModel.copyRun] at e; cases e; exact h
  | o :: os, m, c, h, e => by
    have h1 := ledger_copyExec (E := E) h o
    simp only [FModel.copyRun] at e
    cases e1 : m.copyExec E o with
    | ub => rw [e1] at e; cases e
    | ok m1 => rw [e1] at e h1; exact ledger_copyRun os m1 c h1 e
    | err _ m1 => rw [e1] at e h1; exact ledger_copyRun os m1 c h1 e

theorem ledger_copy {m c : FModel} {os : List Op} (hw : ∀ i, m.heap i ≠ none → i < m.next) (h : m.copyTransaction E os = some (some c)) : Ledger (fun i => m.heap i ≠ none) c := by
  unfold FModel.copyTransaction at h
  cases e1 : m.clone E with
  | ub => rw [e1] at h; cases h
  | null => rw [e1] at h; cases h
  | built c0 =>
    rw [e1] at h
    simp only at h
    cases e2 : FModel.copyRun E c0 os with
    | none => rw [e2] at h; cases h
    | some c1 =>
      rw [e2] at h
      simp only at h
      cases e3 : c1.consistent E with
      | none => rw [e3] at h; cases h
      | some b =>
        rw [e3] at h
        cases b with
        | false => cases h
        | true => cases h; exact ledger_copyRun os c0 _ (ledger_clone hw e1) e2

/-! ## The heap of a program -/

theorem get_some {k : Nat} {m : FModel} (h : get D k = some m) : ∃ v, D.models[k]? = some (some v) ∧ m = on D v := by
  unfold Desk.get at h
  split at h
  · rename_i v hv; cases h; exact ⟨v, hv, rfl⟩
  · cases h

theorem get_of {k : Nat} {v : FModel} (h : D.models[k]? = some (some v)) : get D k = some (on D v) := by
  unfold Desk.get; rw [h]

theorem get_lt {k : Nat} {m : FModel} (h : get D k = some m) : k < D.models.length := by
  obtain ⟨v, hv, _⟩ := get_some h
  by_cases hk : k < D.models.length
  · exact hk
  · rw [List.getElem?_eq_none (Nat.le_of_not_lt hk)] at hv; cases hv

theorem get_push_some {c m : FModel} {k : Nat} : get (push D (some c)) k = some m ↔
    (k = D.models.length ∧ m = c) ∨ ∃ v, get D k = some (on D v) ∧ m = on (push D (some c)) v := by
  constructor
  · intro h
    obtain ⟨v, h3, rfl⟩ := get_some h
    simp only [push] at h3
    by_cases hk' : k < D.models.length
    · rw [List.getElem?_append_left hk'] at h3
      exact .inr ⟨v, get_of h3, rfl⟩
    · rw [List.getElem?_append_right (Nat.le_of_not_lt hk')] at h3
      cases hz : k - D.models.length with
      | zero => rw [hz] at h3; simp at h3; subst h3; exact .inl ⟨by omega, rfl⟩
      | succ n => rw [hz] at h3; simp at h3
  · rintro (⟨rfl, rfl⟩ | ⟨v, h, rfl⟩)
    · exact get_of (by simp [push])
    · obtain ⟨y, hy, e⟩ := get_some h
      have hl := get_lt h
      have : on (push D (some c)) v = on (push D (some c)) y := by
        have := congrArg (on (push D (some c))) e
        exact this
      rw [this]
      exact get_of (by simp only [push]; rw [List.getElem?_append_left hl]; exact hy)

theorem get_push_none {k : Nat} : get (push D none) k = get D k := by
  unfold Desk.get push
  by_cases hk : k < D.models.length
  · simp only [List.getElem?_append_left hk]; rfl
  · simp only [List.getElem?_append_right (Nat.le_of_not_lt hk), List.getElem?_eq_none (Nat.le_of_not_lt hk)]
    cases h : k - D.models.length <;> simp

theorem get_put {m' m : FModel} {k j : Nat} (hk : k < D.models.length) : get (put D k m') j = some m ↔
    (j = k ∧ m = m') ∨ j ≠ k ∧ ∃ v, get D j = some (on D v) ∧ m = on (put D k m') v := by
  constructor
  · intro h
    obtain ⟨v, h3, rfl⟩ := get_some h
    simp only [put] at h3
    by_cases hjk : k = j
    · subst hjk
      simp [hk] at h3
      subst h3
      exact .inl ⟨rfl, rfl⟩
    · rw [List.getElem?_set_ne hjk] at h3
      exact .inr ⟨Ne.symm hjk, v, get_of h3, rfl⟩
  · rintro (⟨rfl, rfl⟩ | ⟨hjk, v, h, rfl⟩)
    · exact get_of (by simp [put, hk])
    · obtain ⟨y, hy, e⟩ := get_some h
      have : on (put D k m') v = on (put D k m') y := by
        have := congrArg (on (put D k m')) e
        exact this
      rw [this]
      exact get_of (by simp only [put]; rw [List.getElem?_set_ne (Ne.symm hjk)]; exact hy)

theorem keeps_push (h : Exact D) {o : Option FModel} (ho : ∀ m, o = some m → Ledger (fun i => D.heap i ≠ none) m) : Exact (push D o) := by
  cases o with
  | none =>
    exact ⟨fun i => by simp only [get_push_none]; exact h.heap i, fun i j k m m' => by simp only [get_push_none]; exact h.one i j k m m',
      fun k m => by simp only [get_push_none]; exact h.once k m, fun k m => by simp only [get_push_none]; exact h.names k m, h.fresh⟩
  | some c =>
    have hc := ho c rfl
    have old : ∀ {k v i}, get D k = some (on D v) → Owned v i → D.heap i ≠ none := fun hg hO => (h.heap _).2 ⟨_, _, hg, hO⟩
    refine ⟨fun i => ?_, fun i j k m m' hj hk o1 o2 => ?_, fun k m hk => ?_, fun k m hk => ?_, hc.fresh⟩
    · refine (hc.heap i).trans ⟨?_, ?_⟩
      · rintro (hO | hG)
        · exact ⟨D.models.length, c, get_push_some.2 (.inl ⟨rfl, rfl⟩), mem_ownedIds.1 hO⟩
        · obtain ⟨k, m, h1, h2⟩ := (h.heap i).1 hG
          obtain ⟨v, _, rfl⟩ := get_some h1
          exact ⟨k, _, get_push_some.2 (.inr ⟨v, h1, rfl⟩), h2⟩
      · rintro ⟨k, m, hk, hO⟩
        rcases get_push_some.1 hk with ⟨rfl, rfl⟩ | ⟨v, hv, rfl⟩
        · exact .inl (mem_ownedIds.2 hO)
        · exact .inr (old hv hO)
    · rcases get_push_some.1 hj with ⟨rfl, rfl⟩ | ⟨v, hv, rfl⟩ <;> rcases get_push_some.1 hk with ⟨rfl, rfl⟩ | ⟨v', hv', rfl⟩
      · rfl
      · exact absurd (old hv' o2) (hc.apart i (mem_ownedIds.2 o1))
      · exact absurd (old hv o1) (hc.apart i (mem_ownedIds.2 o2))
      · exact h.one i j k _ _ hv hv' o1 o2
    · rcases get_push_some.1 hk with ⟨rfl, rfl⟩ | ⟨v, hv, rfl⟩
      · exact hc.once
      · exact h.once k (on D v) hv
    · rcases get_push_some.1 hk with ⟨rfl, rfl⟩ | ⟨v, hv, rfl⟩
      · exact hc.names
      · exact h.names k (on D v) hv

theorem keeps_put (h : Exact D) {k : Nat} {m m' : FModel} (hk : get D k = some m)
    (hm : Ledger (fun i => D.heap i ≠ none ∧ ¬ Owned m i) m') : Exact (put D k m') := by
  have hl := get_lt hk
  have old : ∀ {j v i}, j ≠ k → get D j = some (on D v) → Owned v i → D.heap i ≠ none ∧ ¬ Owned m i := fun hjk hg hO =>
    ⟨(h.heap _).2 ⟨_, _, hg, hO⟩, fun hO' => hjk (h.one _ _ _ _ _ hg hk hO hO')⟩
  refine ⟨fun i => ?_, fun i j j' x x' hj hj' o1 o2 => ?_, fun j x hj => ?_, fun j x hj => ?_, hm.fresh⟩
  · refine (hm.heap i).trans ⟨?_, ?_⟩
    · rintro (hO | ⟨hG1, hG2⟩)
      · exact ⟨k, m', (get_put hl).2 (.inl ⟨rfl, rfl⟩), mem_ownedIds.1 hO⟩
      · obtain ⟨j, x, h1, h2⟩ := (h.heap i).1 hG1
        have hjk : j ≠ k := by rintro rfl; rw [hk] at h1; cases h1; exact hG2 h2
        obtain ⟨v, _, rfl⟩ := get_some h1
        exact ⟨j, _, (get_put hl).2 (.inr ⟨hjk, v, h1, rfl⟩), h2⟩
    · rintro ⟨j, x, hj, hO⟩
      rcases (get_put hl).1 hj with ⟨rfl, rfl⟩ | ⟨hjk, v, hv, rfl⟩
      · exact .inl (mem_ownedIds.2 hO)
      · exact .inr (old hjk hv hO)
  · rcases (get_put hl).1 hj with ⟨rfl, rfl⟩ | ⟨hjk, v, hv, rfl⟩ <;> rcases (get_put hl).1 hj' with ⟨rfl, rfl⟩ | ⟨hjk', v', hv', rfl⟩
    · rfl
    · exact absurd (old hjk' hv' o2) (hm.apart i (mem_ownedIds.2 o1))
    · exact absurd (old hjk hv o1) (hm.apart i (mem_ownedIds.2 o2))
    · exact h.one i j j' _ _ hv hv' o1 o2
  · rcases (get_put hl).1 hj with ⟨rfl, rfl⟩ | ⟨hjk, v, hv, rfl⟩
    · exact hm.once
    · exact h.once j (on D v) hv
  · rcases (get_put hl).1 hj with ⟨rfl, rfl⟩ | ⟨hjk, v, hv, rfl⟩
    · exact hm.names
    · exact h.names j (on D v) hv

theorem keeps_commit (h : Exact D) {k : Nat} {m : FModel} (hk : get D k = some m) {os : List Op}
    (hs : done D k (m.commitOps E os) = some D') : Exact D' := by
  have h0 : Ledger (fun i => D.heap i ≠ none ∧ ¬ Owned m i) m := by
    have hh : m.heap = D.heap ∧ m.next = D.next := by obtain ⟨v, _, rfl⟩ := get_some hk; exact ⟨rfl, rfl⟩
    refine ⟨h.names k m hk, h.once k m hk, fun i => ?_, fun i hi hn => hn.2 (mem_ownedIds.1 hi), fun i => by rw [hh.1, hh.2]; exact h.fresh i⟩
    rw [hh.1, mem_ownedIds]
    constructor
    · intro hi
      by_cases ho : Owned m i
      · exact .inl ho
      · exact .inr ⟨hi, ho⟩
    · rintro (ho | ho)
      · exact (h.heap i).2 ⟨k, m, hk, ho⟩
      · exact ho.1
  have h1 := (ledger_closed _).commitOps (E := E) os h0
  cases e : m.commitOps E os with
  | ub => rw [e] at hs; cases hs
  | ok m' => rw [e] at hs h1; cases hs; exact keeps_put h hk h1
  | err _ m' => rw [e] at hs h1; cases hs; exact keeps_put h hk h1

theorem keeps_made (h : Exact D) {r : BuildRes} (hr : ∀ m, r = .built m → Ledger (fun i => D.heap i ≠ none) m)
    (hs : made D r = some D') : Exact D' := by
  cases r with
  | ub => cases hs
  | null => cases hs; exact keeps_push h (by simp)
  | built m => cases hs; exact keeps_push h (by intro m' e; cases e; exact hr m rfl)

theorem keeps_copy (h : Exact D) {k : Nat} {m : FModel} (hk : get D k = some m) {os : List Op}
    (hs : (m.copyTransaction E os).map (push D) = some D') : Exact D' := by
  obtain ⟨o, ho, rfl⟩ := Option.map_eq_some_iff.1 hs
  refine keeps_push h fun c hc => ?_
  subst hc
  obtain ⟨v, _, rfl⟩ := get_some hk
  exact ledger_copy h.fresh ho

theorem exact_step (h : Exact D) {o : DeskOp} (hs : step sci E D o = some D') : Exact D' := by
  cases o with
  | build calls => exact keeps_made h (fun m e => ledger_build (w := world D) h.fresh e) hs
  | load cwd x => exact keeps_made h (fun m e => ledger_load (w := world D) h.fresh e) hs
  | clone k =>
    simp only [step] at hs
    obtain ⟨m, hk, hs⟩ := Option.bind_eq_some_iff.1 hs
    refine keeps_made h (fun c e => ?_) hs
    obtain ⟨v, _, rfl⟩ := get_some hk
    exact ledger_clone (m := on D v) h.fresh e
  | modify k ops =>
    simp only [step] at hs
    obtain ⟨m, hk, hs⟩ := Option.bind_eq_some_iff.1 hs
    exact keeps_commit h hk hs
  | edit k es =>
    simp only [step] at hs
    obtain ⟨m, hk, hs⟩ := Option.bind_eq_some_iff.1 hs
    exact keeps_commit h hk hs
  | copy k ops =>
    simp only [step] at hs
    obtain ⟨m, hk, hs⟩ := Option.bind_eq_some_iff.1 hs
    exact keeps_copy h hk hs
  | copyEdit k es =>
    simp only [step] at hs
    obtain ⟨m, hk, hs⟩ := Option.bind_eq_some_iff.1 hs
    unfold runCopy at hs
    cases e : m.clone E with
    | ub => rw [e] at hs; cases hs
    | null => rw [e] at hs; cases hs
    | built c => rw [e] at hs; exact keeps_copy h hk hs
  | merge j k strict =>
    simp only [step] at hs
    obtain ⟨m1, hj, hs⟩ := Option.bind_eq_some_iff.1 hs
    obtain ⟨m2, _, hs⟩ := Option.bind_eq_some_iff.1 hs
    obtain ⟨o, ho, rfl⟩ := Option.map_eq_some_iff.1 hs
    refine keeps_push h fun c hc => ?_
    subst hc
    obtain ⟨v, _, rfl⟩ := get_some hj
    exact keep_merge (P := Ledger fun i => D.heap i ≠ none) (fun os c c' t e => ledger_copyRun os c c' t e)
      (fun c0 e => ledger_clone (m := on D v) h.fresh e) ho
  | delete k =>
    simp only [step] at hs
    obtain ⟨m, hk, rfl⟩ := Option.map_eq_some_iff.1 hs
    have hg : ∀ {j x}, get (freeAll D k m) j = some x → j ≠ k ∧ ∃ v, get D j = some (on D v) ∧ x = on (freeAll D k m) v := by
      intro j x hj
      obtain ⟨y, h3, rfl⟩ := get_some hj
      simp only [freeAll] at h3
      by_cases hjk : k = j
      · subst hjk
        rw [List.getElem?_set] at h3
        simp only [if_true] at h3
        split at h3 <;> cases h3
      · rw [List.getElem?_set_ne hjk] at h3
        exact ⟨Ne.symm hjk, y, get_of h3, rfl⟩
    refine ⟨fun i => ⟨fun hi => ?_, ?_⟩, fun i j j' x x' hj hj' o1 o2 => ?_, fun j x hj => ?_, fun j x hj => ?_, fun i hi => ?_⟩
    · simp only [freeAll] at hi
      by_cases hin : i ∈ m.features.map Prod.snd ++ m.rels
      · rw [if_pos hin] at hi; exact absurd rfl hi
      · rw [if_neg hin] at hi
        obtain ⟨j, x, h1, h2⟩ := (h.heap i).1 hi
        have hjk : k ≠ j := by
          rintro rfl
          rw [hk] at h1; cases h1
          exact hin (List.mem_append.2 h2)
        obtain ⟨y, h3, rfl⟩ := get_some h1
        exact ⟨j, on (freeAll D k m) y, get_of (by simp only [freeAll]; rw [List.getElem?_set_ne hjk]; exact h3), h2⟩
    · rintro ⟨j, x, hj, hO⟩
      obtain ⟨hjk, v, hv, rfl⟩ := hg hj
      have hin : i ∉ m.features.map Prod.snd ++ m.rels := fun hin =>
        hjk (h.one i j k _ _ hv hk hO (List.mem_append.1 hin))
      simp only [freeAll, if_neg hin]
      exact (h.heap i).2 ⟨j, _, hv, hO⟩
    · obtain ⟨_, v, hv, rfl⟩ := hg hj
      obtain ⟨_, v', hv', rfl⟩ := hg hj'
      exact h.one i j j' _ _ hv hv' o1 o2
    · obtain ⟨_, v, hv, rfl⟩ := hg hj
      exact h.once j (on D v) hv
    · obtain ⟨_, v, hv, rfl⟩ := hg hj
      exact h.names j (on D v) hv
    · simp only [freeAll] at hi
      by_cases hin : i ∈ m.features.map Prod.snd ++ m.rels
      · rw [if_pos hin] at hi; exact absurd rfl hi
      · rw [if_neg hin] at hi; exact h.fresh i hi

/-! ## The property -/

theorem exact_empty : Exact Desk.empty :=
  ⟨fun i => ⟨fun hi => absurd rfl hi, fun ⟨k, m, hk, _⟩ => by simp [Desk.get, Desk.empty] at hk⟩,
    fun i j k m m' hj => by simp [Desk.get, Desk.empty] at hj, fun k m hk => by simp [Desk.get, Desk.empty] at hk,
    fun k m hk => by simp [Desk.get, Desk.empty] at hk, fun i hi => absurd rfl hi⟩

/-- Every program, also with failing calls and with pointers into other models, keeps the heap exact: what is on the heap is owned
    by exactly one model, what a model owns is on the heap. -/
theorem C100_exact (sci : Str → Option Str) (E : Env) : ∀ (os : List DeskOp) (D D' : Desk), Exact D → run sci E D os = some D' → Exact D'
  | [], D, D', h1, h => by simp only [run] at h; cases h; exact h1
  | o :: os, D, D', h1, h => by
    simp only [run] at h
    obtain ⟨D1, h3, h4⟩ := Option.bind_eq_some_iff.1 h
    exact C100_exact sci E os D1 D' (exact_step h1 h3) h4

/-- Nothing is leaked: an object is on the heap exactly if a model the program has owns it, and then exactly one does. -/
theorem C100_no_leak (sci : Str → Option Str) (E : Env) {os : List DeskOp} (h : run sci E Desk.empty os = some D') (i : Id) :
    (D'.heap i ≠ none ↔ ∃ k m, get D' k = some m ∧ Owned m i) ∧
      ∀ j k m m', get D' j = some m → get D' k = some m' → Owned m i → Owned m' i → j = k :=
  have e := C100_exact sci E os Desk.empty D' exact_empty h
  ⟨e.heap i, e.one i⟩

/-- Once all models are gone, the heap is empty. -/
theorem C100_all_freed (sci : Str → Option Str) (E : Env) {os : List DeskOp} (h : run sci E Desk.empty os = some D')
    (hn : ∀ k, get D' k = none) : ∀ i, D'.heap i = none := by
  intro i
  cases hi : D'.heap i with
  | none => rfl
  | some n =>
    obtain ⟨k, m, hk, _⟩ := (C100_no_leak sci E h i).1.1 (by rw [hi]; simp)
    rw [hn k] at hk; cases hk

/-- A modify transaction or the destructor of one model never frees an object of another model, whatever pointers it was given. -/
theorem C100_others_stay (sci : Str → Option Str) (E : Env) {os : List DeskOp} {D : Desk} (h : run sci E Desk.empty os = some D)
    {k j : Nat} {o : DeskOp} (ho : (∃ ops, o = .modify k ops) ∨ (∃ es, o = .edit k es) ∨ o = .delete k) (hs : step sci E D o = some D')
    (hjk : j ≠ k) {m : FModel} (hj : get D j = some m) {i : Id} (hm : Owned m i) : D'.heap i ≠ none := by
  have e' := exact_step (C100_exact sci E os Desk.empty D exact_empty h) hs
  have key : ∀ {ops m0}, get D k = some m0 → done D k (m0.commitOps E ops) = some D' → D'.heap i ≠ none := by
    intro ops m0 hk hs
    obtain ⟨v, _, rfl⟩ := get_some hj
    have : ∀ m', D' = put D k m' → D'.heap i ≠ none := by
      rintro m' rfl
      exact (e'.heap i).2 ⟨j, _, (get_put (get_lt hk)).2 (.inr ⟨hjk, v, hj, rfl⟩), hm⟩
    cases e : m0.commitOps E ops with
    | ub => rw [e] at hs; cases hs
    | ok m' => rw [e] at hs; cases hs; exact this m' rfl
    | err _ m' => rw [e] at hs; cases hs; exact this m' rfl
  rcases ho with ⟨ops, rfl⟩ | ⟨es, rfl⟩ | rfl
  · simp only [step] at hs
    obtain ⟨m0, hk, hs⟩ := Option.bind_eq_some_iff.1 hs
    exact key hk hs
  · simp only [step] at hs
    obtain ⟨m0, hk, hs⟩ := Option.bind_eq_some_iff.1 hs
    exact key hk hs
  · simp only [step] at hs
    obtain ⟨m0, hk, rfl⟩ := Option.map_eq_some_iff.1 hs
    obtain ⟨v, hv, rfl⟩ := get_some hj
    exact (e'.heap i).2 ⟨j, _, get_of (by simp only [freeAll]; rw [List.getElem?_set_ne (Ne.symm hjk)]; exact hv), hm⟩

/-! ## Not vacuous -/

/-- Models built, loaded, cloned and edited in turns, one of them destroyed. -/
example (sci : Str → Option Str) (E : Env) : ∃ D, run sci E Desk.empty turns = some D ∧ Exact D := by
  obtain ⟨D, h1, _⟩ := C97_histories sci E (turns_go sci)
  exact ⟨D, h1, C100_exact sci E turns Desk.empty D exact_empty h1⟩

/-- A model is built and destroyed. -/
example (sci : Str → Option Str) (E : Env) : ∃ D, run sci E Desk.empty [.build (pairCalls false true (some .or) true), .delete 0] = some D ∧
    ∀ i, D.heap i = none := by
  have hg : GoesAll sci [] [.build (pairCalls false true (some .or) true), .delete 0] [none] :=
    .cons (.build (pair_buildable false true (some .or) true) (pair_known false true (some .or) true)) (.cons (.delete rfl) .nil)
  obtain ⟨D, h1, h2, _⟩ := C97_histories sci E hg
  refine ⟨D, h1, C100_all_freed sci E h1 fun k => ?_⟩
  cases k with
  | zero => exact (h2.2 0).2 rfl
  | succ k =>
    have hl := h2.1
    unfold Desk.get
    rw [List.getElem?_eq_none (by simp at hl; omega)]

end Verif.Props

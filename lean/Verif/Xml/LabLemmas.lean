import Verif.Xml.Lab
import Verif.Xml.DeskLemmas
/-! Lemmas: copy transactions among other models. -/

namespace Verif
open Verif.Spec Verif.Xml

variable {d : Desc} {c : FModel}

theorem copyExec_named (E : Env) (h : Describes d c) {e : Edit} (he : d.Can e) (hn : ∀ p x, e ≠ .move p x) {o : Op}
    (ho : ∀ a p, e = .add a p → ∃ i, o = .addFeature a (some i) ∧ c.nameOf i = some p)
    (hoe : (∀ a p, e ≠ .add a p) → ∃ m, o = e.op m) : c.copyExec E o = c.exec E (e.op c) := by
  have wc := h.wf
  have tr : ∀ {n}, d.Has n → ∃ i, c.translate (c.resolve (.name n)) = some (some i) ∧ c.resolve (.name n) = some i := by
    intro n hn
    obtain ⟨j, hj⟩ := (h.names n).2 hn
    have hg := getFeature_mem wc.names hj
    exact ⟨j, by simp only [FModel.resolve, FModel.translate, hg, nameOf_mem wc hj, Option.map_some], hg⟩
  cases e with
  | add a p =>
    obtain ⟨i, rfl, hi⟩ := ho a p rfl
    obtain ⟨j, hj⟩ := (h.names p).2 he.2.1
    have hg := getFeature_mem wc.names hj
    simp only [Edit.op, FModel.copyExec, FModel.translate, hi, Option.map_some, hg, FModel.exec]
  | move p x => exact absurd rfl (hn p x)
  | remove n b =>
    obtain ⟨m, rfl⟩ := hoe (by simp)
    obtain ⟨i, h1, h2⟩ := tr (.inr he.1)
    rw [h2] at h1
    simp only [Edit.op, FModel.copyExec, h2, h1, FModel.exec, FModel.execRemoveFeature, show c.resolve (.ptr (some i)) = some i from rfl]
  | group k n =>
    obtain ⟨m, rfl⟩ := hoe (by simp)
    obtain ⟨i, h1, h2⟩ := tr he.1
    simp only [Edit.op, FModel.copyExec, h1, FModel.exec, FModel.execAddRelationship]
    simp only [FModel.resolve] at h2 ⊢
    have : ∀ m' : FModel, m'.features = c.features → m'.getFeature n = some i := by
      intro m' e
      rw [← h2]; simp only [FModel.getFeature, e]
    rw [this]
    rfl
  | ungroup n =>
    obtain ⟨m, rfl⟩ := hoe (by simp)
    obtain ⟨k, hk⟩ := he
    obtain ⟨i, h1, h2⟩ := tr (h.groups_known _ hk)
    rw [h2] at h1
    simp only [Edit.op, FModel.copyExec, h2, h1, FModel.exec, FModel.execRemoveRelationship, show c.resolve (.ptr (some i)) = some i from rfl]
  | locate n r =>
    obtain ⟨m, rfl⟩ := hoe (by simp)
    obtain ⟨i, h1, h2⟩ := tr (.inr he)
    rw [h2] at h1
    simp only [Edit.op, FModel.copyExec, h2, h1, FModel.exec, FModel.execAddLocation, show c.resolve (.ptr (some i)) = some i from rfl]
  | unlocate n r =>
    obtain ⟨m, rfl⟩ := hoe (by simp)
    obtain ⟨a, ha, rfl, _⟩ := he
    obtain ⟨i, h1, h2⟩ := tr (.inr (List.mem_map.2 ⟨a, ha, rfl⟩))
    rw [h2] at h1
    simp only [Edit.op, FModel.copyExec, h2, h1, FModel.exec, FModel.execRemoveLocation, show c.resolve (.ptr (some i)) = some i from rfl]
  | constrain k t => obtain ⟨m, rfl⟩ := hoe (by simp); rfl
  | name s => obtain ⟨m, rfl⟩ := hoe (by simp); rfl
  | commit s => obtain ⟨m, rfl⟩ := hoe (by simp); rfl
  | path s => obtain ⟨m, rfl⟩ := hoe (by simp); rfl
  | root n => obtain ⟨m, rfl⟩ := hoe (by simp); rfl

namespace Lab
open Verif.Desk

/-! ### Nothing else is touched -/

theorem Same.refl (D : Desk) (j : Nat) : Desk.Same D D j := fun m hm => ⟨m, hm, rfl, fun _ _ => rfl⟩

theorem same_reset {D D' : Desk} (t : Tidy D) {o : Option Nat} (h : reset D o = some D') {j : Nat} (hj : o ≠ some j) : Desk.Same D D' j := by
  cases o with
  | none => cases h; exact Same.refl _ _
  | some k =>
    simp only [reset, Option.map_eq_some_iff] at h
    obtain ⟨m, h1, rfl⟩ := h
    exact same_freeAll t h1 (fun e => hj (by rw [e]))

theorem same_call {E : Env} {L L' : Lab} (t : Tidy L.desk) {x : CTx} {o : Op} {r : LRes} (h : call E L x o = some (L', r)) {j : Nat}
    (hj : x.copy ≠ some j) : Desk.Same L.desk L'.desk j := by
  unfold call at h
  cases hx : x.copy with
  | none =>
    rw [hx] at h
    simp only [Option.map_eq_some_iff] at h
    obtain ⟨_, _, h⟩ := h
    cases h
    exact Same.refl _ _
  | some k =>
    rw [hx] at h
    simp only [Option.bind_eq_some_iff] at h
    obtain ⟨c, h1, h2⟩ := h
    have hjk : j ≠ k := fun e => hj (by rw [hx, e])
    have rg := (t.region h1).copyExec (E := E) o
    cases h3 : c.copyExec E o with
    | ub => rw [h3] at h2; cases h2
    | ok c' => rw [h3] at h2 rg; cases h2; exact same_put t h1 rg hjk
    | err e c' => rw [h3] at h2 rg; cases h2; exact same_put t h1 rg hjk

theorem same_abort {L L' : Lab} (t : Tidy L.desk) {n : Nat} {x : CTx} (h : abortTx L n x = some L') {j : Nat} (hj : x.copy ≠ some j) :
    Desk.Same L.desk L'.desk j := by
  simp only [abortTx, Option.map_eq_some_iff] at h
  obtain ⟨D, h1, rfl⟩ := h
  exact same_reset t h1 hj

theorem untouched {L L' : Lab} (t : Tidy L.desk) {sci : Str → Option Str} {E : Env} {o : LabOp} (ho : OwnLab L o) {r : LRes}
    (hs : step sci E L o = some (L', r)) {j : Nat} (hj : ¬ Target L o j) : Desk.Same L.desk L'.desk j := by
  cases o with
  | desk o =>
    simp only [step] at hs
    by_cases hb : (named o).any (held L) = true
    · rw [if_pos hb] at hs; cases hs
    · rw [if_neg hb, Option.map_eq_some_iff] at hs
      obtain ⟨D, h1, h2⟩ := hs
      cases h2
      exact Desk.untouched t ho h1 hj
  | opens k =>
    simp only [step] at hs
    by_cases hb : held L k = true
    · rw [if_pos hb] at hs; cases hs
    · rw [if_neg hb, Option.bind_eq_some_iff] at hs
      obtain ⟨m, h1, h2⟩ := hs
      by_cases hb : (E.asserts && !decide (m.consistent E = some true)) = true
      · rw [if_pos hb] at h2; cases h2
      · rw [if_neg hb] at h2
        cases h3 : m.clone E with
        | ub => rw [h3] at h2; cases h2
        | null => rw [h3] at h2; cases h2; exact Same.refl _ _
        | built c =>
          rw [h3] at h2; cases h2
          have f := frame_clone (t.fresh_get h1) h3
          rw [(get_heap h1).1, (get_heap h1).2] at f
          exact same_push t f
  | call n o =>
    simp only [step] at hs
    cases hx : L.txs[n]? with
    | none => rw [hx] at hs; cases hs
    | some x =>
      cases x with
      | none => rw [hx] at hs; cases hs
      | some x => rw [hx] at hs; exact same_call t hs (fun e => hj ⟨x, hx, e⟩)
  | edit n src e =>
    simp only [step] at hs
    cases hx : L.txs[n]? with
    | none => rw [hx] at hs; cases hs
    | some x =>
      cases x with
      | none => rw [hx] at hs; cases hs
      | some x => rw [hx] at hs; exact same_call t hs (fun e => hj ⟨x, hx, e⟩)
  | commit n =>
    simp only [step] at hs
    cases hx : L.txs[n]? with
    | none => rw [hx] at hs; cases hs
    | some x =>
      cases x with
      | none => rw [hx] at hs; cases hs
      | some x =>
        rw [hx] at hs
        have ab : (abortTx L n x).map (fun L => (L, LRes.err .aborted)) = some (L', r) → Desk.Same L.desk L'.desk j := by
          intro h
          rw [Option.map_eq_some_iff] at h
          obtain ⟨_, h1, h2⟩ := h
          cases h2
          exact same_abort t h1 (fun e => hj ⟨x, hx, e⟩)
        obtain ⟨b, o⟩ := x
        cases b <;> cases o <;> try exact ab hs
        simp only [Option.bind_eq_some_iff] at hs
        obtain ⟨c, h1, h2⟩ := hs
        cases hc : c.consistent E with
        | none => rw [hc] at h2; cases h2
        | some b =>
          rw [hc] at h2
          cases b with
          | false => exact ab h2
          | true => cases h2; exact Same.refl _ _
  | abort n =>
    simp only [step] at hs
    cases hx : L.txs[n]? with
    | none => rw [hx] at hs; cases hs
    | some x =>
      cases x with
      | none => rw [hx] at hs; cases hs
      | some x =>
        rw [hx] at hs
        simp only [Option.map_eq_some_iff] at hs
        obtain ⟨_, h1, h2⟩ := hs
        cases h2
        exact same_abort t h1 (fun e => hj ⟨x, hx, e⟩)
  | move n =>
    simp only [step] at hs
    cases hx : L.txs[n]? with
    | none => rw [hx] at hs; cases hs
    | some x =>
      cases x with
      | none => rw [hx] at hs; cases hs
      | some x => rw [hx] at hs; cases hs; exact Same.refl _ _
  | assign s n =>
    simp only [step] at hs
    cases hy : L.txs[s]? with
    | none => rw [hy] at hs; cases hs
    | some y =>
      cases y with
      | none => rw [hy] at hs; cases hs
      | some y =>
        rw [hy] at hs
        cases hx : L.txs[n]? with
        | none => rw [hx] at hs; cases hs
        | some x =>
          cases x with
          | none => rw [hx] at hs; cases hs
          | some x =>
            rw [hx] at hs
            simp only at hs
            by_cases e : s = n
            · rw [if_pos e] at hs; cases hs; exact Same.refl _ _
            · rw [if_neg e, Option.map_eq_some_iff] at hs
              obtain ⟨D, h1, h2⟩ := hs
              cases h2
              exact same_reset t h1 (fun e => hj ⟨y, hy, e⟩)
  | destroy n =>
    simp only [step] at hs
    cases hx : L.txs[n]? with
    | none => rw [hx] at hs; cases hs
    | some x =>
      cases x with
      | none => rw [hx] at hs; cases hs
      | some x =>
        rw [hx] at hs
        simp only at hs
        by_cases hb : (E.asserts && uncommitted x) = true
        · rw [if_pos hb] at hs; cases hs
        · rw [if_neg hb, Option.map_eq_some_iff] at hs
          obtain ⟨D, h1, h2⟩ := hs
          cases h2
          exact same_reset t h1 (fun e => hj ⟨x, hx, e⟩)

/-! ### As the descriptions say -/

/-- As told, and a transaction with a copy can go on. -/
structure LabOk (L : Lab) (T : Told) : Prop where
  desk : DeskOk L.desk T.models
  txs : L.txs.map (Option.map CTx.copy) = T.txs
  open' : ∀ x k, some x ∈ L.txs → x.copy = some k → x.cont = true
  live : ∀ (t k : Nat), T.txs[t]? = some (some (some k)) → ∃ d, T.models[k]? = some (some d)
  sole : ∀ (s t k : Nat), T.txs[s]? = some (some (some k)) → T.txs[t]? = some (some (some k)) → s = t

theorem labOk_held {L : Lab} {T : Told} (g : LabOk L T) {k : Nat} (h : ¬ T.Held k) : held L k = false := by
  cases hh : held L k with
  | false => rfl
  | true =>
    refine absurd ?_ h
    unfold held at hh
    rw [List.any_eq_true] at hh
    obtain ⟨x, h1, h2⟩ := hh
    cases x with
    | none => cases h2
    | some x =>
      unfold Told.Held
      rw [← g.txs]
      exact List.mem_map.2 ⟨some x, h1, by simp only [decide_eq_true_eq] at h2; rw [Option.map_some, h2]⟩

theorem labOk_tx {L : Lab} {T : Told} (g : LabOk L T) {t : Nat} {o : Option Nat} (h : T.txs[t]? = some (some o)) :
    ∃ x, L.txs[t]? = some (some x) ∧ x.copy = o ∧ some x ∈ L.txs := by
  rw [← g.txs, List.getElem?_map, Option.map_eq_some_iff] at h
  obtain ⟨y, h1, h2⟩ := h
  rw [Option.map_eq_some_iff] at h2
  obtain ⟨x, rfl, h3⟩ := h2
  exact ⟨x, h1, h3, List.mem_of_getElem? h1⟩

theorem set_same {α : Type} {l : List α} {t : Nat} {x : α} (h : l[t]? = some x) : l.set t x = l := by
  apply List.ext_getElem?
  intro i
  by_cases e : t = i
  · subst e
    rw [List.getElem?_set_self (List.getElem?_eq_some_iff.1 h).1, h]
  · rw [List.getElem?_set_ne e]

theorem set_get {α : Type} {l : List α} {t s : Nat} {x y : α} (h : (l.set t x)[s]? = some y) : (s = t ∧ y = x) ∨ (s ≠ t ∧ l[s]? = some y) := by
  by_cases e : s = t
  · subst e
    have hl : s < l.length := by
      have := (List.getElem?_eq_some_iff.1 h).1
      simpa using this
    rw [List.getElem?_set_self hl] at h
    cases h
    exact .inl ⟨rfl, rfl⟩
  · rw [List.getElem?_set_ne (Ne.symm e)] at h
    exact .inr ⟨e, h⟩

theorem open_set {l : List (Option CTx)} (h : ∀ x k, some x ∈ l → x.copy = some k → x.cont = true) {t : Nat} {y : CTx}
    (hy : ∀ k, y.copy = some k → False) : ∀ x k, some x ∈ l.set t (some y) → x.copy = some k → x.cont = true := by
  intro x k hx hk
  rcases List.mem_or_eq_of_mem_set hx with hx | hx
  · exact h x k hx hk
  · cases hx; exact absurd hk (hy k)

theorem live_set {l : List (Option (Option Nat))} {ds : List (Option Desc)}
    (h : ∀ (t k : Nat), l[t]? = some (some (some k)) → ∃ d, ds[k]? = some (some d)) {t : Nat} {y : Option (Option Nat)}
    (hy : ∀ k, some (some k) = y → False) : ∀ (s k : Nat), (l.set t y)[s]? = some (some (some k)) → ∃ d, ds[k]? = some (some d) := by
  intro s k hs
  rcases set_get hs with ⟨_, e⟩ | ⟨_, e⟩
  · exact absurd e (hy k)
  · exact h s k e

theorem sole_set {l : List (Option (Option Nat))} (h : ∀ (s t k : Nat), l[s]? = some (some (some k)) → l[t]? = some (some (some k)) → s = t)
    {n : Nat} {y : Option (Option Nat)} (hy : ∀ k, some (some k) = y → False) :
    ∀ (s t k : Nat), (l.set n y)[s]? = some (some (some k)) → (l.set n y)[t]? = some (some (some k)) → s = t := by
  intro s t k hs ht
  rcases set_get hs with ⟨_, e⟩ | ⟨_, e⟩
  · exact absurd e (hy k)
  · rcases set_get ht with ⟨_, e'⟩ | ⟨_, e'⟩
    · exact absurd e' (hy k)
    · exact h s t k e e'

theorem moved_from {l : List (Option (Option Nat))} {t s j : Nat} {o : Option Nat} (_ : l[t]? = some (some o))
    (h : (l.set t (some none) ++ [some o])[s]? = some (some (some j))) : (s ≠ t ∧ l[s]? = some (some (some j))) ∨ (s = l.length ∧ o = some j) := by
  by_cases hl : s < l.length
  · rw [List.getElem?_append_left (by simpa using hl)] at h
    rcases set_get h with ⟨_, e⟩ | e
    · cases e
    · exact .inl e
  · by_cases e : s = l.length
    · subst e
      simp at h
      exact .inr ⟨rfl, h⟩
    · rw [List.getElem?_eq_none (by simp; omega)] at h
      cases h

theorem assigned_from {l : List (Option (Option Nat))} {s t q j : Nat} {o : Option Nat} (_ : s ≠ t) (_ : l[s]? = some (some none))
    (_ : l[t]? = some (some o)) (h : ((l.set s (some o)).set t (some none))[q]? = some (some (some j))) :
    (q ≠ s ∧ q ≠ t ∧ l[q]? = some (some (some j))) ∨ (q = s ∧ o = some j) := by
  rcases set_get h with ⟨_, e⟩ | ⟨e1, h⟩
  · cases e
  · rcases set_get h with ⟨e, e'⟩ | ⟨e2, h⟩
    · cases e'; exact .inr ⟨e, rfl⟩
    · exact .inl ⟨e2, e1, h⟩

theorem opened_from {l : List (Option (Option Nat))} {s j n : Nat} (h : (l ++ [some (some n)])[s]? = some (some (some j))) :
    l[s]? = some (some (some j)) ∨ (s = l.length ∧ j = n) := by
  by_cases hl : s < l.length
  · rw [List.getElem?_append_left hl] at h; exact .inl h
  · by_cases e : s = l.length
    · subst e
      simp at h
      exact .inr ⟨rfl, h.symm⟩
    · rw [List.getElem?_eq_none (by simp; omega)] at h
      cases h

theorem some_set {ds : List (Option Desc)} {k j : Nat} {x : Desc} (h : ∃ d, ds[j]? = some (some d)) : ∃ d, (ds.set k (some x))[j]? = some (some d) := by
  obtain ⟨d, hd⟩ := h
  by_cases e : k = j
  · subst e
    exact ⟨x, List.getElem?_set_self (List.getElem?_eq_some_iff.1 hd).1⟩
  · exact ⟨d, by rw [List.getElem?_set_ne e, hd]⟩

theorem goes_other {sci : Str → Option Str} {ds ds' : List (Option Desc)} {o : DeskOp} (h : Goes sci ds o ds') {k : Nat} (hk : k ∉ named o)
    (hd : ∃ d, ds[k]? = some (some d)) : ∃ d, ds'[k]? = some (some d) := by
  have app : ∀ x, ∃ d, (ds ++ [x])[k]? = some (some d) := by
    intro x
    obtain ⟨d, hd⟩ := hd
    exact ⟨d, by rw [List.getElem?_append_left (List.getElem?_eq_some_iff.1 hd).1, hd]⟩
  cases h with
  | delete h1 =>
    obtain ⟨d, hd⟩ := hd
    refine ⟨d, ?_⟩
    rw [List.getElem?_set_ne, hd]
    rintro rfl
    exact hk (by simp [named])
  | edit h1 h2 => exact some_set hd
  | _ => exact app _

theorem over_again {L : Lab} {T : Told} (g : LabOk L T) {t : Nat} (h : T.txs[t]? = some (some none)) :
    LabOk ⟨L.desk, L.txs.set t (some ⟨false, none⟩)⟩ T := by
  refine ⟨g.desk, ?_, open_set g.open' (fun k h => by cases h), g.live, g.sole⟩
  rw [List.map_set, g.txs]
  exact set_same h

theorem labOk_step {sci : Str → Option Str} {E : Env} {L : Lab} {T T' : Told} {o : LabOp} {r : LRes} (g : LabOk L T) (h : Does sci T o T' r) :
    ∃ L', step sci E L o = some (L', r) ∧ LabOk L' T' := by
  cases h with
  | @desk o ds' h1 h2 =>
    obtain ⟨D', h3, g'⟩ := deskOk_step (E := E) g.desk h2
    refine ⟨{ L with desk := D' }, ?_, ⟨g', g.txs, g.open', ?_, g.sole⟩⟩
    · simp only [step]
      rw [if_neg, h3]; rfl
      intro hb
      rw [List.any_eq_true] at hb
      obtain ⟨k, k1, k2⟩ := hb
      rw [labOk_held g (h1 k k1)] at k2
      cases k2
    · intro t k ht
      exact goes_other h2 (fun hn => h1 k hn (List.mem_of_getElem? ht)) (g.live t k ht)
  | @opens k d h0 h1 h2 =>
    obtain ⟨m, h3, h4⟩ := (g.desk.is.2 k).1 d h1
    have hk := g.desk.known k d h1
    obtain ⟨c, h5, h6⟩ := clone_describes h4 E h2 hk
    have f := frame_clone (g.desk.tidy.fresh_get h3) h5
    rw [(get_heap h3).1, (get_heap h3).2] at f
    refine ⟨⟨push L.desk (some c), L.txs ++ [some ⟨true, some L.desk.models.length⟩]⟩, ?_, ⟨deskOk_push g.desk f h6 ?_, ?_, ?_, ?_, ?_⟩⟩
    · simp only [step]
      rw [labOk_held g h0, if_neg (by simp), h3, Option.bind_some, if_neg (by simp [consistent_of_WF h4.wf])]
      simp only [h5]
    · intro x hx n hn
      rw [cloned_names]
      exact hk x hx n hn
    · simp only [List.map_append, g.txs, List.map_cons, List.map_nil, Option.map_some]
      rw [g.desk.is.1]
    · intro x k hx hk
      rcases List.mem_append.1 hx with hx | hx
      · exact g.open' x k hx hk
      · simp at hx; rw [hx]
    · intro t j hj
      rcases opened_from hj with hj | ⟨_, rfl⟩
      · obtain ⟨d', hd'⟩ := g.live t j hj
        exact ⟨d', by rw [List.getElem?_append_left (List.getElem?_eq_some_iff.1 hd').1, hd']⟩
      · exact ⟨d.cloned, by simp⟩
    · intro s t j hj hj'
      have no : ∀ q : Nat, T.txs[q]? ≠ some (some (some T.models.length)) := by
        intro q hq
        obtain ⟨d', hd'⟩ := g.live q _ hq
        simp at hd'
      rcases opened_from hj with hj | ⟨e, rfl⟩ <;> rcases opened_from hj' with hj' | ⟨e', e''⟩
      · exact g.sole s t j hj hj'
      · subst e''; exact absurd hj (no s)
      · exact absurd hj' (no t)
      · rw [e, e']
  | @edit t k d src e h1 h2 h3 h4 =>
    obtain ⟨x, x1, x2, x3⟩ := labOk_tx g h1
    obtain ⟨c, c1, c2⟩ := (g.desk.is.2 k).1 d h2
    have hk := g.desk.known k d h2
    have key : ∃ c', c.copyExec E (callOf L.desk x src e) = .ok c' ∧ Describes (d.inCopy e) c' ∧ ConstraintsKnown (d.inCopy e) := by
      by_cases hm : ∃ p y, e = .move p y
      · obtain ⟨p, y, rfl⟩ := hm
        exact ⟨c, rfl, c2, hk⟩
      · have hn : ∀ p y, e ≠ .move p y := fun p y he => hm ⟨p, y, he⟩
        have he : d.Can e := h3.resolve_left hm
        obtain ⟨c', k1, k2, k3, _⟩ := describes_edit E c2 hk he (m0 := c) (by
          rintro a p rfl
          obtain ⟨j, hj⟩ := (c2.names p).2 he.2.1
          exact ⟨j, getFeature_mem c2.wf.names hj, hj⟩)
        have : c.copyExec E (callOf L.desk x src e) = c.exec E (e.op c) := by
          refine copyExec_named E c2 he hn ?_ ?_
          · rintro a p rfl
            cases src with
            | none =>
              obtain ⟨j, hj⟩ := (c2.names p).2 he.2.1
              exact ⟨j, by simp only [callOf, x2, Option.bind_some, c1, getFeature_mem c2.wf.names hj], nameOf_mem c2.wf hj⟩
            | some j =>
              obtain ⟨d', y1, y2⟩ := h4 a p j rfl rfl
              obtain ⟨m, m1, m2⟩ := (g.desk.is.2 j).1 d' y1
              obtain ⟨i, hi⟩ := (m2.names p).2 y2
              refine ⟨i, by simp only [callOf, m1, Option.bind_some, getFeature_mem m2.wf.names hi], ?_⟩
              have := nameOf_mem m2.wf hi
              unfold FModel.nameOf FModel.feat? at this ⊢
              rw [(get_heap c1).1]
              rwa [(get_heap m1).1] at this
          · intro hna
            cases e <;> first | exact absurd rfl (hna _ _) | exact ⟨world L.desk, rfl⟩
        rw [this, inCopy_edit hn]
        exact ⟨c', k1, k2, k3⟩
    obtain ⟨c', k1, k2, k3⟩ := key
    have rg := (g.desk.tidy.region c1).copyExec (E := E) (callOf L.desk x src e)
    rw [k1] at rg
    refine ⟨{ L with desk := put L.desk k c' }, ?_, ⟨deskOk_put g.desk c1 rg k2 k3, g.txs, g.open', ?_, g.sole⟩⟩
    · simp only [step, x1, call, x2, c1, Option.bind_some, k1]
    · intro s j hj
      exact some_set (g.live s j hj)
  | @commit t k h1 =>
    obtain ⟨x, x1, x2, x3⟩ := labOk_tx g h1
    have hc := g.open' x k x3 x2
    have hlt := g.live t k h1
    obtain ⟨d, hd⟩ := hlt
    obtain ⟨c, c1, c2⟩ := (g.desk.is.2 k).1 d hd
    obtain ⟨b, o⟩ := x
    cases hc; cases x2
    refine ⟨{ L with txs := L.txs.set t (some ⟨true, none⟩) }, ?_, ⟨g.desk, ?_, ?_, ?_, ?_⟩⟩
    · simp only [step, x1, c1, Option.bind_some, consistent_of_WF c2.wf]
    · rw [List.map_set, g.txs]; rfl
    · exact open_set g.open' (fun k h => by cases h)
    · exact live_set g.live (fun k h => by cases h)
    · exact sole_set g.sole (fun k h => by cases h)
  | @again t h1 =>
    obtain ⟨x, x1, x2, x3⟩ := labOk_tx g h1
    have hab : abortTx L t x = some ⟨L.desk, L.txs.set t (some ⟨false, none⟩)⟩ := by simp only [abortTx, x2, reset, Option.map_some]
    refine ⟨⟨L.desk, L.txs.set t (some ⟨false, none⟩)⟩, ?_, over_again g h1⟩
    obtain ⟨b, o⟩ := x
    cases x2
    simp only [step, x1]
    cases b <;> simp only [hab, Option.map_some]
  | @abort t k h1 =>
    obtain ⟨x, x1, x2, x3⟩ := labOk_tx g h1
    obtain ⟨d, hd⟩ := g.live t k h1
    obtain ⟨c, c1, c2⟩ := (g.desk.is.2 k).1 d hd
    refine ⟨⟨freeAll L.desk k c, L.txs.set t (some ⟨false, none⟩)⟩, ?_, ⟨deskOk_freeAll g.desk c1, ?_, ?_, ?_, ?_⟩⟩
    · simp only [step, x1, abortTx, x2, reset, c1, Option.map_some]
    · show (L.txs.set t (some ⟨false, none⟩)).map (Option.map CTx.copy) = T.txs.set t (some none)
      rw [List.map_set, g.txs]; rfl
    · exact open_set g.open' (fun k h => by cases h)
    · intro s j hj
      by_cases e : s = t
      · subst e
        rw [List.getElem?_set_self (List.getElem?_eq_some_iff.1 h1).1] at hj
        cases hj
      · rw [List.getElem?_set_ne (Ne.symm e)] at hj
        obtain ⟨d', hd'⟩ := g.live s j hj
        have : k ≠ j := by
          rintro rfl
          exact e (g.sole s t k hj h1)
        exact ⟨d', by show (T.models.set k none)[j]? = _; rw [List.getElem?_set_ne this, hd']⟩
    · exact sole_set g.sole (fun k h => by cases h)
  | @aborted t h1 =>
    obtain ⟨x, x1, x2, x3⟩ := labOk_tx g h1
    refine ⟨⟨L.desk, L.txs.set t (some ⟨false, none⟩)⟩, ?_, over_again g h1⟩
    simp only [step, x1, abortTx, x2, reset, Option.map_some]
  | @move t o h1 =>
    obtain ⟨x, x1, x2, x3⟩ := labOk_tx g h1
    refine ⟨{ L with txs := (L.txs.set t (some { x with copy := none })) ++ [some x] }, ?_, ⟨g.desk, ?_, ?_, ?_, ?_⟩⟩
    · simp only [step, x1]
    · rw [List.map_append, List.map_set, g.txs]
      simp only [Option.map_some, List.map_cons, List.map_nil, x2]
    · intro y k hy hk
      rcases List.mem_append.1 hy with hy | hy
      · rcases List.mem_or_eq_of_mem_set hy with hy | hy
        · exact g.open' y k hy hk
        · cases hy; cases hk
      · rcases List.mem_singleton.1 hy with hy
        cases hy
        exact g.open' x k x3 hk
    · intro s j hj
      rcases moved_from h1 hj with hj | ⟨_, hj⟩
      · exact g.live s j hj.2
      · subst hj; exact g.live t j h1
    · intro s s' j hj hj'
      rcases moved_from h1 hj with ⟨e, k1⟩ | ⟨e, k1⟩ <;> rcases moved_from h1 hj' with ⟨e', k2⟩ | ⟨e', k2⟩
      · exact g.sole s s' j k1 k2
      · subst k2; exact absurd (g.sole s t j k1 h1) e
      · subst k1; exact absurd (g.sole s' t j k2 h1) e'
      · rw [e, e']
  | @assign s t o h0 h1 h2 =>
    obtain ⟨y, y1, y2, y3⟩ := labOk_tx g h1
    obtain ⟨x, x1, x2, x3⟩ := labOk_tx g h2
    refine ⟨⟨L.desk, (L.txs.set s (some x)).set t (some { x with copy := none })⟩, ?_, ⟨g.desk, ?_, ?_, ?_, ?_⟩⟩
    · simp only [step, x1, y1, y2, reset, Option.map_some, if_neg h0]
    · rw [List.map_set, List.map_set, g.txs]
      simp only [Option.map_some, x2]
    · intro z k hz hk
      rcases List.mem_or_eq_of_mem_set hz with hz | hz
      · rcases List.mem_or_eq_of_mem_set hz with hz | hz
        · exact g.open' z k hz hk
        · cases hz; exact g.open' x k x3 hk
      · cases hz; cases hk
    · intro q j hj
      rcases assigned_from h0 h1 h2 hj with ⟨_, _, hj⟩ | ⟨_, hj⟩
      · exact g.live q j hj
      · subst hj; exact g.live t j h2
    · intro q q' j hj hj'
      rcases assigned_from h0 h1 h2 hj with ⟨_, e, k1⟩ | ⟨e, k1⟩ <;> rcases assigned_from h0 h1 h2 hj' with ⟨_, e', k2⟩ | ⟨e', k2⟩
      · exact g.sole q q' j k1 k2
      · subst k2; exact absurd (g.sole q t j k1 h2) e
      · subst k1; exact absurd (g.sole q' t j k2 h2) e'
      · rw [e, e']
  | @destroy t h1 =>
    obtain ⟨x, x1, x2, x3⟩ := labOk_tx g h1
    refine ⟨⟨L.desk, L.txs.set t none⟩, ?_, ⟨g.desk, ?_, ?_, ?_, ?_⟩⟩
    · simp only [step, x1, x2, uncommitted, reset, Option.map_some, Option.isSome_none, Bool.and_false]
      rfl
    · rw [List.map_set, g.txs]; rfl
    · intro z k hz hk
      rcases List.mem_or_eq_of_mem_set hz with hz | hz
      · exact g.open' z k hz hk
      · cases hz
    · exact live_set g.live (fun k h => by cases h)
    · exact sole_set g.sole (fun k h => by cases h)

theorem labOk_run {sci : Str → Option Str} {E : Env} {T T' : Told} {os : List LabOp} {rs : List LRes} (h : AllDoes sci T os T' rs) :
    ∀ {L : Lab}, LabOk L T → ∃ L', run sci E L os = some (L', rs) ∧ LabOk L' T' := by
  induction h with
  | nil => exact fun g => ⟨_, rfl, g⟩
  | cons h1 _ ih =>
    intro L g
    obtain ⟨L1, h2, g1⟩ := labOk_step (E := E) g h1
    obtain ⟨L2, h3, g2⟩ := ih g1
    exact ⟨L2, by simp only [run, h2, h3, Option.map_some], g2⟩

theorem labOk_empty : LabOk empty ⟨[], []⟩ :=
  ⟨deskOk_empty, rfl, fun _ _ h => (by cases h), fun t k h => (by simp at h), fun s t k h => by simp at h⟩

/-! ### Whatever the program does -/

/-- A transaction holds the model. -/
def Holds (l : List (Option CTx)) (t k : Nat) : Prop := ∃ x, l[t]? = some (some x) ∧ x.copy = some k

/-- No copy is in two transactions. -/
structure Sole (L : Lab) : Prop where
  one : ∀ s t k, Holds L.txs s k → Holds L.txs t k → s = t
  old : ∀ t k, Holds L.txs t k → k < L.desk.models.length

/-- What a step makes of the transactions. -/
structure Keeps (L L' : Lab) (r : LRes) : Prop where
  sole : Sole L'
  grows : L.desk.models.length ≤ L'.desk.models.length
  back : ∀ t k, Holds L'.txs t k → (∃ s, Holds L.txs s k) ∨ L.desk.models.length ≤ k
  gives : ∀ k, r = .model k → (∃ s, Holds L.txs s k) ∧ ∀ t, ¬ Holds L'.txs t k

theorem holds_set {l : List (Option CTx)} {n : Nat} {y : Option CTx} {t k : Nat} (h : Holds (l.set n y) t k) :
    (t = n ∧ ∃ x, y = some x ∧ x.copy = some k) ∨ (t ≠ n ∧ Holds l t k) := by
  obtain ⟨x, h1, h2⟩ := h
  rcases set_get h1 with ⟨e, e'⟩ | ⟨e, e'⟩
  · exact .inl ⟨e, x, e'.symm, h2⟩
  · exact .inr ⟨e, x, e', h2⟩

/-- A transaction is without a copy afterwards. -/
theorem keeps_drop {L : Lab} (hs : Sole L) {D : Desk} {n : Nat} {y : Option CTx} (hy : ∀ x, y = some x → x.copy = none)
    (hl : L.desk.models.length = D.models.length) {r : LRes}
    (hr : ∀ k, r = .model k → Holds L.txs n k) : Keeps L ⟨D, L.txs.set n y⟩ r := by
  have hh : ∀ t k, Holds (L.txs.set n y) t k → t ≠ n ∧ Holds L.txs t k := by
    intro t k h
    rcases holds_set h with ⟨_, x, h1, h2⟩ | h
    · rw [hy x h1] at h2; cases h2
    · exact h
  refine ⟨⟨fun s t k h1 h2 => hs.one s t k (hh s k h1).2 (hh t k h2).2, fun t k h => hl ▸ hs.old t k (hh t k h).2⟩, Nat.le_of_eq hl,
    fun t k h => .inl ⟨t, (hh t k h).2⟩, ?_⟩
  intro k hk
  refine ⟨⟨n, hr k hk⟩, fun t h => ?_⟩
  exact (hh t k h).1 (hs.one t n k (hh t k h).2 (hr k hk))

theorem keeps_desk {L : Lab} (hs : Sole L) {D : Desk} (hl : L.desk.models.length ≤ D.models.length) {r : LRes} (hr : ∀ k, r ≠ .model k) :
    Keeps L ⟨D, L.txs⟩ r :=
  ⟨⟨hs.one, fun t k h => Nat.lt_of_lt_of_le (hs.old t k h) hl⟩, hl, fun t _ h => .inl ⟨t, h⟩, fun k h => absurd h (hr k)⟩

theorem len_reset {D D' : Desk} {o : Option Nat} (h : reset D o = some D') : D.models.length = D'.models.length := by
  cases o with
  | none => cases h; rfl
  | some k =>
    simp only [reset, Option.map_eq_some_iff] at h
    obtain ⟨m, _, rfl⟩ := h
    simp [freeAll]

theorem len_step {sci : Str → Option Str} {E : Env} {D D' : Desk} {o : DeskOp} (h : Desk.step sci E D o = some D') :
    D.models.length ≤ D'.models.length := by
  have pu : ∀ x, D.models.length ≤ (push D x).models.length := by intro x; cases x <;> simp [push]
  have mk : ∀ b, made D b = some D' → D.models.length ≤ D'.models.length := by
    intro b hb
    cases b <;> cases hb <;> exact pu _
  have dn : ∀ k b, done D k b = some D' → D.models.length ≤ D'.models.length := by
    intro k b hb
    cases b <;> cases hb <;> simp [put]
  cases o <;> simp only [Desk.step, Option.bind_eq_some_iff, Option.map_eq_some_iff] at h
  case build => exact mk _ h
  case load => exact mk _ h
  case clone => obtain ⟨_, _, h⟩ := h; exact mk _ h
  case modify => obtain ⟨_, _, h⟩ := h; exact dn _ _ h
  case edit => obtain ⟨_, _, h⟩ := h; exact dn _ _ h
  case copy => obtain ⟨_, _, _, _, rfl⟩ := h; exact pu _
  case copyEdit => obtain ⟨_, _, _, _, rfl⟩ := h; exact pu _
  case merge => obtain ⟨_, _, _, _, _, _, rfl⟩ := h; exact pu _
  case delete => obtain ⟨_, _, rfl⟩ := h; simp [freeAll]

theorem keeps_call {E : Env} {L L' : Lab} (hs : Sole L) {x : CTx} {o : Op} {r : LRes} (h : call E L x o = some (L', r)) : Keeps L L' r := by
  have hc : ∀ (o : Op) (q : LRes), careful o = some q → ∀ k, q ≠ .model k := by
    intro o q hq k e
    cases o <;> cases hq <;> cases e
  unfold call at h
  cases hx : x.copy with
  | none =>
    rw [hx] at h
    simp only [Option.map_eq_some_iff] at h
    obtain ⟨q, h1, h2⟩ := h
    cases h2
    exact keeps_desk hs (Nat.le_refl _) (hc o _ h1)
  | some j =>
    rw [hx] at h
    simp only [Option.bind_eq_some_iff] at h
    obtain ⟨c, _, h2⟩ := h
    cases h3 : c.copyExec E o with
    | ub => rw [h3] at h2; cases h2
    | ok c' => rw [h3] at h2; cases h2; exact keeps_desk hs (by simp [put]) (by simp)
    | err e c' =>
      rw [h3] at h2; cases h2
      refine keeps_desk hs (by simp [put]) ?_
      intro k
      unfold seen
      split <;> simp

theorem keeps_abort {L L' : Lab} (hs : Sole L) {n : Nat} {x : CTx} (h : abortTx L n x = some L') {r : LRes} (hr : ∀ k, r ≠ .model k) : Keeps L L' r := by
  simp only [abortTx, Option.map_eq_some_iff] at h
  obtain ⟨D, h1, rfl⟩ := h
  exact keeps_drop hs (by simp) (len_reset h1) (fun k e => absurd e (hr k))

theorem keeps_step {sci : Str → Option Str} {E : Env} {L L' : Lab} {o : LabOp} {r : LRes} (g : Sole L) (hs : step sci E L o = some (L', r)) :
    Keeps L L' r := by
  cases o with
  | desk o =>
    simp only [step] at hs
    by_cases hb : (named o).any (held L) = true
    · rw [if_pos hb] at hs; cases hs
    · rw [if_neg hb, Option.map_eq_some_iff] at hs
      obtain ⟨D, h1, h2⟩ := hs
      cases h2
      exact keeps_desk g (len_step h1) (by simp)
  | opens k =>
    simp only [step] at hs
    by_cases hb : held L k = true
    · rw [if_pos hb] at hs; cases hs
    · rw [if_neg hb, Option.bind_eq_some_iff] at hs
      obtain ⟨m, h1, h2⟩ := hs
      by_cases hb : (E.asserts && !decide (m.consistent E = some true)) = true
      · rw [if_pos hb] at h2; cases h2
      · rw [if_neg hb] at h2
        have ap : ∀ {x : CTx} {t k : Nat}, Holds (L.txs ++ [some x]) t k → Holds L.txs t k ∨ (t = L.txs.length ∧ x.copy = some k) := by
          rintro x t k ⟨y, y1, y2⟩
          by_cases hl : t < L.txs.length
          · rw [List.getElem?_append_left hl] at y1; exact .inl ⟨y, y1, y2⟩
          · by_cases e : t = L.txs.length
            · subst e; simp at y1; subst y1; exact .inr ⟨rfl, y2⟩
            · rw [List.getElem?_eq_none (by simp; omega)] at y1; cases y1
        cases h3 : m.clone E with
        | ub => rw [h3] at h2; cases h2
        | null =>
          rw [h3] at h2; cases h2
          have hh : ∀ t k, Holds (L.txs ++ [some ⟨true, none⟩]) t k → Holds L.txs t k := fun t k h => (ap h).elim id (fun e => by cases e.2)
          exact ⟨⟨fun s t k h1 h2 => g.one s t k (hh _ _ h1) (hh _ _ h2), fun t k h => g.old t k (hh _ _ h)⟩, Nat.le_refl _,
            fun t k h => .inl ⟨t, hh _ _ h⟩, by simp⟩
        | built c =>
          rw [h3] at h2; cases h2
          have hlen : (push L.desk (some c)).models.length = L.desk.models.length + 1 := by simp [push]
          refine ⟨⟨?_, ?_⟩, by rw [hlen]; omega, ?_, by simp⟩
          · intro s t k h1 h2
            rcases ap h1 with h1 | ⟨e1, h1⟩ <;> rcases ap h2 with h2 | ⟨e2, h2⟩
            · exact g.one s t k h1 h2
            · cases h2; exact absurd (g.old s _ h1) (Nat.lt_irrefl _)
            · cases h1; exact absurd (g.old t _ h2) (Nat.lt_irrefl _)
            · rw [e1, e2]
          · intro t k h
            rw [hlen]
            rcases ap h with h | ⟨_, h⟩
            · have := g.old t k h; omega
            · cases h; omega
          · intro t k h
            rcases ap h with h | ⟨_, h⟩
            · exact .inl ⟨t, h⟩
            · cases h; exact .inr (Nat.le_refl _)
  | call n o =>
    simp only [step] at hs
    cases hx : L.txs[n]? with
    | none => rw [hx] at hs; cases hs
    | some x =>
      cases x with
      | none => rw [hx] at hs; cases hs
      | some x => rw [hx] at hs; exact keeps_call g hs
  | edit n src e =>
    simp only [step] at hs
    cases hx : L.txs[n]? with
    | none => rw [hx] at hs; cases hs
    | some x =>
      cases x with
      | none => rw [hx] at hs; cases hs
      | some x => rw [hx] at hs; exact keeps_call g hs
  | commit n =>
    simp only [step] at hs
    cases hx : L.txs[n]? with
    | none => rw [hx] at hs; cases hs
    | some x =>
      cases x with
      | none => rw [hx] at hs; cases hs
      | some x =>
        rw [hx] at hs
        have ab : (abortTx L n x).map (fun L => (L, LRes.err .aborted)) = some (L', r) → Keeps L L' r := by
          intro h
          rw [Option.map_eq_some_iff] at h
          obtain ⟨_, h1, h2⟩ := h
          cases h2
          exact keeps_abort g h1 (by simp)
        obtain ⟨b, o⟩ := x
        cases b <;> cases o <;> try exact ab hs
        simp only [Option.bind_eq_some_iff] at hs
        obtain ⟨c, h1, h2⟩ := hs
        cases hc : c.consistent E with
        | none => rw [hc] at h2; cases h2
        | some b =>
          rw [hc] at h2
          cases b with
          | false => exact ab h2
          | true =>
            cases h2
            refine keeps_drop g (by simp) rfl ?_
            intro k hk
            cases hk
            exact ⟨_, hx, rfl⟩
  | abort n =>
    simp only [step] at hs
    cases hx : L.txs[n]? with
    | none => rw [hx] at hs; cases hs
    | some x =>
      cases x with
      | none => rw [hx] at hs; cases hs
      | some x =>
        rw [hx] at hs
        simp only [Option.map_eq_some_iff] at hs
        obtain ⟨_, h1, h2⟩ := hs
        cases h2
        exact keeps_abort g h1 (by simp)
  | move n =>
    simp only [step] at hs
    cases hx : L.txs[n]? with
    | none => rw [hx] at hs; cases hs
    | some x =>
      cases x with
      | none => rw [hx] at hs; cases hs
      | some x =>
        rw [hx] at hs; cases hs
        have hh : ∀ {t k : Nat}, Holds (L.txs.set n (some { x with copy := none }) ++ [some x]) t k →
            (t ≠ n ∧ Holds L.txs t k) ∨ (t = L.txs.length ∧ Holds L.txs n k) := by
          rintro t k ⟨y, y1, y2⟩
          by_cases hl : t < L.txs.length
          · rw [List.getElem?_append_left (by simpa using hl)] at y1
            rcases holds_set ⟨y, y1, y2⟩ with ⟨_, z, z1, z2⟩ | h
            · cases z1; cases z2
            · exact .inl h
          · by_cases e : t = L.txs.length
            · subst e; simp at y1; subst y1; exact .inr ⟨rfl, x, hx, y2⟩
            · rw [List.getElem?_eq_none (by simp; omega)] at y1; cases y1
        refine ⟨⟨?_, ?_⟩, Nat.le_refl _, ?_, by simp⟩
        · intro s t k h1 h2
          rcases hh h1 with ⟨e1, h1⟩ | ⟨e1, h1⟩ <;> rcases hh h2 with ⟨e2, h2⟩ | ⟨e2, h2⟩
          · exact g.one s t k h1 h2
          · exact absurd (g.one s n k h1 h2) e1
          · exact absurd (g.one t n k h2 h1) e2
          · rw [e1, e2]
        · intro t k h
          rcases hh h with ⟨_, h⟩ | ⟨_, h⟩ <;> exact g.old _ k h
        · intro t k h
          rcases hh h with ⟨_, h⟩ | ⟨_, h⟩ <;> exact .inl ⟨_, h⟩
  | assign s n =>
    simp only [step] at hs
    cases hy : L.txs[s]? with
    | none => rw [hy] at hs; cases hs
    | some y =>
      cases y with
      | none => rw [hy] at hs; cases hs
      | some y =>
        rw [hy] at hs
        cases hx : L.txs[n]? with
        | none => rw [hx] at hs; cases hs
        | some x =>
          cases x with
          | none => rw [hx] at hs; cases hs
          | some x =>
            rw [hx] at hs
            simp only at hs
            by_cases e : s = n
            · rw [if_pos e] at hs; cases hs; exact keeps_desk g (Nat.le_refl _) (by simp)
            · rw [if_neg e, Option.map_eq_some_iff] at hs
              obtain ⟨D, h1, h2⟩ := hs
              cases h2
              have hh : ∀ {t k : Nat}, Holds ((L.txs.set s (some x)).set n (some { x with copy := none })) t k →
                  (t ≠ n ∧ Holds L.txs t k) ∨ (t = s ∧ Holds L.txs n k) := by
                intro t k h
                rcases holds_set h with ⟨_, z, z1, z2⟩ | ⟨hn, h⟩
                · cases z1; cases z2
                · rcases holds_set h with ⟨e', z, z1, z2⟩ | ⟨_, h⟩
                  · cases z1; exact .inr ⟨e', x, hx, z2⟩
                  · exact .inl ⟨hn, h⟩
              have hl := len_reset h1
              refine ⟨⟨?_, ?_⟩, Nat.le_of_eq hl, ?_, by simp⟩
              · intro s t k h1 h2
                rcases hh h1 with ⟨e1, h1⟩ | ⟨e1, h1⟩ <;> rcases hh h2 with ⟨e2, h2⟩ | ⟨e2, h2⟩
                · exact g.one s t k h1 h2
                · exact absurd (g.one s n k h1 h2) e1
                · exact absurd (g.one t n k h2 h1) e2
                · rw [e1, e2]
              · intro t k h
                rcases hh h with ⟨_, h⟩ | ⟨_, h⟩ <;> exact hl ▸ g.old _ k h
              · intro t k h
                rcases hh h with ⟨_, h⟩ | ⟨_, h⟩ <;> exact .inl ⟨_, h⟩
  | destroy n =>
    simp only [step] at hs
    cases hx : L.txs[n]? with
    | none => rw [hx] at hs; cases hs
    | some x =>
      cases x with
      | none => rw [hx] at hs; cases hs
      | some x =>
        rw [hx] at hs
        simp only at hs
        by_cases hb : (E.asserts && uncommitted x) = true
        · rw [if_pos hb] at hs; cases hs
        · rw [if_neg hb, Option.map_eq_some_iff] at hs
          obtain ⟨D, h1, h2⟩ := hs
          cases h2
          exact keeps_drop g (by simp) (len_reset h1) (by simp)

/-- A model that no transaction holds is not given out. -/
theorem run_free {sci : Str → Option Str} {E : Env} {k : Nat} : ∀ {os : List LabOp} {L L' : Lab} {rs : List LRes}, Sole L →
    k < L.desk.models.length → (∀ t, ¬ Holds L.txs t k) → run sci E L os = some (L', rs) → LRes.model k ∉ rs
  | [], L, L', rs, _, _, _, h => by cases h; simp
  | o :: os, L, L', rs, g, hk, hn, h => by
    simp only [run] at h
    cases hs : step sci E L o with
    | none => rw [hs] at h; cases h
    | some p =>
      obtain ⟨L1, r⟩ := p
      rw [hs] at h
      simp only [Option.map_eq_some_iff] at h
      obtain ⟨⟨L2, rs'⟩, h1, h2⟩ := h
      cases h2
      have kp := keeps_step g hs
      intro hm
      rcases List.mem_cons.1 hm with e | hm
      · obtain ⟨⟨s, h⟩, _⟩ := kp.gives k e.symm
        exact hn s h
      · refine run_free kp.sole (Nat.lt_of_lt_of_le hk kp.grows) ?_ h1 hm
        intro t ht
        rcases kp.back t k ht with ⟨s, h⟩ | h
        · exact hn s h
        · omega

theorem run_once {sci : Str → Option Str} {E : Env} : ∀ {os : List LabOp} {L L' : Lab} {rs : List LRes}, Sole L →
    run sci E L os = some (L', rs) → ∀ (i j k : Nat), rs[i]? = some (.model k) → rs[j]? = some (.model k) → i = j
  | [], L, L', rs, _, h, i, j, k, hi, hj => by cases h; simp at hi
  | o :: os, L, L', rs, g, h, i, j, k, hi, hj => by
    simp only [run] at h
    cases hs : step sci E L o with
    | none => rw [hs] at h; cases h
    | some p =>
      obtain ⟨L1, r⟩ := p
      rw [hs] at h
      simp only [Option.map_eq_some_iff] at h
      obtain ⟨⟨L2, rs'⟩, h1, h2⟩ := h
      cases h2
      have kp := keeps_step g hs
      have no : r = .model k → LRes.model k ∉ rs' := by
        intro e
        obtain ⟨⟨s, hh⟩, hn⟩ := kp.gives k e
        exact run_free kp.sole (Nat.lt_of_lt_of_le (g.old s k hh) kp.grows) hn h1
      cases i with
      | zero =>
        cases j with
        | zero => rfl
        | succ j => exact absurd (List.mem_of_getElem? (l := rs') (i := j) hj) (no (by simpa using hi))
      | succ i =>
        cases j with
        | zero => exact absurd (List.mem_of_getElem? (l := rs') (i := i) hi) (no (by simpa using hj))
        | succ j => rw [run_once kp.sole h1 i j k hi hj]

theorem sole_empty : Sole empty := ⟨fun s t k h => by obtain ⟨x, h, _⟩ := h; simp [empty] at h, fun t k h => by obtain ⟨x, h, _⟩ := h; simp [empty] at h⟩

end Lab
end Verif

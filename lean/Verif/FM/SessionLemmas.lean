import Verif.FM.Session
import Verif.Solver.EditsRemove
/-!
# Lemmas: programs that edit a model
-/

namespace Verif
open Verif.Spec

variable {m m' : FModel} {S : Sheet}

theorem oneCall_ok {E : Env} {o : Op} (w : WF m) (w' : WF m') (h : m.exec E o = .ok m') : m.oneCall E o = some m' := by
  unfold FModel.oneCall
  rw [consistent_of_WF w]
  simp [FModel.commitOps, FModel.outFold, h, consistent_of_WF w']

theorem oneCall_err {E : Env} {o : Op} {e : FTErr} (w : WF m) (h : m.exec E o = .err e m') : m.oneCall E o = some m' := by
  unfold FModel.oneCall
  rw [consistent_of_WF w]
  simp [FModel.commitOps, FModel.outFold, h]

theorem fparent_feat {i q : Id} (h : FParent m i q) : IsFeat m q := by
  induction h with
  | direct _ h2 => exact h2
  | skip _ _ _ ih => exact ih

theorem Spec.SheetOf.known (R : SheetOf m S) (w : WF m) {n : Str} : S.row n ≠ none ↔ ∃ i, (n, i) ∈ m.features := by
  constructor
  · intro h
    cases he : S.row n with
    | none => exact absurd he h
    | some e =>
      obtain ⟨i, _, h1, _⟩ := (R.row n e).1 he
      exact ⟨i, h1⟩
  · rintro ⟨i, hi⟩ h0
    obtain ⟨f, hf, _⟩ := w.feat_ok _ hi
    have hk : Known m i := List.mem_map_of_mem (f := Prod.snd) hi
    by_cases hp : ∃ q, FParent m i q
    · obtain ⟨q, hq⟩ := hp
      have hkq : Known m q := by
        rcases fparent_owned w (.inl hk) hq with h | h
        · exact h
        · have hqf : IsFeat m q := by
            exact fparent_feat hq
          obtain ⟨g, hg⟩ := hqf
          obtain ⟨k, hk⟩ := w.rel_ok _ h
          rw [hg] at hk; cases hk
      obtain ⟨⟨y, q⟩, hy, rfl⟩ := List.mem_map.1 hkq
      have := (R.row n ⟨some y, f.attr⟩).2 ⟨i, f, hi, hf, rfl, .inr ⟨q, y, hq, hy, rfl⟩⟩
      rw [h0] at this; cases this
    · have := (R.row n ⟨none, f.attr⟩).2 ⟨i, f, hi, hf, rfl, .inl ⟨rfl, fun q hq => hp ⟨q, hq⟩⟩⟩
      rw [h0] at this; cases this

theorem Spec.SheetOf.none (R : SheetOf m S) (w : WF m) {n : Str} : S.row n = none ↔ n ∉ m.features.map Prod.fst := by
  constructor
  · intro h hx
    obtain ⟨⟨n, i⟩, h1, rfl⟩ := List.mem_map.1 hx
    exact (R.known w).2 ⟨i, h1⟩ h
  · intro h
    cases he : S.row n with
    | none => rfl
    | some e =>
      obtain ⟨i, _, h1, _⟩ := (R.row n e).1 he
      exact absurd (List.mem_map_of_mem (f := Prod.fst) h1) h

theorem names_inj (w : WF m) {n : Str} {i j : Id} (h : (n, i) ∈ m.features) (h' : (n, j) ∈ m.features) : i = j := by
  have h1 := getFeature_mem w.names h
  rw [getFeature_mem w.names h'] at h1
  exact (Option.some.inj h1).symm

theorem ids_inj (w : WF m) {n k : Str} {i : Id} (h : (n, i) ∈ m.features) (h' : (k, i) ∈ m.features) : n = k := by
  obtain ⟨f, hf, hn⟩ := w.feat_ok _ h
  obtain ⟨g, hg, hk⟩ := w.feat_ok _ h'
  simp only at hf hg hn hk
  rw [hf] at hg; cases hg
  rw [← hn, hk]

/-- A proper descendant has a parent feature. -/
theorem below_has_parent {i j : Id} (hf : IsFeat m i) (h : Below m i j) (hji : j ≠ i) : ∃ q, FParent m j q := by
  induction h with
  | refl => exact absurd rfl hji
  | @step j p hp hb ih =>
    by_cases hpi : p = i
    · subst hpi; exact ⟨p, .direct hp hf⟩
    · obtain ⟨q, hq⟩ := ih hpi
      cases hh : data m p with
      | none =>
        cases hq with
        | direct a _ => simp [par, data] at a hh; rw [hh] at a; simp at a
        | skip a _ _ => simp [par, data] at a hh; rw [hh] at a; simp at a
      | some d =>
        cases d with
        | feat f => exact ⟨p, .direct hp ⟨f, hh⟩⟩
        | rel k => exact ⟨q, .skip hp ⟨k, hh⟩ hq⟩

/-- Being below, on the sheet and in the tree. -/
theorem under_iff (w : WF m) (R : SheetOf m S) {n x : Str} {i j : Id} (hi : (n, i) ∈ m.features) (hj : (x, j) ∈ m.features) :
    S.Under n x ↔ Below m i j := by
  constructor
  · intro h
    induction h generalizing j with
    | refl => rw [names_inj w hj hi]; exact .refl
    | @step x y e h1 h2 _ ih =>
      obtain ⟨j', f, g1, _, _, g4⟩ := (R.row x e).1 h1
      rw [names_inj w hj g1]
      rcases g4 with ⟨g4, _⟩ | ⟨q, y', g5, g6, g7⟩
      · rw [h2] at g4; cases g4
      · rw [h2] at g7; cases g7
        exact (ih g6).trans (fparent_subtree g5)
  · intro h
    obtain ⟨l, hl⟩ : ∃ l, lvlOf m j ≤ l := ⟨_, Nat.le_refl _⟩
    induction l using Nat.strongRecOn generalizing x j with
    | _ l ih =>
      by_cases hji : j = i
      · subst hji
        rw [ids_inj w hj hi]; exact .refl
      · have hkj : Known m j := List.mem_map_of_mem (f := Prod.snd) hj
        have hki : Known m i := List.mem_map_of_mem (f := Prod.snd) hi
        have hrow := (R.known w).2 ⟨j, hj⟩
        cases he : S.row x with
        | none => exact absurd he hrow
        | some e =>
          obtain ⟨j', f, g1, _, _, g4⟩ := (R.row x e).1 he
          have := names_inj w hj g1
          subst this
          rcases g4 with ⟨_, g4⟩ | ⟨q, y, g5, g6, g7⟩
          · exfalso
            obtain ⟨q, hq⟩ := below_has_parent (w.known_data hki) h hji
            exact g4 q hq
          · have hb := fparent_below (w.known_data hki) h hji g5
            have hlv := w.fparent_level (.inl hkj) g5
            exact .step he g7 (ih (lvlOf m q) (by omega) g6 hb (Nat.le_refl _))

/-- The row of a feature is the same in both models. -/
theorem row_congr {n : Str} {e : Row} {i : Id} {f : Feat} (hd : data m' i = data m i) (hp : ∀ q, FParent m' i q ↔ FParent m i q)
    (hn : ∀ q y, FParent m i q → ((y, q) ∈ m'.features ↔ (y, q) ∈ m.features)) (he : (n, i) ∈ m'.features ↔ (n, i) ∈ m.features) :
    ((n, i) ∈ m'.features ∧ data m' i = some (.feat f) ∧ f.attr = e.attr ∧
      ((e.parent = none ∧ ∀ q, ¬ FParent m' i q) ∨ ∃ q y, FParent m' i q ∧ (y, q) ∈ m'.features ∧ e.parent = some y)) ↔
    ((n, i) ∈ m.features ∧ data m i = some (.feat f) ∧ f.attr = e.attr ∧
      ((e.parent = none ∧ ∀ q, ¬ FParent m i q) ∨ ∃ q y, FParent m i q ∧ (y, q) ∈ m.features ∧ e.parent = some y)) := by
  rw [he, hd]
  simp only [hp]
  constructor
  · rintro ⟨h1, h2, h3, h4 | ⟨q, y, h5, h6, h7⟩⟩
    · exact ⟨h1, h2, h3, .inl h4⟩
    · exact ⟨h1, h2, h3, .inr ⟨q, y, h5, (hn q y h5).1 h6, h7⟩⟩
  · rintro ⟨h1, h2, h3, h4 | ⟨q, y, h5, h6, h7⟩⟩
    · exact ⟨h1, h2, h3, .inl h4⟩
    · exact ⟨h1, h2, h3, .inr ⟨q, y, h5, (hn q y h5).2 h6, h7⟩⟩

theorem sheetOf_added {i p : Id} {pn : Str} {a : Attr} (w : WF m) (R : SheetOf m S) (h : Added m m' i a p) (hp : (pn, p) ∈ m.features)
    (hn : a.name ∉ m.features.map Prod.fst) : SheetOf m' (S.add pn a) := by
  have hkp : Known m p := List.mem_map_of_mem (f := Prod.snd) hp
  have hne := added_ne w h
  have hd : ∀ y, Owned m y → Spec.data m' y = Spec.data m y := fun y hy => by rw [h.data, upd_ne _ _ (hne y hy)]
  have hpar : ∀ y, Owned m y → Spec.par m' y = Spec.par m y := fun y hy => by rw [h.par, upd_ne _ _ (hne y hy)]
  have hi : Spec.data m' i = some (.feat { attr := a }) := by rw [h.data]; simp
  have hpi : Spec.par m' i = some p := by rw [h.par]; simp
  have hpf : IsFeat m' p := by
    obtain ⟨f, hf⟩ := w.known_data hkp
    exact ⟨f, by rw [hd p (.inl hkp)]; exact hf⟩
  have hmem : ∀ x j, (x, j) ∈ m'.features ↔ (x, j) ∈ m.features ∨ (x = a.name ∧ j = i) := by
    intro x j; rw [h.features]; simp
  have hS : S.add pn a = { S with row := fun x => if x = a.name then some ⟨some pn, a⟩ else S.row x } := by
    unfold Sheet.add
    rw [if_neg]
    rintro (h1 | h1)
    · exact (R.known w).2 ⟨p, hp⟩ h1
    · exact h1 ((R.none w).2 hn)
  rw [hS]
  refine ⟨?_, by rw [h.commit]; exact R.commit⟩
  intro x e
  by_cases hx : x = a.name
  · subst hx
    simp only [if_true]
    constructor
    · intro he
      cases he
      refine ⟨i, { attr := a }, (hmem _ _).2 (.inr ⟨rfl, rfl⟩), hi, rfl, .inr ⟨p, pn, .direct hpi hpf, (hmem _ _).2 (.inl hp), rfl⟩⟩
    · rintro ⟨j, f, h1, h2, h3, h4⟩
      rcases (hmem _ _).1 h1 with h1 | ⟨_, rfl⟩
      · exact absurd (List.mem_map_of_mem (f := Prod.fst) h1) hn
      · rw [hi] at h2; cases h2
        have hfun : ∀ q, FParent m' j q → q = p := fun q hq => hq.functional (.direct hpi hpf)
        rcases h4 with ⟨_, h4⟩ | ⟨q, y, h5, h6, h7⟩
        · exact absurd (.direct hpi hpf) (h4 p)
        · have := hfun q h5
          subst this
          rcases (hmem _ _).1 h6 with h6 | ⟨_, h6⟩
          · have := ids_inj w h6 hp
            subst this
            obtain ⟨ep, ea⟩ := e
            simp only at h3 h7
            rw [h7, h3]
          · exact absurd h6 (hne _ (.inl hkp))
  · simp only [if_neg hx]
    rw [R.row]
    constructor
    · rintro ⟨j, f, hh⟩
      have hkj : Known m j := List.mem_map_of_mem (f := Prod.snd) hh.1
      refine ⟨j, f, (row_congr (hd j (.inl hkj)) (fun q => fparent_part w hpar hd (.inl hkj)) ?_ ?_).2 hh⟩
      · intro q y hq
        rw [hmem]
        exact ⟨fun h => h.resolve_right (fun h2 => hne q (fparent_owned w (.inl hkj) hq) h2.2), .inl⟩
      · rw [hmem]; exact ⟨fun h => h.resolve_right (fun h2 => hx h2.1), .inl⟩
    · rintro ⟨j, f, hh⟩
      have h1 : (x, j) ∈ m.features := ((hmem _ _).1 hh.1).resolve_right (fun h2 => hx h2.1)
      have hkj : Known m j := List.mem_map_of_mem (f := Prod.snd) h1
      refine ⟨j, f, (row_congr (hd j (.inl hkj)) (fun q => fparent_part w hpar hd (.inl hkj)) ?_ ?_).1 hh⟩
      · intro q y hq
        rw [hmem]
        exact ⟨fun h => h.resolve_right (fun h2 => hne q (fparent_owned w (.inl hkj) hq) h2.2), .inl⟩
      · rw [hmem]; exact ⟨fun h => h.resolve_right (fun h2 => hx h2.1), .inl⟩

theorem tidy_added {i p : Id} {a : Attr} (w : WF m) (t : TidyGroups m) (h : Added m m' i a p) (hkp : Known m p) : TidyGroups m' := by
  have hne := added_ne w h
  have hd : ∀ y, Owned m y → Spec.data m' y = Spec.data m y := fun y hy => by rw [h.data, upd_ne _ _ (hne y hy)]
  have hi : Spec.data m' i = some (.feat { attr := a }) := by rw [h.data]; simp
  have hrel : ∀ y, y = i ∨ Owned m y → IsRel m' y → y ≠ i ∧ IsRel m y := by
    rintro y hy ⟨k, hk⟩
    have : y ≠ i := by rintro rfl; rw [hi] at hk; cases hk
    exact ⟨this, k, by rw [← hd y (hy.resolve_left this)]; exact hk⟩
  refine ⟨?_, ?_⟩
  · intro r hr c hc
    rw [h.rels] at hr
    rw [h.edg, upd_ne] at hc
    · obtain ⟨f, hf⟩ := t.flat r hr c hc
      exact ⟨f, by rw [hd c (w.edge_par r c (.inr hr) hc).1]; exact hf⟩
    · rintro rfl; exact w.known_not_rel hkp hr
  · intro j hj r s hr hs hkr hks
    rcases (h.known j).1 hj with hj | rfl
    · have hmem : ∀ y, y ∈ edg m' j → y = i ∨ y ∈ edg m j := by
        intro y hy
        rw [h.edg] at hy
        by_cases hjp : j = p
        · subst hjp; rw [upd_same, List.mem_append, List.mem_singleton] at hy; exact hy.symm
        · rw [upd_ne _ _ hjp] at hy; exact .inr hy
      have own : ∀ y, y ∈ edg m j → Owned m y := fun y hy => (w.edge_par j y (.inl hj) hy).1
      obtain ⟨r1, r2⟩ := hrel r ((hmem r hr).imp id (own r)) hkr
      obtain ⟨s1, s2⟩ := hrel s ((hmem s hs).imp id (own s)) hks
      exact t.one j hj r s ((hmem r hr).resolve_left r1) ((hmem s hs).resolve_left s1) r2 s2
    · rw [h.edg, upd_ne _ _ (fun hh => hne p (.inl hkp) hh.symm), edg_none h.new] at hr
      cases hr

theorem sheetOf_without {n : Str} {i : Id} (w : WF m) (R : SheetOf m S) (hi : (n, i) ∈ m.features) (hr : m.root ≠ some i)
    (h : Without m m' (fun j => Owned m j ∧ Below m i j)) {D : Str → Prop} [DecidablePred D] (hD : ∀ x, D x ↔ S.Under n x) :
    SheetOf m' { S with row := fun x => if D x then none else S.row x } := by
  have hki : Known m i := List.mem_map_of_mem (f := Prod.snd) hi
  have cut := cut_below w hki hr
  refine ⟨?_, by rw [h.commit]; exact R.commit⟩
  intro x e
  by_cases hx : D x
  · simp only [if_pos hx]
    constructor
    · intro h; cases h
    · rintro ⟨j, f, h1, _⟩
      obtain ⟨h2, h3⟩ := (h.features.2 _).1 h1
      have := (under_iff w R hi h2).1 ((hD x).1 hx)
      exact absurd ⟨.inl (List.mem_map_of_mem (f := Prod.snd) h2), this⟩ h3
  · simp only [if_neg hx]
    rw [R.row]
    have keep : ∀ j, (x, j) ∈ m.features → ¬ (Owned m j ∧ Below m i j) := by
      rintro j hj ⟨_, hb⟩
      exact hx ((hD x).2 ((under_iff w R hi hj).2 hb))
    have one : ∀ j f, (x, j) ∈ m.features →
        (((x, j) ∈ m'.features ∧ data m' j = some (.feat f) ∧ f.attr = e.attr ∧
          ((e.parent = none ∧ ∀ q, ¬ FParent m' j q) ∨ ∃ q y, FParent m' j q ∧ (y, q) ∈ m'.features ∧ e.parent = some y)) ↔
        ((x, j) ∈ m.features ∧ data m j = some (.feat f) ∧ f.attr = e.attr ∧
          ((e.parent = none ∧ ∀ q, ¬ FParent m j q) ∨ ∃ q y, FParent m j q ∧ (y, q) ∈ m.features ∧ e.parent = some y))) := by
      intro j f hj
      have hkj : Known m j := List.mem_map_of_mem (f := Prod.snd) hj
      refine row_congr (h.data j (keep j hj)) (fun q => without_fparent w h cut (.inl hkj) (keep j hj)) ?_ ?_
      · intro q y hq
        rw [h.features.2]
        exact ⟨fun h => h.1, fun h => ⟨h, cut_fparent w cut (.inl hkj) (keep j hj) hq⟩⟩
      · rw [h.features.2]
        exact ⟨fun h => h.1, fun h => ⟨h, keep j hj⟩⟩
    constructor
    · rintro ⟨j, f, hh⟩
      exact ⟨j, f, (one j f hh.1).2 hh⟩
    · rintro ⟨j, f, hh⟩
      exact ⟨j, f, (one j f ((h.features.2 _).1 hh.1).1).1 hh⟩

theorem tidy_without {i : Id} (t : TidyGroups m)
    (h : Without m m' (fun j => Owned m j ∧ Below m i j)) : TidyGroups m' := by
  refine ⟨?_, ?_⟩
  · intro r hr c hc
    obtain ⟨h1, h2⟩ := (h.rels.2 r).1 hr
    obtain ⟨h3, h4⟩ := ((h.edges r (.inr h1) h2).2 c).1 hc
    obtain ⟨f, hf⟩ := t.flat r h1 c h3
    exact ⟨f, by rw [h.data c h4]; exact hf⟩
  · intro j hj r s hr hs hkr hks
    obtain ⟨⟨n, j⟩, hj', rfl⟩ := List.mem_map.1 hj
    obtain ⟨h1, h2⟩ := (h.features.2 _).1 hj'
    have hkj : Known m j := List.mem_map_of_mem (f := Prod.snd) h1
    have he := (h.edges j (.inl hkj) h2).2
    obtain ⟨r1, r2⟩ := (he r).1 hr
    obtain ⟨s1, s2⟩ := (he s).1 hs
    obtain ⟨k, hk⟩ := hkr
    obtain ⟨l, hl⟩ := hks
    exact t.one j hkj r s r1 s1 ⟨k, by rw [← h.data r r2]; exact hk⟩ ⟨l, by rw [← h.data s s2]; exact hl⟩

/-- A leaf of a tidy model has no child, or one empty group. -/
theorem tidy_leaf {i : Id} (w : WF m) (t : TidyGroups m) (hi : Known m i) (hleaf : ∀ c, ¬ Via m isF i c) :
    edg m i = [] ∨ ∃ r, edg m i = [r] ∧ edg m r = [] := by
  have hrel : ∀ r ∈ edg m i, r ∈ m.rels ∧ edg m r = [] := by
    intro r hr
    obtain ⟨ho, hp⟩ := w.edge_par i r (.inl hi) hr
    rcases ho with hk | hk
    · obtain ⟨f, hf⟩ := w.known_data hk
      exact absurd (.here hr hf rfl) (hleaf r)
    · refine ⟨hk, ?_⟩
      cases he : edg m r with
      | nil => rfl
      | cons c cs =>
        have hc : c ∈ edg m r := by rw [he]; simp
        obtain ⟨f, hf⟩ := t.flat r hk c hc
        obtain ⟨k, hkr⟩ := w.rel_ok r hk
        exact absurd (.skip hr hkr rfl (.here hc hf rfl)) (hleaf c)
  cases he : edg m i with
  | nil => exact .inl rfl
  | cons r rs =>
    right
    have hr : r ∈ edg m i := by rw [he]; simp
    cases rs with
    | nil => exact ⟨r, rfl, (hrel r hr).2⟩
    | cons s ss =>
      have hs : s ∈ edg m i := by rw [he]; simp
      have h1 := t.one i hi r s hr hs (w.rel_ok r (hrel r hr).1) (w.rel_ok s (hrel s hs).1)
      have h2 := w.edges_nodup i (.inl hi)
      rw [he, h1] at h2
      simp at h2

theorem sheetOf_commit {c : Str} (w : WF m) (R : SheetOf m S) (hh : m'.heap = m.heap) (hf : m'.features = m.features)
    (hc : m'.commit = c) : SheetOf m' { S with commit := c } := by
  have hd : ∀ x, data m' x = data m x := fun x => by unfold data; rw [hh]
  have hp : ∀ x, par m' x = par m x := fun x => by unfold par; rw [hh]
  have hfp : ∀ n x q, (n, x) ∈ m.features → (FParent m' x q ↔ FParent m x q) := fun n x q hx =>
    fparent_part w (fun y _ => hp y) (fun y _ => hd y) (.inl (List.mem_map_of_mem (f := Prod.snd) hx))
  refine ⟨?_, hc⟩
  intro n e
  show S.row n = some e ↔ _
  rw [R.row]
  constructor
  · rintro ⟨j, f, h⟩
    exact ⟨j, f, (row_congr (hd j) (fun q => hfp n j q h.1) (fun _ _ _ => by rw [hf]) (by rw [hf])).2 h⟩
  · rintro ⟨j, f, h⟩
    exact ⟨j, f, (row_congr (hd j) (fun q => hfp n j q (by rw [← hf]; exact h.1)) (fun _ _ _ => by rw [hf]) (by rw [hf])).1 h⟩

theorem sameRest_refl (m : FModel) : SameRest m m := ⟨rfl, fun _ h _ => h, rfl, rfl, rfl, rfl, rfl⟩

theorem Spec.SameRest.trans {m1 m2 m3 : FModel} (h : SameRest m1 m2) (h' : SameRest m2 m3) : SameRest m1 m3 :=
  ⟨h'.root.trans h.root, fun e he hr => h'.root_name e (h.root_name e he hr) (h.root.trans hr), h'.name.trans h.name, h'.path.trans h.path,
    h'.booleans.trans h.booleans, h'.nonBooleans.trans h.nonBooleans, h'.mixeds.trans h.mixeds⟩

theorem sameRest_without {X : Id → Prop} (h : Without m m' X) (hr : ∀ r, m.root = some r → ¬ X r) : SameRest m m' :=
  ⟨h.root, fun e he hh => (h.features.2 e).2 ⟨he, hr _ hh⟩, h.name, h.path, h.booleans, h.nonBooleans, h.mixeds⟩

theorem sameRest_added {i p : Id} {a : Attr} (h : Added m m' i a p) : SameRest m m' :=
  ⟨h.root, fun e he _ => by rw [h.features]; simp [he], h.name, h.path, h.booleans, h.nonBooleans, h.mixeds⟩

/-- There is a sheet for every model. -/
theorem sheetOf_exists (w : WF m) : ∃ S, SheetOf m S := by
  classical
  let P : Str → Row → Prop := fun n e => ∃ i f, (n, i) ∈ m.features ∧ data m i = some (.feat f) ∧ f.attr = e.attr ∧
    ((e.parent = none ∧ ∀ q, ¬ FParent m i q) ∨ ∃ q y, FParent m i q ∧ (y, q) ∈ m.features ∧ e.parent = some y)
  have uniq : ∀ n e e', P n e → P n e' → e = e' := by
    rintro n ⟨p, a⟩ ⟨p', a'⟩ ⟨i, f, h1, h2, h3, h4⟩ ⟨j, g, g1, g2, g3, g4⟩
    have := names_inj w h1 g1
    subst this
    rw [h2] at g2; cases g2
    simp only at h3 g3 h4 g4
    have : p = p' := by
      rcases h4 with ⟨h4, h5⟩ | ⟨q, y, h5, h6, h7⟩ <;> rcases g4 with ⟨g4, g5⟩ | ⟨q', y', g5, g6, g7⟩
      · rw [h4, g4]
      · exact absurd g5 (h5 q')
      · exact absurd h5 (g5 q)
      · have := h5.functional g5
        subst this
        rw [h7, g7, ids_inj w h6 g6]
    rw [this, ← h3, ← g3]
  refine ⟨⟨fun n => if h : ∃ e, P n e then some h.choose else none, m.commit⟩, ?_, rfl⟩
  intro n e
  show (if h : ∃ e, P n e then some h.choose else none) = some e ↔ P n e
  constructor
  · intro h
    split at h
    · next hx => cases h; exact hx.choose_spec
    · cases h
  · intro h
    rw [dif_pos ⟨e, h⟩]
    exact congrArg some (uniq n _ _ (Exists.choose_spec ⟨e, h⟩) h)

/-- A model has one sheet only. -/
theorem sheetOf_unique {S' : Sheet} (R : SheetOf m S) (R' : SheetOf m S') : S = S' := by
  obtain ⟨row, commit⟩ := S
  obtain ⟨row', commit'⟩ := S'
  have h1 := R.commit
  rw [R'.commit] at h1
  simp only at h1
  have h2 : row = row' := by
    funext n
    have key : ∀ e, row n = some e ↔ row' n = some e := fun e => (R.row n e).trans (R'.row n e).symm
    cases h : row n with
    | none =>
      cases h' : row' n with
      | none => rfl
      | some e => have := (key e).2 h'; rw [h] at this; cases this
    | some e => exact ((key e).1 h).symm
  rw [h1, h2]

end Verif

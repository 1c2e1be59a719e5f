import Verif.FM.Heap
/-! Lemmas: levels, subtrees, and how to show that a model is a tree. -/

namespace Verif
open Verif.Spec

/-- `i` is `n` steps below `r`. -/
inductive Lvl (m : FModel) (r : Id) : Nat → Id → Prop
  | zero : Lvl m r 0 r
  | succ {n i p} : par m i = some p → Lvl m r n p → Lvl m r (n + 1) i

theorem Lvl.unique {m : FModel} {r : Id} (hr : par m r = none) {n k : Nat} {i : Id}
    (h : Lvl m r n i) (h' : Lvl m r k i) : n = k := by
  induction h generalizing k with
  | zero =>
    cases h' with
    | zero => rfl
    | succ hp _ => rw [hr] at hp; cases hp
  | succ hp _ ih =>
    cases h' with
    | zero => rw [hr] at hp; cases hp
    | succ hp' h' =>
      rw [hp] at hp'; cases hp'
      rw [ih h']

theorem Spec.Below.lvl {m : FModel} {r i : Id} (h : Below m r i) : ∃ n, Lvl m r n i := by
  induction h with
  | refl => exact ⟨0, .zero⟩
  | step hp _ ih => obtain ⟨n, h⟩ := ih; exact ⟨n + 1, .succ hp h⟩

theorem Lvl.toBelow {m : FModel} {r i : Id} {n : Nat} (h : Lvl m r n i) : Below m r i := by
  induction h with
  | zero => exact .refl
  | succ hp _ ih => exact .step hp ih

theorem Spec.WF.known_data {m : FModel} (w : WF m) {i : Id} (h : Known m i) : IsFeat m i := by
  obtain ⟨e, he, rfl⟩ := List.mem_map.1 h
  obtain ⟨f, hf, _⟩ := w.feat_ok e he
  exact ⟨f, hf⟩

theorem Spec.WF.owned_data {m : FModel} (w : WF m) {i : Id} (h : Owned m i) : ∃ d, data m i = some d := by
  rcases h with h | h
  · obtain ⟨f, hf⟩ := w.known_data h; exact ⟨_, hf⟩
  · obtain ⟨k, hk⟩ := w.rel_ok i h; exact ⟨_, hk⟩

theorem Spec.WF.owned_lt {m : FModel} (w : WF m) {i : Id} (h : Owned m i) : i < m.next := by
  obtain ⟨d, hd⟩ := w.owned_data h
  apply w.fresh
  rw [heap_of_data hd]; simp

theorem Spec.WF.next_none {m : FModel} (w : WF m) : m.heap m.next = none := by
  cases h : m.heap m.next with
  | none => rfl
  | some n => exact absurd (w.fresh m.next (by simp [h])) (Nat.lt_irrefl _)

theorem Spec.WF.not_owned_next {m : FModel} (w : WF m) : ¬ Owned m m.next :=
  fun h => Nat.lt_irrefl _ (w.owned_lt h)

theorem Spec.WF.known_feat {m : FModel} (w : WF m) {i : Id} (h : Owned m i) (hf : IsFeat m i) : Known m i := by
  rcases h with h | h
  · exact h
  · obtain ⟨k, hk⟩ := w.rel_ok i h
    obtain ⟨f, hf⟩ := hf
    rw [hk] at hf; cases hf

theorem Spec.WF.known_not_rel {m : FModel} (w : WF m) {i : Id} (h : Known m i) : i ∉ m.rels := by
  intro hr
  obtain ⟨k, hk⟩ := w.rel_ok i hr
  obtain ⟨f, hf⟩ := w.known_data h
  rw [hk] at hf; cases hf

theorem Spec.WF.owned_rel {m : FModel} (w : WF m) {i : Id} (h : Owned m i) (hf : IsRel m i) : i ∈ m.rels := by
  rcases h with h | h
  · obtain ⟨f, hk⟩ := w.known_data h
    obtain ⟨k, hf⟩ := hf
    rw [hk] at hf; cases hf
  · exact h

theorem Spec.WF.root_par {m : FModel} (w : WF m) {r : Id} (h : m.root = some r) : par m r = none := by
  obtain ⟨r', f, h1, _, _, _, h2⟩ := w.root_ok
  rw [h] at h1; cases h1; exact h2

theorem Spec.WF.root_known {m : FModel} (w : WF m) {r : Id} (h : m.root = some r) : Known m r := by
  obtain ⟨r', f, h1, h2, _⟩ := w.root_ok
  rw [h] at h1; cases h1; exact h2

theorem Lvl.path {m : FModel} (w : WF m) {r : Id} (hr : m.root = some r) {n : Nat} {i : Id}
    (h : Lvl m r n i) (ho : Owned m i) :
    ∃ L : List Id, L.length = n + 1 ∧ L.Nodup ∧ ∀ x ∈ L, Owned m x ∧ ∃ k, k ≤ n ∧ Lvl m r k x := by
  induction h with
  | zero => exact ⟨[r], rfl, by simp, by intro x hx; simp at hx; subst hx; exact ⟨ho, 0, Nat.le_refl _, .zero⟩⟩
  | @succ n i p hp hl ih =>
    obtain ⟨L, h1, h2, h3⟩ := ih (w.par_edge _ _ ho hp).1
    refine ⟨i :: L, by simp [h1], ?_, ?_⟩
    · rw [List.nodup_cons]
      refine ⟨?_, h2⟩
      intro hi
      obtain ⟨_, k, hk, hlk⟩ := h3 i hi
      have := Lvl.unique (w.root_par hr) hlk (.succ hp hl)
      omega
    · intro x hx
      rcases List.mem_cons.1 hx with rfl | hx
      · exact ⟨ho, n + 1, Nat.le_refl _, .succ hp hl⟩
      · obtain ⟨h4, k, hk, h5⟩ := h3 x hx
        exact ⟨h4, k, by omega, h5⟩

theorem Lvl.lt_next {m : FModel} (w : WF m) {r : Id} (hr : m.root = some r) {n : Nat} {i : Id}
    (h : Lvl m r n i) (ho : Owned m i) : n < m.next := by
  obtain ⟨L, h1, h2, h3⟩ := h.path w hr ho
  have hs : L ⊆ List.range m.next := by
    intro x hx
    rw [List.mem_range]
    exact w.owned_lt (h3 x hx).1
  have := h2.length_le_of_subset hs
  rw [h1, List.length_range] at this
  omega

open Classical in
/-- The level of a node (0 if it has none). -/
noncomputable def lvlOf (m : FModel) (i : Id) : Nat :=
  if h : ∃ n r, m.root = some r ∧ Lvl m r n i then h.choose else 0

theorem Spec.WF.level_lvl {m : FModel} (w : WF m) {i r : Id} (ho : Owned m i) (hr : m.root = some r) :
    Lvl m r (lvlOf m i) i := by
  have h : ∃ n r, m.root = some r ∧ Lvl m r n i := by
    obtain ⟨n, hn⟩ := (w.reach i r ho hr).lvl
    exact ⟨n, r, hr, hn⟩
  unfold lvlOf
  rw [dif_pos h]
  obtain ⟨r', hr', hl⟩ := h.choose_spec
  rw [hr] at hr'; cases hr'
  exact hl

theorem Spec.WF.level_lt {m : FModel} (w : WF m) {i : Id} (ho : Owned m i) : lvlOf m i < m.next := by
  obtain ⟨r, _, hr, _⟩ := w.root_ok
  exact (w.level_lvl ho hr).lt_next w hr ho

theorem Spec.WF.level_par {m : FModel} (w : WF m) {i p : Id} (ho : Owned m i) (hp : par m i = some p) :
    lvlOf m i = lvlOf m p + 1 := by
  obtain ⟨r, _, hr, _⟩ := w.root_ok
  have hop := (w.par_edge i p ho hp).1
  exact Lvl.unique (w.root_par hr) (w.level_lvl ho hr) (.succ hp (w.level_lvl hop hr))

theorem Spec.WF.level_edge {m : FModel} (w : WF m) {i c : Id} (ho : Owned m i) (hc : c ∈ edg m i) :
    lvlOf m c = lvlOf m i + 1 :=
  w.level_par (w.edge_par i c ho hc).1 (w.edge_par i c ho hc).2

/-! ### Showing reachability with a rank -/

theorem reach_of_rank {m : FModel} (rk : Id → Nat)
    (hpar : ∀ i p, Owned m i → par m i = some p → Owned m p ∧ rk p < rk i)
    (horph : ∀ i, Owned m i → par m i = none → m.root = some i) :
    ∀ i r, Owned m i → m.root = some r → Below m r i := by
  intro i r ho hr
  induction hn : rk i using Nat.strongRecOn generalizing i with
  | _ n ih =>
    cases hp : par m i with
    | none =>
      have := horph i ho hp
      rw [hr] at this; cases this; exact .refl
    | some p =>
      obtain ⟨h1, h2⟩ := hpar i p ho hp
      exact .step hp (ih (rk p) (by omega) p h1 rfl)

/-! ### Subtrees -/

theorem Spec.Below.trans {m : FModel} {a b c : Id} (h : Below m a b) (h' : Below m b c) : Below m a c := by
  induction h' with
  | refl => exact h
  | step hp _ ih => exact .step hp ih

theorem Spec.WF.below_owned {m : FModel} (w : WF m) {a i : Id} (ha : Owned m i) (h : Below m a i) : Owned m a := by
  induction h with
  | refl => exact ha
  | step hp _ ih => exact ih (w.par_edge _ _ ha hp).1

theorem Spec.WF.below_level {m : FModel} (w : WF m) {a i : Id} (ha : Owned m i) (h : Below m a i) :
    lvlOf m a ≤ lvlOf m i := by
  induction h with
  | refl => exact Nat.le_refl _
  | step hp _ ih =>
    have := ih (w.par_edge _ _ ha hp).1
    rw [w.level_par ha hp]; omega

/-- Descending is the same as ascending. -/
theorem Spec.WF.below_down {m : FModel} (w : WF m) {a i : Id} (h : Below m a i)
    (hi : Owned m i) : a = i ∨ ∃ c ∈ edg m a, Below m c i := by
  induction h with
  | refl => exact .inl rfl
  | @step i p hp _ ih =>
    obtain ⟨h1, h2⟩ := w.par_edge _ _ hi hp
    rcases ih h1 with rfl | ⟨c, hc, hb⟩
    · exact .inr ⟨i, h2, .refl⟩
    · exact .inr ⟨c, hc, .step hp hb⟩

theorem Spec.WF.below_edge {m : FModel} (w : WF m) {a c i : Id} (ha : Owned m a) (hc : c ∈ edg m a)
    (h : Below m c i) : Below m a i := by
  induction h with
  | refl => exact .step (w.edge_par a c ha hc).2 .refl
  | step hp _ ih => exact .step hp ih

theorem Spec.WF.not_below_parent {m : FModel} (w : WF m) {a p : Id} (ha : Owned m a) (hp : par m a = some p) :
    ¬ Below m a p := by
  intro h
  have := w.below_level (w.par_edge _ _ ha hp).1 h
  rw [w.level_par ha hp] at this
  omega

theorem Spec.WF.ids_nodup {m : FModel} (w : WF m) : (m.features.map Prod.snd).Nodup := by
  have h1 := w.names
  have h2 := w.feat_ok
  generalize m.features = l at *
  induction l with
  | nil => simp
  | cons e l ih =>
    simp only [List.map_cons, List.nodup_cons] at h1 ⊢
    refine ⟨?_, ih h1.2 (fun x hx => h2 x (List.mem_cons_of_mem _ hx))⟩
    intro hm
    obtain ⟨e', he', hee⟩ := List.mem_map.1 hm
    obtain ⟨f, hf, hn⟩ := h2 e (List.mem_cons_self ..)
    obtain ⟨f', hf', hn'⟩ := h2 e' (List.mem_cons_of_mem _ he')
    rw [hee, hf] at hf'
    cases hf'
    apply h1.1
    rw [← hn, hn']
    exact List.mem_map_of_mem he'

end Verif

import Verif.FM.EditLoop
import Verif.FM.Effects
/-!
# Moving features while iterating over a model

The loop of `EditLoop.lean` with bodies that also move features around.  A feature can then wait in the iterator twice
(`operator++` looks into `Visited` only when it puts features on the frontier, FeatureModel.h:112-137).
-/

namespace Verif
open Spec FModel

namespace Spec

/-- The rounds are calls of the body, each on the model the one before left and with a feature of that model. -/
inductive Rounds (body : List Id → FModel → Id → Option FModel) : List Id → FModel → List (Id × FModel) → Prop
  | nil {vis m} : Rounds body vis m []
  | cons {vis m f m' t} : Known m f → body vis m f = some m' → Rounds body (f :: vis) m' t → Rounds body vis m ((f, m') :: t)

/-- The body removes no feature and leaves a tree, as long as the caller's `P` holds, and keeps `P`. -/
def Roams (P : List Id → FModel → Prop) (body : List Id → FModel → Id → Option FModel) : Prop :=
  ∀ vis m f, P vis m → WF m → Known m f →
    ∃ m', body vis m f = some m' ∧ WF m' ∧ (∀ x, Known m x → Known m' x) ∧ P (f :: vis) m'

end Spec

variable {m m' : FModel} {body : List Id → FModel → Id → Option FModel}

theorem roaming_step (w' : WF m') (E : Env) {f : Id} (hf : Known m' f) (rest vis : List Id) :
    ∃ cs, DFS.next m' E ⟨f :: rest, vis⟩ = some ⟨cs ++ rest, f :: vis⟩ ∧ cs.Nodup ∧
      ∀ x, x ∈ cs ↔ (Known m' x ∧ FParent m' x f) ∧ x ∉ f :: vis := by
  obtain ⟨cs, hc, hk⟩ := sortedChildren_spec w' E hf
  have hmem : ∀ x, x ∈ cs.reverse ↔ Known m' x ∧ FParent m' x f := fun x => by
    rw [hk.mem]; exact via_iff_fparent w' (.inl hf) (w'.known_data hf)
  refine ⟨(cs.filter (fun c => !decide (c ∈ f :: vis))).reverse, ?_, ?_, ?_⟩
  · simp only [DFS.next, hc]
  · exact (List.reverse_perm _).nodup_iff.2 (((List.reverse_perm _).nodup_iff.1 hk.nodup).filter _)
  · intro x
    rw [List.mem_reverse, List.mem_filter, ← hmem x, List.mem_reverse]
    simp

/-- Features not visited yet, among the first `N`. -/
def unseen (N : Nat) (vis : List Id) : List Id := (List.range N).filter (fun x => decide (x ∉ vis))

theorem unseen_cons {N : Nat} {vis : List Id} {f : Id} (hf : f < N) (hv : f ∉ vis) :
    (unseen N (f :: vis)).length + 1 ≤ (unseen N vis).length := by
  have h1 : (f :: unseen N (f :: vis)).Nodup := by
    refine List.nodup_cons.2 ⟨by simp [unseen], ?_⟩
    exact List.nodup_range.filter _
  have h2 : f :: unseen N (f :: vis) ⊆ unseen N vis := by
    intro x hx
    rcases List.mem_cons.1 hx with rfl | hx
    · simp [unseen, hf, hv]
    · simp only [unseen, List.mem_filter, List.mem_cons, not_or, decide_eq_true_eq] at hx ⊢
      exact ⟨hx.1, hx.2.2⟩
  simpa using h1.length_le_of_subset h2

theorem unseen_cons_seen {N : Nat} {vis : List Id} {f : Id} (hv : f ∈ vis) : unseen N (f :: vis) = unseen N vis := by
  unfold unseen
  congr 1
  funext x
  rw [decide_eq_decide]
  simp only [List.mem_cons, not_or, and_iff_right_iff_imp]
  rintro h rfl
  exact h hv

/-- What decreases from round to round. -/
def leftOver (N : Nat) (vis fr : List Id) : Nat :=
  fr.length + 2 * (N + 1) * (unseen N vis).length +
    match fr with
    | [] => 0
    | f :: _ => if f ∈ vis then N + 1 else 0

theorem leftOver_cons (N : Nat) (vis : List Id) (f : Id) (rest : List Id) :
    leftOver N vis (f :: rest) = rest.length + 1 + 2 * (N + 1) * (unseen N vis).length + if f ∈ vis then N + 1 else 0 := rfl

theorem leftOver_le (N : Nat) (vis fr : List Id) :
    leftOver N vis fr ≤ fr.length + 2 * (N + 1) * (unseen N vis).length + (N + 1) := by
  unfold leftOver
  cases fr with
  | nil => simp
  | cons f r =>
    by_cases h : f ∈ vis
    · simp [h]
    · simp [h]

theorem leftOver_step {N : Nat} {vis rest cs : List Id} {f : Id} (hf : f < N) (hcs : cs.length ≤ N) (hn : ∀ x ∈ cs, x ∉ f :: vis) :
    leftOver N (f :: vis) (cs ++ rest) + 1 ≤ leftOver N vis (f :: rest) := by
  by_cases hv : f ∈ vis
  · rw [leftOver_cons, if_pos hv]
    cases cs with
    | nil =>
      have := leftOver_le N (f :: vis) rest
      rw [unseen_cons_seen hv] at this
      simp only [List.nil_append]
      omega
    | cons c cs =>
      rw [List.cons_append, leftOver_cons, if_neg (hn c (List.mem_cons_self ..)), unseen_cons_seen hv]
      simp only [List.length_append, List.length_cons] at hcs ⊢
      omega
  · rw [leftOver_cons, if_neg hv]
    have h1 := leftOver_le N (f :: vis) (cs ++ rest)
    have h2 := unseen_cons hf hv
    have h3 := Nat.mul_le_mul_left (2 * (N + 1)) h2
    rw [Nat.mul_add] at h3
    simp only [List.length_append] at h1
    omega

theorem editLoop_roams {P : List Id → FModel → Prop} (hb : Roams P body) (E : Env) {stop : DFS} (hstop : stop.frontier = []) :
    ∀ fuel m vis fr, P vis m → WF m → (∀ y ∈ fr, Known m y) →
      (editLoop E body stop fuel m ⟨fr, vis⟩ = .endless ∧
        ∀ N, (∀ vis m, P vis m → m.next ≤ N) → fuel ≤ leftOver N vis fr) ∨
      ∃ t, editLoop E body stop fuel m ⟨fr, vis⟩ = .done t ∧ Rounds body vis m t ∧ fr.Sublist (t.map Prod.fst) ∧
        ∀ x, x ∈ vis ∨ x ∈ t.map Prod.fst ↔ x ∈ vis ∨ x ∈ fr ∨ ∃ e ∈ t, Known e.2 x ∧ FParent e.2 x e.1 := by
  intro fuel
  induction fuel with
  | zero =>
    intro m vis fr hP w hk
    exact .inl ⟨rfl, fun N hN => Nat.zero_le _⟩
  | succ fuel ih =>
    intro m vis fr hP w hk
    cases fr with
    | nil =>
      refine .inr ⟨[], ?_, .nil, by simp, by simp⟩
      simp [editLoop, DFS.eq, hstop]
    | cons f rest =>
      have hf := hk f (List.mem_cons_self ..)
      obtain ⟨m', hm, w', hkeep, hP'⟩ := hb vis m f hP w hf
      obtain ⟨cs, hn, hnd, hcs⟩ := roaming_step w' E (hkeep f hf) rest vis
      obtain ⟨d, hd⟩ := w.known_data hf
      have hne : DFS.eq m ⟨f :: rest, vis⟩ stop = false := by simp [DFS.eq, hstop]
      have he : editLoop E body stop (fuel + 1) m ⟨f :: rest, vis⟩ =
          (editLoop E body stop fuel m' ⟨cs ++ rest, f :: vis⟩).cons (f, m') := by
        simp only [editLoop, hne, Bool.false_eq_true, if_false, heap_of_data hd, hm, hn]
      have hk' : ∀ y ∈ cs ++ rest, Known m' y := by
        intro y hy
        rcases List.mem_append.1 hy with hy | hy
        · exact ((hcs y).1 hy).1.1
        · exact hkeep y (hk y (List.mem_cons_of_mem _ hy))
      rcases ih m' (f :: vis) (cs ++ rest) hP' w' hk' with ⟨h1, h2⟩ | ⟨t, h1, h2, h3, h5⟩
      · refine .inl ⟨by rw [he, h1]; rfl, fun N hN => ?_⟩
        have a := h2 N hN
        have hlt : ∀ x, Known m' x → x < N := fun x hx => Nat.lt_of_lt_of_le (w'.owned_lt (.inl hx)) (hN _ _ hP')
        have hlen : cs.length ≤ N := by
          have := hnd.length_le_of_subset (fun x hx => List.mem_range.2 (hlt x ((hcs x).1 hx).1.1) : cs ⊆ List.range N)
          simpa using this
        have b := leftOver_step (rest := rest) (hlt f (hkeep f hf)) hlen (fun x hx => ((hcs x).1 hx).2)
        omega
      · refine .inr ⟨(f, m') :: t, by rw [he, h1]; rfl, .cons hf hm h2, ?_, ?_⟩
        · simp only [List.map_cons]
          exact ((List.sublist_append_right cs rest).trans h3).cons_cons f
        · intro x
          have h := h5 x
          simp only [List.map_cons, List.mem_cons, List.mem_append, hcs x] at h ⊢
          constructor
          · intro hx
            have hx' : (x = f ∨ x ∈ vis) ∨ x ∈ t.map Prod.fst := by
              rcases hx with a | a | a
              · exact .inl (.inr a)
              · exact .inl (.inl a)
              · exact .inr a
            rcases h.1 hx' with (a | a) | (⟨a, _⟩ | a) | ⟨e, a, b⟩
            · exact .inr (.inl (.inl a))
            · exact .inl a
            · exact .inr (.inr ⟨(f, m'), .inl rfl, a⟩)
            · exact .inr (.inl (.inr a))
            · exact .inr (.inr ⟨e, .inr a, b⟩)
          · intro hx
            have hx' : (x = f ∨ x ∈ vis) ∨ x ∈ t.map Prod.fst := by
              by_cases hv : x = f ∨ x ∈ vis
              · exact .inl hv
              · apply h.2
                rcases hx with a | (a | a) | ⟨e, rfl | a, b⟩
                · exact .inl (.inr a)
                · exact .inl (.inl a)
                · exact .inr (.inl (.inr a))
                · exact .inr (.inl (.inl ⟨b, hv⟩))
                · exact .inr (.inr ⟨e, a, b⟩)
            rcases hx' with (a | a) | a
            · exact .inr (.inl a)
            · exact .inl a
            · exact .inr (.inr a)

/-- The rounds keep what the caller said. -/
theorem rounds_holds {P : List Id → FModel → Prop} (hb : Roams P body) {vis : List Id} {t1 t2 : List (Id × FModel)} {e : Id × FModel}
    (r : Rounds body vis m (t1 ++ e :: t2)) (hP : P vis m) (w : WF m) :
    ∃ vis', P (e.1 :: vis') e.2 ∧ WF e.2 ∧ ∀ x, x ∈ vis' ↔ x ∈ t1.map Prod.fst ∨ x ∈ vis := by
  induction t1 generalizing vis m with
  | nil =>
    cases r with
    | @cons _ _ f m' _ kf hm r =>
      obtain ⟨m1, h1, w1, _, hP'⟩ := hb vis m f hP w kf
      rw [hm] at h1; cases h1
      exact ⟨vis, hP', w1, by simp⟩
  | cons a t1 ih =>
    cases r with
    | @cons _ _ f m' _ kf hm r =>
      obtain ⟨m1, h1, w1, _, hP'⟩ := hb vis m f hP w kf
      rw [hm] at h1; cases h1
      obtain ⟨vis', a1, a2, a3⟩ := ih r hP' w1
      refine ⟨vis', a1, a2, fun x => ?_⟩
      rw [a3 x]
      simp only [List.map_cons, List.mem_cons]
      constructor
      · rintro (h | h | h)
        · exact .inl (.inr h)
        · exact .inl (.inl h)
        · exact .inr h
      · rintro ((h | h) | h)
        · exact .inr (.inl h)
        · exact .inl h
        · exact .inr (.inr h)

/-- Who is the parent feature after a move. -/
theorem moved_fparent {p c : Id} (h : Moved m m' p c) (hp : IsFeat m p) (hc : IsFeat m c) {x q : Id} :
    FParent m' x q ↔ if x = c then q = p else FParent m x q := by
  have isf : ∀ i, IsFeat m' i ↔ IsFeat m i := fun i => by unfold IsFeat; rw [h.data]
  have isr : ∀ i, IsRel m' i ↔ IsRel m i := fun i => by unfold IsRel; rw [h.data]
  have hnr : ¬ IsRel m c := by
    rintro ⟨k, hk⟩
    obtain ⟨d, hd⟩ := hc
    rw [hd] at hk; cases hk
  have hnp : ¬ IsRel m p := by
    rintro ⟨k, hk⟩
    obtain ⟨d, hd⟩ := hp
    rw [hd] at hk; cases hk
  by_cases hxc : x = c
  · subst hxc
    rw [if_pos rfl]
    have hpx : par m' x = some p := by rw [h.par]; simp
    constructor
    · intro hf
      cases hf with
      | direct h1 _ => rw [hpx] at h1; cases h1; rfl
      | skip h1 h2 _ => rw [hpx] at h1; cases h1; exact absurd ((isr _).1 h2) hnp
    · rintro rfl
      exact .direct hpx ((isf _).2 hp)
  · rw [if_neg hxc]
    have hpar : ∀ y, y ≠ c → par m' y = par m y := fun y hy => by rw [h.par, upd_ne _ _ hy]
    constructor
    · intro hf
      induction hf with
      | direct h1 h2 => rw [hpar _ hxc] at h1; exact .direct h1 ((isf _).1 h2)
      | @skip i r p' h1 h2 h3 ih =>
        rw [hpar _ hxc] at h1
        have hr := (isr _).1 h2
        exact .skip h1 hr (ih (fun e => hnr (e ▸ hr)))
    · intro hf
      induction hf with
      | direct h1 h2 => rw [← hpar _ hxc] at h1; exact .direct h1 ((isf _).2 h2)
      | @skip i r p' h1 h2 h3 ih =>
        rw [← hpar _ hxc] at h1
        exact .skip h1 ((isr _).2 h2) (ih (fun e => hnr (e ▸ h2)))

end Verif

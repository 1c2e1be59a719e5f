import Verif.FM.Children
/-! Lemmas: the consistency check accepts every well-formed model. -/

namespace Verif
open Verif.Spec

theorem countP_one {α : Type _} [DecidableEq α] {p : α → Bool} {a : α} :
    ∀ {l : List α}, l.Nodup → a ∈ l → (∀ x ∈ l, p x = true ↔ x = a) → l.countP p = 1 := by
  intro l hn ha hp
  have : l.countP p = l.count a := by
    unfold List.count
    apply List.countP_congr
    intro x hx
    rw [hp x hx]
    simp
  rw [this, hn.count, if_pos ha]

theorem allM_true {α : Type _} {p : α → Option Bool} :
    ∀ {l : List α}, (∀ x ∈ l, p x = some true) → FModel.allM p l = some true := by
  intro l
  induction l with
  | nil => intro _; rfl
  | cons x xs ih =>
    intro h
    unfold FModel.allM
    rw [h x (List.mem_cons_self ..)]
    exact ih (fun y hy => h y (List.mem_cons_of_mem _ hy))

theorem allM_elim {α : Type _} {p : α → Option Bool} :
    ∀ {l : List α}, FModel.allM p l = some true → ∀ x ∈ l, p x = some true := by
  intro l
  induction l with
  | nil => intro _ x hx; cases hx
  | cons x xs ih =>
    intro h y hy
    unfold FModel.allM at h
    cases hx : p x with
    | none => rw [hx] at h; cases h
    | some b =>
      rw [hx] at h
      cases b with
      | false => cases h
      | true =>
        rcases List.mem_cons.1 hy with rfl | hy
        · exact hx
        · exact ih h y hy

theorem nodup_of_names {l : List (Str × Id)} (h : (l.map Prod.fst).Nodup) : l.Nodup := by
  induction l with
  | nil => simp
  | cons e l ih =>
    simp only [List.map_cons, List.nodup_cons] at h ⊢
    exact ⟨fun hm => h.1 (List.mem_map_of_mem hm), ih h.2⟩

theorem Spec.WF.nodup_features {m : FModel} (w : WF m) : m.features.Nodup := nodup_of_names w.names

theorem isRoot_iff {m : FModel} {i : Id} {n : Node} (h : m.heap i = some n) :
    n.isRoot = true ↔ ∃ f, data m i = some (.feat f) ∧ f.attr.kind = .root := by
  rw [data_of_heap h]
  unfold Node.isRoot
  cases hd : n.data with
  | feat f => simp
  | rel k => simp

/-- What the consistency check looks at. -/
structure Checked (m : FModel) : Prop where
  names : (m.features.map Prod.fst).Nodup
  feat_ok : ∀ e ∈ m.features, ∃ f, data m e.2 = some (.feat f) ∧ f.attr.name = e.1
  root_ok : ∃ r f, m.root = some r ∧ Known m r ∧ data m r = some (.feat f) ∧ f.attr.kind = .root
  one_root : ∀ i f, Known m i → data m i = some (.feat f) → f.attr.kind = .root → m.root = some i
  link : ∀ i, Known m i → m.root ≠ some i →
    (∃ q, m.parentFeature i = some (some q)) ∧ ∃ p d, par m i = some p ∧ data m p = some d ∧ i ∈ edg m p

theorem consistent_of_checked {m : FModel} (w : Checked m) (E : Env) : m.consistent E = some true := by
  obtain ⟨r, rf, hr, hrk, hrd, hrr⟩ := w.root_ok
  have hmem : ∀ e, e ∈ E.mapOrder m.features ↔ e ∈ m.features := fun e => (E.mapOrder_perm _).mem_iff
  have hid : ∀ e ∈ m.features, ∃ n, m.heap e.2 = some n ∧ (n.isRoot = true ↔ e.2 = r) := by
    intro e he
    obtain ⟨f, hf, hnm⟩ := w.feat_ok e he
    refine ⟨_, heap_of_data hf, ?_⟩
    rw [isRoot_iff (heap_of_data hf)]
    constructor
    · rintro ⟨f', h1, h2⟩
      have := w.one_root e.2 f' (List.mem_map_of_mem he) h1 h2
      rw [hr] at this; cases this; rfl
    · intro h
      subst h
      exact ⟨rf, hrd, hrr⟩
  have h1 : FModel.exactlyOneRoot E m = true := by
    unfold FModel.exactlyOneRoot
    rw [hr]
    simp only [Option.isSome_some, Bool.true_and, decide_eq_true_eq]
    obtain ⟨er, her, here⟩ := List.mem_map.1 hrk
    apply countP_one (a := er)
    · exact (E.mapOrder_perm _).nodup_iff.2 (nodup_of_names w.names)
    · rwa [hmem]
    · intro e he
      rw [hmem] at he
      obtain ⟨n, hn, hiff⟩ := hid e he
      rw [hn]
      simp only
      rw [hiff]
      constructor
      · intro h
        obtain ⟨f, hf, hnm⟩ := w.feat_ok e he
        obtain ⟨f', hf', hnm'⟩ := w.feat_ok er her
        rw [h] at hf; rw [here] at hf'
        rw [hf] at hf'; cases hf'
        exact Prod.ext (hnm.symm.trans hnm') (h.trans here.symm)
      · rintro rfl; exact here
  have h2 : FModel.everyFeatureHasParent E m = some true := by
    apply allM_true
    intro e he
    rw [hmem] at he
    obtain ⟨n, hn, hiff⟩ := hid e he
    rw [hn]
    simp only
    by_cases hroot : n.isRoot = true
    · rw [if_pos hroot]
    · rw [if_neg hroot]
      have ho : Known m e.2 := List.mem_map_of_mem he
      have hne : m.root ≠ some e.2 := by
        rw [hr]; intro h; exact hroot (hiff.2 (Option.some.inj h).symm)
      obtain ⟨⟨q, hq⟩, _⟩ := w.link e.2 ho hne
      rw [hq]
      rfl
  have h3 : FModel.parentsKnowChildren E m = some true := by
    apply allM_true
    intro e he
    rw [hmem] at he
    obtain ⟨n, hn, hiff⟩ := hid e he
    rw [hn]
    simp only
    by_cases hroot : n.isRoot = true
    · rw [if_pos hroot]
    · rw [if_neg hroot]
      have ho : Known m e.2 := List.mem_map_of_mem he
      have hne : m.root ≠ some e.2 := by
        rw [hr]; intro h; exact hroot (hiff.2 (Option.some.inj h).symm)
      obtain ⟨_, p, d, hp, hd, hep⟩ := w.link e.2 ho hne
      rw [par_of_heap hn] at hp
      simp [hp, heap_of_data hd, hep]
  unfold FModel.consistent
  rw [if_pos h1, h2]
  exact h3

theorem Spec.WF.checked {m : FModel} (w : WF m) : Checked m where
  names := w.names
  feat_ok := w.feat_ok
  root_ok := by
    obtain ⟨r, rf, hr, hrk, hrd, hrr, _⟩ := w.root_ok
    exact ⟨r, rf, hr, hrk, hrd, hrr⟩
  one_root := w.one_root
  link := by
    intro i hk hne
    obtain ⟨res, h3, h4⟩ := parentFeature_spec w (.inl hk)
    obtain ⟨q, hq, _⟩ := w.has_fparent (.inl hk) hne
    refine ⟨⟨q, by rw [h3, (h4 q).2 hq]⟩, ?_⟩
    cases hp : par m i with
    | none => exact absurd (w.orphan i (.inl hk) hp) hne
    | some p =>
      obtain ⟨hop, hep⟩ := w.par_edge i p (.inl hk) hp
      obtain ⟨d, hd⟩ := w.owned_data hop
      exact ⟨p, d, rfl, hd, hep⟩

theorem consistent_of_WF {m : FModel} (w : WF m) (E : Env) : m.consistent E = some true := consistent_of_checked w.checked E

end Verif

import Verif.Graph.TextSpec
import Verif.Base.StrLemmas
import Verif.FM.Children
/-! Lemmas: the text of features. -/

namespace Verif
open Verif.Spec

theorem childNames_spec {m : FModel} : ∀ es : List Id, (∀ c ∈ es, ∃ d, data m c = some d) →
    ∃ (kids : List Id) (names : List Str), m.childNames es = some (names.flatMap fun v => v ++ [',']) ∧ kids.map m.nameOf = names.map some ∧
      kids.Sublist es ∧ ∀ c, c ∈ kids ↔ c ∈ es ∧ IsFeat m c
  | [], _ => ⟨[], [], rfl, rfl, .slnil, by simp⟩
  | c :: es, h => by
    obtain ⟨kids, names, e1, e2, e3, e4⟩ := childNames_spec es (fun x hx => h x (List.mem_cons_of_mem _ hx))
    obtain ⟨d, hd⟩ := h c (List.mem_cons_self ..)
    have hh := heap_of_data hd
    cases d with
    | feat f =>
      refine ⟨c :: kids, f.attr.name :: names, ?_, ?_, .cons_cons _ e3, ?_⟩
      · rw [FModel.childNames, hh, e1]; simp
      · simp [e2, FModel.nameOf, FModel.feat?, hh]
      · intro x
        simp only [List.mem_cons, e4]
        constructor
        · rintro (rfl | ⟨h1, h2⟩)
          · exact ⟨.inl rfl, f, hd⟩
          · exact ⟨.inr h1, h2⟩
        · rintro ⟨rfl | h1, h2⟩
          · exact .inl rfl
          · exact .inr ⟨h1, h2⟩
    | rel k =>
      refine ⟨kids, names, ?_, e2, .cons _ e3, ?_⟩
      · rw [FModel.childNames, hh, e1]
      · intro x
        rw [e4]
        constructor
        · rintro ⟨h1, h2⟩; exact ⟨List.mem_cons_of_mem _ h1, h2⟩
        · rintro ⟨h1, h2⟩
          rcases List.mem_cons.1 h1 with rfl | h1
          · obtain ⟨f, hf⟩ := h2
            rw [hd] at hf; cases hf
          · exact ⟨h1, h2⟩

theorem toText_spec {m : FModel} (w : WF m) {i : Id} {f : Feat} (hk : Known m i) (hd : data m i = some (.feat f)) :
    ∃ t parent kids names, m.toText i = some t ∧ ShowsFeature m i f parent kids names t ∧
      ∀ c, c ∈ kids ↔ c ∈ edg m i ∧ IsFeat m c := by
  have ho : Owned m i := .inl hk
  have hh := heap_of_data hd
  obtain ⟨r, h1, h2⟩ := parentFeature_spec w ho
  obtain ⟨kids, names, e1, e2, e3, e4⟩ := childNames_spec (m := m) (edg m i)
    (fun c hc => w.owned_data (w.edge_par i c ho hc).1)
  have hfeat : m.feat? i = some f := by simp [FModel.feat?, hh]
  have hpar : ∃ parent, (∀ n, parent = some n ↔ ∃ p, FParent m i p ∧ (n, p) ∈ m.features) ∧
      ((r = none ∧ parent = none) ∨ ∃ q n, r = some q ∧ parent = some n ∧ m.nameOf q = some n) := by
    cases r with
    | none =>
      refine ⟨none, fun n => ?_, .inl ⟨rfl, rfl⟩⟩
      constructor
      · intro h; cases h
      · rintro ⟨p, hp, _⟩
        cases (h2 p).2 hp
    | some q =>
      have hq := (h2 q).1 rfl
      have hkq : Known m q := by
        by_cases hr : m.root = some i
        · exfalso
          have hp := w.root_par hr
          cases hq with
          | direct h _ => rw [hp] at h; cases h
          | skip h _ _ => rw [hp] at h; cases h
        · obtain ⟨p, hp, hkp⟩ := w.has_fparent ho hr
          rw [hq.functional hp]; exact hkp
      obtain ⟨⟨n, q'⟩, he, rfl⟩ := List.mem_map.1 hkq
      obtain ⟨g, hg, hn⟩ := w.feat_ok _ he
      have hname : m.nameOf q' = some n := by
        simp only at hg hn
        simp [FModel.nameOf, FModel.feat?, heap_of_data hg, hn]
      refine ⟨some n, fun n' => ?_, .inr ⟨_, _, rfl, rfl, hname⟩⟩
      constructor
      · intro h; cases h; exact ⟨_, hq, he⟩
      · rintro ⟨p, hp, hm⟩
        have := hp.functional hq
        simp only at this
        subst this
        obtain ⟨g', hg', hn'⟩ := w.feat_ok _ hm
        simp only at hg hn hg' hn'
        rw [hg] at hg'
        cases hg'
        rw [← hn, hn']
  obtain ⟨parent, p1, p2⟩ := hpar
  refine ⟨record (featureFields f parent names), parent, kids, names, ?_, ⟨rfl, p1, e2, e3⟩, e4⟩
  unfold FModel.toText FModel.featureText
  rw [hfeat, hh, h1]
  simp only [e1]
  unfold featureFields
  rcases p2 with ⟨rfl, rfl⟩ | ⟨q, n, rfl, rfl, hn⟩
  · by_cases hl : f.attr.locs = [] <;> cases hk : f.attr.kind with
    | numeric v s =>
      cases v <;> simp [hl, record, recordTail, bracketed, valueFields, FModel.valuesDump, List.flatMap_map]
    | _ => simp [hl, record, recordTail, bracketed, valueFields]
  · simp only [hn]
    by_cases hl : f.attr.locs = [] <;> cases hk : f.attr.kind with
    | numeric v s =>
      cases v <;> simp [hl, record, recordTail, bracketed, valueFields, FModel.valuesDump, List.flatMap_map]
    | _ => simp [hl, record, recordTail, bracketed, valueFields]

/-! ### Reading the record -/

theorem cut_unique {x : Char} : ∀ {a a' b b' : Str}, x ∉ a → x ∉ a' → a ++ x :: b = a' ++ x :: b' → a = a' ∧ b = b'
  | [], [], _, _, _, _, h => by simp at h; exact ⟨rfl, h⟩
  | [], c :: a', _, _, _, h2, h => by
    simp at h
    exact absurd (h.1 ▸ List.mem_cons_self ..) h2
  | c :: a, [], _, _, h1, _, h => by
    simp at h
    exact absurd (h.1 ▸ List.mem_cons_self ..) h1
  | c :: a, c' :: a', b, b', h1, h2, h => by
    simp only [List.cons_append, List.cons.injEq] at h
    obtain ⟨e1, e2⟩ := cut_unique (fun hx => h1 (List.mem_cons_of_mem _ hx)) (fun hx => h2 (List.mem_cons_of_mem _ hx)) h.2
    exact ⟨by rw [h.1, e1], e2⟩

/-- Keys have no colon, and there is no line break in a field. -/
def GoodFields (fs : List (Str × Str)) : Prop := ∀ x ∈ fs, ':' ∉ x.1 ∧ '\n' ∉ x.1 ∧ '\n' ∉ x.2

theorem recordTail_cases (fs : List (Str × Str)) :
    (fs = [] ∧ recordTail fs = []) ∨ ∃ k v gs, fs = (k, v) :: gs ∧
      recordTail fs = ',' :: '\n' :: (c!"  " ++ (k ++ ':' :: (c!" " ++ v ++ recordTail gs))) := by
  cases fs with
  | nil => exact .inl ⟨rfl, rfl⟩
  | cons x gs => exact .inr ⟨x.1, x.2, gs, rfl, by simp [recordTail]⟩

theorem value_tail_inj : ∀ {v v' : Str} {fs gs : List (Str × Str)}, '\n' ∉ v → '\n' ∉ v' →
    v ++ recordTail fs = v' ++ recordTail gs → v = v' ∧ recordTail fs = recordTail gs := by
  intro v v' fs gs h1 h2 h
  rcases recordTail_cases fs with ⟨rfl, e⟩ | ⟨k, w, fs', rfl, e⟩ <;>
    rcases recordTail_cases gs with ⟨rfl, e'⟩ | ⟨k', w', gs', rfl, e'⟩
  · simp only [recordTail, List.append_nil] at h; exact ⟨h, rfl⟩
  · rw [e, e', List.append_nil] at h
    exact absurd (h ▸ by simp) h1
  · rw [e, e', List.append_nil] at h
    exact absurd (h ▸ by simp) h2
  · rw [e, e'] at h ⊢
    have := cut_unique (x := '\n') (a := v ++ [',']) (a' := v' ++ [',']) (by simpa using h1) (by simpa using h2)
      (by simpa using h)
    obtain ⟨e1, e2⟩ := this
    exact ⟨List.append_cancel_right e1, by simpa using e2⟩

theorem recordTail_inj : ∀ {fs gs : List (Str × Str)}, GoodFields fs → GoodFields gs →
    recordTail fs = recordTail gs → fs = gs
  | [], [], _, _, _ => rfl
  | [], x :: gs, _, _, h => by simp [recordTail] at h
  | x :: fs, [], _, _, h => by simp [recordTail] at h
  | (k, v) :: fs, (k', v') :: gs, h1, h2, h => by
    simp only [recordTail, List.append_assoc, List.append_cancel_left_eq] at h
    obtain ⟨a1, a2, a3⟩ := h1 _ (List.mem_cons_self ..)
    obtain ⟨b1, b2, b3⟩ := h2 _ (List.mem_cons_self ..)
    simp only at a1 a2 a3 b1 b2 b3
    obtain ⟨rfl, e⟩ := cut_unique (x := ':') (b := ' ' :: (v ++ recordTail fs)) (b' := ' ' :: (v' ++ recordTail gs)) a1 b1 h
    simp only [List.cons.injEq, true_and] at e
    obtain ⟨rfl, e'⟩ := value_tail_inj a3 b3 e
    rw [recordTail_inj (fun x hx => h1 x (List.mem_cons_of_mem _ hx)) (fun x hx => h2 x (List.mem_cons_of_mem _ hx)) e']

theorem record_inj {fs gs : List (Str × Str)} (h1 : GoodFields fs) (h2 : GoodFields gs) (hf : fs ≠ []) (hg : gs ≠ [])
    (h : record fs = record gs) : fs = gs := by
  apply recordTail_inj h1 h2
  match fs, gs, hf, hg with
  | (k, v) :: fs, (k', v') :: gs, _, _ =>
    simp only [record, List.append_assoc, List.append_cancel_left_eq] at h
    simp only [recordTail, List.append_assoc, h]

theorem bracketed_inj : ∀ {a b : List Str}, (∀ x ∈ a, ',' ∉ x) → (∀ x ∈ b, ',' ∉ x) → bracketed a = bracketed b → a = b := by
  intro a b h1 h2 h
  simp only [bracketed, List.append_assoc, List.append_cancel_left_eq, List.append_cancel_right_eq] at h
  induction a generalizing b with
  | nil =>
    cases b with
    | nil => rfl
    | cons y b => simp at h
  | cons x a ih =>
    cases b with
    | nil => simp at h
    | cons y b =>
      simp only [List.flatMap_cons, List.append_assoc, List.singleton_append] at h
      obtain ⟨rfl, e⟩ := cut_unique (h1 x (List.mem_cons_self ..)) (h2 y (List.mem_cons_self ..)) h
      rw [ih (fun x hx => h1 x (List.mem_cons_of_mem _ hx)) (fun x hx => h2 x (List.mem_cons_of_mem _ hx)) e]

theorem intText_injective {a b : Int} (h : intText a = intText b) : a = b := by
  have key : ∀ {n : Nat} {c : Char}, isDigit c = false → ∀ t, natText n ≠ c :: t := by
    intro n c hc t ht
    have := natText_digits n c (by rw [ht]; exact List.mem_cons_self ..)
    rw [hc] at this; cases this
  have inj : ∀ {n k : Nat}, natText n = natText k → n = k := by
    intro n k h
    rw [← natText_value n, h, natText_value]
  cases a with
  | ofNat n =>
    cases b with
    | ofNat k => rw [inj h]
    | negSucc k => exact absurd h (key (by decide) _)
  | negSucc n =>
    cases b with
    | ofNat k => exact absurd h.symm (key (by decide) _)
    | negSucc k =>
      simp only [intText, List.cons.injEq, true_and] at h
      have := inj h
      simp at this
      rw [this]

theorem intText_clean (v : Int) : ∀ c ∈ intText v, isDigit c = true ∨ c = '-' := by
  intro c hc
  cases v with
  | ofNat n => exact .inl (natText_digits n c hc)
  | negSucc n =>
    rcases List.mem_cons.1 hc with rfl | h
    · exact .inr rfl
    · exact .inl (natText_digits _ c h)

theorem intText_not_mem {v : Int} {x : Char} (h1 : isDigit x = false) (h2 : x ≠ '-') : x ∉ intText v := by
  intro h
  rcases intText_clean v x h with h | h
  · rw [h1] at h; cases h
  · exact h2 h

theorem bracketed_oneLine {l : List Str} (h : ∀ x ∈ l, '\n' ∉ x) : '\n' ∉ bracketed l := by
  simp only [bracketed, List.mem_append, List.mem_flatMap, List.mem_singleton, not_or, not_exists, not_and]
  refine ⟨⟨by decide, fun x hx => ⟨h x hx, by decide⟩⟩, by decide⟩

theorem featureFields_good {f : Feat} {parent : Option Str} {kids : List Str} (h : Tidy f parent kids) :
    GoodFields (featureFields f parent kids) := by
  intro x hx
  simp only [featureFields, List.mem_append] at hx
  rcases hx with (((hx | hx) | hx) | hx) | hx
  · simp only [List.mem_cons, List.not_mem_nil, or_false] at hx
    rcases hx with rfl | rfl
    · refine ⟨by simp, by simp, ?_⟩
      have := h.name
      simp only [OneLine] at this
      simpa using this
    · refine ⟨by simp, by simp, ?_⟩
      cases f.attr.opt <;> decide
  · split at hx
    · cases hx
    · rw [List.mem_singleton] at hx
      subst hx
      refine ⟨by simp, by simp, ?_⟩
      simp only [List.mem_flatMap, List.mem_append, List.mem_singleton, not_exists, not_and, not_or]
      intro r hr
      exact ⟨⟨by decide, h.locs r hr⟩, by decide⟩
  · cases parent with
    | none => cases hx
    | some p =>
      rw [List.mem_singleton] at hx
      subst hx
      exact ⟨by simp, by simp, h.parent p rfl⟩
  · rw [List.mem_singleton] at hx
    subst hx
    exact ⟨by simp, by simp, bracketed_oneLine fun k hk => (h.kids k hk).1⟩
  · cases hk : f.attr.kind with
    | numeric v s =>
      rw [hk] at hx
      cases v with
      | range lo hi =>
        simp only [valueFields, List.mem_cons, List.not_mem_nil, or_false] at hx
        rcases hx with rfl | rfl <;>
          exact ⟨by simp, by simp, intText_not_mem (by decide) (by decide)⟩
      | list vs =>
        simp only [valueFields, List.mem_cons, List.not_mem_nil, or_false] at hx
        subst hx
        refine ⟨by simp, by simp, bracketed_oneLine ?_⟩
        intro y hy
        obtain ⟨v, _, rfl⟩ := List.mem_map.1 hy
        exact intText_not_mem (by decide) (by decide)
    | _ => rw [hk] at hx; cases hx

end Verif

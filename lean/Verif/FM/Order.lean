import Verif.FM.Iterate
/-!
# Orders of strings and insertion into sorted lists
-/

namespace Verif

theorem strLt_irrefl (a : Str) : strLt a a = false := by
  induction a with
  | nil => rfl
  | cons x xs ih => simp [strLt, ih]

theorem strLt_trans {a b c : Str} (h1 : strLt a b = true) (h2 : strLt b c = true) : strLt a c = true := by
  induction a generalizing b c with
  | nil =>
    cases c with
    | nil => cases b <;> simp [strLt] at h2
    | cons => rfl
  | cons x xs ih =>
    cases b with
    | nil => simp [strLt] at h1
    | cons y ys =>
      cases c with
      | nil => simp [strLt] at h2
      | cons z zs =>
        unfold strLt at h1 h2 ⊢
        by_cases hxy : x = y
        · subst hxy
          by_cases hxz : x = z
          · subst hxz
            simp only [if_true] at h1 h2 ⊢
            exact ih h1 h2
          · simp only [if_neg hxz] at h2 ⊢; exact h2
        · by_cases hyz : y = z
          · subst hyz
            simp only [if_neg hxy] at h1 ⊢; exact h1
          · simp only [if_neg hxy, if_neg hyz, decide_eq_true_eq] at h1 h2
            have hxz : x ≠ z := by rintro rfl; omega
            simp only [if_neg hxz, decide_eq_true_eq]; omega

theorem strLt_asymm {a b : Str} (h : strLt a b = true) : strLt b a = false := by
  cases hb : strLt b a with
  | false => rfl
  | true => have := strLt_trans h hb; rw [strLt_irrefl] at this; cases this

theorem strLt_total {a b : Str} (h1 : strLt a b = false) (h2 : strLt b a = false) : a = b := by
  induction a generalizing b with
  | nil =>
    cases b with
    | nil => rfl
    | cons => simp [strLt] at h1
  | cons x xs ih =>
    cases b with
    | nil => simp [strLt] at h2
    | cons y ys =>
      unfold strLt at h1 h2
      by_cases hxy : x = y
      · subst hxy
        simp only [if_true] at h1 h2
        rw [ih h1 h2]
      · simp only [if_neg hxy, if_neg (Ne.symm hxy), decide_eq_false_iff_not] at h1 h2
        exact absurd (Char.ext (UInt32.toNat_inj.1 (by show x.toNat = y.toNat; omega))) hxy

/-- Not below is transitive. -/
theorem strLe_trans {a b c : Str} (h1 : strLt b a = false) (h2 : strLt c b = false) : strLt c a = false := by
  cases hca : strLt c a with
  | false => rfl
  | true =>
    cases hab : strLt a b with
    | true => have := strLt_trans hca hab; rw [h2] at this; cases this
    | false => rw [strLt_total hab h1, h2] at hca; cases hca

theorem strLt_of_lt_of_le {a b c : Str} (h1 : strLt a b = true) (h2 : strLt c b = false) : strLt a c = true := by
  cases h : strLt a c with
  | true => rfl
  | false => have := strLe_trans h2 h; rw [h1] at this; cases this

/-! ### upper_bound -/

theorem takeWhile_mem {α} {p : α → Bool} {l : List α} {x : α} (h : x ∈ l.takeWhile p) : p x = true := by
  induction l with
  | nil => cases h
  | cons a l ih =>
    unfold List.takeWhile at h
    cases ha : p a with
    | true =>
      rw [ha] at h
      rcases List.mem_cons.1 h with rfl | h
      · exact ha
      · exact ih h
    | false => rw [ha] at h; cases h

theorem upperInsert_perm {α} {lt : α → α → Bool} {x : α} {l l' : List α} (h : upperInsert lt x l = some l') :
    l'.Perm (x :: l) := by
  unfold upperInsert at h
  split at h
  · cases h
    have := List.takeWhile_append_dropWhile (p := fun e => !lt x e) (l := l)
    conv => rhs; rw [← this]
    exact List.perm_middle
  · cases h

/-- In a list sorted by a strict weak order, insertion is defined and keeps it sorted; the element
    comes after all that are not above it. -/
theorem upperInsert_sorted {α} {lt : α → α → Bool} (S : α → Prop)
    (weak : ∀ a b c, S a → S b → S c → lt a b = true → lt c b = false → lt a c = true)
    (asym : ∀ a b, S a → S b → lt a b = true → lt b a = false)
    {x : α} (hx : S x) {l : List α} (hS : ∀ a ∈ l, S a) (hl : l.Pairwise (fun a b => lt b a = false)) :
    ∃ pre post, l = pre ++ post ∧ upperInsert lt x l = some (pre ++ x :: post) ∧
      (∀ e ∈ pre, lt x e = false) ∧ (∀ e ∈ post, lt x e = true) ∧
      (pre ++ x :: post).Pairwise (fun a b => lt b a = false) := by
  have key : ∀ e ∈ l.dropWhile (fun e => !lt x e), lt x e = true := by
    induction l with
    | nil => intro e he; cases he
    | cons a l ih =>
      intro e he
      unfold List.dropWhile at he
      cases ha : lt x a with
      | false =>
        rw [ha] at he
        exact ih (fun b hb => hS b (List.mem_cons_of_mem _ hb)) (List.pairwise_cons.1 hl).2 e he
      | true =>
        rw [ha] at he
        rcases List.mem_cons.1 he with rfl | he
        · exact ha
        · exact weak x a e hx (hS a (List.mem_cons_self ..)) (hS e (List.mem_cons_of_mem _ he)) ha
            ((List.pairwise_cons.1 hl).1 e he)
  have hpre : ∀ e ∈ l.takeWhile (fun e => !lt x e), lt x e = false := by
    intro e he
    have := takeWhile_mem he
    simpa using this
  have hsplit := List.takeWhile_append_dropWhile (p := fun e => !lt x e) (l := l)
  refine ⟨l.takeWhile (fun e => !lt x e), l.dropWhile (fun e => !lt x e), hsplit.symm, ?_, hpre, key, ?_⟩
  · unfold upperInsert
    rw [if_pos (List.all_eq_true.2 key)]
  · rw [← hsplit] at hl
    obtain ⟨h1, h2, h3⟩ := List.pairwise_append.1 hl
    refine List.pairwise_append.2 ⟨h1, List.pairwise_cons.2 ⟨?_, h2⟩, ?_⟩
    · intro e he
      exact asym x e hx (hS e (List.dropWhile_subset _ he)) (key e he)
    · intro a ha b hb
      rcases List.mem_cons.1 hb with rfl | hb
      · exact hpre a ha
      · exact h3 a ha b hb

/-- Inserting one after the other sorts. -/
theorem insertAll_sorted {α} {lt : α → α → Bool} (S : α → Prop)
    (weak : ∀ a b c, S a → S b → S c → lt a b = true → lt c b = false → lt a c = true)
    (asym : ∀ a b, S a → S b → lt a b = true → lt b a = false) (xs : List α) :
    ∀ acc : List α, (∀ a ∈ xs, S a) → (∀ a ∈ acc, S a) → acc.Pairwise (fun a b => lt b a = false) →
      ∃ r, xs.foldlM (fun l c => upperInsert lt c l) acc = some r ∧ r.Perm (xs ++ acc) ∧
        r.Pairwise (fun a b => lt b a = false) := by
  induction xs with
  | nil => intro acc _ _ h; exact ⟨acc, rfl, .refl _, h⟩
  | cons x xs ih =>
    intro acc h1 h2 h3
    obtain ⟨pre, post, g1, g2, _, _, g5⟩ := upperInsert_sorted S weak asym (h1 x (List.mem_cons_self ..)) h2 h3
    have hp := upperInsert_perm g2
    obtain ⟨r, i1, i2, i3⟩ := ih (pre ++ x :: post) (fun a ha => h1 a (List.mem_cons_of_mem _ ha))
      (fun a ha => by
        rcases List.mem_cons.1 (hp.mem_iff.1 ha) with rfl | h
        · exact h1 _ (List.mem_cons_self ..)
        · exact h2 a h) g5
    refine ⟨r, by simp only [List.foldlM_cons, g2]; exact i1, i2.trans ?_, i3⟩
    exact ((List.Perm.append_left xs hp).trans List.perm_middle)

end Verif

import Verif.Props.Sxfm
/-!
# Property C37: names with a space

General form of `C37_space_cuts_name`.
-/

namespace Verif.Props
open Spec FModel Sxfm

/-- A space and what follows it without parentheses adds no identifier. -/
theorem idents_cut {j : Str} (hj : '(' ∉ j) : ∀ x : Str, idents (x ++ ' ' :: j) = idents x
  | [] => by
    rw [List.nil_append, idents_none]
    · rfl
    · simp [hj]
  | c :: cs => by
    have ih := idents_cut hj cs
    have h1 : ((cs ++ ' ' :: j).dropWhile isIdChar).head? = some ')' ↔ (cs.dropWhile isIdChar).head? = some ')' := by
      clear ih
      induction cs with
      | nil => simp [List.dropWhile_cons, show isIdChar ' ' = false from by decide]
      | cons d ds ih =>
        rw [List.cons_append, List.dropWhile_cons, List.dropWhile_cons]
        by_cases hd : isIdChar d = true
        · simpa [hd] using ih
        · simp [hd]
    have h2 : (cs ++ ' ' :: j).takeWhile isIdChar = cs.takeWhile isIdChar := by
      clear ih h1
      induction cs with
      | nil => simp [List.takeWhile_cons, show isIdChar ' ' = false from by decide]
      | cons d ds ih =>
        rw [List.cons_append, List.takeWhile_cons, List.takeWhile_cons, ih]
    rw [List.cons_append, idents, idents, h2, ih]
    simp only [h1]

theorem upTo_space {a j : Str} (ha : ' ' ∉ a) : upTo ' ' (a ++ ' ' :: j) = a ∧ upTo ' ' a = a := by
  unfold upTo
  induction a with
  | nil => simp
  | cons c cs ih =>
    have hc : c ≠ ' ' := fun e => ha (by simp [e])
    obtain ⟨h1, h2⟩ := ih (fun e => ha (List.mem_cons_of_mem _ e))
    simp [List.takeWhile_cons, hc, h1, h2]

theorem nameIn_cut {a j : Str} (ha : ' ' ∉ a) (hb : '[' ∉ a) : nameIn (a ++ ' ' :: j) = nameIn a := by
  obtain ⟨h1, h2⟩ := upTo_space (j := j) ha
  simp only [nameIn, h1, h2, if_neg hb]

/-- The beginnings of lines for features that are not groups. -/
def FeatureHead (h : Str) : Prop := h ∈ [c!":r ", c!":m ", c!":o ", c!": "]

theorem treeLine_cut {ind : Str} (hi : PlainIndent ind) (k : Nat) {h a j : Str} (hh : FeatureHead h) (ha : ' ' ∉ a)
    (hb : '[' ∉ a) (hj : '(' ∉ j) (st : TreeSt) :
    treeLine ind st (times ind k ++ h ++ a ++ ' ' :: j) = treeLine ind st (times ind k ++ h ++ a) := by
  have hid : idents (times ind k ++ h ++ a ++ ' ' :: j) = idents (times ind k ++ h ++ a) := idents_cut hj _
  obtain ⟨t, rfl⟩ : ∃ t, h = ':' :: t := by
    simp only [FeatureHead, List.mem_cons, List.not_mem_nil, or_false] at hh
    rcases hh with rfl | rfl | rfl | rfl <;> exact ⟨_, rfl⟩
  have e1 : times ind k ++ (':' :: t) ++ a ++ ' ' :: j = times ind k ++ ':' :: (t ++ a ++ ' ' :: j) := by simp
  have e2 : times ind k ++ (':' :: t) ++ a = times ind k ++ ':' :: (t ++ a) := by simp
  rw [e1, e2] at hid ⊢
  have m1 : ':' ∈ times ind k ++ ':' :: (t ++ a ++ ' ' :: j) := by simp
  have m2 : ':' ∈ times ind k ++ ':' :: (t ++ a) := by simp
  unfold treeLine
  rw [if_neg (not_blank m1), if_neg (not_blank m2), if_neg (not_not_intro m1), if_neg (not_not_intro m2)]
  simp only [levelOf_times hi]
  suffices hr : readEntry (times ind k ++ ':' :: (t ++ a ++ ' ' :: j)) (k * ind.length + 1) =
      readEntry (times ind k ++ ':' :: (t ++ a)) (k * ind.length + 1) by rw [hr]
  unfold readEntry
  simp only [hid, Nat.add_assoc, drop_times, get_times]
  simp only [FeatureHead, List.mem_cons, List.not_mem_nil, or_false, List.cons.injEq] at hh
  rcases hh with ⟨_, rfl⟩ | ⟨_, rfl⟩ | ⟨_, rfl⟩ | ⟨_, rfl⟩ <;>
    simp [nameIn_cut ha hb]

/-- A name with a space is cut at the space, in any feature tree: the text is read as if the rest of
    the line were absent. Two trees whose names differ behind a space are told apart by nothing. -/
theorem C37_names_cut {ind : Str} (hi : PlainIndent ind) {pre post : List Str} (k : Nat) {h a j : Str} (hh : FeatureHead h)
    (ha : ' ' ∉ a) (hb : '[' ∉ a) (hj : '(' ∉ j)
    (hn : ∀ l ∈ pre ++ (times ind k ++ h ++ a ++ ' ' :: j) :: post, '\n' ∉ l)
    (order : List (Nat × Str × RKind) → List (Nat × Str × RKind)) (table : List (Str × Str)) :
    parseTree order ind table (joinLines (pre ++ (times ind k ++ h ++ a ++ ' ' :: j) :: post)) =
      parseTree order ind table (joinLines (pre ++ (times ind k ++ h ++ a) :: post)) := by
  have hn2 : ∀ l ∈ pre ++ (times ind k ++ h ++ a) :: post, '\n' ∉ l := by
    intro l hl
    rcases List.mem_append.1 hl with hl | hl
    · exact hn l (by simp [hl])
    · rcases List.mem_cons.1 hl with rfl | hl
      · intro hm
        exact hn (times ind k ++ h ++ a ++ ' ' :: j) (by simp) (List.mem_append_left _ hm)
      · exact hn l (by simp [hl])
  unfold parseTree
  rw [splitLines_join hn, splitLines_join hn2]
  congr 1
  generalize ({ table := table } : TreeSt) = st
  clear hn hn2
  induction pre generalizing st with
  | nil => simp only [List.nil_append, treeLines, treeLine_cut hi k hh ha hb hj]
  | cons l ls ih =>
    simp only [List.cons_append, treeLines]
    congr 1
    funext st
    exact ih st

/-- `C37_space_cuts_name` is a case of it. -/
example : parseTree id c!"\t" [] c!":r R\n\t:m fast path\n" = parseTree id c!"\t" [] c!":r R\n\t:m fast\n" :=
  C37_names_cut (pre := [c!":r R"]) (post := []) (ind := c!"\t") ⟨by decide, by decide⟩ 1 (h := c!":m ") (a := c!"fast")
    (j := c!"path") (by simp [FeatureHead]) (by decide) (by decide) (by decide) (by decide) id []

end Verif.Props

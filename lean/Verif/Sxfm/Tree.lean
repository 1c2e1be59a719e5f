import Verif.Sxfm.Spec
/-! Reading the lines of a feature tree. -/

namespace Verif.Sxfm
open Verif Verif.Spec

/-! ### Strings -/

theorem findSub_none {k : Str} : ∀ {s : Str}, findSub k s = none ↔ ¬ ∃ a b, s = a ++ k ++ b
  | [] => by
    by_cases hk : k = []
    · subst hk
      simp only [findSub, if_true]
      constructor
      · intro h; cases h
      · intro h; exact absurd ⟨[], [], rfl⟩ h
    · simp only [findSub, hk, if_false, true_iff]
      rintro ⟨a, b, h⟩
      have := congrArg List.length h
      simp only [List.length_append, List.length_nil] at this
      exact hk (List.length_eq_zero_iff.1 (by omega))
  | c :: cs => by
    rw [findSub]
    by_cases hp : k.isPrefixOf (c :: cs) = true
    · rw [if_pos hp]
      constructor
      · intro h; cases h
      · intro h
        obtain ⟨t, ht⟩ := List.isPrefixOf_iff_prefix.1 hp
        exact absurd ⟨[], t, by simp [ht]⟩ h
    · rw [if_neg hp, Option.map_eq_none_iff, findSub_none (s := cs)]
      constructor
      · rintro h ⟨a, b, e⟩
        cases a with
        | nil => exact hp (List.isPrefixOf_iff_prefix.2 ⟨b, by simpa using e.symm⟩)
        | cons x a =>
          simp at e
          exact h ⟨a, b, by simpa using e.2⟩
      · rintro h ⟨a, b, e⟩
        exact h ⟨c :: a, b, by simp [e]⟩

theorem splitLines_join : ∀ {ls : List Str}, (∀ l ∈ ls, '\n' ∉ l) → splitLines (joinLines ls) = ls
  | [], _ => rfl
  | l :: ls, h => by
    have ih := splitLines_join (ls := ls) (fun x hx => h x (by simp [hx]))
    have hl := h l (by simp)
    rw [joinLines]
    clear h
    induction l with
    | nil => rw [List.nil_append, splitLines, if_pos rfl, ih]
    | cons c cs ih2 =>
      have hc : c ≠ '\n' := by rintro rfl; exact hl (by simp)
      rw [List.cons_append, splitLines, if_neg hc, ih2 (fun hx => hl (by simp [hx]))]

theorem times_length (ind : Str) : ∀ n, (times ind n).length = n * ind.length
  | 0 => by simp [times]
  | n + 1 => by rw [times, List.length_append, times_length ind n, Nat.succ_mul]; omega

theorem mem_times {ind : Str} {c : Char} : ∀ {n}, c ∈ times ind n → c ∈ ind
  | 0, h => by cases h
  | n + 1, h => by
    rw [times, List.mem_append] at h
    exact h.elim id mem_times

theorem countFrom_skip (k : Str) : ∀ (a b : Str), countFrom k a.length (a ++ b) = countFrom k 0 b
  | [], b => rfl
  | c :: cs, b => by
    rw [List.cons_append, List.length_cons, countFrom]
    exact countFrom_skip k cs b

theorem countSub_times {ind : Str} (h : ind ≠ []) : ∀ n, countSub ind (times ind n) = n := by
  intro n
  rw [countSub, if_neg h]
  induction n with
  | zero => rfl
  | succ n ih =>
    cases ind with
    | nil => exact absurd rfl h
    | cons c cs =>
      have hp : (c :: cs).isPrefixOf (c :: (cs ++ times (c :: cs) n)) = true :=
        List.isPrefixOf_iff_prefix.2 ⟨times (c :: cs) n, rfl⟩
      rw [times, List.cons_append, countFrom, if_pos hp]
      simp only [List.length_cons, Nat.add_sub_cancel]
      rw [countFrom_skip, ih]

theorem levelOf_times {ind : Str} (h : PlainIndent ind) (n : Nat) (s : Str) : levelOf ind (times ind n ++ ':' :: s) = n := by
  unfold levelOf
  rw [upTo_append (fun hx => (h.2 _ (mem_times hx)).1 rfl), countSub_times h.1]

theorem drop_times (ind : Str) (n k : Nat) (s : Str) : (times ind n ++ s).drop (n * ind.length + k) = s.drop k := by
  rw [← times_length, List.drop_append]
  simp [List.drop_eq_nil_of_le]

theorem get_times (ind : Str) (n k : Nat) (s : Str) : (times ind n ++ s)[n * ind.length + k]? = s[k]? := by
  rw [← times_length, List.getElem?_append_right (by omega)]
  simp

theorem idents_append {a b : Str} (h : '(' ∉ a) : idents (a ++ b) = idents b := by
  induction a with
  | nil => rfl
  | cons c cs ih =>
    rw [List.cons_append, idents, if_neg, ih (fun hx => h (by simp [hx]))]
    rintro ⟨rfl, _⟩
    exact h (by simp)

theorem idents_none {a : Str} (h : '(' ∉ a) : idents a = [] := by
  have := idents_append (b := []) h
  simpa [idents] using this

theorem takeWhile_idChars {i : Str} (h : ∀ c ∈ i, isIdChar c = true) (s : Str) :
    (i ++ ')' :: s).takeWhile isIdChar = i ∧ (i ++ ')' :: s).dropWhile isIdChar = ')' :: s := by
  rw [List.takeWhile_append_of_pos h, List.dropWhile_append_of_pos h]
  have : isIdChar ')' = false := by decide
  simp [this]

theorem not_paren_of_idChar {i : Str} (h : ∀ c ∈ i, isIdChar c = true) : '(' ∉ i :=
  fun hx => absurd (h _ hx) (by decide)

theorem idents_idText {o : Option Str} (h : ∀ i, o = some i → ∀ c ∈ i, isIdChar c = true) {s : Str} (hs : '(' ∉ s) :
    idents (idText o ++ s) = o.toList := by
  cases o with
  | none => exact idents_none hs
  | some i =>
    have hi := h i rfl
    show idents ('(' :: (i ++ [')'] ++ s)) = [i]
    rw [show i ++ [')'] ++ s = i ++ ')' :: s by simp, idents,
      if_pos ⟨rfl, by rw [(takeWhile_idChars hi s).2]; rfl⟩, (takeWhile_idChars hi s).1,
      idents_append (not_paren_of_idChar hi), idents_none (by simp [hs])]

theorem bracket_name_first {s t : Str} (hs : '[' ∉ s) (h : s ≠ []) : bracketName (s ++ '[' :: t) = s := by
  unfold bracketName
  rw [upTo_append hs, if_neg h]

/-- The name of a title. -/
theorem cut_paren {name : Str} {o : Option Str} (h : '(' ∉ name) :
    (if '(' ∈ name ++ idText o then upTo '(' (name ++ idText o) else name ++ idText o) = name := by
  cases o with
  | none => rw [show name ++ idText none = name by simp [idText], if_neg h]
  | some i =>
    have e : name ++ idText (some i) = name ++ '(' :: (i ++ [')']) := by simp [idText]
    rw [e, if_pos (by simp), upTo_append h]

theorem idText_no {o : Option Str} (h : ∀ i, o = some i → ∀ c ∈ i, isIdChar c = true) {c : Char} (hc : isIdChar c = false)
    (h1 : c ≠ '(') (h2 : c ≠ ')') : c ∉ idText o := by
  cases o with
  | none => simp [idText]
  | some i =>
    simp only [idText, List.mem_append, List.mem_singleton]
    rintro ((rfl | hx) | rfl)
    · exact h1 rfl
    · rw [h i rfl c hx] at hc; cases hc
    · exact h2 rfl

theorem nameIn_title {name : Str} {o : Option Str} (hn : ∀ c ∈ name, c ≠ ' ' ∧ c ≠ '[' ∧ c ≠ '(' ∧ c ≠ '\n')
    (ho : ∀ i, o = some i → ∀ c ∈ i, isIdChar c = true) {r : Str} (hr : r = [] ∨ ∃ t, r = ' ' :: t) :
    nameIn (name ++ idText o ++ r) = name := by
  have hsp : ' ' ∉ name ++ idText o := by
    rw [List.mem_append]
    rintro (h | h)
    · exact (hn _ h).1 rfl
    · exact idText_no ho (by decide) (by decide) (by decide) h
  have hbr : '[' ∉ name ++ idText o := by
    rw [List.mem_append]
    rintro (h | h)
    · exact (hn _ h).2.1 rfl
    · exact idText_no ho (by decide) (by decide) (by decide) h
  have hu : upTo ' ' (name ++ idText o ++ r) = name ++ idText o := by
    rcases hr with rfl | ⟨t, rfl⟩
    · rw [List.append_nil, upTo_self hsp]
    · rw [upTo_append hsp]
  unfold nameIn
  simp only [hu, hbr, if_false]
  exact cut_paren (fun h => (hn _ h).2.2.1 rfl)

/-- The name after a cardinality. -/
theorem nameIn_card {name : Str} {o : Option Str} (hn : ∀ c ∈ name, c ≠ ' ' ∧ c ≠ '[' ∧ c ≠ '(' ∧ c ≠ '\n') (k : RKind) :
    nameIn (cardText k ++ c!" " ++ (name ++ idText o)) = name := by
  have h1 : upTo ' ' (cardText k ++ c!" " ++ (name ++ idText o)) = cardText k := by cases k <;> rfl
  have h2 : upTo '[' (cardText k ++ c!" " ++ (name ++ idText o)) = [] := by cases k <;> rfl
  have h3 : after ' ' (cardText k ++ c!" " ++ (name ++ idText o)) = name ++ idText o := by cases k <;> rfl
  have h4 : '[' ∈ cardText k := by cases k <;> decide
  unfold nameIn bracketName
  simp only [h1, h2, h3, h4, if_true]
  have : (if name ++ idText o = [] then [] else name ++ idText o) = name ++ idText o := by
    split
    · rename_i h; rw [h]
    · rfl
  rw [this]
  exact cut_paren (fun h => (hn _ h).2.2.1 rfl)

theorem card_of {pre : Str} (h : '[' ∉ pre) (k : RKind) (s : Str) :
    extractCardinality (pre ++ cardText k ++ s) = some (1, if k = .or then -1 else 1) := by
  apply extractCardinality_some.2
  cases k with
  | alternative =>
    refine ⟨c!"1", c!"1", ?_, by decide, by decide, rfl, .inl rfl⟩
    have := cardTexts_comma (lo := c!"1") (hi := c!"1") (rest := ']' :: s) h (by decide) (by decide) (.inr ⟨s, rfl⟩)
    simpa [cardText] using this
  | or =>
    refine ⟨c!"1", c!"*", ?_, by decide, by decide, rfl, .inr rfl⟩
    have := cardTexts_comma (lo := c!"1") (hi := c!"*") (rest := ']' :: s) h (by decide) (by decide) (.inr ⟨s, rfl⟩)
    simpa [cardText] using this

/-! ### One line -/

/-- What the line of a label says. -/
def entryOf (n : Label) : Entry where
  opt := n.kind.opt
  card := match n.kind with
    | .group k _ => some k
    | _ => none
  name := n.name.getD []
  ids := n.id.toList

theorem groupKind_of (k : RKind) : groupKind (if k = .or then -1 else 1) = k := by cases k <;> rfl

theorem plain_name_chars {n : Label} (h : n.Plain) :
    ∀ c ∈ n.name.getD [], c ≠ ' ' ∧ c ≠ '[' ∧ c ≠ '(' ∧ c ≠ '\n' := by
  intro c hc
  cases hn : n.name with
  | none => rw [hn] at hc; cases hc
  | some s => rw [hn] at hc; exact (h.1 s hn).2 c hc

theorem plain_id_chars {n : Label} (h : n.Plain) : ∀ i, n.id = some i → ∀ c ∈ i, isIdChar c = true :=
  fun i hi => (h.2 i hi).1

theorem title_no_bracket {n : Label} (h : n.Plain) : '[' ∉ n.title := by
  unfold Label.title
  rw [List.mem_append]
  rintro (h' | h')
  · exact (plain_name_chars h _ h').2.1 rfl
  · exact idText_no (plain_id_chars h) (by decide) (by decide) (by decide) h'

theorem title_no_newline {n : Label} (h : n.Plain) : '\n' ∉ n.title := by
  unfold Label.title
  rw [List.mem_append]
  rintro (h' | h')
  · exact (plain_name_chars h _ h').2.2.2 rfl
  · exact idText_no (plain_id_chars h) (by decide) (by decide) (by decide) h'

theorem text_colon (n : Label) : ∃ s, n.text = ':' :: s := by
  unfold Label.text
  split <;> exact ⟨_, rfl⟩

theorem text_no_newline {n : Label} (h : n.Plain) : '\n' ∉ n.text := by
  have ht := title_no_newline h
  unfold Label.text
  split
  · simpa using ht
  · simpa using ht
  · simpa using ht
  · rename_i k _
    cases k <;> simpa [cardText] using ht
  · rename_i k _
    cases k <;> simpa [cardText] using ht

theorem idents_title {n : Label} (h : n.Plain) {pre r : Str} (hp : '(' ∉ pre) (hr : '(' ∉ r) :
    idents (pre ++ n.title ++ r) = n.id.toList := by
  unfold Label.title
  rw [List.append_assoc, idents_append hp, List.append_assoc,
    idents_append (fun hx => (plain_name_chars h _ hx).2.2.1 rfl), idents_idText (plain_id_chars h) hr]

theorem readEntry_text {ind : Str} (hi : PlainIndent ind) {n : Label} (h : n.Plain) (d : Nat) :
    readEntry (times ind d ++ n.text) (d * ind.length + 1) = .ok (entryOf n) := by
  have hti : '(' ∉ times ind d := fun hx => (hi.2 _ (mem_times hx)).2.2.1 rfl
  have htb : '[' ∉ times ind d := fun hx => (hi.2 _ (mem_times hx)).2.1 rfl
  have hch := plain_name_chars h
  have hid := plain_id_chars h
  unfold readEntry
  rw [get_times, show d * ind.length + 1 + 2 = d * ind.length + 3 from rfl, drop_times,
    show d * ind.length + 1 + 1 = d * ind.length + 2 from rfl, drop_times]
  obtain ⟨kind, name, id⟩ := n
  cases kind with
  | mandatory =>
    have e : idents (times ind d ++ Label.text ⟨.mandatory, name, id⟩) = id.toList := by
      have := idents_title (pre := times ind d ++ c!":m ") (r := []) h (by simp [hti]) (by simp)
      simpa [Label.text] using this
    have e2 : nameIn ((Label.text ⟨.mandatory, name, id⟩).drop 3) = name.getD [] := by
      have := nameIn_title hch hid (.inl rfl)
      simpa [Label.text, Label.title] using this
    rw [e, e2]
    rfl
  | optional =>
    have e : idents (times ind d ++ Label.text ⟨.optional, name, id⟩) = id.toList := by
      have := idents_title (pre := times ind d ++ c!":o ") (r := []) h (by simp [hti]) (by simp)
      simpa [Label.text] using this
    have e2 : nameIn ((Label.text ⟨.optional, name, id⟩).drop 3) = name.getD [] := by
      have := nameIn_title hch hid (.inl rfl)
      simpa [Label.text, Label.title] using this
    rw [e, e2]
    rfl
  | member =>
    have e : idents (times ind d ++ Label.text ⟨.member, name, id⟩) = id.toList := by
      have := idents_title (pre := times ind d ++ c!": ") (r := []) h (by simp [hti]) (by simp)
      simpa [Label.text] using this
    have e2 : nameIn ((Label.text ⟨.member, name, id⟩).drop 2) = name.getD [] := by
      have := nameIn_title hch hid (.inl rfl)
      simpa [Label.text, Label.title] using this
    rw [e, e2]
    rfl
  | group k first =>
    have hg : (Label.text ⟨.group k first, name, id⟩)[1]? = some 'g' := by cases first <;> rfl
    have hc : extractCardinality (times ind d ++ Label.text ⟨.group k first, name, id⟩) = some (1, if k = .or then -1 else 1) := by
      cases first with
      | true =>
        have := card_of (pre := times ind d ++ c!":g ") (by simp [htb]) k (c!" " ++ Label.title ⟨.group k true, name, id⟩)
        simpa [Label.text] using this
      | false =>
        have := card_of (pre := times ind d ++ c!":g " ++ Label.title ⟨.group k false, name, id⟩ ++ c!" ")
          (by simp [htb, title_no_bracket h]) k []
        simpa [Label.text] using this
    have e : idents (times ind d ++ Label.text ⟨.group k first, name, id⟩) = id.toList := by
      cases first with
      | true =>
        have := idents_title (pre := times ind d ++ c!":g " ++ cardText k ++ c!" ") (r := []) h
          (by cases k <;> simp [hti, cardText]) (by simp)
        simpa [Label.text] using this
      | false =>
        have := idents_title (pre := times ind d ++ c!":g ") (r := c!" " ++ cardText k) h (by simp [hti])
          (by cases k <;> simp [cardText])
        simpa [Label.text] using this
    have e2 : nameIn ((Label.text ⟨.group k first, name, id⟩).drop 3) = name.getD [] := by
      cases first with
      | true =>
        have := nameIn_card (o := id) hch k
        simpa [Label.text, Label.title] using this
      | false =>
        have := nameIn_title hch hid (r := c!" " ++ cardText k) (.inr ⟨_, rfl⟩)
        simpa [Label.text, Label.title] using this
    rw [hg, hc, e, e2]
    simp [entryOf, groupKind_of, LineKind.opt]

end Verif.Sxfm

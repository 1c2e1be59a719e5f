import Verif.Graph.Model
import Verif.Xml.Write
import Verif.Props.SourceRange
import Verif.Source.PyOffset
/-!
# Property C91: the text of locations, and the numbers they are made from in Python
-/

namespace Verif.Props
open Verif Verif.Xml Verif.Spec

/-! ## Specification -/

/-- A path that contains neither a colon nor the dash between start and end. -/
structure PlainPath (p : List Str) : Prop where
  clean : CleanPath p
  colon : ':' ∉ pathText p
  dash : ∀ a b, pathText p ≠ a ++ dash ++ b

/-- A member offset as they are made (`createFeatureMemberOffset` is the only way). -/
def MadeOffset (o : MemberOffset) : Prop := ∃ s, createMemberOffset s = some o

/-! ## Text -/

private theorem digits_cancel : ∀ {u v x y : Str}, (∀ c ∈ u, isDigit c = true) → (∀ c ∈ v, isDigit c = true) →
    (∀ c, x.head? = some c → isDigit c = false) → (∀ c, y.head? = some c → isDigit c = false) → u ++ x = v ++ y → u = v ∧ x = y
  | [], [], x, y, _, _, _, _, h => ⟨rfl, by simpa using h⟩
  | [], c :: v, x, y, _, hv, hx, _, h => by
    simp only [List.nil_append, List.cons_append] at h
    have := hx c (by simp [h])
    rw [hv c (by simp)] at this; cases this
  | c :: u, [], x, y, hu, _, _, hy, h => by
    simp only [List.nil_append, List.cons_append] at h
    have := hy c (by simp [← h])
    rw [hu c (by simp)] at this; cases this
  | c :: u, d :: v, x, y, hu, hv, hx, hy, h => by
    simp only [List.cons_append, List.cons.injEq] at h
    obtain ⟨h1, h2⟩ := digits_cancel (fun c hc => hu c (List.mem_cons_of_mem _ hc)) (fun c hc => hv c (List.mem_cons_of_mem _ hc)) hx hy h.2
    exact ⟨by rw [h.1, h1], h2⟩

private theorem nat_cancel {n m : Nat} {x y : Str} (hx : ∀ c, x.head? = some c → isDigit c = false)
    (hy : ∀ c, y.head? = some c → isDigit c = false) (h : natText n ++ x = natText m ++ y) : n = m ∧ x = y := by
  obtain ⟨h1, h2⟩ := digits_cancel (natText_digits n) (natText_digits m) hx hy h
  exact ⟨by rw [← natText_value n, h1, natText_value], h2⟩

private theorem loc_cancel {a b : Loc} {x y : Str} (hx : ∀ c, x.head? = some c → isDigit c = false)
    (hy : ∀ c, y.head? = some c → isDigit c = false) (h : a.toStr ++ x = b.toStr ++ y) : a = b ∧ x = y := by
  simp only [Loc.toStr, List.append_assoc] at h
  obtain ⟨h1, h2⟩ := nat_cancel (by simp; decide) (by simp; decide) h
  obtain ⟨h3, h4⟩ := nat_cancel hx hy (List.append_cancel_left h2)
  cases a; cases b; simp only at h1 h3; exact ⟨by rw [h1, h3], h4⟩

private def memberPart (o : Option MemberOffset) : Str := match o with | some o => c!" MemberOffset: " ++ o.toString | none => []
private def stopPart (l : Option Loc) : Str := match l with | some l => dash ++ l.toStr | none => []
private def startPart (l : Option Loc) : Str := match l with | some l => [':'] ++ l.toStr | none => []

private theorem toStr_parts (r : Range) : r.toStr = pathText r.path ++ (startPart r.start ++ (stopPart r.stop ++ memberPart r.member)) := by
  simp only [Range.toStr, startPart, stopPart, memberPart, List.append_assoc]
  rfl

private theorem digit_facts : isDigit ' ' = false ∧ isDigit (Char.ofNat 0xe2) = false ∧ isDigit ':' = false := by decide

private theorem memberPart_head (o : Option MemberOffset) : ∀ c, (memberPart o).head? = some c → c = ' ' := by
  cases o with
  | none => intro c h; cases h
  | some o => intro c h; exact (Option.some.inj h).symm

private theorem stopPart_head (l : Option Loc) (o : Option MemberOffset) :
    ∀ c, (stopPart l ++ memberPart o).head? = some c → c = Char.ofNat 0xe2 ∨ c = ' ' := by
  cases l with
  | none => intro c h; exact .inr (memberPart_head o c (by simpa [stopPart] using h))
  | some l => intro c h; exact .inl (Option.some.inj h).symm

private theorem loc_head (l : Loc) : ∃ c cs, l.toStr = c :: cs ∧ isDigit c = true := by
  have h1 := natText_ne_nil l.line
  have h2 := natText_digits l.line
  cases e : natText l.line with
  | nil => exact absurd e h1
  | cons c cs => exact ⟨c, cs ++ [':'] ++ natText l.column, by simp [Loc.toStr, e], h2 c (by simp [e])⟩

/-- The tail of a text: nothing, a colon with a digit, the dash with a digit, or a member offset. -/
private theorem tail_head (r : Range) : ∀ c cs, startPart r.start ++ (stopPart r.stop ++ memberPart r.member) = c :: cs →
    (c = ':' ∧ ∃ d ds, cs = d :: ds ∧ isDigit d = true) ∨ c = Char.ofNat 0xe2 ∨ c = ' ' := by
  intro c cs h
  cases hs : r.start with
  | none =>
    rw [hs] at h
    exact .inr (stopPart_head r.stop r.member c (by simp only [startPart, List.nil_append] at h; rw [h]; rfl))
  | some l =>
    rw [hs] at h
    obtain ⟨d, ds, e, hd⟩ := loc_head l
    simp only [startPart, e, List.cons_append, List.nil_append, List.cons.injEq] at h
    exact .inl ⟨h.1.symm, d, ds ++ (stopPart r.stop ++ memberPart r.member), h.2.symm, hd⟩

/-- A path cannot reach into the tail of another text. -/
private theorem no_overlap {a b : Range} {d : Str} (hc : ':' ∉ d) (hd : ∀ x y, d ≠ x ++ dash ++ y)
    (h : startPart a.start ++ (stopPart a.stop ++ memberPart a.member)
      = d ++ (startPart b.start ++ (stopPart b.stop ++ memberPart b.member))) : d = [] := by
  have hb := tail_head b
  generalize startPart b.start ++ (stopPart b.stop ++ memberPart b.member) = Y at h hb
  cases hs : a.start with
  | some l =>
    rw [hs] at h
    cases d with
    | nil => rfl
    | cons c d =>
      simp only [startPart, List.cons_append, List.cons.injEq, List.nil_append] at h
      exact absurd (by rw [← h.1]; simp) hc
  | none =>
    rw [hs] at h
    simp only [startPart, List.nil_append] at h
    cases he : a.stop with
    | some l =>
      rw [he] at h
      simp only [stopPart, List.append_assoc] at h
      rcases List.append_eq_append_iff.1 h with ⟨e, h1, -⟩ | ⟨e, h1, h2⟩
      · exact absurd (by simpa using h1) (hd [] e)
      · cases d with
        | nil => rfl
        | cons c1 d =>
          have h1' := h1
          simp only [dash, List.cons_append, List.cons.injEq] at h1
          cases d with
          | nil =>
            simp only [List.nil_append] at h1
            rcases hb (Char.ofNat 0x80) (Char.ofNat 0x93 :: l.toStr ++ memberPart a.member) (by rw [h2, ← h1.2]; rfl) with h3 | h3 | h3
            · exact absurd h3.1 (by decide)
            · exact absurd h3 (by decide)
            · exact absurd h3 (by decide)
          | cons c2 d =>
            simp only [List.cons_append, List.cons.injEq] at h1
            cases d with
            | nil =>
              simp only [List.nil_append] at h1
              rcases hb (Char.ofNat 0x93) (l.toStr ++ memberPart a.member) (by rw [h2, ← h1.2.2]; rfl) with h3 | h3 | h3
              · exact absurd h3.1 (by decide)
              · exact absurd h3 (by decide)
              · exact absurd h3 (by decide)
            | cons c3 d =>
              simp only [List.cons_append, List.cons.injEq] at h1
              refine absurd ?_ (hd [] d)
              rw [← h1.1, ← h1.2.1, ← h1.2.2.1]; rfl
    | none =>
      rw [he] at h
      simp only [stopPart, List.nil_append] at h
      cases hm : a.member with
      | none =>
        rw [hm] at h
        simp only [memberPart] at h
        exact (List.append_eq_nil_iff.1 h.symm).1
      | some o =>
        rw [hm] at h
        simp only [memberPart] at h
        rcases List.append_eq_append_iff.1 h with ⟨e, h1, -⟩ | ⟨e, h1, h2⟩
        · exact absurd (by rw [h1]; simp) hc
        · -- `d` is a prefix of the words in front of the offset
          have hk : ∀ k, k ≤ 15 → d = c!" MemberOffset: ".take k → e = c!" MemberOffset: ".drop k → d = [] := by
            intro k hk hd' he'
            have h15 : k = 0 ∨ k = 1 ∨ k = 2 ∨ k = 3 ∨ k = 4 ∨ k = 5 ∨ k = 6 ∨ k = 7 ∨ k = 8 ∨ k = 9 ∨ k = 10 ∨ k = 11 ∨ k = 12 ∨
                k = 13 ∨ k = 14 ∨ k = 15 := by omega
            have no : ∀ c cs, Y = c :: cs → c ≠ ':' → c ≠ Char.ofNat 0xe2 → c ≠ ' ' → False := by
              intro c cs e1 n1 n2 n3
              rcases hb c cs e1 with h3 | h3 | h3
              · exact n1 h3.1
              · exact n2 h3
              · exact n3 h3
            rcases h15 with rfl | rfl | rfl | rfl | rfl | rfl | rfl | rfl | rfl | rfl | rfl | rfl | rfl | rfl | rfl | rfl
            · exact hd'
            iterate 12
              · rw [he'] at h2
                exact (no _ _ h2 (by decide) (by decide) (by decide)).elim
            · rw [he'] at h2
              rcases hb _ _ h2 with ⟨-, d', ds, e1, e2⟩ | h3 | h3
              · have e1 : ' ' :: o.toString = d' :: ds := e1
                simp only [List.cons.injEq] at e1
                rw [← e1.1] at e2; exact absurd e2 (by decide)
              · exact absurd h3 (by decide)
              · exact absurd h3 (by decide)
            · exact absurd (by rw [hd']; decide) hc
            · exact absurd (by rw [hd']; decide) hc
          refine hk d.length ?_ ?_ ?_
          · have := congrArg List.length h1; simp at this; omega
          · rw [h1, List.take_left']; rfl
          · rw [h1, List.drop_left']; rfl

/-- Locations with paths without colon and dash have the same text exactly if path, start, end and member offset
    agree. -/
theorem C91_text_partial {a b : Range} (ha : PlainPath a.path) (hb : PlainPath b.path)
    (ma : ∀ o, a.member = some o → MadeOffset o) (mb : ∀ o, b.member = some o → MadeOffset o) :
    a.toStr = b.toStr ↔ a.path = b.path ∧ a.start = b.start ∧ a.stop = b.stop ∧ a.member = b.member := by
  constructor
  · intro h
    rw [toStr_parts, toStr_parts] at h
    have hp : pathText a.path = pathText b.path ∧
        startPart a.start ++ (stopPart a.stop ++ memberPart a.member) = startPart b.start ++ (stopPart b.stop ++ memberPart b.member) := by
      rcases List.append_eq_append_iff.1 h with ⟨d, h1, h2⟩ | ⟨d, h1, h2⟩
      · have : d = [] := no_overlap (fun hm => hb.colon (by rw [h1]; simp [hm]))
          (fun x y e => hb.dash (pathText a.path ++ x) y (by rw [h1, e]; simp)) h2
        subst this; exact ⟨by simpa using h1.symm, by simpa using h2⟩
      · have : d = [] := no_overlap (fun hm => ha.colon (by rw [h1]; simp [hm]))
          (fun x y e => ha.dash (pathText b.path ++ x) y (by rw [h1, e]; simp)) h2
        subst this; exact ⟨by simpa using h1, by simpa using h2.symm⟩
    obtain ⟨h1, h2⟩ := hp
    have hpath : a.path = b.path := by rw [← path_round ha.clean, h1, path_round hb.clean]
    have nd : ∀ r : Range, ∀ c, (stopPart r.stop ++ memberPart r.member).head? = some c → isDigit c = false := by
      intro r c hc
      rcases stopPart_head _ _ c hc with rfl | rfl
      · exact digit_facts.2.1
      · exact digit_facts.1
    have nm : ∀ r : Range, ∀ c, (memberPart r.member).head? = some c → isDigit c = false := by
      intro r c hc
      rw [memberPart_head _ c hc]; exact digit_facts.1
    have hstart : a.start = b.start ∧ stopPart a.stop ++ memberPart a.member = stopPart b.stop ++ memberPart b.member := by
      have one : ∀ (l : Loc) (r : Range) (X : Str), [':'] ++ l.toStr ++ X = stopPart r.stop ++ memberPart r.member → False := by
        intro l r X e
        rcases stopPart_head r.stop r.member ':' (by rw [← e]; rfl) with h3 | h3
        · exact absurd h3 (by decide)
        · exact absurd h3 (by decide)
      cases ea : a.start with
      | none =>
        cases eb : b.start with
        | none => rw [ea, eb] at h2; exact ⟨rfl, by simpa [startPart] using h2⟩
        | some l => rw [ea, eb] at h2; exact (one l a _ (by simpa [startPart] using h2.symm)).elim
      | some l =>
        cases eb : b.start with
        | none => rw [ea, eb] at h2; exact (one l b _ (by simpa [startPart] using h2)).elim
        | some l' =>
          rw [ea, eb] at h2
          simp only [startPart, List.append_assoc] at h2
          obtain ⟨h3, h4⟩ := loc_cancel (nd a) (nd b) (List.append_cancel_left h2)
          exact ⟨by rw [h3], h4⟩
    have hstop : a.stop = b.stop ∧ memberPart a.member = memberPart b.member := by
      have one : ∀ (l : Loc) (r : Range) (X : Str), dash ++ l.toStr ++ X = memberPart r.member → False := by
        intro l r X e
        exact absurd (memberPart_head r.member (Char.ofNat 0xe2) (by rw [← e]; rfl)) (by decide)
      have h2 := hstart.2
      cases ea : a.stop with
      | none =>
        cases eb : b.stop with
        | none => rw [ea, eb] at h2; exact ⟨rfl, by simpa [stopPart] using h2⟩
        | some l => rw [ea, eb] at h2; exact (one l a _ (by simpa [stopPart] using h2.symm)).elim
      | some l =>
        cases eb : b.stop with
        | none => rw [ea, eb] at h2; exact (one l b _ (by simpa [stopPart] using h2)).elim
        | some l' =>
          rw [ea, eb] at h2
          simp only [stopPart, List.append_assoc] at h2
          obtain ⟨h3, h4⟩ := loc_cancel (nm a) (nm b) (List.append_cancel_left h2)
          exact ⟨by rw [h3], h4⟩
    refine ⟨hpath, hstart.1, hstop.1, ?_⟩
    have h5 := hstop.2
    cases ea : a.member with
    | none =>
      cases eb : b.member with
      | none => rfl
      | some o => rw [ea, eb] at h5; cases h5
    | some o =>
      cases eb : b.member with
      | none => rw [ea, eb] at h5; cases h5
      | some o' =>
        rw [ea, eb] at h5
        obtain ⟨s, hs⟩ := ma o ea
        obtain ⟨s', hs'⟩ := mb o' eb
        have := List.append_cancel_left h5
        rw [(C15_roundtrip hs).1, (C15_roundtrip hs').1] at this
        subst this
        rw [hs] at hs'; exact hs'
  · rintro ⟨h1, h2, h3, h4⟩
    simp only [Range.toStr, h1, h2, h3, h4]

private def fileC : Range := ⟨[c!"src", c!"f.c"], some ⟨3, 5⟩, some ⟨4, 1⟩, .necessary, createMemberOffset c!"A::b", none⟩

example : PlainPath fileC.path ∧ (∀ o, fileC.member = some o → MadeOffset o) ∧ fileC.toStr ≠ [] := by
  refine ⟨⟨⟨.inr ⟨by decide, by decide⟩, by decide⟩, by decide, ?_⟩, fun o h => ⟨c!"A::b", h⟩, by simp [Range.toStr, fileC, pathText]⟩
  intro a b h
  have : Char.ofNat 0xe2 ∈ pathText fileC.path := by rw [h]; simp [dash]
  exact absurd this (by decide)

/-- The text says nothing of the category. -/
theorem C91_category_not_in_text (r : Range) :
    { r with category := .necessary }.toStr = { r with category := .inessential }.toStr ∧
    { r with category := .necessary }.eq { r with category := .inessential } = false := by
  refine ⟨rfl, ?_⟩
  simp [Range.eq]

/-- Nor of the revisions. -/
theorem C91_revision_not_in_text (r : Range) (v : Option RevRange) : { r with revision := v }.toStr = r.toStr := rfl

/-- With a colon in the path different locations have the same text. -/
theorem C91_colon_in_path :
    ∃ a b : Range, a.eq b = false ∧ a.toStr = b.toStr ∧ CleanPath a.path ∧ CleanPath b.path ∧ a.category = b.category :=
  ⟨⟨[c!"f:1:2"], none, none, .necessary, none, none⟩, ⟨[c!"f"], some ⟨1, 2⟩, none, .necessary, none, none⟩,
    by decide, by simp [Range.toStr, Loc.toStr, pathText, natText]; decide, ⟨.inr ⟨by decide, by decide⟩, by simp⟩, ⟨.inr ⟨by decide, by decide⟩, by simp⟩, rfl⟩

theorem joined_last (ps : List Str) (f t : Str) :
    List.intercalate ['/'] (ps ++ [f ++ t]) = List.intercalate ['/'] (ps ++ [f]) ++ t := by
  induction ps with
  | nil => simp [List.intercalate]
  | cons p ps ih =>
    cases ps with
    | nil => simp [List.intercalate]
    | cons q qs =>
      simp only [List.cons_append, List.intercalate, List.intersperse_cons_cons, List.flatten_cons] at ih ⊢
      rw [ih]
      simp

theorem pathText_last {ps : List Str} {f t : Str} (hf : f ≠ ['/']) (ht : f ++ t ≠ ['/']) :
    Xml.pathText (ps ++ [f ++ t]) = Xml.pathText (ps ++ [f]) ++ t := by
  cases ps with
  | nil => simp only [List.nil_append]; rw [Xml.pathText_rel ht, Xml.pathText_rel hf]; simp [List.intercalate]
  | cons p ps =>
    by_cases hp : p = ['/']
    · subst hp
      rw [List.cons_append, List.cons_append, Xml.pathText_abs, Xml.pathText_abs, joined_last]; rfl
    · rw [List.cons_append, List.cons_append, Xml.pathText_rel hp, Xml.pathText_rel hp, ← List.cons_append, ← List.cons_append,
        joined_last]

/-- In general: a location with a start is written like the whole file whose name ends in that
    position. -/
theorem C91_colon_ambiguous (dirs : List Str) {f : Str} (hf : f ≠ ['/']) (l : Loc) :
    let a : Range := ⟨dirs ++ [f ++ ([':'] ++ l.toStr)], none, none, .necessary, none, none⟩
    let b : Range := ⟨dirs ++ [f], some l, none, .necessary, none, none⟩
    a.toStr = b.toStr ∧ a.eq b = false := by
  refine ⟨?_, ?_⟩
  · have ht : f ++ ([':'] ++ l.toStr) ≠ ['/'] := by
      intro h
      have : ':' ∈ f ++ ([':'] ++ l.toStr) := by simp
      rw [h] at this
      simp at this
    simp only [Range.toStr, pathText_last hf ht, List.append_nil]
  · simp [Range.eq, optEq]

/-! ## Numbers -/

/-- Numbers that are not negative are shown as they were given, and accepted up to the maximum of `int`. -/
theorem C91_made_with_partial {l c : Int} (hl : 0 ≤ l) (hc : 0 ≤ c) :
    (∀ o, pyOffset l c = some o → (o.line : Int) = l ∧ (o.column : Int) = c) ∧
    ((pyOffset l c).isSome ↔ l ≤ 2147483647 ∧ c ≤ 2147483647) := by
  unfold pyOffset pyInt toUnsigned
  by_cases h1 : -2147483648 ≤ l ∧ l ≤ 2147483647
  · by_cases h2 : -2147483648 ≤ c ∧ c ≤ 2147483647
    · rw [if_pos h1, if_pos h2]
      refine ⟨?_, by simp [h1.2, h2.2]⟩
      intro o ho
      simp only [Option.bind_some, Option.map_some, Option.some.injEq] at ho
      subst ho
      exact ⟨by simp only; omega, by simp only; omega⟩
    · rw [if_pos h1, if_neg h2]
      exact ⟨by simp, by simp; omega⟩
  · rw [if_neg h1]
    exact ⟨by simp, by simp; omega⟩

/-- A negative number is accepted and shown as another one. -/
theorem C91_negative {l c : Int} (h : -2147483648 ≤ l) (hl : l < 0) (hc : 0 ≤ c) (hc' : c ≤ 2147483647) :
    ∃ o, pyOffset l c = some o ∧ (o.line : Int) = l + 4294967296 ∧ (o.column : Int) = c := by
  refine ⟨⟨toUnsigned l, toUnsigned c⟩, ?_, ?_, ?_⟩
  · unfold pyOffset pyInt
    rw [if_pos (by omega), if_pos (by omega)]; rfl
  · simp only [toUnsigned]; omega
  · simp only [toUnsigned]; omega

/-- Assigning accepts exactly the numbers from 0 to the maximum of `unsigned`, shows what was assigned and leaves the
    other number alone: what is refused here is accepted when the offset is made, and the other way round. -/
theorem C91_assigned (o : Loc) (v : Int) :
    ((pySetLine o v).isSome ↔ 0 ≤ v ∧ v ≤ 4294967295) ∧ ((pySetColumn o v).isSome ↔ 0 ≤ v ∧ v ≤ 4294967295) ∧
    (∀ p, pySetLine o v = some p → (p.line : Int) = v ∧ p.column = o.column) ∧
    (∀ p, pySetColumn o v = some p → (p.column : Int) = v ∧ p.line = o.line) := by
  unfold pySetLine pySetColumn pyUnsigned
  by_cases h : 0 ≤ v ∧ v ≤ 4294967295
  · rw [if_pos h]
    refine ⟨by simp [h.1, h.2], by simp [h.1, h.2], ?_, ?_⟩
    · intro p hp; simp only [Option.map_some, Option.some.injEq] at hp; subst hp; exact ⟨by simp only; omega, rfl⟩
    · intro p hp; simp only [Option.map_some, Option.some.injEq] at hp; subst hp; exact ⟨by simp only; omega, rfl⟩
  · rw [if_neg h]
    exact ⟨by simp; omega, by simp; omega, by simp, by simp⟩

end Verif.Props

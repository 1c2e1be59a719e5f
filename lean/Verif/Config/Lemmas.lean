import Verif.Config.Spec
import Verif.Base.StrLemmas
/-! # Lemmas on option texts and maps -/

namespace Verif
open Spec

theorem foldl_radix_ge (r : Nat) (hr : 1 ≤ r) (s : Str) (a : Nat) :
    a ≤ s.foldl (fun a c => a * r + (radixDigit c).getD 0) a := by
  induction s generalizing a with
  | nil => simp
  | cons c s ih =>
    simp only [List.foldl_cons]
    refine Nat.le_trans ?_ (ih _)
    have := Nat.mul_le_mul_left a hr
    omega

theorem readDigits_iff (r : Nat) (hr : 1 ≤ r) (s : Str) (a v : Nat) (ha : a < 18446744073709551616) :
    readDigits r a s = some (v, []) ↔ AllDigits r s ∧
      v = s.foldl (fun a c => a * r + (radixDigit c).getD 0) a ∧ v < 18446744073709551616 := by
  induction s generalizing a with
  | nil =>
    simp only [readDigits, List.foldl_nil, AllDigits]
    constructor
    · intro h; cases h; exact ⟨by simp, rfl, ha⟩
    · rintro ⟨_, rfl, _⟩; rfl
  | cons c s ih =>
    have hcons : AllDigits r (c :: s) ↔ (∃ d, radixDigit c = some d ∧ d < r) ∧ AllDigits r s := by
      simp [AllDigits]
    rw [hcons]
    simp only [readDigits, List.foldl_cons]
    cases hd : radixDigit c with
    | none => simp
    | some d =>
      simp only [Option.getD_some]
      by_cases hlt : d < r
      · rw [if_pos hlt]
        by_cases hov : a * r + d < 18446744073709551616
        · rw [if_pos hov, ih _ hov]
          constructor
          · rintro ⟨h1, h2, h3⟩; exact ⟨⟨⟨d, rfl, hlt⟩, h1⟩, h2, h3⟩
          · rintro ⟨⟨_, h1⟩, h2, h3⟩; exact ⟨h1, h2, h3⟩
        · rw [if_neg hov]
          constructor
          · intro h; cases h
          · rintro ⟨_, h2, h3⟩
            have := foldl_radix_ge r hr s (a * r + d)
            omega
      · rw [if_neg hlt]
        constructor
        · intro h; cases h
        · rintro ⟨⟨⟨d', e, hd'⟩, _⟩, _⟩
          cases e
          exact absurd hd' hlt

/-- Reading with a known radix. -/
theorem consume_radix (r : Nat) (hr : 1 ≤ r) (s : Str) (v : Nat) :
    (if s = [] then none else match readDigits r 0 s with
      | none => none
      | some (v, rest) => if rest.length = s.length then none else some (v, rest)) = some (v, []) ↔
    s ≠ [] ∧ AllDigits r s ∧ v = radixValue r s ∧ v < 18446744073709551616 := by
  by_cases hs : s = []
  · simp [hs]
  · rw [if_neg hs]
    rw [show radixValue r s = s.foldl (fun a c => a * r + (radixDigit c).getD 0) 0 from rfl,
      ← readDigits_iff r hr s 0 v (by decide)]
    cases e : readDigits r 0 s with
    | none => simp
    | some p =>
      obtain ⟨w, rest⟩ := p
      simp only
      constructor
      · intro h
        split at h
        · cases h
        · exact ⟨hs, h⟩
      · rintro ⟨_, h⟩
        cases h
        rw [if_neg (by intro e; exact hs (List.length_eq_zero_iff.1 e.symm))]

theorem autoRadix_pos (s : Str) : 1 ≤ (autoRadix s).1 := by
  unfold autoRadix
  split <;> first
    | (split <;> simp)
    | simp

theorem autoRadix_plain {s : Str} (h : ∀ c cs, s ≠ '0' :: c :: cs) : autoRadix s = (10, s) := by
  unfold autoRadix
  split
  · exact absurd rfl (h _ _)
  · exact absurd rfl (h _ _)
  · exact absurd rfl (h _ _)
  · exact absurd rfl (h _ _)
  · exact absurd rfl (h _ _)
  · exact absurd rfl (h _ _)
  · rfl

theorem consume_auto (s : Str) (v : Nat) :
    consumeUnsigned 0 s = some (v, []) ↔ UnsignedText s v ∧ v < 18446744073709551616 := by
  have h1 : consumeUnsigned 0 s = some (v, []) ↔ (autoRadix s).2 ≠ [] ∧ AllDigits (autoRadix s).1 (autoRadix s).2 ∧
      v = radixValue (autoRadix s).1 (autoRadix s).2 ∧ v < 18446744073709551616 :=
    consume_radix _ (autoRadix_pos s) _ v
  rw [h1]
  constructor
  · rintro ⟨hne, had, rfl, hlt⟩
    refine ⟨?_, hlt⟩
    by_cases hz : ∀ c cs, s ≠ '0' :: c :: cs
    · rw [autoRadix_plain hz] at *
      exact .dec hne had hz
    unfold autoRadix at *
    split at hne
    · exact .hex (.inl rfl) hne had
    · exact .hex (.inr rfl) hne had
    · exact .bin (.inl rfl) hne had
    · exact .bin (.inr rfl) hne had
    · exact .oct hne had
    · rename_i c cs _ _ _ _ _
      by_cases hc : isDigit c = true
      · simp only [if_pos hc] at hne had ⊢
        exact .octZero hne had
      · simp only [if_neg hc] at hne had ⊢
        exfalso
        obtain ⟨d, e, hd⟩ := had c (by simp)
        unfold radixDigit at e
        rw [if_neg hc] at e
        split at e
        · cases e; omega
        · split at e
          · cases e; omega
          · cases e
    · rename_i h
      exact absurd h hz
  · rintro ⟨h, hlt⟩
    cases h with
    | dec hne had h =>
      have := autoRadix_plain h
      rw [this]
      exact ⟨hne, had, rfl, hlt⟩
    | hex hx hne had => rcases hx with rfl | rfl <;> exact ⟨hne, had, rfl, hlt⟩
    | bin hx hne had => rcases hx with rfl | rfl <;> exact ⟨hne, had, rfl, hlt⟩
    | oct hne had => exact ⟨hne, had, rfl, hlt⟩
    | @octZero ds hne had =>
      cases ds with
      | nil => exact absurd rfl hne
      | cons c cs =>
        have hc : isDigit c = true := by
          obtain ⟨d, e, hd⟩ := had c (by simp)
          unfold radixDigit at e
          by_cases hc : isDigit c = true
          · exact hc
          · rw [if_neg hc] at e
            split at e
            · cases e; omega
            · split at e
              · cases e; omega
              · cases e
        have : autoRadix ('0' :: c :: cs) = (8, c :: cs) := by
          unfold autoRadix
          split <;> rename_i e <;> first
            | (cases e; exact absurd hc (by decide))
            | (cases e; simp [hc])
            | (rename_i h; exact absurd rfl (h _ _))
            | skip
          all_goals (rename_i h; exact absurd rfl (e c cs))
        rw [this]
        exact ⟨hne, had, rfl, hlt⟩

theorem getAsInt64_auto (s : Str) (v : Int) :
    getAsInt64 0 s = some v ↔ IntegerText s v ∧ IsInt64 v := by
  have hno : ∀ cs v, ¬ UnsignedText ('-' :: cs) v := by
    intro cs v h
    cases h with
    | dec _ had _ =>
      obtain ⟨d, e, _⟩ := had '-' (by simp)
      rw [show radixDigit '-' = none by decide] at e
      cases e
  unfold getAsInt64
  split
  · rename_i cs
    constructor
    · intro h
      split at h
      · rename_i w e
        obtain ⟨hu, _⟩ := (consume_auto _ _).1 e
        split at h
        · cases h
          refine ⟨.neg hu, ?_⟩
          unfold IsInt64 int64Min int64Max
          omega
        · cases h
      · cases h
    · rintro ⟨h, hr⟩
      cases h with
      | pos h => exact absurd h (hno _ _)
      | @neg _ n h =>
        unfold IsInt64 int64Min int64Max at hr
        have e := (consume_auto cs n).2 ⟨h, by omega⟩
        rw [e]
        simp only
        rw [if_pos (by omega)]
  · rename_i h0
    constructor
    · intro h
      split at h
      · rename_i w e
        obtain ⟨hu, _⟩ := (consume_auto _ _).1 e
        split at h
        · cases h
          refine ⟨.pos hu, ?_⟩
          unfold IsInt64 int64Min int64Max
          omega
        · cases h
      · cases h
    · rintro ⟨h, hr⟩
      cases h with
      | @pos _ n h =>
        unfold IsInt64 int64Min int64Max at hr
        have e := (consume_auto s n).2 ⟨h, by omega⟩
        rw [e]
        simp only
        rw [if_pos (by omega)]
      | neg h => exact absurd rfl (h0 _)

theorem natText_head (n : Nat) (h : 1 ≤ n) : ∃ c cs, natText n = c :: cs ∧ c ≠ '0' := by
  induction n using natText.induct with
  | case1 n hn =>
    rw [natText, if_pos hn]
    refine ⟨_, _, rfl, ?_⟩
    intro e
    have := digitChar_toNat hn
    rw [e] at this
    have h0 : ('0' : Char).toNat = 48 := rfl
    omega
  | case2 n hn ih =>
    rw [natText, if_neg hn]
    obtain ⟨c, cs, e, hc⟩ := ih (by omega)
    exact ⟨c, cs ++ [digitChar (n % 10)], by rw [e]; rfl, hc⟩

theorem radixDigit_digit {c : Char} (h : isDigit c = true) : radixDigit c = some (digitVal c) ∧ digitVal c < 10 := by
  refine ⟨by simp [radixDigit, h, digitVal], ?_⟩
  rw [isDigit_iff] at h
  unfold digitVal
  omega

theorem radixValue_dec {s : Str} (h : ∀ c ∈ s, isDigit c = true) : radixValue 10 s = decValue s := by
  have key : ∀ a, s.foldl (fun a c => a * 10 + (radixDigit c).getD 0) a =
      s.foldl (fun a c => a * 10 + digitVal c) a := by
    induction s with
    | nil => exact fun a => rfl
    | cons c s ih =>
      intro a
      simp only [List.foldl_cons]
      rw [(radixDigit_digit (h c (by simp))).1]
      exact ih (fun x hx => h x (by simp [hx])) _
  exact key 0

theorem unsigned_natText (n : Nat) : UnsignedText (natText n) n := by
  have hd := natText_digits n
  have h := UnsignedText.dec (ds := natText n) (natText_ne_nil n)
    (fun c hc => ⟨_, radixDigit_digit (hd c hc)⟩) (by
      intro c cs e
      by_cases hn : 1 ≤ n
      · obtain ⟨c', cs', e', h'⟩ := natText_head n hn
        rw [e] at e'
        cases e'
        exact h' rfl
      · have : n = 0 := by omega
        subst this
        rw [natText, if_pos (by decide)] at e
        simp at e)
  rwa [radixValue_dec hd, natText_value] at h

theorem integerText_intText (v : Int) : IntegerText (intText v) v := by
  cases v with
  | ofNat n => exact .pos (unsigned_natText n)
  | negSucc n => exact .neg (n := n + 1) (unsigned_natText (n + 1))

theorem intText_not_bool (v : Int) : lower (intText v) ≠ c!"true" ∧ lower (intText v) ≠ c!"false" := by
  have hhead : ∃ c cs, intText v = c :: cs ∧ (isDigit c = true ∨ c = '-') := by
    cases v with
    | ofNat n =>
      have h1 := natText_digits n
      have h2 := natText_ne_nil n
      simp only [intText]
      generalize natText n = t at *
      cases t with
      | nil => exact absurd rfl h2
      | cons c cs => exact ⟨c, cs, rfl, .inl (h1 c (by simp))⟩
    | negSucc n => exact ⟨'-', _, rfl, .inr rfl⟩
  obtain ⟨c, cs, e, hc⟩ := hhead
  rw [e]
  have hl : lowerChar c = c := by
    rcases hc with hc | rfl
    · exact lowerChar_digit hc
    · decide
  simp only [lower, List.map_cons, hl]
  constructor <;>
  · intro h
    have h := (List.cons.inj h).1
    subst h
    rcases hc with hc | hc
    · exact absurd hc (by decide)
    · exact absurd hc (by decide)

/-! ## Maps -/

theorem mapFind_mapSet {α} (m : List (Str × α)) (k k' : Str) (v : α) :
    mapFind k' (mapSet k v m) = if k = k' then some v else mapFind k' m := by
  induction m with
  | nil => rfl
  | cons e m ih =>
    obtain ⟨k0, v0⟩ := e
    simp only [mapSet]
    by_cases h : k0 = k
    · subst h
      simp only [if_pos, mapFind]
      split <;> rfl
    · rw [if_neg h]
      simp only [mapFind, ih]
      by_cases h' : k0 = k'
      · subst h'
        rw [if_pos rfl, if_neg (fun e => h e.symm), if_pos rfl]
      · rw [if_neg h', if_neg h']

/-- Distinct keys. -/
def KeysNodup {α} (m : List (Str × α)) : Prop := (m.map (·.1)).Nodup

theorem keys_mapSet {α} (m : List (Str × α)) (k : Str) (v : α) :
    (mapSet k v m).map (·.1) = if k ∈ m.map (·.1) then m.map (·.1) else m.map (·.1) ++ [k] := by
  induction m with
  | nil => rfl
  | cons e m ih =>
    obtain ⟨k0, v0⟩ := e
    simp only [mapSet]
    by_cases h : k0 = k
    · subst h
      simp
    · rw [if_neg h, List.map_cons, ih]
      by_cases hm : k ∈ m.map (·.1)
      · rw [if_pos hm, if_pos (by rw [List.map_cons]; exact List.mem_cons_of_mem _ hm)]; rfl
      · rw [if_neg hm, if_neg]
        · rfl
        · rw [List.map_cons]
          intro hc
          rcases List.mem_cons.1 hc with e | e
          · exact h e.symm
          · exact hm e

theorem keysNodup_mapSet {α} {m : List (Str × α)} (h : KeysNodup m) (k : Str) (v : α) :
    KeysNodup (mapSet k v m) := by
  unfold KeysNodup at *
  rw [keys_mapSet]
  split
  · exact h
  · rename_i hk
    rw [List.nodup_append]
    refine ⟨h, by simp, ?_⟩
    intro a ha b hb
    simp at hb
    subst hb
    rintro rfl
    exact hk ha

theorem mapFind_mem {α} {m : List (Str × α)} (h : KeysNodup m) {k : Str} {v : α} :
    mapFind k m = some v ↔ (k, v) ∈ m := by
  induction m with
  | nil => simp [mapFind]
  | cons e m ih =>
    obtain ⟨k0, v0⟩ := e
    have h' : KeysNodup m := by
      unfold KeysNodup at *; rw [List.map_cons, List.nodup_cons] at h; exact h.2
    have hk : k0 ∉ m.map (·.1) := by
      unfold KeysNodup at *; rw [List.map_cons, List.nodup_cons] at h; exact h.1
    simp only [mapFind]
    by_cases hc : k0 = k
    · subst hc
      rw [if_pos rfl]
      constructor
      · intro e; cases e; simp
      · intro e
        rcases List.mem_cons.1 e with e | e
        · cases e; rfl
        · exact absurd (List.mem_map.2 ⟨_, e, rfl⟩) hk
    · rw [if_neg hc, ih h']
      constructor
      · exact fun e => List.mem_cons_of_mem _ e
      · intro e
        rcases List.mem_cons.1 e with e | e
        · cases e; exact absurd rfl hc
        · exact e

/-- Folding entries with distinct keys into a map. -/
theorem mapFind_foldl {α β} (f : α → β) (es : List (Str × α)) (h : KeysNodup es) (o : List (Str × β)) (k : Str) :
    mapFind k (es.foldl (fun o e => mapSet e.1 (f e.2) o) o) =
      match mapFind k es with
      | some v => some (f v)
      | none => mapFind k o := by
  induction es generalizing o with
  | nil => rfl
  | cons e es ih =>
    obtain ⟨k0, v0⟩ := e
    unfold KeysNodup at h
    rw [List.map_cons, List.nodup_cons] at h
    simp only [List.foldl_cons]
    rw [ih h.2]
    simp only [mapFind, mapFind_mapSet]
    by_cases hc : k0 = k
    · subst hc
      have : mapFind k0 es = none := by
        cases e : mapFind k0 es with
        | none => rfl
        | some v => exact absurd (List.mem_map.2 ⟨_, (mapFind_mem h.2).1 e, rfl⟩) h.1
      simp [this]
    · rw [if_neg hc, if_neg hc]

theorem keysNodup_foldl {α β} (f : α → β) (es : List (Str × α)) (o : List (Str × β)) (h : KeysNodup o) :
    KeysNodup (es.foldl (fun o e => mapSet e.1 (f e.2) o) o) := by
  induction es generalizing o with
  | nil => exact h
  | cons e es ih => exact ih _ (keysNodup_mapSet h _ _)

end Verif

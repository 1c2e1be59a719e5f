import Verif.Sxfm.Tree
import Verif.FM.Order
/-! Replacing identifiers in constraint texts. -/

namespace Verif.Spec
open Verif

/-- Words, each with the text that follows it. -/
abbrev Words := List (Str × Str)

def Words.flat : Words → Str
  | [] => []
  | (w, g) :: r => w ++ g ++ Words.flat r

/-- `g` and the words `r` split a text into its maximal words and the text between them. -/
def Separated (g : Str) (r : Words) : Prop :=
  (∀ c ∈ g, isIdChar c = false) ∧ (∀ x ∈ r, x.1 ≠ [] ∧ (∀ c ∈ x.1, isIdChar c = true) ∧ ∀ c ∈ x.2, isIdChar c = false) ∧
    r.Pairwise fun x _ => x.2 ≠ []

/-- `a` occurs in `b`. -/
def OccursIn (a b : Str) : Prop := ∃ x y, b = x ++ a ++ y

end Verif.Spec

namespace Verif.Sxfm
open Verif Verif.Spec

/-! ### Searching -/

theorem findSub_zero {k s : Str} (h : k.isPrefixOf s = true) : findSub k s = some 0 := by
  cases s with
  | nil =>
    cases k with
    | nil => rfl
    | cons => simp at h
  | cons c cs => rw [findSub, if_pos h]

/-- Positions at which the string does not start can be skipped. -/
theorem findSub_skip {k : Str} : ∀ {a b : Str}, (∀ x y, a = x ++ y → y ≠ [] → ¬ k <+: y ++ b) →
    findSub k (a ++ b) = (findSub k b).map (· + a.length)
  | [], b, _ => by simp
  | c :: cs, b, h => by
    have h0 : ¬ k.isPrefixOf (c :: (cs ++ b)) = true := by
      intro hp
      exact h [] (c :: cs) rfl (by simp) (List.isPrefixOf_iff_prefix.1 hp)
    rw [List.cons_append, findSub, if_neg h0, findSub_skip (a := cs) (b := b)]
    · rw [Option.map_map]
      congr 1
    · intro x y hxy hy
      exact h (c :: x) y (by rw [hxy]; rfl) hy

theorem prefix_head {k y b : Str} (hk : k ≠ []) (hy : y ≠ []) (h : k <+: y ++ b) : k.head? = y.head? := by
  obtain ⟨t, ht⟩ := h
  cases k with
  | nil => exact absurd rfl hk
  | cons a k =>
    cases y with
    | nil => exact absurd rfl hy
    | cons c y => simp at ht; simp [ht.1]

theorem skip_of_head {k a b : Str} (hk : k ≠ []) (h : ∀ c ∈ a, k.head? ≠ some c) :
    findSub k (a ++ b) = (findSub k b).map (· + a.length) := by
  apply findSub_skip
  intro x y hxy hy hp
  have := prefix_head hk hy hp
  cases y with
  | nil => exact hy rfl
  | cons c y => exact h c (by rw [hxy]; simp) this

/-- The text after a word is empty or starts with a character that is not one of a word. -/
def Breaks (s : Str) : Prop := ∀ c, s.head? = some c → isIdChar c = false

theorem prefix_of_word {k : Str} (hk : ∀ c ∈ k, isIdChar c = true) {y b : Str} (hb : Breaks b) (h : k <+: y ++ b) : k <+: y := by
  induction k generalizing y with
  | nil => exact List.nil_prefix
  | cons a k ih =>
    cases y with
    | nil =>
      obtain ⟨t, ht⟩ := h
      cases b with
      | nil => simp at ht
      | cons c b =>
        simp at ht
        have h1 := hb c rfl
        rw [← ht.1, hk a (by simp)] at h1
        cases h1
    | cons c y =>
      obtain ⟨t, ht⟩ := h
      simp at ht
      obtain ⟨rfl, ht⟩ := ht
      obtain ⟨t', ht'⟩ := ih (fun c hc => hk c (by simp [hc])) (y := y) ⟨t, by simpa using ht⟩
      exact ⟨t', by simp [ht']⟩

theorem skip_word {k w b : Str} (hk : ∀ c ∈ k, isIdChar c = true) (hb : Breaks b) (h : ¬ OccursIn k w) :
    findSub k (w ++ b) = (findSub k b).map (· + w.length) := by
  apply findSub_skip
  intro x y hxy hy hp
  obtain ⟨t, ht⟩ := prefix_of_word hk hb hp
  exact h ⟨x, t, by rw [hxy, ← ht]; simp⟩

theorem separated_tail {g : Str} {x : Str × Str} {r : Words} (h : Separated g (x :: r)) : Separated x.2 r :=
  ⟨(h.2.1 x (by simp)).2.2, fun y hy => h.2.1 y (by simp [hy]), (List.pairwise_cons.1 h.2.2).2⟩

theorem breaks_of {g : Str} {x : Str × Str} {r : Words} (h : Separated g (x :: r)) : Breaks (x.2 ++ Words.flat r) := by
  intro c hc
  cases hx : x.2 with
  | nil =>
    cases r with
    | nil => rw [hx] at hc; cases hc
    | cons y r => exact absurd hx ((List.pairwise_cons.1 h.2.2).1 y (by simp))
  | cons a g' =>
    rw [hx] at hc
    cases hc
    exact (h.2.1 x (by simp)).2.2 c (by rw [hx]; simp)

theorem id_head {k : Str} (hk : ∀ c ∈ k, isIdChar c = true) {g : Str} (hg : ∀ c ∈ g, isIdChar c = false) :
    ∀ c ∈ g, k.head? ≠ some c := by
  intro c hc h
  cases k with
  | nil => cases h
  | cons a k =>
    cases h
    have := hk c (by simp)
    rw [hg c hc] at this
    cases this

theorem find_absent {k : Str} (hk : ∀ c ∈ k, isIdChar c = true) (hne : k ≠ []) : ∀ {g : Str} {r : Words}, Separated g r →
    (∀ x ∈ r, ¬ OccursIn k x.1) → findSub k (g ++ r.flat) = none
  | g, [], h, _ => by
    rw [skip_of_head hne (id_head hk h.1)]
    simp [Words.flat, findSub, hne]
  | g, x :: r, h, ho => by
    rw [skip_of_head hne (id_head hk h.1), Words.flat, List.append_assoc,
      skip_word hk (breaks_of h) (ho x (by simp)), find_absent hk hne (separated_tail h) (fun y hy => ho y (by simp [hy]))]
    rfl

theorem find_word {k : Str} (hk : ∀ c ∈ k, isIdChar c = true) (hne : k ≠ []) : ∀ {g : Str} {r : Words} {g' : Str} {r' : Words},
    Separated g (r ++ (k, g') :: r') → (∀ x ∈ r, ¬ OccursIn k x.1) →
    findSub k (g ++ Words.flat (r ++ (k, g') :: r')) = some (g ++ Words.flat r).length
  | g, [], g', r', h, _ => by
    rw [skip_of_head hne (id_head hk h.1)]
    have e : Words.flat ([] ++ (k, g') :: r') = k ++ g' ++ Words.flat r' := rfl
    rw [e, findSub_zero (List.isPrefixOf_iff_prefix.2 ⟨g' ++ Words.flat r', (List.append_assoc _ _ _).symm⟩)]
    simp [Words.flat]
  | g, x :: r, g', r', h, ho => by
    have h' : Separated g (x :: (r ++ (k, g') :: r')) := h
    rw [skip_of_head hne (id_head hk h.1), List.cons_append, Words.flat, List.append_assoc,
      skip_word hk (breaks_of h') (ho x (by simp)),
      find_word hk hne (separated_tail h') (fun y hy => ho y (by simp [hy]))]
    simp [Words.flat]
    omega

theorem flat_append (a b : Words) : Words.flat (a ++ b) = Words.flat a ++ Words.flat b := by
  induction a with
  | nil => rfl
  | cons x a ih => rw [List.cons_append, Words.flat, Words.flat, ih]; simp

/-- The words with one of them replaced everywhere. -/
def substWord (k v : Str) (r : Words) : Words := r.map fun x => (if x.1 = k then v else x.1, x.2)

theorem separated_append_congr {g : Str} {r r' : Words} {x y : Str × Str} (h : Separated g (r ++ x :: r'))
    (hy : y.2 = x.2) (h1 : y.1 ≠ []) (h2 : ∀ c ∈ y.1, isIdChar c = true) : Separated g (r ++ y :: r') := by
  refine ⟨h.1, ?_, ?_⟩
  · intro z hz
    rcases List.mem_append.1 hz with hz | hz
    · exact h.2.1 z (by simp [hz])
    · rcases List.mem_cons.1 hz with rfl | hz
      · refine ⟨h1, h2, ?_⟩
        rw [hy]; exact (h.2.1 x (by simp)).2.2
      · exact h.2.1 z (by simp [hz])
  · have hp := h.2.2
    rw [List.pairwise_append] at hp ⊢
    obtain ⟨p1, p2, p3⟩ := hp
    refine ⟨p1, ?_, ?_⟩
    · rw [List.pairwise_cons] at p2 ⊢
      exact ⟨fun z hz => by rw [hy]; exact p2.1 z hz, p2.2⟩
    · intro a ha b hb
      exact p3 a ha x (by simp)

theorem split_first {r : Words} {k : Str} (h : ∃ x ∈ r, x.1 = k) : ∃ a g b, r = a ++ (k, g) :: b ∧ ∀ x ∈ a, x.1 ≠ k := by
  induction r with
  | nil => obtain ⟨x, hx, _⟩ := h; cases hx
  | cons x r ih =>
    by_cases hx : x.1 = k
    · exact ⟨[], x.2, r, by rw [← hx]; rfl, by simp⟩
    · obtain ⟨y, hy, hk⟩ := h
      obtain ⟨a, g, b, rfl, hb⟩ := ih ⟨y, (List.mem_cons.1 hy).resolve_left (by rintro rfl; exact hx hk), hk⟩
      refine ⟨x :: a, g, b, rfl, ?_⟩
      intro z hz
      rcases List.mem_cons.1 hz with rfl | hz
      · exact hx
      · exact hb z hz

/-- Replacing an identifier replaces exactly the words equal to it. -/
theorem replaceAll_words {k v : Str} (hk : ∀ c ∈ k, isIdChar c = true) (hne : k ≠ []) (hv : ∀ c ∈ v, isIdChar c = true)
    (hvne : v ≠ []) (hkv : ¬ OccursIn k v) : ∀ (n : Nat) {g : Str} {r : Words}, Separated g r →
    (∀ x ∈ r, OccursIn k x.1 → x.1 = k) → (r.filter fun x => decide (x.1 = k)).length ≤ n →
    replaceAll k v n (g ++ r.flat) = some (g ++ (substWord k v r).flat) := by
  intro n
  induction n with
  | zero =>
    intro g r hs ho hn
    have hno : ∀ x ∈ r, x.1 ≠ k := by
      intro x hx he
      have : x ∈ r.filter fun x => decide (x.1 = k) := List.mem_filter.2 ⟨hx, by simp [he]⟩
      rw [List.length_eq_zero_iff.1 (Nat.le_zero.1 hn)] at this
      cases this
    have hsub : substWord k v r = r := by
      unfold substWord
      rw [List.map_congr_left (g := id) (by intro x hx; simp [hno x hx])]
      simp
    rw [replaceAll, find_absent hk hne hs (fun x hx hoc => hno x hx (ho x hx hoc)), hsub]
  | succ n ih =>
    intro g r hs ho hn
    by_cases hex : ∃ x ∈ r, x.1 = k
    · obtain ⟨a, g', b, rfl, ha⟩ := split_first hex
      have hoa : ∀ x ∈ a, ¬ OccursIn k x.1 := fun x hx hoc => ha x hx (ho x (by simp [hx]) hoc)
      rw [replaceAll, find_word hk hne hs hoa]
      simp only
      have e : g ++ Words.flat (a ++ (k, g') :: b) = (g ++ Words.flat a) ++ (k ++ (g' ++ Words.flat b)) := by
        rw [flat_append, Words.flat]; simp
      have e2 : List.take (g ++ Words.flat a).length (g ++ Words.flat (a ++ (k, g') :: b)) ++ v ++
          List.drop ((g ++ Words.flat a).length + k.length) (g ++ Words.flat (a ++ (k, g') :: b)) =
          g ++ Words.flat (a ++ (v, g') :: b) := by
        rw [e, List.take_left, ← List.drop_drop, List.drop_left, List.drop_left, flat_append, Words.flat]
        simp
      rw [e2, ih (separated_append_congr (y := (v, g')) hs rfl hvne hv)]
      · congr 3
        unfold substWord
        have hvk : v ≠ k := by rintro rfl; exact hkv ⟨[], [], by simp⟩
        simp [hvk]
      · intro x hx hoc
        rcases List.mem_append.1 hx with hx | hx
        · exact ho x (by simp [hx]) hoc
        · rcases List.mem_cons.1 hx with rfl | hx
          · exact absurd hoc hkv
          · exact ho x (by simp [hx]) hoc
      · have hvk : v ≠ k := by rintro rfl; exact hkv ⟨[], [], by simp⟩
        have h1 : (List.filter (fun x : Str × Str => decide (x.1 = k)) (a ++ (k, g') :: b)).length =
            (a.filter fun x => decide (x.1 = k)).length + ((b.filter fun x => decide (x.1 = k)).length + 1) := by
          simp
        have h2 : (List.filter (fun x : Str × Str => decide (x.1 = k)) (a ++ (v, g') :: b)).length =
            (a.filter fun x => decide (x.1 = k)).length + (b.filter fun x => decide (x.1 = k)).length := by
          simp [hvk]
        omega
    · have hno : ∀ x ∈ r, x.1 ≠ k := fun x hx he => hex ⟨x, hx, he⟩
      have hsub : substWord k v r = r := by
        unfold substWord
        rw [List.map_congr_left (g := id) (by intro x hx; simp [hno x hx])]
        simp
      rw [replaceAll, find_absent hk hne hs (fun x hx hoc => hno x hx (ho x hx hoc)), hsub]

/-! ### The order of the identifiers -/

theorem insertDesc_mem {k x : Str} : ∀ {l : List Str}, x ∈ insertDesc k l ↔ x = k ∨ x ∈ l
  | [] => by simp [insertDesc]
  | y :: l => by
    unfold insertDesc
    by_cases h1 : k = y
    · subst h1; simp
    · rw [if_neg h1]
      by_cases h2 : strLt y k = true
      · rw [if_pos h2]; simp
      · rw [if_neg h2, List.mem_cons, insertDesc_mem, List.mem_cons]
        exact or_left_comm

theorem insertDesc_sorted {k : Str} : ∀ {l : List Str}, l.Pairwise (fun a b => strLt b a = true) →
    (insertDesc k l).Pairwise fun a b => strLt b a = true
  | [], _ => by simp [insertDesc]
  | y :: l, h => by
    unfold insertDesc
    by_cases h1 : k = y
    · rw [if_pos h1]; exact h
    · rw [if_neg h1]
      by_cases h2 : strLt y k = true
      · rw [if_pos h2, List.pairwise_cons]
        refine ⟨?_, h⟩
        intro z hz
        rcases List.mem_cons.1 hz with rfl | hz
        · exact h2
        · exact strLt_trans ((List.pairwise_cons.1 h).1 z hz) h2
      · rw [if_neg h2, List.pairwise_cons]
        refine ⟨?_, insertDesc_sorted (List.pairwise_cons.1 h).2⟩
        intro z hz
        rcases insertDesc_mem.1 hz with rfl | hz
        · cases h3 : strLt z y with
          | true => rfl
          | false => exact absurd (strLt_total h3 (by simpa using h2)) h1
        · exact (List.pairwise_cons.1 h).1 z hz

theorem keys_sorted (table : List (Str × Str)) : (keys table).Pairwise fun a b => strLt b a = true := by
  unfold keys
  induction table with
  | nil => simp
  | cons x t ih => rw [List.map_cons, List.foldr_cons]; exact insertDesc_sorted ih

theorem mem_keys {table : List (Str × Str)} {k : Str} : k ∈ keys table ↔ k ∈ table.map Prod.fst := by
  unfold keys
  induction table with
  | nil => simp
  | cons x t ih => rw [List.map_cons, List.foldr_cons, insertDesc_mem, ih, List.mem_cons]

end Verif.Sxfm

namespace Verif.Spec
open Verif Verif.Sxfm

/-- `k` is an identifier of the table with a different name `v`. -/
def StandsFor (table : List (Str × Str)) (k v : Str) : Prop := table.lookup k = some v ∧ v ≠ k

/-- A word of a constraint that the replacement treats properly: an identifier in it is the word itself
    or comes after it in the alphabetical order; and if the word is replaced, then the new text is a
    word in which neither the identifier nor one that comes before it in alphabetical order occurs. -/
structure GoodWord (table : List (Str × Str)) (w : Str) : Prop where
  inside : ∀ k v, StandsFor table k v → OccursIn k w → k = w ∨ ((∃ u, StandsFor table w u) ∧ strLt k w = true)
  after : ∀ u, StandsFor table w u → u ≠ [] ∧ (∀ c ∈ u, isIdChar c = true) ∧
    ∀ k v, StandsFor table k v → OccursIn k u → k ≠ w ∧ strLt k w = false

/-- The identifiers of the table are words. -/
def IdTable (table : List (Str × Str)) : Prop := ∀ k v, (k, v) ∈ table → k ≠ [] ∧ ∀ c ∈ k, isIdChar c = true

/-- Every identifier replaced by its name. -/
def rename (table : List (Str × Str)) (r : Words) : Words := r.map fun x => ((table.lookup x.1).getD x.1, x.2)

end Verif.Spec

namespace Verif.Sxfm
open Verif Verif.Spec

theorem lookup_mem {table : List (Str × Str)} {k v : Str} (h : table.lookup k = some v) : (k, v) ∈ table := by
  induction table with
  | nil => cases h
  | cons x t ih =>
    obtain ⟨a, b⟩ := x
    rw [List.lookup_cons] at h
    by_cases hk : (k == a) = true
    · rw [hk] at h
      cases h
      rw [beq_iff_eq] at hk
      subst hk
      simp
    · rw [Bool.eq_false_iff.2 hk] at h
      exact List.mem_cons_of_mem _ (ih h)

theorem lookup_of_mem {table : List (Str × Str)} {k : Str} (h : k ∈ table.map Prod.fst) : ∃ v, table.lookup k = some v := by
  induction table with
  | nil => cases h
  | cons x t ih =>
    obtain ⟨a, b⟩ := x
    rw [List.lookup_cons]
    by_cases hk : (k == a) = true
    · rw [hk]; exact ⟨b, rfl⟩
    · rw [Bool.eq_false_iff.2 hk]
      refine ih ((List.mem_cons.1 h).resolve_left ?_)
      rintro rfl
      exact hk (beq_self_eq_true _)

theorem standsFor_key {table : List (Str × Str)} {k v : Str} (h : StandsFor table k v) : k ∈ keys table :=
  mem_keys.2 (List.mem_map_of_mem (lookup_mem h.1))

theorem nameFor_of {table : List (Str × Str)} {k v : Str} (h : table.lookup k = some v) : nameFor table k = v := by
  unfold nameFor; rw [h]; rfl

/-- The word `w` after the identifiers not in `ks` have been replaced. -/
def partly (table : List (Str × Str)) (ks : List Str) (w : Str) : Str :=
  if w ∈ ks then w else (table.lookup w).getD w

theorem separated_map {g : Str} {r : Words} (f : Str → Str) (h : Separated g r)
    (hf : ∀ x ∈ r, f x.1 ≠ [] ∧ ∀ c ∈ f x.1, isIdChar c = true) : Separated g (r.map fun x => (f x.1, x.2)) := by
  refine ⟨h.1, ?_, ?_⟩
  · intro y hy
    obtain ⟨x, hx, rfl⟩ := List.mem_map.1 hy
    exact ⟨(hf x hx).1, (hf x hx).2, (h.2.1 x hx).2.2⟩
  · rw [List.pairwise_map]
    exact h.2.2

theorem rename_from {table : List (Str × Str)} (ht : IdTable table) {g : Str} {r : Words} (hs : Separated g r)
    (hw : ∀ x ∈ r, GoodWord table x.1) : ∀ (ks pre : List Str), keys table = pre ++ ks →
    renameKeys table r.length ks (g ++ Words.flat (r.map fun x => (partly table ks x.1, x.2))) =
      some (g ++ (rename table r).flat)
  | [], pre, _ => by
    rw [renameKeys]
    rfl
  | k :: ks, pre, hpre => by
    have hsorted := keys_sorted table
    rw [hpre, List.pairwise_append, List.pairwise_cons] at hsorted
    have hkk : k ∈ keys table := by rw [hpre]; simp
    obtain ⟨v, hv⟩ := lookup_of_mem (mem_keys.1 hkk)
    have hkid := ht k v (lookup_mem hv)
    rw [renameKeys, nameFor_of hv]
    have hnext : ∀ w, w ≠ k → partly table (k :: ks) w = partly table ks w := by
      intro w hwk
      unfold partly
      simp [hwk]
    have hknot : k ∉ ks := fun h => by
      have := hsorted.2.1.1 k h
      rw [strLt_irrefl] at this; cases this
    by_cases hvk : v = k
    · rw [if_pos hvk]
      have : (r.map fun x => (partly table (k :: ks) x.1, x.2)) = r.map fun x => (partly table ks x.1, x.2) := by
        apply List.map_congr_left
        intro x _
        by_cases hx : x.1 = k
        · have : partly table (k :: ks) x.1 = partly table ks x.1 := by
            unfold partly
            rw [hx, hv]
            simp [hvk]
          rw [this]
        · rw [hnext _ hx]
      rw [this]
      exact rename_from ht hs hw ks (pre ++ [k]) (by rw [hpre]; simp)
    · rw [if_neg hvk]
      have hstands : StandsFor table k v := ⟨hv, hvk⟩
      -- words that have been replaced come before `k` in the order
      have hdone : ∀ w u, StandsFor table w u → w ∉ k :: ks → strLt k w = true := by
        intro w u hwu hn
        have hm := standsFor_key hwu
        rw [hpre] at hm
        rcases List.mem_append.1 hm with hm | hm
        · exact hsorted.2.2 w hm k (by simp)
        · exact absurd hm hn
      by_cases hocc : ∃ x ∈ r, x.1 = k
      · obtain ⟨x0, hx0, hx0k⟩ := hocc
        have hgk := (hw x0 hx0).after v (by rw [hx0k]; exact hstands)
        rw [hx0k] at hgk
        have hkv : ¬ OccursIn k v := fun h => (hgk.2.2 k v hstands h).1 rfl
        have hpart : ∀ x ∈ r, OccursIn k (partly table (k :: ks) x.1) → partly table (k :: ks) x.1 = k := by
          intro x hx hoc
          have gw := hw x hx
          by_cases hin : x.1 ∈ k :: ks
          · have e : partly table (k :: ks) x.1 = x.1 := by unfold partly; rw [if_pos hin]
            rw [e] at hoc ⊢
            rcases gw.inside k v hstands hoc with h | ⟨_, h⟩
            · exact h.symm
            · rcases List.mem_cons.1 hin with h' | h'
              · exact h'
              · have := strLt_asymm (hsorted.2.1.1 x.1 h')
                rw [h] at this; cases this
          · have e : partly table (k :: ks) x.1 = (table.lookup x.1).getD x.1 := by unfold partly; rw [if_neg hin]
            rw [e] at hoc ⊢
            have hxk : x.1 ≠ k := fun h => hin (by simp [h])
            by_cases hst : ∃ u, StandsFor table x.1 u
            · obtain ⟨u, hu⟩ := hst
              rw [hu.1] at hoc ⊢
              simp only [Option.getD_some] at hoc ⊢
              have h1 := ((gw.after u hu).2.2 k v hstands hoc).2
              rw [hdone _ u hu hin] at h1
              cases h1
            · have e' : (table.lookup x.1).getD x.1 = x.1 := by
                cases hl : table.lookup x.1 with
                | none => rfl
                | some u =>
                  by_cases hux : u = x.1
                  · exact hux
                  · exact absurd ⟨u, hl, hux⟩ hst
              rw [e'] at hoc ⊢
              rcases gw.inside k v hstands hoc with h | ⟨h, _⟩
              · exact absurd h.symm hxk
              · exact absurd h hst
        have hgood : ∀ x ∈ r, partly table (k :: ks) x.1 ≠ [] ∧ ∀ c ∈ partly table (k :: ks) x.1, isIdChar c = true := by
          intro x hx
          have hb := hs.2.1 x hx
          unfold partly
          by_cases hin : x.1 ∈ k :: ks
          · rw [if_pos hin]; exact ⟨hb.1, hb.2.1⟩
          · rw [if_neg hin]
            cases hl : table.lookup x.1 with
            | none => exact ⟨hb.1, hb.2.1⟩
            | some u =>
              by_cases hux : u = x.1
              · subst hux; exact ⟨hb.1, hb.2.1⟩
              · have := (hw x hx).after u ⟨hl, hux⟩
                exact ⟨this.1, this.2.1⟩
        have hsep := separated_map (partly table (k :: ks)) hs hgood
        have hrep := replaceAll_words hkid.2 hkid.1 hgk.2.1 hgk.1 hkv r.length hsep
          (by
            intro y hy
            obtain ⟨x, hx, rfl⟩ := List.mem_map.1 hy
            exact hpart x hx)
          (Nat.le_trans (List.length_filter_le _ _) (by simp))
        rw [hrep]
        have hsub : substWord k v (r.map fun x => (partly table (k :: ks) x.1, x.2)) =
            r.map fun x => (partly table ks x.1, x.2) := by
          unfold substWord
          rw [List.map_map]
          apply List.map_congr_left
          intro x hx
          simp only [Function.comp]
          by_cases hxk : x.1 = k
          · have e1 : partly table (k :: ks) x.1 = k := by unfold partly; rw [hxk]; simp
            have e2 : partly table ks x.1 = v := by unfold partly; rw [hxk, if_neg hknot, hv]; rfl
            rw [e1, e2, if_pos rfl]
          · rw [hnext _ hxk, if_neg]
            intro he
            rw [← hnext _ hxk] at he
            by_cases hin : x.1 ∈ k :: ks
            · have e : partly table (k :: ks) x.1 = x.1 := by unfold partly; rw [if_pos hin]
              exact hxk (by rw [← e, he])
            · have e : partly table (k :: ks) x.1 = (table.lookup x.1).getD x.1 := by unfold partly; rw [if_neg hin]
              rw [e] at he
              cases hl : table.lookup x.1 with
              | none => rw [hl] at he; exact hxk he
              | some u =>
                rw [hl] at he
                simp only [Option.getD_some] at he
                have hu : StandsFor table x.1 u := ⟨hl, by rw [he]; exact fun h => hxk h.symm⟩
                have h1 := (((hw x hx).after u hu).2.2 k v hstands ⟨[], [], by simp [he]⟩).2
                rw [hdone _ u hu hin] at h1
                cases h1
        rw [Option.bind_some, hsub]
        exact rename_from ht hs hw ks (pre ++ [k]) (by rw [hpre]; simp)
      · -- `k` is not a word of the text
        have hno : ∀ x ∈ r, x.1 ≠ k := fun x hx h => hocc ⟨x, hx, h⟩
        have hsame : (r.map fun x => (partly table (k :: ks) x.1, x.2)) = r.map fun x => (partly table ks x.1, x.2) := by
          apply List.map_congr_left
          intro x hx
          rw [hnext _ (hno x hx)]
        have habs : ∀ x ∈ r, ¬ OccursIn k (partly table (k :: ks) x.1) := by
          intro x hx hoc
          have gw := hw x hx
          by_cases hin : x.1 ∈ k :: ks
          · have e : partly table (k :: ks) x.1 = x.1 := by unfold partly; rw [if_pos hin]
            rw [e] at hoc
            rcases gw.inside k v hstands hoc with h | ⟨_, h⟩
            · exact hno x hx h.symm
            · rcases List.mem_cons.1 hin with h' | h'
              · exact hno x hx h'
              · have := strLt_asymm (hsorted.2.1.1 x.1 h')
                rw [h] at this; cases this
          · have e : partly table (k :: ks) x.1 = (table.lookup x.1).getD x.1 := by unfold partly; rw [if_neg hin]
            rw [e] at hoc
            cases hl : table.lookup x.1 with
            | none =>
              rw [hl] at hoc
              rcases gw.inside k v hstands hoc with h | ⟨⟨u, h⟩, _⟩
              · exact hno x hx h.symm
              · rw [h.1] at hl; cases hl
            | some u =>
              rw [hl] at hoc
              simp only [Option.getD_some] at hoc
              by_cases hux : u = x.1
              · rw [hux] at hoc
                rcases gw.inside k v hstands hoc with h | ⟨⟨u', h⟩, _⟩
                · exact hno x hx h.symm
                · rw [h.1] at hl
                  cases hl
                  exact h.2 hux
              · have h1 := ((gw.after u ⟨hl, hux⟩).2.2 k v hstands hoc).2
                rw [hdone _ u ⟨hl, hux⟩ hin] at h1
                cases h1
        have hgood : ∀ x ∈ r, partly table (k :: ks) x.1 ≠ [] ∧ ∀ c ∈ partly table (k :: ks) x.1, isIdChar c = true := by
          intro x hx
          have hb := hs.2.1 x hx
          unfold partly
          by_cases hin : x.1 ∈ k :: ks
          · rw [if_pos hin]; exact ⟨hb.1, hb.2.1⟩
          · rw [if_neg hin]
            cases hl : table.lookup x.1 with
            | none => exact ⟨hb.1, hb.2.1⟩
            | some u =>
              by_cases hux : u = x.1
              · subst hux; exact ⟨hb.1, hb.2.1⟩
              · have := (hw x hx).after u ⟨hl, hux⟩
                exact ⟨this.1, this.2.1⟩
        have hsep := separated_map (partly table (k :: ks)) hs hgood
        have hfind := find_absent hkid.2 hkid.1 hsep (by
          intro y hy
          obtain ⟨x, hx, rfl⟩ := List.mem_map.1 hy
          exact habs x hx)
        rw [replaceAll, hfind]
        simp only
        rw [Option.bind_some, hsame]
        exact rename_from ht hs hw ks (pre ++ [k]) (by rw [hpre]; simp)

/-- Renaming all identifiers of a text. -/
theorem rename_all {table : List (Str × Str)} (ht : IdTable table) {g : Str} {r : Words} (hs : Separated g r)
    (hw : ∀ x ∈ r, GoodWord table x.1) :
    renameKeys table r.length (keys table) (g ++ r.flat) = some (g ++ (rename table r).flat) := by
  have := rename_from ht hs hw (keys table) [] rfl
  have e : (r.map fun x => (partly table (keys table) x.1, x.2)) = r := by
    rw [List.map_congr_left (g := id)]
    · simp
    · intro x _
      have : partly table (keys table) x.1 = x.1 := by
        unfold partly
        split
        · rfl
        · rename_i h
          cases hl : table.lookup x.1 with
          | none => rfl
          | some u => exact absurd (mem_keys.2 (List.mem_map_of_mem (lookup_mem hl))) h
      rw [this]; rfl
  rw [e] at this
  exact this

/-! ### Termination -/

theorem findSub_spec {k : Str} : ∀ {s : Str} {i : Nat}, findSub k s = some i → s = s.take i ++ k ++ s.drop (i + k.length)
  | [], i, h => by
    unfold findSub at h
    split at h
    · rename_i hk; cases h; simp [hk]
    · cases h
  | c :: cs, i, h => by
    rw [findSub] at h
    by_cases hp : k.isPrefixOf (c :: cs) = true
    · rw [if_pos hp] at h
      cases h
      obtain ⟨t, ht⟩ := List.isPrefixOf_iff_prefix.1 hp
      rw [← ht]
      simp
    · rw [if_neg hp] at h
      cases hf : findSub k cs with
      | none => rw [hf] at h; cases h
      | some j =>
        rw [hf] at h
        simp at h
        subst h
        have := findSub_spec hf
        have e : j + 1 + k.length = (j + k.length) + 1 := by omega
        rw [e, List.take_succ_cons, List.drop_succ_cons, List.cons_append, List.cons_append, ← this]

theorem replaceAll_mono {k v : Str} : ∀ {n : Nat} {s t : Str}, replaceAll k v n s = some t → ∀ {m}, n ≤ m → replaceAll k v m s = some t := by
  intro n
  induction n with
  | zero =>
    intro s t h m _
    rw [replaceAll] at h
    cases hf : findSub k s with
    | none => rw [hf] at h; rw [replaceAll, hf]; exact h
    | some i => rw [hf] at h; cases h
  | succ n ih =>
    intro s t h m hm
    rw [replaceAll] at h ⊢
    cases hf : findSub k s with
    | none => rw [hf] at h; exact h
    | some i =>
      rw [hf] at h
      cases m with
      | zero => omega
      | succ m => exact ih h (by omega)

theorem replaceAll_terminates {k v : Str} {c : Char} (hk : c ∈ k) (hv : c ∉ v) : ∀ (n : Nat) (s : Str), s.count c ≤ n →
    ∃ t, replaceAll k v n s = some t := by
  intro n
  induction n with
  | zero =>
    intro s hs
    rw [replaceAll]
    cases hf : findSub k s with
    | none => exact ⟨s, rfl⟩
    | some i =>
      exfalso
      have := findSub_spec hf
      have hc : 0 < s.count c := by
        rw [List.count_pos_iff, this]
        simp [hk]
      omega
  | succ n ih =>
    intro s hs
    rw [replaceAll]
    cases hf : findSub k s with
    | none => exact ⟨s, rfl⟩
    | some i =>
      have hsp := findSub_spec hf
      apply ih
      have h1 : s.count c = (s.take i).count c + k.count c + (s.drop (i + k.length)).count c := by
        conv => lhs; rw [hsp]
        rw [List.count_append, List.count_append]
      have h2 : 0 < k.count c := List.count_pos_iff.2 hk
      have h3 : v.count c = 0 := List.count_eq_zero.2 hv
      rw [List.count_append, List.count_append, h3]
      omega

theorem renameKeys_mono {table : List (Str × Str)} {n m : Nat} (hm : n ≤ m) : ∀ {ks : List Str} {s t : Str},
    renameKeys table n ks s = some t → renameKeys table m ks s = some t
  | [], s, t, h => h
  | k :: ks, s, t, h => by
    rw [renameKeys] at h ⊢
    by_cases hk : nameFor table k = k
    · rw [if_pos hk] at h ⊢; exact renameKeys_mono hm h
    · rw [if_neg hk] at h ⊢
      cases hr : replaceAll k (nameFor table k) n s with
      | none => rw [hr] at h; cases h
      | some u =>
        rw [hr] at h
        rw [replaceAll_mono hr hm]
        exact renameKeys_mono hm h

theorem renameKeys_terminates {table : List (Str × Str)} : ∀ (ks : List Str), (∀ k ∈ ks, nameFor table k ≠ k →
      ∃ c ∈ k, c ∉ nameFor table k) → ∀ (s : Str), ∃ n t, renameKeys table n ks s = some t
  | [], _, s => ⟨0, s, rfl⟩
  | k :: ks, h, s => by
    have ih := renameKeys_terminates ks (fun k hk => h k (by simp [hk]))
    by_cases hk : nameFor table k = k
    · obtain ⟨n, t, hn⟩ := ih s
      exact ⟨n, t, by rw [renameKeys, if_pos hk]; exact hn⟩
    · obtain ⟨c, hc, hv⟩ := h k (by simp) hk
      obtain ⟨u, hu⟩ := replaceAll_terminates hc hv _ s (Nat.le_refl _)
      obtain ⟨n, t, hn⟩ := ih u
      refine ⟨max (s.count c) n, t, ?_⟩
      rw [renameKeys, if_neg hk, replaceAll_mono hu (Nat.le_max_left _ _)]
      exact renameKeys_mono (Nat.le_max_right _ _) hn

theorem connectives_terminate (b : Bool) (s : Str) : ∃ n t, connectives b n s = some t := by
  cases b with
  | true =>
    obtain ⟨u, hu⟩ := replaceAll_terminates (k := c!" or ") (v := c!" | ") (c := 'o') (by decide) (by decide) _ s (Nat.le_refl _)
    obtain ⟨t, ht⟩ := replaceAll_terminates (k := c!" and ") (v := c!" & ") (c := 'a') (by decide) (by decide) _ u (Nat.le_refl _)
    refine ⟨max (s.count 'o') (u.count 'a'), t, ?_⟩
    unfold connectives
    rw [if_pos rfl, replaceAll_mono hu (Nat.le_max_left _ _)]
    exact replaceAll_mono ht (Nat.le_max_right _ _)
  | false =>
    obtain ⟨u, hu⟩ := replaceAll_terminates (k := c!" and ") (v := c!" & ") (c := 'a') (by decide) (by decide) _ s (Nat.le_refl _)
    obtain ⟨t, ht⟩ := replaceAll_terminates (k := c!" or ") (v := c!" | ") (c := 'o') (by decide) (by decide) _ u (Nat.le_refl _)
    refine ⟨max (s.count 'a') (u.count 'o'), t, ?_⟩
    unfold connectives
    rw [if_neg (by decide), replaceAll_mono hu (Nat.le_max_left _ _)]
    exact replaceAll_mono ht (Nat.le_max_right _ _)

theorem connectives_mono {b : Bool} {n m : Nat} {s t : Str} (h : connectives b n s = some t) (hm : n ≤ m) :
    connectives b m s = some t := by
  unfold connectives at h ⊢
  cases b with
  | true =>
    rw [if_pos rfl] at h ⊢
    cases hr : replaceAll c!" or " c!" | " n s with
    | none => rw [hr] at h; cases h
    | some u =>
      rw [hr] at h
      rw [replaceAll_mono hr hm]
      exact replaceAll_mono h hm
  | false =>
    rw [if_neg (by decide)] at h ⊢
    cases hr : replaceAll c!" and " c!" & " n s with
    | none => rw [hr] at h; cases h
    | some u =>
      rw [hr] at h
      rw [replaceAll_mono hr hm]
      exact replaceAll_mono h hm

/-- Reading a constraint ends if every identifier has a character that its name lacks. -/
theorem constraintLine_terminates (sci : Str → Option Str) (b : Bool) {table : List (Str × Str)}
    (h : ∀ k v, StandsFor table k v → ∃ c ∈ k, c ∉ v) (line : Str) :
    ∃ n, ∀ m, n ≤ m → constraintLine sci b m table line ≠ none := by
  obtain ⟨n, t, hn⟩ := renameKeys_terminates (table := table) (keys table) (by
    intro k hk hne
    obtain ⟨v, hv⟩ := lookup_of_mem (mem_keys.1 hk)
    rw [nameFor_of hv] at hne ⊢
    exact h k v ⟨hv, hne⟩) (trimC (after ':' line))
  obtain ⟨n', t', hn'⟩ := connectives_terminate b t
  refine ⟨max n n', fun m hm => ?_⟩
  unfold constraintLine
  split
  · simp
  · split
    · simp
    · rw [renameKeys_mono (Nat.le_trans (Nat.le_max_left _ _) hm) hn]
      rw [Option.bind_some, connectives_mono hn' (Nat.le_trans (Nat.le_max_right _ _) hm)]
      simp

end Verif.Sxfm

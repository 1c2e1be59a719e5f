import Verif.Sxfm.Rename
import Verif.Constraint.Print
import Verif.Constraint.BuildParse
/-! Clauses: literals separated by ` or `, the form of SXFM constraints. -/

namespace Verif.Spec
open Verif

/-- A literal: sign (`true` for a negated one) and identifier. -/
abbrev Lit := Bool × Str

def sign (b : Bool) : Str := if b then c!"~" else []

def Lit.text (l : Lit) : Str := sign l.1 ++ l.2

/-- Texts, each after a separator. -/
def sepTail (sep : Str) : List Lit → Str
  | [] => []
  | l :: ls => sep ++ Lit.text l ++ sepTail sep ls

def clauseText (l : Lit) (ls : List Lit) : Str := Lit.text l ++ sepTail c!" or " ls

/-- The constraint a literal stands for. -/
def Lit.constraint (l : Lit) : Constraint := if l.1 then .un .neg (.feature l.2) else .feature l.2

/-- The constraint a clause stands for. -/
def clauseConstraint (l : Lit) (ls : List Lit) : Constraint :=
  ls.foldl (fun c l => .bin .or c (Lit.constraint l)) (Lit.constraint l)

/-- A literal with its identifier replaced by the name. -/
def Lit.rename (table : List (Str × Str)) (l : Lit) : Lit := (l.1, (table.lookup l.2).getD l.2)

end Verif.Spec

namespace Verif.Sxfm
open Verif Verif.Spec

/-! ### Words of a clause -/

def clauseWords : Str → List Lit → Words
  | w, [] => [(w, [])]
  | w, l :: ls => (w, c!" ") :: (c!"or", c!" " ++ sign l.1) :: clauseWords l.2 ls

theorem clauseWords_flat : ∀ (w : Str) (ls : List Lit), (clauseWords w ls).flat = w ++ sepTail c!" or " ls
  | w, [] => by simp [clauseWords, Words.flat, sepTail]
  | w, l :: ls => by
    rw [clauseWords, Words.flat, Words.flat, clauseWords_flat l.2 ls, sepTail, Lit.text]
    simp

theorem sign_noId (b : Bool) : ∀ c ∈ sign b, isIdChar c = false := by
  cases b <;> decide

theorem clauseWords_mem {x : Str × Str} : ∀ {w : Str} {ls : List Lit}, x ∈ clauseWords w ls →
    (x.1 = w ∨ x.1 = c!"or" ∨ ∃ l ∈ ls, x.1 = l.2) ∧ ∀ c ∈ x.2, isIdChar c = false
  | w, [], h => by
    rw [clauseWords, List.mem_singleton] at h
    subst h
    exact ⟨.inl rfl, by simp⟩
  | w, l :: ls, h => by
    rw [clauseWords] at h
    rcases List.mem_cons.1 h with rfl | h
    · exact ⟨.inl rfl, by intro c hc; rw [List.mem_singleton.1 hc]; decide⟩
    · rcases List.mem_cons.1 h with rfl | h
      · refine ⟨.inr (.inl rfl), ?_⟩
        intro c hc
        rcases List.mem_append.1 hc with hc | hc
        · rw [List.mem_singleton.1 hc]; decide
        · exact sign_noId _ c hc
      · obtain ⟨h1, h2⟩ := clauseWords_mem h
        refine ⟨?_, h2⟩
        rcases h1 with h1 | h1 | ⟨l', hl', h1⟩
        · exact .inr (.inr ⟨l, by simp, h1⟩)
        · exact .inr (.inl h1)
        · exact .inr (.inr ⟨l', by simp [hl'], h1⟩)

theorem clauseWords_pairwise : ∀ (w : Str) (ls : List Lit), (clauseWords w ls).Pairwise fun x _ => x.2 ≠ []
  | w, [] => by simp [clauseWords]
  | w, l :: ls => by
    rw [clauseWords, List.pairwise_cons, List.pairwise_cons]
    exact ⟨fun _ _ => by simp, fun _ _ => by simp, clauseWords_pairwise l.2 ls⟩

/-- A word. -/
def IsWord (w : Str) : Prop := w ≠ [] ∧ ∀ c ∈ w, isIdChar c = true

theorem clause_separated {l : Lit} {ls : List Lit} (h : ∀ x ∈ l :: ls, IsWord x.2) :
    Separated (sign l.1) (clauseWords l.2 ls) := by
  refine ⟨sign_noId _, ?_, clauseWords_pairwise _ _⟩
  intro x hx
  obtain ⟨h1, h2⟩ := clauseWords_mem hx
  have : IsWord x.1 := by
    rcases h1 with h1 | h1 | ⟨l', hl', h1⟩
    · rw [h1]; exact h l (by simp)
    · rw [h1]; exact ⟨by decide, by decide⟩
    · rw [h1]; exact h l' (by simp [hl'])
  exact ⟨this.1, this.2, h2⟩

theorem rename_clauseWords {table : List (Str × Str)} (hor : table.lookup c!"or" = none) : ∀ (w : Str) (ls : List Lit),
    rename table (clauseWords w ls) = clauseWords ((table.lookup w).getD w) (ls.map (Lit.rename table))
  | w, [] => rfl
  | w, l :: ls => by
    have ih := rename_clauseWords hor l.2 ls
    unfold rename at ih ⊢
    rw [clauseWords, List.map_cons, List.map_cons, ih, List.map_cons, clauseWords]
    simp only [hor, Option.getD_none, Lit.rename]

theorem rename_clause {table : List (Str × Str)} (ht : IdTable table) (hor : table.lookup c!"or" = none) {l : Lit}
    {ls : List Lit} (hw : ∀ x ∈ l :: ls, IsWord x.2) (hg : ∀ x ∈ l :: ls, GoodWord table x.2)
    (hgo : GoodWord table c!"or") :
    ∃ n, renameKeys table n (keys table) (clauseText l ls) =
      some (clauseText (Lit.rename table l) (ls.map (Lit.rename table))) := by
  have := rename_all ht (clause_separated hw) (by
    intro x hx
    rcases (clauseWords_mem hx).1 with h1 | h1 | ⟨l', hl', h1⟩
    · rw [h1]; exact hg l (by simp)
    · rw [h1]; exact hgo
    · rw [h1]; exact hg l' (by simp [hl']))
  refine ⟨(clauseWords l.2 ls).length, ?_⟩
  have e1 : clauseText l ls = sign l.1 ++ (clauseWords l.2 ls).flat := by
    rw [clauseWords_flat, clauseText, Lit.text]; simp
  have e2 : clauseText (Lit.rename table l) (ls.map (Lit.rename table)) =
      sign l.1 ++ (rename table (clauseWords l.2 ls)).flat := by
    rw [rename_clauseWords hor, clauseWords_flat, clauseText, Lit.text]; simp [Lit.rename]
  rw [e1, e2]
  exact this

/-! ### Tokens separated by single spaces -/

def spaced : List Str → Str
  | [] => []
  | t :: ts => ' ' :: (t ++ spaced ts)

theorem spaced_append (a b : List Str) : spaced (a ++ b) = spaced a ++ spaced b := by
  induction a with
  | nil => rfl
  | cons x a ih => rw [List.cons_append, spaced, spaced, ih]; simp

theorem spaced_head (ts : List Str) : spaced ts = [] ∧ ts = [] ∨ ∃ s, spaced ts = ' ' :: s := by
  cases ts with
  | nil => exact .inl ⟨rfl, rfl⟩
  | cons t ts => exact .inr ⟨_, rfl⟩

theorem prefix_spaced {b : Str} (hb : ' ' ∉ b) : ∀ {t : Str} {ts : List Str}, ' ' ∉ t → (b ++ [' ']) <+: t ++ spaced ts →
    t = b ∧ ts ≠ [] := by
  induction b with
  | nil =>
    intro t ts ht h
    cases t with
    | nil =>
      refine ⟨rfl, ?_⟩
      rintro rfl
      obtain ⟨s, hs⟩ := h
      simp [spaced] at hs
    | cons c t =>
      obtain ⟨s, hs⟩ := h
      simp at hs
      exact absurd (by rw [← hs.1]; simp) ht
  | cons a b ih =>
    intro t ts ht h
    cases t with
    | nil =>
      obtain ⟨s, hs⟩ := h
      rcases spaced_head ts with ⟨h1, _⟩ | ⟨s', h1⟩
      · rw [h1] at hs; simp at hs
      · rw [h1] at hs
        simp at hs
        exact absurd (by simp [hs.1]) hb
    | cons c t =>
      obtain ⟨s, hs⟩ := h
      simp at hs
      obtain ⟨rfl, hs⟩ := hs
      have := ih (fun hx => hb (by simp [hx])) (t := t) (ts := ts) (fun hx => ht (by simp [hx])) ⟨s, by simpa using hs⟩
      exact ⟨by rw [this.1], this.2⟩

/-- The connective as it is searched for. -/
def spacedKey (b : Str) : Str := ' ' :: (b ++ [' '])

theorem skip_token {b : Str} {t s : Str} (ht : ' ' ∉ t) :
    findSub (spacedKey b) (t ++ s) = (findSub (spacedKey b) s).map (· + t.length) := by
  apply skip_of_head (by simp [spacedKey])
  intro c hc h
  simp [spacedKey] at h
  subst h
  exact ht hc

theorem find_spaced_none {b : Str} (hb : ' ' ∉ b) : ∀ {ts : List Str}, (∀ t ∈ ts, ' ' ∉ t ∧ t ≠ b) →
    findSub (spacedKey b) (spaced ts) = none
  | [], _ => by simp [spaced, findSub, spacedKey]
  | t :: ts, h => by
    have ht := h t (by simp)
    have hn : ¬ (spacedKey b).isPrefixOf (' ' :: (t ++ spaced ts)) = true := by
      intro hp
      obtain ⟨s, hs⟩ := List.isPrefixOf_iff_prefix.1 hp
      simp [spacedKey] at hs
      exact ht.2 (prefix_spaced hb ht.1 ⟨s, by simpa using hs⟩).1
    rw [spaced, findSub, if_neg hn, skip_token ht.1, find_spaced_none hb (fun x hx => h x (by simp [hx]))]
    rfl

theorem find_spaced {b : Str} (hb : ' ' ∉ b) : ∀ {pre : List Str} {u : Str} {rest : List Str}, (∀ t ∈ pre, ' ' ∉ t ∧ t ≠ b) →
    findSub (spacedKey b) (spaced (pre ++ b :: u :: rest)) = some (spaced pre).length
  | [], u, rest, _ => by
    apply findSub_zero
    exact List.isPrefixOf_iff_prefix.2 ⟨u ++ spaced rest, by simp [spacedKey, spaced]⟩
  | t :: pre, u, rest, h => by
    have ht := h t (by simp)
    have hn : ¬ (spacedKey b).isPrefixOf (' ' :: (t ++ spaced (pre ++ b :: u :: rest))) = true := by
      intro hp
      obtain ⟨s, hs⟩ := List.isPrefixOf_iff_prefix.1 hp
      simp [spacedKey] at hs
      exact ht.2 (prefix_spaced hb ht.1 ⟨s, by simpa using hs⟩).1
    rw [List.cons_append, spaced, findSub, if_neg hn, skip_token ht.1,
      find_spaced hb (fun x hx => h x (by simp [hx]))]
    simp [spaced]
    omega

theorem split_token {b : Str} : ∀ {ts : List Str}, b ∈ ts → ∃ pre rest, ts = pre ++ b :: rest ∧ b ∉ pre
  | [], h => by cases h
  | t :: ts, h => by
    by_cases ht : t = b
    · exact ⟨[], ts, by rw [ht]; rfl, by simp⟩
    · obtain ⟨pre, rest, rfl, hp⟩ := split_token (ts := ts) ((List.mem_cons.1 h).resolve_left (fun e => ht e.symm))
      exact ⟨t :: pre, rest, rfl, by simp [hp]; exact fun e => ht e.symm⟩

/-- Replacing a connective replaces exactly the tokens equal to it; the last token is not one. -/
theorem replace_spaced {b v : Str} (hb : ' ' ∉ b) (hv : ' ' ∉ v) (hbv : v ≠ b) : ∀ (n : Nat) {t0 : Str} {ts : List Str},
    ' ' ∉ t0 → (∀ t ∈ ts, ' ' ∉ t) → ts.getLast? ≠ some b → ts.count b ≤ n →
    replaceAll (spacedKey b) (spacedKey v) n (t0 ++ spaced ts) =
      some (t0 ++ spaced (ts.map fun t => if t = b then v else t)) := by
  intro n
  have none_case : ∀ (m : Nat) {t0 : Str} {ts : List Str}, ' ' ∉ t0 → (∀ t ∈ ts, ' ' ∉ t) → b ∉ ts →
      replaceAll (spacedKey b) (spacedKey v) m (t0 ++ spaced ts) =
        some (t0 ++ spaced (ts.map fun t => if t = b then v else t)) := by
    intro m t0 ts h0 hs hno
    have e : (ts.map fun t => if t = b then v else t) = ts := by
      rw [List.map_congr_left (g := id)]
      · simp
      · intro t ht
        rw [if_neg (by rintro rfl; exact hno ht)]
        rfl
    rw [replaceAll, skip_token h0, find_spaced_none hb (fun t ht => ⟨hs t ht, by rintro rfl; exact hno ht⟩), e]
    rfl
  induction n with
  | zero =>
    intro t0 ts h0 hs _ hc
    exact none_case 0 h0 hs (List.count_eq_zero.1 (Nat.le_zero.1 hc))
  | succ n ih =>
    intro t0 ts h0 hs hl hc
    by_cases hm : b ∈ ts
    · obtain ⟨pre, rest, rfl, hp⟩ := split_token hm
      cases rest with
      | nil => simp at hl
      | cons u rest =>
        have hpre : ∀ t ∈ pre, ' ' ∉ t ∧ t ≠ b := fun t ht => ⟨hs t (by simp [ht]), by rintro rfl; exact hp ht⟩
        rw [replaceAll, skip_token h0, find_spaced hb hpre]
        simp only [Option.map_some]
        have e : t0 ++ spaced (pre ++ b :: u :: rest) = (t0 ++ spaced pre) ++ (spacedKey b ++ (u ++ spaced rest)) := by
          rw [spaced_append, spaced, spaced]; simp [spacedKey]
        have hlen : (spaced pre).length + t0.length = (t0 ++ spaced pre).length := by simp; omega
        rw [hlen, e, List.take_left, ← List.drop_drop, List.drop_left, List.drop_left]
        have e2 : t0 ++ spaced pre ++ spacedKey v ++ (u ++ spaced rest) = t0 ++ spaced (pre ++ v :: u :: rest) := by
          rw [spaced_append, spaced, spaced]; simp [spacedKey]
        rw [e2, ih h0]
        · congr 2
          simp [hbv]
        · intro t ht
          rcases List.mem_append.1 ht with ht | ht
          · exact hs t (by simp [ht])
          · rcases List.mem_cons.1 ht with rfl | ht
            · exact hv
            · exact hs t (by simp at ht; simp [ht])
        · have : (pre ++ v :: u :: rest).getLast? = (pre ++ b :: u :: rest).getLast? := by
            simp [List.getLast?_append, List.getLast?_cons_cons]
          rw [this]; exact hl
        · have h1 : (pre ++ b :: u :: rest).count b = pre.count b + ((u :: rest).count b + 1) := by
            rw [List.count_append, List.count_cons_self]
          have h2 : (pre ++ v :: u :: rest).count b = pre.count b + (u :: rest).count b := by
            rw [List.count_append, List.count_cons_of_ne hbv]
          omega
    · exact none_case (n + 1) h0 hs hm

/-! ### Connectives of a clause -/

def clauseToks (op : Str) : List Lit → List Str
  | [] => []
  | l :: ls => op :: Lit.text l :: clauseToks op ls

theorem spaced_clauseToks (op : Str) : ∀ ls : List Lit, spaced (clauseToks op ls) = sepTail (spacedKey op) ls
  | [] => rfl
  | l :: ls => by
    rw [clauseToks, spaced, spaced, spaced_clauseToks op ls, sepTail]; simp [spacedKey]

/-- A literal over a name the constraint language can carry. -/
def LitOk (l : Lit) : Prop := IsIdent l.2 ∧ l.2 ≠ c!"and"

theorem isIdent_chars {s : Str} (h : IsIdent s) : ∀ c ∈ s, isIdChar c = true := by
  cases s with
  | nil => exact h.elim
  | cons a s =>
    obtain ⟨h1, h2, _⟩ := h
    intro c hc
    rcases List.mem_cons.1 hc with rfl | hc
    · simp [isIdChar, isAlnum, h1]
    · rcases h2 c hc with h | h
      · simp [isIdChar, h]
      · simp [isIdChar, h]

theorem litText_noSpace {l : Lit} (h : LitOk l) : ' ' ∉ Lit.text l := by
  intro hx
  rcases List.mem_append.1 hx with hx | hx
  · exact absurd hx (by cases l.1 <;> decide)
  · exact absurd (isIdent_chars h.1 _ hx) (by decide)

theorem litText_ne {l : Lit} (h : LitOk l) {b : Str} (hb : b = c!"or" ∨ b = c!"and") : Lit.text l ≠ b := by
  obtain ⟨s, w⟩ := l
  intro e
  cases s with
  | true =>
    have : Lit.text (true, w) = '~' :: w := rfl
    rw [this] at e
    rcases hb with rfl | rfl <;> simp at e
  | false =>
    have : Lit.text (false, w) = w := rfl
    rw [this] at e
    rcases hb with rfl | rfl
    · subst e; exact h.1.2.2 rfl
    · exact h.2 e

theorem clauseToks_mem {op t : Str} : ∀ {ls : List Lit}, t ∈ clauseToks op ls → t = op ∨ ∃ l ∈ ls, t = Lit.text l
  | [], h => by cases h
  | l :: ls, h => by
    rw [clauseToks] at h
    rcases List.mem_cons.1 h with rfl | h
    · exact .inl rfl
    · rcases List.mem_cons.1 h with rfl | h
      · exact .inr ⟨l, by simp, rfl⟩
      · rcases clauseToks_mem h with h | ⟨l', h1, h2⟩
        · exact .inl h
        · exact .inr ⟨l', by simp [h1], h2⟩

theorem clauseToks_last {op b : Str} : ∀ {ls : List Lit}, (∀ l ∈ ls, Lit.text l ≠ b) → (clauseToks op ls).getLast? ≠ some b
  | [], _ => by simp [clauseToks]
  | l :: ls, h => by
    have ih := clauseToks_last (op := op) (ls := ls) (fun x hx => h x (by simp [hx]))
    cases ls with
    | nil => simp [clauseToks]; exact h l (by simp)
    | cons l' ls =>
      rw [clauseToks, clauseToks, List.getLast?_cons_cons, List.getLast?_cons_cons]
      rw [clauseToks] at ih
      exact ih

theorem clauseToks_map {op v b : Str} : ∀ {ls : List Lit}, (∀ l ∈ ls, Lit.text l ≠ b) →
    (clauseToks op ls).map (fun t => if t = b then v else t) = clauseToks (if op = b then v else op) ls
  | [], _ => rfl
  | l :: ls, h => by
    rw [clauseToks, List.map_cons, List.map_cons, clauseToks_map (fun x hx => h x (by simp [hx])), if_neg (h l (by simp)), clauseToks]

theorem replace_clause {op b v : Str} (hop : ' ' ∉ op) (hb : ' ' ∉ b) (hv : ' ' ∉ v) (hbv : v ≠ b) {l : Lit} {ls : List Lit}
    (h : ∀ x ∈ l :: ls, LitOk x) (hx : b = c!"or" ∨ b = c!"and") :
    ∃ n, replaceAll (spacedKey b) (spacedKey v) n (Lit.text l ++ spaced (clauseToks op ls)) =
      some (Lit.text l ++ spaced (clauseToks (if op = b then v else op) ls)) := by
  have hne : ∀ x ∈ ls, Lit.text x ≠ b := fun x hx' => litText_ne (h x (by simp [hx'])) hx
  refine ⟨(clauseToks op ls).count b, ?_⟩
  have := replace_spaced hb hv hbv _ (t0 := Lit.text l) (ts := clauseToks op ls) (litText_noSpace (h l (by simp))) (by
    intro t ht
    rcases clauseToks_mem ht with rfl | ⟨l', hl', rfl⟩
    · exact hop
    · exact litText_noSpace (h l' (by simp [hl']))) (clauseToks_last hne) (Nat.le_refl _)
  rw [clauseToks_map hne] at this
  exact this

theorem connectives_clause (o : Bool) {l : Lit} {ls : List Lit} (h : ∀ x ∈ l :: ls, LitOk x) :
    ∃ n, connectives o n (clauseText l ls) = some (Lit.text l ++ spaced (clauseToks c!"|" ls)) := by
  have e : clauseText l ls = Lit.text l ++ spaced (clauseToks c!"or" ls) := by
    rw [clauseText, spaced_clauseToks]; rfl
  rw [e]
  cases o with
  | true =>
    obtain ⟨n, hn⟩ := replace_clause (op := c!"or") (b := c!"or") (v := c!"|") (by decide) (by decide) (by decide) (by decide) h (.inl rfl)
    obtain ⟨m, hm⟩ := replace_clause (op := c!"|") (b := c!"and") (v := c!"&") (by decide) (by decide) (by decide) (by decide) h (.inr rfl)
    rw [if_pos rfl] at hn
    rw [if_neg (by decide)] at hm
    refine ⟨max n m, ?_⟩
    unfold connectives
    rw [if_pos rfl]
    have h1 := replaceAll_mono hn (Nat.le_max_left n m)
    have h2 := replaceAll_mono hm (Nat.le_max_right n m)
    show Option.bind (replaceAll (spacedKey c!"or") (spacedKey c!"|") _ _) _ = _
    rw [h1]
    exact h2
  | false =>
    obtain ⟨n, hn⟩ := replace_clause (op := c!"or") (b := c!"and") (v := c!"&") (by decide) (by decide) (by decide) (by decide) h (.inr rfl)
    obtain ⟨m, hm⟩ := replace_clause (op := c!"or") (b := c!"or") (v := c!"|") (by decide) (by decide) (by decide) (by decide) h (.inl rfl)
    rw [if_neg (by decide)] at hn
    rw [if_pos rfl] at hm
    refine ⟨max n m, ?_⟩
    unfold connectives
    rw [if_neg (by decide)]
    have h1 := replaceAll_mono hn (Nat.le_max_left n m)
    have h2 := replaceAll_mono hm (Nat.le_max_right n m)
    show Option.bind (replaceAll (spacedKey c!"and") (spacedKey c!"&") _ _) _ = _
    rw [h1]
    exact h2

/-! ### Reading the clause -/

def litToks (l : Lit) : List Tok := (if l.1 then [.neg] else []) ++ [.ident l.2]

theorem eLex_lit {l : Lit} (h : IsIdent l.2) : eLex (Lit.text l) = litToks l := by
  obtain ⟨s, w⟩ := l
  cases s with
  | false => exact eLex_ident h
  | true =>
    have : eLex ('~' :: w) = .neg :: eLex w := eLex_cons (by decide) w
    show eLex ('~' :: w) = _
    rw [this, eLex_ident h]
    rfl

def clauseTokens : List Lit → List Tok
  | [] => []
  | l :: ls => .bin .or :: (litToks l ++ clauseTokens ls)

theorem litToks_noEnd (l : Lit) : hasEnd (litToks l) = false := by
  obtain ⟨s, w⟩ := l
  cases s <;> rfl

theorem eLex_append_spaced {s : Str} (hs : hasEnd (eLex s) = false) (ts : List Str) :
    eLex (s ++ spaced ts) = eLex s ++ eLex (spaced ts) := by
  cases ts with
  | nil => simp [spaced, eLex_nil]
  | cons t ts =>
    rw [spaced, eLex_at (by decide), andThen, hs]
    rfl

theorem eLex_clause : ∀ {ls : List Lit}, (∀ x ∈ ls, IsIdent x.2) → eLex (spaced (clauseToks c!"|" ls)) = clauseTokens ls
  | [], _ => rfl
  | l :: ls, h => by
    have ih := eLex_clause (ls := ls) (fun x hx => h x (by simp [hx]))
    have hl : eLex (Lit.text l) = litToks l := eLex_lit (h l (by simp))
    rw [clauseToks, spaced, eLex_ws (by decide)]
    show eLex ('|' :: spaced (Lit.text l :: clauseToks c!"|" ls)) = _
    have e : eLex ('|' :: spaced (Lit.text l :: clauseToks c!"|" ls)) = .bin .or :: eLex (spaced (Lit.text l :: clauseToks c!"|" ls)) :=
      eLex_cons (by decide) _
    rw [e, spaced, eLex_ws (by decide), eLex_append_spaced (by rw [hl]; exact litToks_noEnd l), hl, ih]
    rfl

theorem clauseTokens_noEnd : ∀ ls : List Lit, hasEnd (clauseTokens ls) = false
  | [] => rfl
  | l :: ls => by
    have h1 := litToks_noEnd l
    have h2 := clauseTokens_noEnd ls
    unfold hasEnd at h1 h2 ⊢
    rw [clauseTokens, List.any_cons, List.any_append, h1, h2]
    rfl

theorem derives_up {val : Str → Int} {p q : Nat} {ts : List Tok} {c : Constraint} (h : Derives val p ts c) (hpq : p ≤ q) :
    Derives val q ts c := by
  induction hpq with
  | refl => exact h
  | step _ ih => exact .looser ih

theorem derives_lit (val : Str → Int) (l : Lit) : Derives val 0 (litToks l) (Lit.constraint l) := by
  obtain ⟨s, w⟩ := l
  cases s with
  | false => exact .ident w
  | true => exact .neg (.ident w)

theorem derives_clause (val : Str → Int) : ∀ (ls : List Lit) {ts : List Tok} {c : Constraint}, Derives val 6 ts c →
    Derives val 6 (ts ++ clauseTokens ls) (ls.foldl (fun c l => .bin .or c (Lit.constraint l)) c)
  | [], ts, c, h => by simpa [clauseTokens] using h
  | l :: ls, ts, c, h => by
    have h1 : Derives val 6 (ts ++ .bin .or :: litToks l) (.bin .or c (Lit.constraint l)) :=
      .infix (p := 5) .or h (derives_up (derives_lit val l) (by decide))
    have := derives_clause val ls h1
    rw [clauseTokens, List.foldl_cons]
    simpa using this

theorem parse_clause (sci : Str → Option Str) {l : Lit} {ls : List Lit} (h : ∀ x ∈ l :: ls, IsIdent x.2) :
    parseText sci (Lit.text l ++ spaced (clauseToks c!"|" ls)) = .ok (clauseConstraint l ls) := by
  have hl := eLex_lit (h l (by simp))
  have hne : Lit.text l ++ spaced (clauseToks c!"|" ls) ≠ [] := by
    have : IsIdent l.2 := h l (by simp)
    intro e
    have e' := (List.append_eq_nil_iff.1 (List.append_eq_nil_iff.1 e).1).2
    rw [e'] at this
    exact this
  rw [parseText_ok_iff sci hne]
  refine ⟨litToks l ++ clauseTokens ls, ?_, ?_⟩
  · rw [tokE, eLex_append_spaced (by rw [hl]; exact litToks_noEnd l), hl, eLex_clause (fun x hx => h x (by simp [hx])), andThen]
    have : hasEnd (litToks l ++ clauseTokens ls) = false := by
      have h1 := litToks_noEnd l
      have h2 := clauseTokens_noEnd ls
      unfold hasEnd at h1 h2 ⊢
      rw [List.any_append, h1, h2]; rfl
    rw [this]
    rfl
  · exact derives_up (derives_clause _ ls (derives_up (derives_lit _ l) (by decide))) (by decide)

/-! ### The line -/

theorem trimC_text {a s b : Str} (ha : ∀ c ∈ a, isSpaceC c = true) (hb : ∀ c ∈ b, isSpaceC c = true)
    (h1 : ∀ c, s.head? = some c → isSpaceC c = false) (h2 : ∀ c, s.getLast? = some c → isSpaceC c = false) (hne : s ≠ []) :
    trimC (a ++ s ++ b) = s := by
  have dropStart : ∀ (x y : Str), (∀ c ∈ x, isSpaceC c = true) → (∀ c, y.head? = some c → isSpaceC c = false) →
      (x ++ y).dropWhile isSpaceC = y := by
    intro x y hx hy
    rw [List.dropWhile_append_of_pos hx]
    cases y with
    | nil => rfl
    | cons c y => rw [List.dropWhile_cons_of_neg]; simp [hy c rfl]
  unfold trimC
  rw [List.append_assoc, dropStart a (s ++ b) ha (by
    intro c hc
    cases s with
    | nil => exact absurd rfl hne
    | cons x s => exact h1 c hc), List.reverse_append,
    dropStart b.reverse s.reverse (by intro c hc; exact hb c (List.mem_reverse.1 hc)) (by
      intro c hc
      rw [List.head?_reverse] at hc
      exact h2 c hc), List.reverse_reverse]

theorem idChar_noSpace {c : Char} (h : isIdChar c = true) : isSpaceC c = false := by
  cases hs : isSpaceC c with
  | false => rfl
  | true =>
    exfalso
    simp only [isSpaceC, Bool.or_eq_true, beq_iff_eq] at hs
    rcases hs with ((((rfl | rfl) | rfl) | rfl) | rfl) | rfl <;> exact absurd h (by decide)

theorem lit_ends {l : Lit} (h : IsWord l.2) : Lit.text l ≠ [] ∧ (∀ c, (Lit.text l).head? = some c → isSpaceC c = false) ∧
    (∀ c, (Lit.text l).getLast? = some c → isSpaceC c = false) := by
  obtain ⟨s, w⟩ := l
  obtain ⟨h1, h2⟩ := h
  simp only at h1 h2
  refine ⟨?_, ?_, ?_⟩
  · intro e; exact h1 (List.append_eq_nil_iff.1 e).2
  · intro c hc
    cases s with
    | true => cases hc; decide
    | false =>
      have hw : w.head? = some c := hc
      exact idChar_noSpace (h2 c (List.mem_of_mem_head? hw))
  · intro c hc
    have hw : (Lit.text (s, w)).getLast? = w.getLast? := by
      unfold Lit.text
      rw [List.getLast?_append]
      cases hg : w.getLast? with
      | none => exact absurd (List.getLast?_eq_none_iff.1 hg) h1
      | some _ => rfl
    rw [hw] at hc
    exact idChar_noSpace (h2 c (List.mem_of_getLast? hc))

theorem clause_ends {l : Lit} {ls : List Lit} (h : ∀ x ∈ l :: ls, IsWord x.2) : clauseText l ls ≠ [] ∧
    (∀ c, (clauseText l ls).head? = some c → isSpaceC c = false) ∧
    (∀ c, (clauseText l ls).getLast? = some c → isSpaceC c = false) := by
  obtain ⟨h1, h2, h3⟩ := lit_ends (h l (by simp))
  refine ⟨?_, ?_, ?_⟩
  · intro e; exact h1 (List.append_eq_nil_iff.1 e).1
  · intro c hc
    unfold clauseText at hc
    cases hl : Lit.text l with
    | nil => exact absurd hl h1
    | cons a t =>
      rw [hl] at hc
      exact h2 c (by rw [hl]; exact hc)
  · have gen : ∀ (ls : List Lit) (s : Str), (∀ x ∈ ls, IsWord x.2) → (∀ c, s.getLast? = some c → isSpaceC c = false) →
        ∀ c, (s ++ sepTail c!" or " ls).getLast? = some c → isSpaceC c = false := by
      intro ls
      induction ls with
      | nil => intro s _ hs c hc; rw [sepTail, List.append_nil] at hc; exact hs c hc
      | cons x xs ih =>
        intro s hx _ c hc
        obtain ⟨g1, _, g3⟩ := lit_ends (hx x (by simp))
        refine ih (s ++ c!" or " ++ Lit.text x) (fun y hy => hx y (by simp [hy])) ?_ c (by rw [sepTail] at hc; simpa using hc)
        intro c' hc'
        rw [List.getLast?_append] at hc'
        cases hg : (Lit.text x).getLast? with
        | none => exact absurd (List.getLast?_eq_none_iff.1 hg) g1
        | some d =>
          rw [hg] at hc'
          exact g3 c' (by rw [hg]; exact hc')
    exact gen ls _ (fun x hx => h x (by simp [hx])) h3

/-- A clause line gives the clause over the names. -/
theorem clause_line (sci : Str → Option Str) (o : Bool) {table : List (Str × Str)} (ht : IdTable table)
    (hor : table.lookup c!"or" = none) {l : Lit} {ls : List Lit} (hw : ∀ x ∈ l :: ls, IsWord x.2)
    (hg : ∀ x ∈ l :: ls, GoodWord table x.2) (hgo : GoodWord table c!"or")
    (hn : ∀ x ∈ l :: ls, LitOk (Lit.rename table x)) {label a b : Str} (hlab : ':' ∉ label)
    (ha : ∀ c ∈ a, isSpaceC c = true) (hb : ∀ c ∈ b, isSpaceC c = true) :
    ∃ n, ∀ m, n ≤ m → constraintLine sci o m table (label ++ ':' :: (a ++ clauseText l ls ++ b)) =
      some (.ok [.addConstraint .boolean (clauseConstraint (Lit.rename table l) (ls.map (Lit.rename table)))]) := by
  obtain ⟨e1, e2, e3⟩ := clause_ends hw
  obtain ⟨n1, h1⟩ := rename_clause ht hor hw hg hgo
  have hn' : ∀ x ∈ Lit.rename table l :: ls.map (Lit.rename table), LitOk x := by
    intro x hx
    rcases List.mem_cons.1 hx with rfl | hx
    · exact hn l (by simp)
    · obtain ⟨y, hy, rfl⟩ := List.mem_map.1 hx
      exact hn y (by simp [hy])
  obtain ⟨n2, h2⟩ := connectives_clause o hn'
  refine ⟨max n1 n2, fun m hm => ?_⟩
  have hm1 := renameKeys_mono (Nat.le_trans (Nat.le_max_left n1 n2) hm) h1
  have hm2 := connectives_mono h2 (Nat.le_trans (Nat.le_max_right n1 n2) hm)
  unfold constraintLine
  have hcolon : ':' ∈ label ++ ':' :: (a ++ clauseText l ls ++ b) := by simp
  have hblank : ¬ isBlank (label ++ ':' :: (a ++ clauseText l ls ++ b)) = true := by
    unfold isBlank
    intro hb
    exact absurd (List.all_eq_true.1 hb _ hcolon) (by decide)
  rw [if_neg hblank, if_neg (not_not_intro hcolon), after_append hlab, trimC_text ha hb e2 e3 e1, hm1, Option.bind_some, hm2,
    Option.map_some, parse_clause sci (fun x hx => (hn' x hx).1)]

end Verif.Sxfm

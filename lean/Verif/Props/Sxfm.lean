import Verif.Sxfm.Levels
import Verif.Props.Build
/-!
# SXFM documents

C35 to C37, C55 and C56.
-/

namespace Verif.Spec
open Verif Verif.Sxfm

/-- The documents that the DTD admits (`/repo/lib/Feature/SxfmConstants.h:20-32`): metadata, the feature
    tree, the constraints; only the feature tree is required, and no attribute is. -/
def Doc.Valid (d : Doc) : Prop :=
  ∃ a i t b, d.elems = a ++ .tree i t :: b ∧ (a = [] ∨ a = [.other]) ∧ (b = [] ∨ ∃ c, b = [.constraints c])

/-- How the code reads an unbounded number: `*` or minus one. -/
def Unbounded (s : Str) : Prop := s = c!"*" ∨ ∃ t, s = '-' :: t ∧ SpellsOne t

end Verif.Spec

namespace Verif.Props
open Verif Verif.Spec Verif.Sxfm

/-! ## C35: cardinalities -/

/-- Which cardinalities are accepted, and with which values, when no closing bracket precedes the
    opening one.  The claim asks for `[1,1]` and `[1,*]` only; see the counterexamples below. -/
theorem C35_accepts_partial {pre r : Str} (h1 : '[' ∉ pre) (h2 : ']' ∉ pre) (a b : Int) :
    extractCardinality (pre ++ '[' :: r) = some (a, b) ↔
      ∃ lo hi rest, r = lo ++ ',' :: (hi ++ rest) ∧ (rest = [] ∨ ∃ t, rest = ']' :: t) ∧ SpellsOne lo ∧ a = 1 ∧
        (SpellsOne hi ∧ b = 1 ∨ Unbounded hi ∧ b = -1) := by
  constructor
  · intro h
    by_cases hc : ',' ∈ r
    · obtain ⟨lo, r', rfl, hlo⟩ := split_at hc
      obtain ⟨rest, hr, hhi, hrest⟩ := split_upTo ']' r'
      obtain ⟨lo', hi', e1, e2, e3, e4, e5⟩ := extractCardinality_some.1 h
      have e6 : cardTexts (pre ++ '[' :: (lo ++ ',' :: r')) = some (lo, upTo ']' r') := by
        have := cardTexts_comma (pre := pre) (lo := lo) (hi := upTo ']' r') (rest := rest) h1 hlo hhi hrest
        rw [← hr] at this
        exact this
      rw [e6] at e1
      cases e1
      refine ⟨lo, upTo ']' r', rest, by rw [← hr], hrest, ?_, e4, ?_⟩
      · subst e4; exact parseCardinality_one.1 e2
      · rcases e5 with rfl | rfl
        · exact .inl ⟨parseCardinality_one.1 e3, rfl⟩
        · exact .inr ⟨parseCardinality_wild.1 e3, rfl⟩
    · exact absurd h (no_comma_rejected h1 hc h2 a b)
  · rintro ⟨lo, hi, rest, rfl, hrest, hlo, rfl, h⟩
    have digits : ∀ s, SpellsOne s → ∀ c ∈ s, isDigit c = true := fun s hs => (spellsOne_digits hs).2
    have hlo' : ',' ∉ lo := fun hx => absurd (digits lo hlo _ hx) (by decide)
    have hhi' : ']' ∉ hi := by
      rcases h with ⟨hh, _⟩ | ⟨hh, _⟩
      · exact fun hx => absurd (digits hi hh _ hx) (by decide)
      · rcases hh with rfl | ⟨t, rfl, ht⟩
        · decide
        · intro hx
          rcases List.mem_cons.1 hx with hx | hx
          · exact absurd hx (by decide)
          · exact absurd (digits t ht _ hx) (by decide)
    refine extractCardinality_some.2 ⟨lo, hi, cardTexts_comma h1 hlo' hhi' hrest, parseCardinality_one.2 hlo, ?_, rfl, ?_⟩
    · rcases h with ⟨hh, rfl⟩ | ⟨hh, rfl⟩
      · exact parseCardinality_one.2 hh
      · exact parseCardinality_wild.2 hh
    · rcases h with ⟨_, rfl⟩ | ⟨_, rfl⟩
      · exact .inl rfl
      · exact .inr rfl

/-- Without an opening bracket nothing is accepted. -/
theorem C35_needs_bracket {s : Str} (h : '[' ∉ s) : extractCardinality s = none := by
  have hc : cardTexts s = none := by unfold cardTexts; rw [if_neg h]
  unfold extractCardinality
  rw [hc]

/-- The documented cardinalities are accepted wherever they are written. -/
theorem C35_documented {pre : Str} (h : '[' ∉ pre) (rest : Str) :
    extractCardinality (pre ++ c!"[1,1]" ++ rest) = some (1, 1) ∧
    extractCardinality (pre ++ c!"[1,*]" ++ rest) = some (1, -1) := by
  have h1 := card_of h .alternative rest
  have h2 := card_of h .or rest
  simp only [cardText] at h1 h2
  exact ⟨by simpa using h1, by simpa using h2⟩

/-- A group line gives an alternative or an or group as the cardinality says, or is rejected. -/
theorem C35_kind {line : Str} {p : Nat} (h : line[p]? = some 'g') :
    (extractCardinality line = none ∧ readEntry line p = .fail) ∨
    (∃ e, extractCardinality line = some (1, 1) ∧ readEntry line p = .ok e ∧ e.card = some .alternative) ∨
    (∃ e, extractCardinality line = some (1, -1) ∧ readEntry line p = .ok e ∧ e.card = some .or) := by
  have hr : readEntry line p = match extractCardinality line with
      | none => .fail
      | some ab => .ok { card := some (groupKind ab.2), name := nameIn (line.drop (p + 2)), ids := idents line } := by
    unfold readEntry
    rw [h]
    rfl
  cases he : extractCardinality line with
  | none => rw [he] at hr; exact .inl ⟨rfl, hr⟩
  | some ab =>
    obtain ⟨a, b⟩ := ab
    rw [he] at hr
    obtain ⟨_, _, _, _, _, rfl, hb⟩ := extractCardinality_some.1 he
    rcases hb with rfl | rfl
    · exact .inr (.inl ⟨_, rfl, hr, rfl⟩)
    · exact .inr (.inr ⟨_, rfl, hr, rfl⟩)

example : extractCardinality c!"\t:g G [1,*]" = some (1, -1) :=
  (C35_accepts_partial (pre := c!"\t:g G ") (by decide) (by decide) 1 (-1)).2
    ⟨c!"1", c!"*", c!"]", rfl, .inr ⟨_, rfl⟩, ⟨0, rfl⟩, rfl, .inr ⟨.inl rfl, rfl⟩⟩

example : extractCardinality c!":g [1,2]" = none ∧ extractCardinality c!":g [0,1]" = none ∧
    extractCardinality c!":g [1,1,1]" = none := ⟨rfl, rfl, rfl⟩

/-- Other cardinalities are accepted too: `[1,-1]` as an or group, leading zeros, a missing closing
    bracket, and a line without any comma. -/
theorem C35_accepts_more :
    extractCardinality c!":g [1,-1]" = some (1, -1) ∧ extractCardinality c!":g [001,01]" = some (1, 1) ∧
    extractCardinality c!":g [1,1" = some (1, 1) ∧ extractCardinality c!"1]\t:g [1" = some (1, 1) := ⟨rfl, rfl, rfl, rfl⟩

/-! ## C37: the tree -/

/-- A feature tree written with one indentation per level is read back. -/
theorem C37_reads_back_partial {world : FModel} (hf : ∀ i, world.heap i ≠ none → i < world.next) (E : SEnv) (F : Env)
    {mn ind root : Str} {o : Option Str} {f : Forest} (hi : PlainIndent ind) (hn : PlainName root)
    (ho : ∀ i, o = some i → PlainId root i) (hp : f.Plain) (hd : DistinctNames root f) (fuel : Nat) {i : Option Str}
    (hind : i.getD c!"\t" = ind) :
    ∃ m, load E F world fuel { name := some mn, elems := [.tree i (joinLines (treeText ind root o f))] } = some (.built m) ∧
      Describes (treeDesc mn root f []) m := load_tree hf E F hi hn ho hp hd fuel hind

/-- A line more than one level deeper than the line before it is never accepted, … -/
theorem C37_jump_rejected {ind : Str} (hi : PlainIndent ind) {pre blanks post : List Str} {k k' : Nat} {a b : Str}
    (hn : ∀ l ∈ pre ++ (times ind k ++ ':' :: a) :: (blanks ++ (times ind k' ++ ':' :: b) :: post), '\n' ∉ l)
    (hbl : ∀ x ∈ blanks, ∀ c ∈ x, isSpaceC c = true) (hj : k + 1 < k')
    (order : List (Nat × Str × RKind) → List (Nat × Str × RKind)) (table : List (Str × Str)) :
    ∀ r, parseTree order ind table (joinLines (pre ++ (times ind k ++ ':' :: a) :: (blanks ++ (times ind k' ++ ':' :: b) :: post))) ≠ .ok r := by
  intro r h
  unfold parseTree at h
  rw [splitLines_join hn] at h
  obtain ⟨st, h1, _⟩ := bind_ok h
  exact jump_never_ok (not_blank (by simp)) (not_blank (by simp)) (fun x hx => by
    unfold isBlank; rw [List.all_eq_true]; exact hbl x hx) (by rw [levelOf_times hi, levelOf_times hi]; exact hj) _ _ h1

/-- … and after lines that are read the parser returns null. -/
theorem C37_jump_null {ind : Str} (hi : PlainIndent ind) {pre blanks post : List Str} {k k' : Nat} {a b : Str}
    (hn : ∀ l ∈ pre ++ (times ind k ++ ':' :: a) :: (blanks ++ (times ind k' ++ ':' :: b) :: post), '\n' ∉ l)
    (hbl : ∀ x ∈ blanks, ∀ c ∈ x, isSpaceC c = true) (hj : k + 1 < k')
    (order : List (Nat × Str × RKind) → List (Nat × Str × RKind)) (table : List (Str × Str)) {r : List BCall × List (Str × Str)}
    (hpre : parseTree order ind table (joinLines (pre ++ [times ind k ++ ':' :: a])) = .ok r) :
    parseTree order ind table (joinLines (pre ++ (times ind k ++ ':' :: a) :: (blanks ++ (times ind k' ++ ':' :: b) :: post))) = .fail := by
  unfold parseTree at hpre ⊢
  rw [splitLines_join (by
    intro l hl
    refine hn l ?_
    rcases List.mem_append.1 hl with hl | hl
    · simp [hl]
    · simp at hl; simp [hl])] at hpre
  obtain ⟨st, h1, _⟩ := bind_ok hpre
  rw [splitLines_join hn, jump_fails (not_blank (by simp)) (not_blank (by simp)) (fun x hx => by
    unfold isBlank; rw [List.all_eq_true]; exact hbl x hx) (by rw [levelOf_times hi, levelOf_times hi]; exact hj) h1]
  rfl

/-- In an accepted text all lines after the first are deeper than the first. -/
theorem C37_one_root {ind : Str} {blanks rest : List Str} {a : Str} (hn : ∀ l ∈ blanks ++ a :: rest, '\n' ∉ l)
    (ha : ':' ∈ a) (hbl : ∀ x ∈ blanks, ∀ c ∈ x, isSpaceC c = true)
    {order : List (Nat × Str × RKind) → List (Nat × Str × RKind)} {table : List (Str × Str)} {r : List BCall × List (Str × Str)}
    (h : parseTree order ind table (joinLines (blanks ++ a :: rest)) = .ok r) :
    ∀ l ∈ rest, ':' ∈ l → levelOf ind a < levelOf ind l := by
  unfold parseTree at h
  rw [splitLines_join hn] at h
  obtain ⟨st, h1, _⟩ := bind_ok h
  intro l hl hc
  exact one_root (not_blank ha) (fun x hx => by unfold isBlank; rw [List.all_eq_true]; exact hbl x hx) h1 l hl (not_blank hc)

/-- Every line of an accepted text is blank or has a colon, and what follows the colon after the
    indentation is one of the letters for the root, mandatory and optional features and groups, or a
    space. -/
theorem C37_only_known_letters {ind : Str} (hi : PlainIndent ind) {lines : List Str} (hn : ∀ l ∈ lines, '\n' ∉ l)
    {order : List (Nat × Str × RKind) → List (Nat × Str × RKind)} {table : List (Str × Str)} {r : List BCall × List (Str × Str)}
    (h : parseTree order ind table (joinLines lines) = .ok r) :
    (∀ l ∈ lines, (∀ c ∈ l, isSpaceC c = true) ∨ ':' ∈ l) ∧
    ∀ k c rest, times ind k ++ ':' :: c :: rest ∈ lines → c ∈ ['r', 'm', 'o', 'g', ' '] := by
  unfold parseTree at h
  rw [splitLines_join hn] at h
  obtain ⟨st, h1, _⟩ := bind_ok h
  constructor
  · intro l hl
    by_cases hb : isBlank l = true
    · left; unfold isBlank at hb; exact List.all_eq_true.1 hb
    · exact .inr (treeLines_letter h1 hl hb).1
  · intro k c rest hl
    obtain ⟨_, c', h2, h3⟩ := treeLines_letter h1 hl (not_blank (by simp))
    rw [levelOf_times hi, List.getElem?_append_right (by rw [times_length]; omega), times_length] at h2
    have : k * ind.length + 1 - k * ind.length = 1 := by omega
    rw [this] at h2
    cases h2
    exact h3

/-- The names of a group and its members, an unnamed group inside, and an optional feature. -/
def someForest : Forest :=
  .cons ⟨.optional, some c!"A", some c!"_r_1"⟩ .nil
    (.cons ⟨.group .alternative true, some c!"G", some c!"_r_2"⟩
      (.cons ⟨.member, some c!"X", some c!"_r_2_3"⟩ .nil
        (.cons ⟨.group .or false, none, none⟩ (.cons ⟨.member, some c!"Y", some c!"_r_2_4"⟩ .nil .nil) .nil))
      (.cons ⟨.mandatory, some c!"M", none⟩ .nil .nil))

theorem plainId_of {name i : Str} (h : ∀ c ∈ i, isIdChar c = true) (hf : findSub i name = none) : PlainId name i :=
  ⟨h, .inr (findSub_none.1 hf)⟩

theorem someForest_plain : someForest.Plain := by
  have g : ∀ s : Str, s ≠ [] → (s.all fun c => decide (c ≠ ' ' ∧ c ≠ '[' ∧ c ≠ '(' ∧ c ≠ '\n')) = true → PlainName s := by
    intro s h1 h2
    exact ⟨h1, fun c hc => by simpa using List.all_eq_true.1 h2 c hc⟩
  refine ⟨⟨?_, ?_⟩, trivial, ⟨?_, ?_⟩, ⟨⟨?_, ?_⟩, trivial, ⟨?_, ?_⟩, ⟨⟨?_, ?_⟩, trivial, trivial⟩, trivial⟩, ⟨?_, ?_⟩, trivial, trivial⟩ <;>
  intro s hs <;> first | (cases hs; exact g _ (by decide) (by decide)) | (cases hs; exact plainId_of (by decide) (by decide)) | cases hs

theorem someForest_distinct : DistinctNames c!"R" someForest := ⟨by decide, by decide⟩

theorem tab_plain : PlainIndent c!"\t" := ⟨by decide, by decide⟩

theorem r_plain : PlainName c!"R" := ⟨by decide, by decide⟩

def stdSEnv : SEnv := ⟨fun _ => none, true, id, fun _ => .refl _⟩

/-- `C37_reads_back_partial` applies. -/
example : ∃ m, load stdSEnv (stdEnv true) nothing 0
      { name := some c!"M", elems := [.tree none (joinLines (treeText c!"\t" c!"R" (some c!"_r") someForest))] } = some (.built m) ∧
    Describes (treeDesc c!"M" c!"R" someForest []) m :=
  C37_reads_back_partial nothing_fresh _ _ tab_plain r_plain
    (fun i hi => by cases hi; exact plainId_of (by decide) (by decide)) someForest_plain someForest_distinct 0 rfl

example : treeText c!"\t" c!"R" (some c!"_r") someForest =
    [c!":r R(_r)", c!"\t:o A(_r_1)", c!"\t:g [1,1] G(_r_2)", c!"\t\t: X(_r_2_3)", c!"\t\t:g  [1,*]", c!"\t\t\t: Y(_r_2_4)",
     c!"\t:m M"] := by decide

/-- `C37_jump_null` and `C37_one_root` apply. -/
example : parseTree id c!"\t" [] (joinLines ([c!":r R"] ++ (times c!"\t" 1 ++ c!":m A") :: ([c!" "] ++ (times c!"\t" 3 ++ c!":m B") :: []))) = .fail :=
  C37_jump_null tab_plain (by decide) (by decide) (by decide) id [] rfl

example : levelOf c!"\t" c!":r R" < levelOf c!"\t" c!"\t:m A" :=
  C37_one_root (blanks := []) (rest := [c!"\t:m A"]) (order := id) (table := []) (by decide) (by decide) (by decide) rfl _
    (by decide) (by decide)

example : 'm' ∈ ['r', 'm', 'o', 'g', ' '] :=
  (C37_only_known_letters tab_plain (lines := [c!":r R", c!"", c!"\t:m A"]) (order := id) (table := []) (by decide) rfl).2
    1 'm' c!" A" (by decide)

/-- A name with a space is cut at the space: the text for one feature is read as another one. -/
theorem C37_space_cuts_name : parseTree id c!"\t" [] c!":r R\n\t:m fast path\n" = parseTree id c!"\t" [] c!":r R\n\t:m fast\n" := rfl

/-- A tree with two features of one name up to a space is rejected, although the names differ. -/
theorem C37_space_rejects : load stdSEnv (stdEnv true) nothing 0
    { name := some c!"M", elems := [.tree none c!":r R\n\t:m fast path\n\t:m fast lane\n"] } = some .null := rfl

/-! ## C36: constraints -/

/-- Every identifier in a text is replaced by its name, nothing else is changed, and the replacement
    ends, if the words of the text are good. -/
theorem C36_renames_partial {table : List (Str × Str)} (ht : IdTable table) {g : Str} {r : Words} (hs : Separated g r)
    (hw : ∀ x ∈ r, GoodWord table x.1) :
    ∃ n, ∀ fuel, n ≤ fuel → renameKeys table fuel (keys table) (g ++ r.flat) = some (g ++ (rename table r).flat) :=
  ⟨_, fun _ h => renameKeys_mono h (rename_all ht hs hw)⟩

/-- Reading a line of constraints ends if every identifier has a character that its name lacks. -/
theorem C36_ends_partial (sci : Str → Option Str) (b : Bool) {table : List (Str × Str)}
    (h : ∀ k v, StandsFor table k v → ∃ c ∈ k, c ∉ v) (line : Str) :
    ∃ n, ∀ fuel, n ≤ fuel → constraintLine sci b fuel table line ≠ none := constraintLine_terminates sci b h line

/-- A document with clauses is loaded, the clauses being over the names. -/
theorem C36_loads_partial {world : FModel} (hf : ∀ i, world.heap i ≠ none → i < world.next) (E : SEnv) (F : Env)
    {mn ind root : Str} {o : Option Str} {f : Forest} {cs : List ClauseLine} (hi : PlainIndent ind) (hn : PlainName root)
    (ho : ∀ i, o = some i → PlainId root i) (hp : f.Plain) (hd : DistinctNames root f)
    (ht : IdTable (treeTable root o f)) (hor : (treeTable root o f).lookup c!"or" = none)
    (hgo : GoodWord (treeTable root o f) c!"or") (hc : ∀ c ∈ cs, c.Good (treeTable root o f))
    (hk : ConstraintsKnown (treeDesc mn root f (cs.map fun c => (.boolean, c.constraint (treeTable root o f))))) :
    ∃ n, ∀ fuel, n ≤ fuel → ∃ m, load E F world fuel (sxfmDoc mn ind root o f cs) = some (.built m) ∧
      Describes (treeDesc mn root f (cs.map fun c => (.boolean, c.constraint (treeTable root o f)))) m :=
  load_doc hf E F hi hn ho hp hd ht hor hgo hc hk

/-- A test for good words. -/
def goodWord? (table : List (Str × Str)) (w : Str) : Bool :=
  (table.all fun kv => decide (findSub kv.1 w = none) || decide (kv.2 = kv.1) || decide (kv.1 = w) ||
    (table.any (fun x => decide (table.lookup w = some x.2 ∧ x.2 ≠ w)) && strLt kv.1 w)) &&
  table.all fun x => !decide (table.lookup w = some x.2 ∧ x.2 ≠ w) ||
    (decide (x.2 ≠ []) && x.2.all isIdChar && table.all fun kv => decide (findSub kv.1 x.2 = none) || decide (kv.2 = kv.1) ||
      (decide (kv.1 ≠ w) && !strLt kv.1 w))

theorem goodWord_of {table : List (Str × Str)} {w : Str} (h : goodWord? table w = true) : GoodWord table w := by
  unfold goodWord? at h
  rw [Bool.and_eq_true, List.all_eq_true, List.all_eq_true] at h
  obtain ⟨h1, h2⟩ := h
  have occ : ∀ {k s : Str}, OccursIn k s → findSub k s ≠ none := fun ho hn => findSub_none.1 hn ho
  refine ⟨?_, ?_⟩
  · intro k v hs ho
    have := h1 _ (lookup_mem hs.1)
    simp only [Bool.or_eq_true, Bool.and_eq_true, decide_eq_true_eq, List.any_eq_true] at this
    rcases this with ((h | h) | h) | ⟨⟨x, _, hx⟩, h⟩
    · exact absurd h (occ ho)
    · exact absurd h hs.2
    · exact .inl h
    · exact .inr ⟨⟨x.2, hx.1, hx.2⟩, h⟩
  · intro u hu
    have := h2 _ (lookup_mem hu.1)
    simp only [Bool.or_eq_true, Bool.and_eq_true, decide_eq_true_eq, Bool.not_eq_true', decide_eq_false_iff_not, List.all_eq_true] at this
    rcases this with h | ⟨⟨h3, h4⟩, h5⟩
    · exact absurd ⟨hu.1, hu.2⟩ h
    · refine ⟨h3, h4, ?_⟩
      intro k v hs ho
      rcases h5 _ (lookup_mem hs.1) with (h | h) | h
      · exact absurd h (occ ho)
      · exact absurd h hs.2
      · exact h

def someClauses : List ClauseLine :=
  [{ label := c!"c1", first := (true, c!"_r_1"), rest := [(false, c!"_r_2_3"), (true, c!"M")] },
   { label := c!"c2", pre := c!" ", post := c!"\t", first := (false, c!"_r_2_4"), rest := [] }]

theorem someClauses_good : ∀ c ∈ someClauses, c.Good (treeTable c!"R" (some c!"_r") someForest) := by
  have lits : ∀ c ∈ someClauses, ∀ l ∈ c.lits, l.2 = c!"_r_1" ∨ l.2 = c!"_r_2_3" ∨ l.2 = c!"M" ∨ l.2 = c!"_r_2_4" := by decide
  intro c hc
  refine ⟨?_, ?_, ?_, ?_, ?_, ?_⟩
  · have : ∀ c ∈ someClauses, ∀ x ∈ c.label, x ≠ ':' ∧ x ≠ '\n' := by decide
    exact this c hc
  · have : ∀ c ∈ someClauses, ∀ x ∈ c.pre, isSpaceC x = true ∧ x ≠ '\n' := by decide
    exact this c hc
  · have : ∀ c ∈ someClauses, ∀ x ∈ c.post, isSpaceC x = true ∧ x ≠ '\n' := by decide
    exact this c hc
  · intro l hl
    unfold IsWord
    rcases lits c hc l hl with h | h | h | h <;> rw [h] <;> exact ⟨by decide, by decide⟩
  · intro l hl
    rcases lits c hc l hl with h | h | h | h <;> rw [h] <;> exact goodWord_of (by decide)
  · intro l hl
    unfold LitOk
    have : (Lit.rename (treeTable c!"R" (some c!"_r") someForest) l).2 = ((treeTable c!"R" (some c!"_r") someForest).lookup l.2).getD l.2 := rfl
    rw [this]
    rcases lits c hc l hl with h | h | h | h <;> rw [h] <;> exact ⟨⟨by decide, by decide, by decide⟩, by decide⟩

/-- `C36_loads_partial` applies. -/
example : ∃ n, ∀ fuel, n ≤ fuel → ∃ m,
    load stdSEnv (stdEnv true) nothing fuel (sxfmDoc c!"M" c!"\t" c!"R" (some c!"_r") someForest someClauses) = some (.built m) ∧
    Describes (treeDesc c!"M" c!"R" someForest
      (someClauses.map fun c => (.boolean, c.constraint (treeTable c!"R" (some c!"_r") someForest)))) m :=
  C36_loads_partial nothing_fresh _ _ tab_plain r_plain
    (fun i hi => by cases hi; exact plainId_of (by decide) (by decide)) someForest_plain someForest_distinct
    (by
      have : ∀ x ∈ treeTable c!"R" (some c!"_r") someForest, x.1 ≠ [] ∧ ∀ c ∈ x.1, isIdChar c = true := by decide
      exact fun k v h => this (k, v) h) (by decide) (goodWord_of (by decide)) someClauses_good (by unfold ConstraintsKnown; decide)

example : someClauses.map ClauseLine.text = [c!"c1:~_r_1 or _r_2_3 or ~M", c!"c2: _r_2_4\t"] ∧
    someClauses.map (ClauseLine.constraint (treeTable c!"R" (some c!"_r") someForest)) =
      [.bin .or (.bin .or (.un .neg (.feature c!"A")) (.feature c!"X")) (.un .neg (.feature c!"M")), .feature c!"Y"] := by decide

/-- `C36_renames_partial` and `C36_ends_partial` apply. -/
example : ∃ n, ∀ fuel, n ≤ fuel → renameKeys [(c!"x", c!"Big"), (c!"x1", c!"Small")] fuel
    (keys [(c!"x", c!"Big"), (c!"x1", c!"Small")]) c!"(x & ~x1) => x" = some c!"(Big & ~Small) => Big" :=
  C36_renames_partial (table := [(c!"x", c!"Big"), (c!"x1", c!"Small")]) (g := c!"(")
    (r := [(c!"x", c!" & ~"), (c!"x1", c!") => "), (c!"x", [])])
    (by
      have : ∀ x ∈ [(c!"x", c!"Big"), (c!"x1", c!"Small")], x.1 ≠ [] ∧ ∀ c ∈ x.1, isIdChar c = true := by decide
      exact fun k v h => this (k, v) h)
    ⟨by decide, by decide, by decide⟩ (by
      intro x hx
      have : x.1 = c!"x" ∨ x.1 = c!"x1" := by
        have : ∀ x ∈ [(c!"x", c!" & ~"), (c!"x1", c!") => "), (c!"x", ([] : Str))], x.1 = c!"x" ∨ x.1 = c!"x1" := by decide
        exact this x hx
      rcases this with h | h <;> rw [h] <;> exact goodWord_of (by decide))

example : ∀ k v, StandsFor [(c!"x", c!"Big"), (c!"x1", c!"Small")] k v → ∃ c ∈ k, c ∉ v := by
  intro k v h
  have : ∀ x ∈ [(c!"x", c!"Big"), (c!"x1", c!"Small")], ∃ c ∈ x.1, c ∉ x.2 := by decide
  exact this (k, v) (lookup_mem h.1)

/-- The feature `bbaa` has the identifier `ab`; there is also a feature `aab`. -/
def loopForest : Forest :=
  .cons ⟨.optional, some c!"bbaa", some c!"ab"⟩ .nil (.cons ⟨.optional, some c!"aab", none⟩ .nil .nil)

/-- A document that is never finished: the constraint names the feature `aab`, which has the identifier
    inside, and every replacement creates a new occurrence.  The same document without the constraint
    is loaded. -/
theorem C36_never_ends : ∃ t c,
    (∀ E F world fuel, load E F world fuel ⟨some c!"M", [.tree none t, .constraints c]⟩ = none) ∧
    Doc.Valid ⟨some c!"M", [.tree none t, .constraints c]⟩ ∧
    ∀ E F fuel, ∃ m, load E F nothing fuel ⟨some c!"M", [.tree none t]⟩ = some (.built m) ∧
      Describes (treeDesc c!"M" c!"R" loopForest []) m := by
  have hp : loopForest.Plain := by
    have g : ∀ s : Str, s ≠ [] → (s.all fun c => decide (c ≠ ' ' ∧ c ≠ '[' ∧ c ≠ '(' ∧ c ≠ '\n')) = true → PlainName s := by
      intro s h1 h2
      exact ⟨h1, fun c hc => by simpa using List.all_eq_true.1 h2 c hc⟩
    refine ⟨⟨?_, ?_⟩, trivial, ⟨?_, ?_⟩, trivial, trivial⟩ <;>
    intro s hs <;> first | (cases hs; exact g _ (by decide) (by decide)) | (cases hs; exact plainId_of (by decide) (by decide)) | cases hs
  refine ⟨joinLines (treeText c!"\t" c!"R" none loopForest), c!"c:aab\n", ?_, ⟨[], _, _, _, rfl, .inl rfl, .inr ⟨_, rfl⟩⟩, ?_⟩
  · intro E F world fuel
    obtain ⟨calls, h1, _⟩ := parseTree_text tab_plain (o := none) r_plain (fun i hi => by cases hi) hp E.order_perm []
    have h2 : constraintLine E.sci E.orFirst fuel [(c!"ab", c!"bbaa")] c!"c:aab" = none := by
      have h3 : replaceAll c!"ab" c!"bbaa" fuel c!"aab" = none := (loop_forever fuel 0).1
      have h4 : renameKeys [(c!"ab", c!"bbaa")] fuel (keys [(c!"ab", c!"bbaa")]) c!"aab" =
          (replaceAll c!"ab" c!"bbaa" fuel c!"aab").bind (renameKeys [(c!"ab", c!"bbaa")] fuel []) := rfl
      rw [h3] at h4
      unfold constraintLine
      rw [if_neg (by decide), if_neg (by decide)]
      show ((renameKeys [(c!"ab", c!"bbaa")] fuel (keys [(c!"ab", c!"bbaa")]) c!"aab").bind _).map _ = none
      rw [h4]
      rfl
    rw [load_two E F world fuel (i := none) h1]
    have h5 : constraintLines E.sci E.orFirst fuel [(c!"ab", c!"bbaa")] [c!"c:aab"] = none := by rw [constraintLines, h2]
    show Option.map _ (constraintLines E.sci E.orFirst fuel [(c!"ab", c!"bbaa")] [c!"c:aab"]) = none
    rw [h5]
    rfl
  · intro E F fuel
    exact C37_reads_back_partial nothing_fresh E F tab_plain r_plain (fun i hi => by cases hi) hp ⟨by decide, by decide⟩ fuel rfl

/-- Features with the identifiers of the project's `test.sxfm`. -/
def altForest : Forest :=
  .cons ⟨.optional, some c!"alt3", some c!"asymmetric"⟩ .nil (.cons ⟨.optional, some c!"alt4", some c!"symmetric"⟩ .nil .nil)

/-- An identifier that ends with another one is renamed wrongly: `asymmetric` stands for `alt3` but
    becomes `aalt4`, and the document is rejected. -/
theorem C36_renames_wrongly (E : SEnv) (F : Env) :
    renameKeys (treeTable c!"R" none altForest) 1 (keys (treeTable c!"R" none altForest)) c!"asymmetric" = some c!"aalt4" ∧
    load E F nothing 1 ⟨some c!"M", [.tree none (joinLines (treeText c!"\t" c!"R" none altForest)), .constraints c!"c:asymmetric\n"]⟩ =
      some .null := by
  refine ⟨rfl, ?_⟩
  have hp : altForest.Plain := by
    have g : ∀ s : Str, s ≠ [] → (s.all fun c => decide (c ≠ ' ' ∧ c ≠ '[' ∧ c ≠ '(' ∧ c ≠ '\n')) = true → PlainName s := by
      intro s h1 h2
      exact ⟨h1, fun c hc => by simpa using List.all_eq_true.1 h2 c hc⟩
    refine ⟨⟨?_, ?_⟩, trivial, ⟨?_, ?_⟩, trivial, trivial⟩ <;>
    intro s hs <;> first | (cases hs; exact g _ (by decide) (by decide)) | (cases hs; exact plainId_of (by decide) (by decide)) | cases hs
  obtain ⟨calls, h1, h2⟩ := parseTree_text tab_plain (o := none) r_plain (fun i hi => by cases hi) hp E.order_perm []
  have h3 : constraintLines E.sci E.orFirst 1 (treeTable c!"R" none altForest) (splitLines c!"c:asymmetric\n") =
      some (.ok [.addConstraint .boolean (.feature c!"aalt4")]) := by
    cases E.orFirst <;> rfl
  rw [treeTable_eq] at h1
  rw [load_two E F nothing 1 (i := none) h1, h3]
  have h4 := build_tree_unknown nothing_fresh F (mn := c!"M") (cons := [(.boolean, .feature c!"aalt4")]) h2
    ⟨by decide, by decide⟩ (by unfold ConstraintsKnown; decide)
  show some (ofBuild (nothing.build F (builderOf (.setVmName c!"M" :: calls ++ [.addConstraint .boolean (.feature c!"aalt4")])))) = _
  rw [show [BCall.addConstraint .boolean (.feature c!"aalt4")] = [(CKind.boolean, Constraint.feature c!"aalt4")].map fun c => .addConstraint c.1 c.2 from rfl, h4]
  rfl

/-- An identifier can destroy the connective. -/
theorem C36_connective_lost :
    constraintLine (fun _ => none) true 9 [(c!"r", c!"Root")] c!"c:A or B" = some (.ok []) := rfl

/-- The identifier of an unnamed group is replaced by nothing, not by the group's name: the clause
    `g1 or A` becomes ` | A`, which is no constraint and is dropped. -/
theorem C36_unnamed_group {order : List (Nat × Str × RKind) → List (Nat × Str × RKind)} (ho : ∀ l, (order l).Perm l) :
    ∃ cs table, parseTree order c!"\t" [] c!":r R\n\t:g [1,1] (g1)\n\t\t: A\n" = .ok (cs, table) ∧
      (attrsOf cs).map Attr.name = [c!"group_" ++ natText 1, c!"A"] ∧
      ∀ sci o, constraintLine sci o 1 table c!"c:g1 or A" = some (.ok []) := by
  have hp : Forest.Plain (.cons ⟨.group .alternative true, none, some c!"g1"⟩ (.cons ⟨.member, some c!"A", none⟩ .nil .nil) .nil) := by
    refine ⟨⟨fun s hs => (by cases hs), fun i hi => (by cases hi; exact plainId_of (by decide) (by decide))⟩, ⟨⟨?_, ?_⟩, trivial, trivial⟩, trivial⟩
    · intro s hs; cases hs; exact ⟨by decide, by decide⟩
    · intro i hi; cases hi
  obtain ⟨calls, h1, h2⟩ := parseTree_text tab_plain (o := none) r_plain (fun i hi => by cases hi) hp ho []
  refine ⟨calls, [(c!"g1", [])], h1, by rw [h2.attrs]; rfl, ?_⟩
  intro sci o
  cases o <;> rfl

/-! ## C55: no crash -/

/-- Reading a feature tree does not crash if something follows the first colon of every line and all
    lines are deeper than the first. -/
theorem C55_tree_partial {ind : Str} {blanks rest : List Str} {a : Str} (hn : ∀ l ∈ blanks ++ a :: rest, '\n' ∉ l)
    (ha : ¬ isBlank a = true) (hbl : ∀ x ∈ blanks, isBlank x = true) (hc : ∀ l ∈ a :: rest, ':' ∈ l → after ':' l ≠ [])
    (h0 : ∀ l ∈ rest, ¬ isBlank l = true → levelOf ind a < levelOf ind l)
    (order : List (Nat × Str × RKind) → List (Nat × Str × RKind)) (table : List (Str × Str)) :
    parseTree order ind table (joinLines (blanks ++ a :: rest)) ≠ .crash := by
  unfold parseTree
  rw [splitLines_join hn]
  have := treeLines_no_crash (ind := ind) (ls := blanks ++ a :: rest) (st := { table := table }) ⟨fun k hk => by cases hk⟩
    (by
      intro l hl hx
      rcases List.mem_append.1 hl with hl | hl
      · exact absurd (hbl l hl) (not_blank hx)
      · exact hc l hl hx)
    (fun _ _ _ hx => by cases hx) (by
      intro _ bl' a' rest' e hbl' ha'
      obtain ⟨_, rfl, rfl⟩ := first_line hbl ha hbl' ha' e
      exact h0)
  cases h : treeLines ind { table := table } (blanks ++ a :: rest) with
  | crash => exact absurd h this
  | fail => simp [SOut.bind]
  | ok st => simp [SOut.bind]

/-- Reading a constraint does not crash if the formula is not blank and all names are non-empty. -/
theorem C55_constraint_partial (sci : Str → Option Str) (o : Bool) (fuel : Nat) {table : List (Str × Str)} {line : Str}
    (ht : ∀ k v, (k, v) ∈ table → v ≠ []) (h : ':' ∈ line → ¬ isBlank (after ':' line) = true) :
    constraintLine sci o fuel table line ≠ some .crash := constraintLine_no_crash sci o fuel ht h

example : parseTree id c!"\t" [] (joinLines ([c!""] ++ c!":r R" :: [c!"\t:m A", c!"\t:x"])) ≠ .crash :=
  C55_tree_partial (by decide) (by decide) (by decide) (by decide) (by decide) id []

/-- Documents that the DTD admits crash the parser: without a name, with a line that ends with the
    colon, with a line less indented than the root, with an empty formula. -/
theorem C55_crashes (E : SEnv) (F : Env) (world : FModel) (fuel : Nat) :
    (∃ d, Doc.Valid d ∧ d.name = none ∧ load E F world fuel d = some .crash) ∧
    load E F world fuel ⟨some c!"M", [.tree none c!":"]⟩ = some .crash ∧
    load E F world fuel ⟨some c!"M", [.tree none c!"\t\t:r R\n\t:m A"]⟩ = some .crash := by
  exact ⟨⟨⟨none, [.tree none c!":r R"]⟩, ⟨[], _, _, [], rfl, .inl rfl, .inl rfl⟩, rfl, rfl⟩, rfl, rfl⟩

theorem C55_empty_formula : load stdSEnv (stdEnv true) nothing 9 ⟨some c!"M", [.tree none c!":r R", .constraints c!"c:"]⟩ = some .crash :=
  rfl

/-! ## C56: no constraint is lost -/

/-- Clauses are all in the model, in their order. -/
theorem C56_clauses_partial {world : FModel} (hf : ∀ i, world.heap i ≠ none → i < world.next) (E : SEnv) (F : Env)
    {mn ind root : Str} {o : Option Str} {f : Forest} {cs : List ClauseLine} (hi : PlainIndent ind) (hn : PlainName root)
    (ho : ∀ i, o = some i → PlainId root i) (hp : f.Plain) (hd : DistinctNames root f)
    (ht : IdTable (treeTable root o f)) (hor : (treeTable root o f).lookup c!"or" = none)
    (hgo : GoodWord (treeTable root o f) c!"or") (hc : ∀ c ∈ cs, c.Good (treeTable root o f))
    (hk : ConstraintsKnown (treeDesc mn root f (cs.map fun c => (.boolean, c.constraint (treeTable root o f))))) :
    ∃ n, ∀ fuel, n ≤ fuel → ∃ m, load E F world fuel (sxfmDoc mn ind root o f cs) = some (.built m) ∧
      (m.store .boolean).map Stored.tree = cs.map (ClauseLine.constraint (treeTable root o f)) ∧
      m.store .nonBoolean = [] ∧ m.store .mixed = [] := by
  obtain ⟨n, h⟩ := C36_loads_partial hf E F hi hn ho hp hd ht hor hgo hc hk
  refine ⟨n, fun fuel hfuel => ?_⟩
  obtain ⟨m, h1, h2⟩ := h fuel hfuel
  refine ⟨m, h1, ?_, ?_, ?_⟩
  · have hs : ((cs.map fun c => (CKind.boolean, c.constraint (treeTable root o f))).filter fun x => decide (x.1.cls = .boolean)) =
        cs.map fun c => (CKind.boolean, c.constraint (treeTable root o f)) := by
      refine List.filter_eq_self.2 fun x hx => ?_
      obtain ⟨c, _, rfl⟩ := List.mem_map.1 hx
      rfl
    rw [h2.store]
    show ((List.filter _ (cs.map fun c => (CKind.boolean, c.constraint (treeTable root o f)))).map _).map Stored.tree = _
    rw [hs, List.map_map, List.map_map]
    rfl
  all_goals
    rw [h2.store, List.map_eq_nil_iff]
    refine List.filter_eq_nil_iff.2 fun x hx => ?_
    obtain ⟨c, _, rfl⟩ := List.mem_map.1 hx
    simp [CKind.cls]

/-- A line that is no constraint is dropped and the document is loaded without it. -/
theorem C56_dropped (E : SEnv) (F : Env) : ∃ m, load E F nothing 9
    ⟨some c!"M", [.tree none c!":r R\n\t:o A\n", .constraints c!"c:A or\n"]⟩ = some (.built m) ∧ ∀ cl, m.store cl = [] := by
  have hp : Forest.Plain (.cons ⟨.optional, some c!"A", none⟩ .nil .nil) :=
    ⟨⟨fun s hs => by cases hs; exact ⟨by decide, by decide⟩, fun i hi => by cases hi⟩, trivial, trivial⟩
  obtain ⟨calls, h1, h2⟩ := parseTree_text tab_plain (o := none) r_plain (fun i hi => by cases hi) hp E.order_perm []
  obtain ⟨m, h3, h4⟩ := build_tree nothing_fresh F (mn := c!"M") (cons := []) h2 ⟨by decide, by decide⟩ (by intro x hx; cases hx)
  refine ⟨m, ?_, ?_⟩
  · have h5 : constraintLines E.sci E.orFirst 9 [] (splitLines c!"c:A or\n") = some (.ok []) := by
      cases E.orFirst <;> rfl
    refine (load_two E F nothing 9 (i := none) (n := c!"M") (c := c!"c:A or\n") h1).trans ?_
    show Option.map _ (constraintLines E.sci E.orFirst 9 [] (splitLines c!"c:A or\n")) = _
    rw [h5]
    rw [List.map_nil, List.append_nil] at h3
    show some (ofBuild (nothing.build F (builderOf (.setVmName c!"M" :: calls ++ [])))) = _
    rw [List.append_nil, h3]
    rfl
  · intro cl
    rw [h4.store]; simp [Desc.ofClass, treeDesc]

end Verif.Props

import Verif.Sxfm.Safe
import Verif.Props.Sxfm
/-!
# Whole SXFM documents do not crash the parser

C55.
-/

namespace Verif.Spec
open Verif Verif.Sxfm

/-- The lines of a text; the last one need not be ended. -/
def LinesOf (ls : List Str) (t : Str) : Prop := (∀ l ∈ ls, '\n' ∉ l) ∧ (t = joinLines ls ∨ t ++ ['\n'] = joinLines ls)

/-- The lines of a feature tree: something follows the first colon, and every line is deeper than the first. -/
structure SafeTree (ind : Str) (ls : List Str) : Prop where
  colon : ∀ a, ':' ∉ a → a ++ [':'] ∉ ls
  deeper : ∀ bl a rest, ls = bl ++ a :: rest → (∀ x ∈ bl, isBlank x = true) → ¬ isBlank a = true →
    ∀ l ∈ rest, ¬ isBlank l = true → levelOf ind a < levelOf ind l

/-- The lines of constraints: something follows the first colon. -/
def SafeConstraints (ls : List Str) : Prop := ∀ a b, ':' ∉ a → a ++ ':' :: b ∈ ls → ¬ isBlank b = true

/-- A document with a name attribute, whose lines are as above; if it has constraints, identifiers stand for names. -/
structure SafeDoc (d : Doc) : Prop where
  named : d.name ≠ none
  tree : ∀ i t, .tree i t ∈ d.elems → ∃ ls, LinesOf ls t ∧ SafeTree (i.getD c!"\t") ls
  constraints : ∀ t, .constraints t ∈ d.elems → ∃ ls, LinesOf ls t ∧ SafeConstraints ls
  idents : ∀ c i t, .constraints c ∈ d.elems → .tree i t ∈ d.elems →
    PlainIndent (i.getD c!"\t") ∧ ∃ ls, LinesOf ls t ∧ ∀ l ∈ ls, NamesIds (i.getD c!"\t") l

end Verif.Spec

namespace Verif.Props
open Verif Verif.Spec Verif.Sxfm

/-- The lines that the code reads are the lines of the text, up to an empty one at the end. -/
theorem linesOf_split {ls : List Str} {t : Str} (h : LinesOf ls t) : splitLines t = ls ∨ ls = splitLines t ++ [[]] := by
  rcases h.2 with e | e
  · rw [e]; exact .inl (splitLines_join h.1)
  · have := splitLines_join h.1
    rw [← e] at this
    rcases splitLines_end t with h' | h'
    · rw [h'] at this; exact .inl this
    · rw [h'] at this; exact .inr this.symm

theorem after_of_split {a b : Str} (h : ':' ∉ a) : after ':' (a ++ ':' :: b) = b := by
  unfold after
  induction a with
  | nil => rfl
  | cons c cs ih =>
    have hc : c ≠ ':' := by rintro rfl; exact h (by simp)
    rw [List.cons_append, List.dropWhile_cons]
    simp only [bne_iff_ne, ne_eq, hc, not_false_eq_true, if_true]
    exact ih (fun hx => h (by simp [hx]))

theorem split_colon : ∀ {l : Str}, ':' ∈ l → ∃ a b, l = a ++ ':' :: b ∧ ':' ∉ a
  | [], h => by cases h
  | c :: cs, h => by
    by_cases hc : c = ':'
    · exact ⟨[], cs, by rw [hc]; rfl, by simp⟩
    · obtain ⟨x, y, hx, hy⟩ := split_colon (l := cs) ((List.mem_cons.1 h).resolve_left (Ne.symm hc))
      exact ⟨c :: x, y, by rw [hx]; rfl, by simp [hy, Ne.symm hc]⟩

theorem tree_no_crash {ind : Str} {ls : List Str} {t : Str} (hl : LinesOf ls t) (hs : SafeTree ind ls)
    (order : List (Nat × Str × RKind) → List (Nat × Str × RKind)) (table : List (Str × Str)) : parseTree order ind table t ≠ .crash := by
  have hsub : ∃ e, ls = splitLines t ++ e := by
    rcases linesOf_split hl with h | h
    · exact ⟨[], by rw [h]; simp⟩
    · exact ⟨_, h⟩
  obtain ⟨e, he⟩ := hsub
  have := treeLines_no_crash (ind := ind) (ls := splitLines t) (st := { table := table }) ⟨fun k hk => by cases hk⟩
    (by
      intro l hm hx
      obtain ⟨a, b, rfl, ha⟩ := split_colon hx
      rw [after_of_split ha]
      rintro rfl
      exact hs.colon a ha (by rw [he]; exact List.mem_append_left _ hm))
    (fun _ _ _ hx => by cases hx) (by
      intro _ bl a rest e' hbl ha l hm
      exact hs.deeper bl a (rest ++ e) (by rw [he, e']; simp) hbl ha l (List.mem_append_left _ hm))
  unfold parseTree
  cases h : treeLines ind { table := table } (splitLines t) with
  | crash => exact absurd h this
  | fail => simp [SOut.bind]
  | ok st => simp [SOut.bind]

theorem tree_table {ind : Str} {ls : List Str} {t : Str} (hi : PlainIndent ind) (hl : LinesOf ls t) (hs : ∀ l ∈ ls, NamesIds ind l)
    {order : List (Nat × Str × RKind) → List (Nat × Str × RKind)} {calls : List BCall} {table : List (Str × Str)}
    (h : parseTree order ind [] t = .ok (calls, table)) : ∀ k v, (k, v) ∈ table → v ≠ [] := by
  unfold parseTree at h
  cases hst : treeLines ind { table := [] } (splitLines t) with
  | crash => rw [hst] at h; cases h
  | fail => rw [hst] at h; cases h
  | ok st =>
    rw [hst] at h
    cases h
    refine treeLines_table hi ?_ (st := { table := [] }) (fun _ _ hx => by cases hx) hst
    intro l hm
    refine hs l ?_
    rcases linesOf_split hl with h | h
    · rw [← h]; exact hm
    · rw [h]; exact List.mem_append_left _ hm

/-- A document that the DTD admits does not crash the parser, whatever its features, groups and
    constraints, if its lines are not among those of `C55_crashes`: it is rejected or built.  What is
    missing from the claim are documents that `SafeDoc` excludes; some of them do crash. -/
theorem C55_document_partial {world : FModel} (hf : ∀ i, world.heap i ≠ none → i < world.next) (E : SEnv) (F : Env) (fuel : Nat)
    {d : Doc} (hv : Doc.Valid d) (hs : SafeDoc d) : load E F world fuel d ≠ some .crash := by
  obtain ⟨n, elems⟩ := d
  obtain ⟨a, i, t, b, e, ha, hb⟩ := hv
  simp only at e
  subst e
  cases n with
  | none => exact absurd rfl hs.named
  | some n =>
  obtain ⟨ls, l1, l2⟩ := hs.tree i t (by simp)
  have hother : ∀ st, parseElems E fuel st (a ++ .tree i t :: b) = parseElems E fuel st (.tree i t :: b) := by
    intro st
    rcases ha with rfl | rfl <;> rfl
  unfold load parseDoc
  simp only
  rw [hother, parseElems]
  simp only [parseElem]
  cases hp : parseTree E.order (i.getD c!"\t") [] t with
  | crash => exact absurd hp (tree_no_crash l1 l2 E.order [])
  | fail => simp [SOut.bind]
  | ok r =>
    obtain ⟨calls, table⟩ := r
    obtain ⟨c1, c2, c3⟩ := parseTree_calls E.order_perm hp
    have hbuild : ∀ cs : List (CKind × Constraint),
        ofBuild (world.build F (builderOf (.setVmName n :: calls ++ cs.map fun c => .addConstraint c.1 c.2))) ≠ .crash := by
      intro cs hc
      have := build_sxfm hf F (n := n) (cs := cs) c1 c2 c3
      generalize world.build F (builderOf (.setVmName n :: calls ++ cs.map fun c => .addConstraint c.1 c.2)) = r at this hc
      cases r with
      | ub => exact this rfl
      | null => cases hc
      | built m => cases hc
    rcases hb with rfl | ⟨c, rfl⟩
    · have := hbuild []
      simp only [List.map_nil, List.append_nil] at this
      simpa [SOut.bind, parseElems] using this
    · obtain ⟨cl, m1, m2⟩ := hs.constraints c (by simp)
      obtain ⟨q1, ls', q2, q3⟩ := hs.idents c i t (by simp) (by simp)
      have ht := tree_table q1 q2 q3 hp
      have hnc := constraintLines_no_crash E.sci E.orFirst fuel ht (ls := splitLines c) (by
        intro l hm hx
        obtain ⟨a, b, rfl, ha⟩ := split_colon hx
        rw [after_of_split ha]
        refine m2 a b ha ?_
        rcases linesOf_split m1 with h | h
        · rw [← h]; exact hm
        · rw [h]; exact List.mem_append_left _ hm)
      simp only [SOut.bind, parseElems, parseElem]
      cases hr : constraintLines E.sci E.orFirst fuel table (splitLines c) with
      | none => simp
      | some r =>
        cases r with
        | crash => exact absurd hr hnc
        | fail => simp
        | ok cs =>
          obtain ⟨x, rfl⟩ := constraintLines_calls hr
          have := hbuild x
          simpa using this

/-- A root below the root, a group with a cardinality, identifiers, a constraint over a missing feature. -/
def oddDoc : Doc := ⟨some c!"M", [.other, .tree none c!":r R (r)\n\t:g G (g) [1,*]\n\t\t: A (a)\n\t\t:r S",
  .constraints c!"c:~r or a\n\nd:missing\n"]⟩

theorem oddDoc_safe : Doc.Valid oddDoc ∧ SafeDoc oddDoc := by
  have hl : LinesOf [c!":r R (r)", c!"\t:g G (g) [1,*]", c!"\t\t: A (a)", c!"\t\t:r S"]
      c!":r R (r)\n\t:g G (g) [1,*]\n\t\t: A (a)\n\t\t:r S" := ⟨by decide, .inr rfl⟩
  have hc : LinesOf [c!"c:~r or a", c!"", c!"d:missing"] c!"c:~r or a\n\nd:missing\n" := ⟨by decide, .inl rfl⟩
  refine ⟨⟨[.other], none, _, _, rfl, .inr rfl, .inr ⟨_, rfl⟩⟩, nofun, ?_, ?_, ?_⟩
  · intro i t h
    simp only [oddDoc, List.mem_cons, reduceCtorEq, Elem.tree.injEq, List.not_mem_nil, or_false, false_or] at h
    obtain ⟨rfl, rfl⟩ := h
    refine ⟨_, hl, ?_, ?_⟩
    · intro a ha hm
      have : ∀ l ∈ [c!":r R (r)", c!"\t:g G (g) [1,*]", c!"\t\t: A (a)", c!"\t\t:r S"], ∀ h : l ≠ [], l.getLast h ≠ ':' := by decide
      exact this _ hm (by simp) (by simp)
    · intro bl a rest e hbl ha
      obtain ⟨rfl, rfl, rfl⟩ := first_line (bl := []) (by simp) (by decide) hbl ha e
      decide
  · intro t h
    simp only [oddDoc, List.mem_cons, reduceCtorEq, Elem.constraints.injEq, List.not_mem_nil, or_false, false_or] at h
    subst h
    refine ⟨_, hc, ?_⟩
    intro a b ha hm hb
    have : ∀ l ∈ [c!"c:~r or a", c!"", c!"d:missing"], ¬ isBlank (after ':' l) = true ∨ ':' ∉ l := by decide
    rcases this _ hm with h | h
    · rw [after_of_split ha] at h; exact h hb
    · exact h (by simp)
  · intro c i t h h'
    simp only [oddDoc, List.mem_cons, reduceCtorEq, Elem.tree.injEq, List.not_mem_nil, or_false, false_or] at h'
    obtain ⟨rfl, rfl⟩ := h'
    refine ⟨tab_plain, _, hl, ?_⟩
    intro l hm hp
    simp only [List.mem_cons, List.not_mem_nil, or_false] at hm
    rcases hm with rfl | rfl | rfl | rfl
    · exact ⟨0, 'r', 'R', c!" (r)", .inl ⟨rfl, by decide⟩, by decide, by decide, by decide⟩
    · exact ⟨1, 'g', 'G', c!" (g) [1,*]", .inl ⟨rfl, by decide⟩, by decide, by decide, by decide⟩
    · exact ⟨2, ' ', 'A', c!" (a)", .inr rfl, by decide, by decide, by decide⟩
    · exact absurd hp (by decide)

example (E : SEnv) (F : Env) (fuel : Nat) : load E F nothing fuel oddDoc ≠ some .crash :=
  C55_document_partial nothing_fresh E F fuel oddDoc_safe.1 oddDoc_safe.2

/-- Identifiers without a name crash the parser when a constraint consists of nothing else. -/
theorem C55_unnamed_identifier : load stdSEnv (stdEnv true) nothing 9
    ⟨some c!"M", [.tree none c!":r R\n\t:g (g1) [1,1]\n\t\t: A", .constraints c!"c:g1"]⟩ = some .crash := rfl

/-! ## Every formula of blanks -/

theorem findSub_empty {k : Str} (h : k ≠ []) : findSub k [] = none := by
  cases k with
  | nil => exact absurd rfl h
  | cons c k => rfl

theorem replaceAll_empty {k : Str} (h : k ≠ []) (v : Str) (n : Nat) : replaceAll k v n [] = some [] := by
  unfold replaceAll
  rw [findSub_empty h]

theorem renameKeys_empty {table : List (Str × Str)} (n : Nat) : ∀ {ks : List Str}, [] ∉ ks → renameKeys table n ks [] = some []
  | [], _ => rfl
  | k :: ks, h => by
    simp only [List.mem_cons, not_or] at h
    unfold renameKeys
    split
    · exact renameKeys_empty n h.2
    · rw [replaceAll_empty (Ne.symm h.1), Option.bind_some]
      exact renameKeys_empty n h.2

theorem trimC_isBlank {s : Str} (h : isBlank s = true) : trimC s = [] := by
  have : s.dropWhile isSpaceC = [] := by
    unfold isBlank at h
    induction s with
    | nil => rfl
    | cons c s ih =>
      rw [List.all_cons, Bool.and_eq_true] at h
      rw [List.dropWhile_cons, if_pos h.1]
      exact ih h.2
  unfold trimC
  rw [this]
  rfl

/-- Whatever the identifiers, as long as none is empty: a line of which nothing but blanks follows the
    colon dereferences the missing first token. -/
theorem C55_blank_formula (sci : Str → Option Str) (o : Bool) (fuel : Nat) {table : List (Str × Str)} {line : Str}
    (ht : ∀ v, ([], v) ∉ table) (hc : ':' ∈ line) (hb : isBlank (after ':' line) = true) :
    constraintLine sci o fuel table line = some .crash := by
  have hl : ¬ isBlank line = true := by
    intro h
    have := List.all_eq_true.1 (show line.all isSpaceC = true from h) _ hc
    exact absurd this (by decide)
  have hk : [] ∉ keys table := by
    intro h
    obtain ⟨⟨k, v⟩, h1, h2⟩ := List.mem_map.1 (mem_keys.1 h)
    simp only at h2
    subst h2
    exact ht v h1
  unfold constraintLine
  rw [if_neg hl, if_neg (by simpa using hc), trimC_isBlank hb, renameKeys_empty fuel hk, Option.bind_some]
  have : connectives o fuel [] = some [] := by
    unfold connectives
    split <;> rw [replaceAll_empty (by decide), Option.bind_some, replaceAll_empty (by decide)]
  rw [this]
  rfl

/-- So a document crashes the parser if the lines before it and the elements before it are read. -/
theorem C55_blank_formula_document (E : SEnv) (F : Env) (world : FModel) (fuel : Nat) {n : Str} {pre post : List Elem}
    {st : PState} {cs : List BCall} {before after' : List Str} {line : Str}
    (hp : parseElems E fuel { calls := [.setVmName n] } pre = some (.ok st))
    (hn : ∀ l ∈ before ++ line :: after', '\n' ∉ l)
    (hb : constraintLines E.sci E.orFirst fuel st.table before = some (.ok cs))
    (ht : ∀ v, ([], v) ∉ st.table) (hc : ':' ∈ line) (hl : isBlank (after ':' line) = true) :
    load E F world fuel ⟨some n, pre ++ .constraints (joinLines (before ++ line :: after')) :: post⟩ = some .crash := by
  have h1 : ∀ {before : List Str} {cs : List BCall}, constraintLines E.sci E.orFirst fuel st.table before = some (.ok cs) →
      constraintLines E.sci E.orFirst fuel st.table (before ++ line :: after') = some .crash := by
    intro before
    induction before with
    | nil =>
      intro cs _
      rw [List.nil_append, constraintLines, C55_blank_formula E.sci E.orFirst fuel ht hc hl]
    | cons b before ih =>
      intro cs h
      rw [constraintLines] at h
      rw [List.cons_append, constraintLines]
      cases hx : constraintLine E.sci E.orFirst fuel st.table b with
      | none => rw [hx] at h; cases h
      | some r =>
        rw [hx] at h
        cases r with
        | fail => cases h
        | crash => rfl
        | ok c =>
          simp only at h ⊢
          cases hy : constraintLines E.sci E.orFirst fuel st.table before with
          | none => rw [hy] at h; cases h
          | some r =>
            cases r with
            | fail => rw [hy] at h; cases h
            | crash => rw [hy] at h; cases h
            | ok d => rw [ih hy]; rfl
  have h2 : parseElem E fuel st (.constraints (joinLines (before ++ line :: after'))) = some .crash := by
    rw [parseElem, splitLines_join hn, h1 hb]
    rfl
  have h3 : ∀ {pre : List Elem} {s0 : PState}, parseElems E fuel s0 pre = some (.ok st) →
      parseElems E fuel s0 (pre ++ .constraints (joinLines (before ++ line :: after')) :: post) = some .crash := by
    intro pre
    induction pre with
    | nil =>
      intro s0 h
      rw [parseElems] at h
      cases h
      rw [List.nil_append, parseElems, h2]
    | cons e pre ih =>
      intro s0 h
      rw [parseElems] at h
      rw [List.cons_append, parseElems]
      cases hx : parseElem E fuel s0 e with
      | none => rw [hx] at h; cases h
      | some r =>
        rw [hx] at h
        cases r with
        | fail => cases h
        | crash => cases h
        | ok s1 => exact ih h
  unfold load parseDoc
  simp only [h3 hp]
  rfl

example : load stdSEnv (stdEnv true) nothing 9 ⟨some c!"M", [.tree none c!":r R\n\t:o A (a)", .constraints (joinLines ([c!"c:a"] ++ c!"d: " :: [c!"e:A"])), .other]⟩ =
    some .crash :=
  C55_blank_formula_document stdSEnv (stdEnv true) nothing 9 (pre := [.tree none c!":r R\n\t:o A (a)"]) (post := [.other]) rfl (by decide) rfl
    (fun v h => by have h : ([], v) ∈ [(c!"a", c!"A")] := h; simp at h) (by decide) (by decide)

/-! ## Every line above the root, every line that ends with its colon -/

theorem parseTree_prefix {order : List (Nat × Str × RKind) → List (Nat × Str × RKind)} {ind : Str} {table : List (Str × Str)}
    {pre post : List Str} {l : Str} (hn : ∀ x ∈ pre ++ l :: post, '\n' ∉ x)
    (hp : ∃ r, parseTree order ind table (joinLines pre) = .ok r)
    (hl : ∀ st, treeLines ind { table := table } pre = .ok st → treeLine ind st l = .crash) :
    parseTree order ind table (joinLines (pre ++ l :: post)) = .crash := by
  obtain ⟨r, hr⟩ := hp
  unfold parseTree at hr ⊢
  rw [splitLines_join (fun x hx => hn x (by simp [hx]))] at hr
  obtain ⟨st, h1, _⟩ := bind_ok hr
  rw [splitLines_join hn, treeLines_append, h1]
  simp only [SOut.bind, treeLines, hl st h1]

/-- The level of the last line that is not blank. -/
theorem treeLines_last {ind : Str} : ∀ {ls : List Str} {st st' : TreeSt}, treeLines ind st ls = .ok st' →
    st'.last = ((ls.filter fun l => ! isBlank l).getLast?.map (levelOf ind)).or st.last
  | [], st, st', h => by cases h; rfl
  | l :: ls, st, st', h => by
    rw [treeLines] at h
    obtain ⟨s, h1, h2⟩ := bind_ok h
    rw [treeLines_last h2]
    by_cases hb : isBlank l = true
    · rw [treeLine_blank st hb] at h1
      cases h1
      rw [List.filter_cons_of_neg (by simp [hb])]
    · obtain ⟨_, e, he⟩ := treeLine_ok hb h1
      rw [(enter_ok he).1, List.filter_cons_of_pos (by simp [hb]), List.getLast?_cons]
      cases (ls.filter fun l => ! isBlank l).getLast? <;> rfl

/-- A line that ends with its colon is read past its end, wherever it may stand: as the first line or
    at most one level below the line before it. -/
theorem C55_colon_last {ind : Str} (hi : PlainIndent ind) {pre post : List Str} (k : Nat)
    (order : List (Nat × Str × RKind) → List (Nat × Str × RKind)) (table : List (Str × Str))
    (hn : ∀ x ∈ pre ++ (times ind k ++ c!":") :: post, '\n' ∉ x)
    (hp : ∃ r, parseTree order ind table (joinLines pre) = .ok r)
    (hk : ∀ b, (pre.filter fun l => ! isBlank l).getLast? = some b → k ≤ levelOf ind b + 1) :
    parseTree order ind table (joinLines (pre ++ (times ind k ++ c!":") :: post)) = .crash := by
  refine parseTree_prefix hn hp fun st hst => ?_
  have hl := treeLines_last hst
  have hm : ':' ∈ times ind k ++ c!":" := by simp
  unfold treeLine
  rw [if_neg (not_blank hm), if_neg (not_not_intro hm)]
  simp only [levelOf_times hi k []]
  rw [if_neg]
  · have : readEntry (times ind k ++ c!":") (k * ind.length + 1) = .crash := by
      unfold readEntry
      rw [get_times]
      rfl
    rw [this]
    rfl
  · rw [hl]
    cases hg : (pre.filter fun l => ! isBlank l).getLast? with
    | none => simp
    | some b =>
      have := hk b hg
      simp
      omega

/-- What holds below the root line, with the last level. -/
theorem rooted_state {ind : Str} {r : Nat} : ∀ {ls : List Str} {st st' : TreeSt}, Rooted r st → (∀ l, st.last = some l → r ≤ l) →
    treeLines ind st ls = .ok st' → Rooted r st' ∧ ∀ l, st'.last = some l → r ≤ l
  | [], st, st', h, hr, hl => by cases hl; exact ⟨h, hr⟩
  | x :: xs, st, st', h, hr, hl => by
    rw [treeLines] at hl
    obtain ⟨s, h1, h2⟩ := bind_ok hl
    obtain ⟨h3, h4⟩ := rooted_line h h1
    refine rooted_state h3 ?_ h2
    intro l hs
    by_cases hb : isBlank x = true
    · rw [treeLine_blank st hb] at h1
      cases h1
      exact hr l hs
    · obtain ⟨_, e, he⟩ := treeLine_ok hb h1
      rw [(enter_ok he).1] at hs
      cases hs
      exact Nat.le_of_lt (h4 hb)

/-- The line of a feature that is less indented than the root dereferences a missing parent, wherever
    it stands below the root. -/
theorem C55_above_root {ind : Str} (hi : PlainIndent ind) {blanks mid post : List Str} {a : Str} {k : Nat} {n : Label}
    (order : List (Nat × Str × RKind) → List (Nat × Str × RKind)) (table : List (Str × Str))
    (ha : ¬ isBlank a = true) (hbl : ∀ x ∈ blanks, isBlank x = true) (hp : n.Plain) (hk : k < levelOf ind a)
    (hn : ∀ x ∈ (blanks ++ a :: mid) ++ (times ind k ++ n.text) :: post, '\n' ∉ x)
    (hr : ∃ r, parseTree order ind table (joinLines (blanks ++ a :: mid)) = .ok r) :
    parseTree order ind table (joinLines ((blanks ++ a :: mid) ++ (times ind k ++ n.text) :: post)) = .crash := by
  refine parseTree_prefix hn hr fun st hst => ?_
  obtain ⟨s1, h1, h2⟩ := treeLines_ok_append hst
  rw [treeLines_blanks _ hbl] at h1
  cases h1
  rw [treeLines] at h2
  obtain ⟨s2, h3, h4⟩ := bind_ok h2
  obtain ⟨_, e, he⟩ := treeLine_ok ha h3
  obtain ⟨h5, h6, ⟨m, h7⟩, _⟩ := enter_ok he
  obtain ⟨⟨hl, hro, hlow⟩, hle⟩ := rooted_state (r := levelOf ind a) ⟨by rw [h5]; rfl, by rw [h6]; rfl, by
    intro l hl
    rw [h7]
    simp only
    rw [if_neg (by omega)]⟩ (by intro l hx; rw [h5] at hx; cases hx; exact Nat.le_refl _) h4
  obtain ⟨t, ht⟩ := text_colon n
  have hm : ':' ∈ times ind k ++ n.text := by rw [ht]; simp
  have hlev : levelOf ind (times ind k ++ n.text) = k := by rw [ht]; exact levelOf_times hi k t
  unfold treeLine
  rw [if_neg (not_blank hm), if_neg (not_not_intro hm)]
  simp only [hlev]
  rw [if_neg, readEntry_text hi hp]
  · show enter st k (entryOf n) = .crash
    unfold enter
    rw [if_neg (by rw [idsOk_entryOf hp]; simp)]
    simp only
    rw [if_neg (by rw [hl]; simp), if_neg (by omega)]
    cases k with
    | zero => rfl
    | succ k => simp only [hlow k (by omega)]
  · cases hx : st.last with
    | none => simp
    | some l =>
      have := hle l hx
      simp
      omega

example : parseTree id c!"\t" [] (joinLines ([c!":r R", c!"\t:m A"] ++ (times c!"\t" 2 ++ c!":") :: [c!"\t:o B"])) = .crash :=
  C55_colon_last ⟨by decide, by decide⟩ 2 id [] (by decide) ⟨_, rfl⟩ (by decide)

example : parseTree id c!"\t" [] (joinLines (([] ++ c!"\t\t:r R" :: [c!"\t\t\t:m A"]) ++ (times c!"\t" 1 ++ Label.text ⟨.optional, some c!"B", none⟩) :: [])) =
    .crash :=
  C55_above_root ⟨by decide, by decide⟩ id [] (by decide) (by decide)
    ⟨fun s hs => by cases hs; exact ⟨by decide, by decide⟩, fun i hi => by cases hi⟩ (by decide) (by decide) ⟨_, rfl⟩

/-- So does the document. -/
theorem C55_tree_crash_document (E : SEnv) (F : Env) (world : FModel) (fuel : Nat) {n : Str} {i : Option Str} {text : Str}
    {post : List Elem} (h : parseTree E.order (i.getD c!"\t") [] text = .crash) :
    load E F world fuel ⟨some n, .tree i text :: post⟩ = some .crash := by
  unfold load parseDoc
  simp only [parseElems, parseElem]
  rw [h]
  rfl

example (E : SEnv) (F : Env) : load E F nothing 9 ⟨some c!"M", [.tree (some c!"  ") c!":r R\n  :m A\n  :\n"]⟩ = some .crash :=
  C55_tree_crash_document E F nothing 9
    (C55_colon_last (ind := c!"  ") (pre := [c!":r R", c!"  :m A"]) (post := []) ⟨by decide, by decide⟩ 1 E.order [] (by decide) ⟨_, rfl⟩ (by decide))

end Verif.Props

import Verif.Props.SxfmNames
import Verif.Sxfm.Safe

/-!
# Property C37: two features of one name

General form of `C37_space_rejects`.
-/

namespace Verif.Props
open Verif Verif.Spec Verif.Sxfm

/-- A line for a feature other than the root and other than a group, whose name is `a` up to the first space. -/
def NamesFeature (ind a line : Str) : Prop :=
  ∃ k h o r, h ∈ [c!":m ", c!":o ", c!": "] ∧ (∀ i, o = some i → ∀ c ∈ i, isIdChar c = true) ∧ (r = [] ∨ ∃ t, r = ' ' :: t) ∧
    line = times ind k ++ h ++ (a ++ idText o ++ r)

theorem treeLine_attrs {ind : Str} {st st' : TreeSt} {line : Str} (h : treeLine ind st line = .ok st') :
    ∃ l, attrsOf st'.calls = attrsOf st.calls ++ l := by
  unfold treeLine at h
  split at h
  · cases h; exact ⟨[], by simp⟩
  split at h
  · cases h
  simp only at h
  split at h
  · cases h
  obtain ⟨e, _, h2⟩ := bind_ok h
  obtain ⟨mid, _, h3, _⟩ := enter_calls h2
  exact ⟨_, by rw [h3, attrsOf_append]⟩

theorem treeLines_attrs {ind : Str} : ∀ {ls : List Str} {st st' : TreeSt}, treeLines ind st ls = .ok st' →
    ∃ l, attrsOf st'.calls = attrsOf st.calls ++ l
  | [], st, st', h => by cases h; exact ⟨[], by simp⟩
  | l :: ls, st, st', h => by
    rw [treeLines] at h
    obtain ⟨s, h1, h2⟩ := bind_ok h
    obtain ⟨a, ha⟩ := treeLine_attrs h1
    obtain ⟨b, hb⟩ := treeLines_attrs h2
    exact ⟨a ++ b, by rw [hb, ha, List.append_assoc]⟩

theorem treeLine_names {ind : Str} (hi : PlainIndent ind) {a : Str} (ha : PlainName a) {line : Str} (hl : NamesFeature ind a line)
    {st st' : TreeSt} (h : treeLine ind st line = .ok st') :
    ∃ x l, x.name = a ∧ attrsOf st'.calls = attrsOf st.calls ++ x :: l := by
  obtain ⟨k, hd, o, r, hh, ho, hr, rfl⟩ := hl
  have hname := nameIn_title ha.2 ho hr
  obtain ⟨t, rfl⟩ : ∃ t, hd = ':' :: t := by
    simp only [List.mem_cons, List.not_mem_nil, or_false] at hh
    rcases hh with rfl | rfl | rfl <;> exact ⟨_, rfl⟩
  generalize hs : a ++ idText o ++ r = s at h hname
  have e1 : times ind k ++ (':' :: t) ++ s = times ind k ++ ':' :: (t ++ s) := by simp
  rw [e1] at h
  have m1 : ':' ∈ times ind k ++ ':' :: (t ++ s) := by simp
  unfold treeLine at h
  rw [if_neg (not_blank m1), if_neg (not_not_intro m1)] at h
  simp only [levelOf_times hi] at h
  split at h
  · cases h
  obtain ⟨e, h1, h2⟩ := bind_ok h
  obtain ⟨mid, _, h3, _⟩ := enter_calls h2
  have key : e.isRoot = false ∧ e.name = a := by
    unfold readEntry at h1
    simp only [Nat.add_assoc, drop_times, get_times] at h1
    simp only [List.mem_cons, List.not_mem_nil, or_false, List.cons.injEq] at hh
    rcases hh with ⟨_, rfl⟩ | ⟨_, rfl⟩ | ⟨_, rfl⟩ <;> simp at h1 <;> subst h1 <;> exact ⟨rfl, hname⟩
  rw [key.1] at h3
  refine ⟨{ name := entryName st.counter e, kind := .binary, opt := e.opt }, attrsOf (mid ++ flushCalls st.groups k), ?_, ?_⟩
  · unfold entryName
    rw [key.2, if_neg ha.1]
  · rw [h3, attrsOf_append]
    rfl

/-- Parsing a tree with two such lines makes two features of one name. -/
theorem parseTree_twice {ind : Str} (hi : PlainIndent ind) {a : Str} (ha : PlainName a) {p q s : List Str} {l1 l2 : Str}
    (h1 : NamesFeature ind a l1) (h2 : NamesFeature ind a l2) (hn : ∀ l ∈ p ++ l1 :: (q ++ l2 :: s), '\n' ∉ l)
    {order : List (Nat × Str × RKind) → List (Nat × Str × RKind)} {table : List (Str × Str)} {r : List BCall × List (Str × Str)}
    (h : parseTree order ind table (joinLines (p ++ l1 :: (q ++ l2 :: s))) = .ok r) :
    ¬ ((attrsOf r.1).map Attr.name).Nodup := by
  unfold parseTree at h
  rw [splitLines_join hn] at h
  obtain ⟨st, g1, g2⟩ := bind_ok h
  cases g2
  obtain ⟨s1, k1, k2⟩ := treeLines_ok_append g1
  rw [treeLines] at k2
  obtain ⟨s2, k3, k4⟩ := bind_ok k2
  obtain ⟨s3, k5, k6⟩ := treeLines_ok_append k4
  rw [treeLines] at k6
  obtain ⟨s4, k7, k8⟩ := bind_ok k6
  obtain ⟨x, u, x1, x2⟩ := treeLine_names hi ha h1 k3
  obtain ⟨v, x3⟩ := treeLines_attrs k5
  obtain ⟨y, w, y1, y2⟩ := treeLine_names hi ha h2 k7
  obtain ⟨z, y3⟩ := treeLines_attrs k8
  rw [attrsOf_append, y3, y2, x3, x2]
  intro hd
  have hsub : List.Sublist [x.name, y.name] (((attrsOf s1.calls ++ x :: u ++ v ++ y :: w ++ z ++
      attrsOf ((order st.groups).map fun g => BCall.emplaceRelationship g.2.2 g.2.1))).map Attr.name) := by
    simp [List.append_assoc]
  have := hsub.nodup hd
  rw [x1, y1] at this
  simp at this

theorem parseElem_calls {E : SEnv} {fuel : Nat} {st st' : PState} {e : Elem} (h : parseElem E fuel st e = some (.ok st')) :
    ∃ l, st'.calls = st.calls ++ l ∧ ∀ a ∈ attrsOf l, a.kind ≠ .root := by
  cases e with
  | other => cases h; exact ⟨[], by simp, by intro a ha; cases ha⟩
  | tree i text =>
    simp only [parseElem, Option.some.injEq] at h
    obtain ⟨r, h1, h2⟩ := bind_ok h
    cases h2
    exact ⟨r.1, rfl, (parseTree_calls E.order_perm (calls := r.1) (table' := r.2) h1).1⟩
  | constraints text =>
    simp only [parseElem, Option.map_eq_some_iff] at h
    obtain ⟨x, h1, h2⟩ := h
    obtain ⟨cs, h3, h4⟩ := bind_ok h2
    subst h3
    cases h4
    obtain ⟨ks, rfl⟩ := constraintLines_calls h1
    refine ⟨_, rfl, ?_⟩
    intro a ha
    unfold attrsOf at ha
    simp at ha

theorem parseElems_calls {E : SEnv} {fuel : Nat} : ∀ {es : List Elem} {st st' : PState}, parseElems E fuel st es = some (.ok st') →
    ∃ l, st'.calls = st.calls ++ l ∧ ∀ a ∈ attrsOf l, a.kind ≠ .root
  | [], st, st', h => by cases h; exact ⟨[], by simp, by intro a ha; cases ha⟩
  | e :: es, st, st', h => by
    rw [parseElems] at h
    cases he : parseElem E fuel st e with
    | none => rw [he] at h; cases h
    | some r =>
      rw [he] at h
      cases r with
      | fail => cases h
      | crash => cases h
      | ok s =>
        obtain ⟨l, h1, h2⟩ := parseElem_calls he
        obtain ⟨l', h3, h4⟩ := parseElems_calls h
        refine ⟨l ++ l', by rw [h3, h1, List.append_assoc], ?_⟩
        intro a ha
        rw [attrsOf_append] at ha
        rcases List.mem_append.1 ha with ha | ha
        · exact h2 a ha
        · exact h4 a ha

theorem parseElems_at {E : SEnv} {fuel : Nat} : ∀ {pre : List Elem} {e : Elem} {post : List Elem} {st st' : PState},
    (∀ x ∈ pre, ∀ i t, x ≠ .tree i t) → parseElems E fuel st (pre ++ e :: post) = some (.ok st') →
    ∃ s s', s.ind = st.ind ∧ parseElem E fuel s e = some (.ok s') ∧ parseElems E fuel s' post = some (.ok st')
  | [], e, post, st, st', _, h => by
    rw [List.nil_append, parseElems] at h
    cases he : parseElem E fuel st e with
    | none => rw [he] at h; cases h
    | some r =>
      rw [he] at h
      cases r with
      | fail => cases h
      | crash => cases h
      | ok s => exact ⟨st, s, rfl, he, h⟩
  | x :: pre, e, post, st, st', hp, h => by
    rw [List.cons_append, parseElems] at h
    cases he : parseElem E fuel st x with
    | none => rw [he] at h; cases h
    | some r =>
      rw [he] at h
      cases r with
      | fail => cases h
      | crash => cases h
      | ok s =>
        obtain ⟨s1, s2, h1, h2⟩ := parseElems_at (fun y hy => hp y (by simp [hy])) h
        refine ⟨s1, s2, ?_, h2⟩
        rw [h1]
        cases x with
        | other => cases he; rfl
        | tree i t => exact absurd rfl (hp _ (by simp) i t)
        | constraints t =>
          simp only [parseElem, Option.map_eq_some_iff] at he
          obtain ⟨r, _, h4⟩ := he
          obtain ⟨cs, _, h6⟩ := bind_ok h4
          cases h6; rfl

/-- No document has a model in whose feature tree two lines for features have the same name up to the first space, wherever the lines
    are, whatever follows the names and whatever else is in the document. -/
theorem C37_same_name {world : FModel} (hf : ∀ i, world.heap i ≠ none → i < world.next) (E : SEnv) (F : Env) (fuel : Nat) {n : Option Str}
    {i : Option Str} (hi : PlainIndent (i.getD c!"\t")) {a : Str} (ha : PlainName a) {pre post : List Elem} (hp : ∀ x ∈ pre, ∀ i t, x ≠ .tree i t)
    {p q s : List Str} {l1 l2 : Str} (h1 : NamesFeature (i.getD c!"\t") a l1) (h2 : NamesFeature (i.getD c!"\t") a l2)
    (hn : ∀ l ∈ p ++ l1 :: (q ++ l2 :: s), '\n' ∉ l) (m : FModel) :
    load E F world fuel { name := n, elems := pre ++ .tree i (joinLines (p ++ l1 :: (q ++ l2 :: s))) :: post } ≠ some (.built m) := by
  intro h
  unfold load parseDoc at h
  cases n with
  | none => cases h
  | some n =>
    simp only [Option.map_map, Option.map_eq_some_iff, Function.comp_apply] at h
    obtain ⟨r, h3, h4⟩ := h
    cases r with
    | fail => cases h4
    | crash => cases h4
    | ok st =>
      obtain ⟨s1, s2, k1, k2, k3⟩ := parseElems_at hp h3
      obtain ⟨l, k4, k5⟩ := parseElems_calls h3
      obtain ⟨l', k6, _⟩ := parseElems_calls k3
      simp only [parseElem, Option.some.injEq] at k2
      obtain ⟨t, g1, g2⟩ := bind_ok k2
      cases g2
      have k1 : s1.ind = c!"\t" := k1
      rw [k1] at g1
      have hd := parseTree_twice hi ha h1 h2 hn g1
      have hb : world.build F (builderOf st.calls) = .null := by
        refine C28_duplicate hf F ?_ ?_
        · rw [k4, attrsOf_append]
          exact k5
        · intro hx
          apply hd
          rw [k6, attrsOf_append, attrsOf_append, List.map_append, List.map_append] at hx
          exact (List.nodup_append.1 (List.nodup_append.1 hx).1).2.1
      have h4 : ofBuild (world.build F (builderOf st.calls)) = .built m := h4
      rw [hb] at h4
      cases h4

/-- Not vacuous: the tree of `C37_space_rejects`, with an identifier. -/
example (E : SEnv) (F : Env) (fuel : Nat) (m : FModel) : load E F nothing fuel
    { name := some c!"M", elems := [.tree none c!":r R\n\t:m fast path\n\t:o fast(_f) lane\n"] } ≠ some (.built m) :=
  C37_same_name nothing_fresh E F fuel (i := none) tab_plain (a := c!"fast") ⟨by decide, by decide⟩ (pre := []) (post := [])
    (by intro x hx; cases hx) (p := [c!":r R"]) (q := []) (s := []) (l1 := c!"\t:m fast path") (l2 := c!"\t:o fast(_f) lane")
    ⟨1, c!":m ", none, c!" path", by simp, (by intro i hi; cases hi), .inr ⟨_, rfl⟩, by decide⟩
    ⟨1, c!":o ", some c!"_f", c!" lane", by simp, (by intro i hi; cases hi; decide), .inr ⟨_, rfl⟩, by decide⟩ (by decide) m

end Verif.Props

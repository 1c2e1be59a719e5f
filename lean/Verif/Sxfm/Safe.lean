import Verif.Sxfm.Levels
import Verif.FM.BuildSafe
/-! Whole SXFM documents: what the calls on the builder look like, and that they can be carried out. -/

namespace Verif.Sxfm
open Verif Verif.Spec

/-! ### Lines of a text -/

theorem splitLines_end : ∀ t : Str, splitLines (t ++ ['\n']) = splitLines t ∨ splitLines (t ++ ['\n']) = splitLines t ++ [[]]
  | [] => .inr (by simp [splitLines])
  | c :: cs => by
    rw [List.cons_append, splitLines, splitLines]
    by_cases hc : c = '\n'
    · rw [if_pos hc, if_pos hc]
      rcases splitLines_end cs with h | h <;> rw [h]
      · exact .inl rfl
      · exact .inr rfl
    · rw [if_neg hc, if_neg hc]
      rcases splitLines_end cs with h | h <;> rw [h]
      · exact .inl rfl
      · cases splitLines cs with
        | nil => exact .inl rfl
        | cons l ls => exact .inr rfl

/-! ### The names that identifiers stand for -/

theorem nameIn_cons {c : Char} (h1 : c ≠ ' ') (h2 : c ≠ '[') (h3 : c ≠ '(') (s : Str) : nameIn (c :: s) ≠ [] := by
  have hu : ∀ d, c ≠ d → ∃ t, upTo d (c :: s) = c :: t := by
    intro d hd
    exact ⟨upTo d s, by unfold upTo; rw [List.takeWhile_cons]; simp [hd]⟩
  have hn : ∃ t, (if '[' ∈ upTo ' ' (c :: s) then bracketName (c :: s) else upTo ' ' (c :: s)) = c :: t := by
    split
    · obtain ⟨t, ht⟩ := hu '[' h2
      exact ⟨t, by unfold bracketName; rw [ht]; simp⟩
    · exact hu ' ' h1
  obtain ⟨t, ht⟩ := hn
  unfold nameIn
  simp only [ht]
  split
  · unfold upTo; rw [List.takeWhile_cons]; simp [h3]
  · simp

theorem readEntry_card {line : Str} {p : Nat} {e : Entry} (h : readEntry line p = .ok e) (hc : e.card ≠ none) : e.isRoot = false := by
  unfold readEntry at h
  split at h
  · cases h
  · simp only at h
    split at h
    · cases h; exact absurd rfl hc
    split at h
    · cases h; rfl
    split at h
    · cases h; rfl
    split at h
    · split at h
      · cases h
      · cases h; rfl
    split at h
    · cases h; rfl
    · cases h

theorem readEntry_ids {line : Str} {p : Nat} {e : Entry} (h : readEntry line p = .ok e) : e.ids = idents line := by
  unfold readEntry at h
  split at h
  · cases h
  · simp only at h
    split at h
    · cases h; rfl
    split at h
    · cases h; rfl
    split at h
    · cases h; rfl
    split at h
    · split at h
      · cases h
      · cases h; rfl
    split at h
    · cases h; rfl
    · cases h

theorem readEntry_name {line : Str} {p : Nat} {e : Entry} (h : readEntry line p = .ok e) :
    (line[p]? ≠ some ' ' ∧ e.name = nameIn (line.drop (p + 2))) ∨ (line[p]? = some ' ' ∧ e.name = nameIn (line.drop (p + 1))) := by
  unfold readEntry at h
  split at h
  · cases h
  · rename_i c hc
    simp only at h
    rw [hc]
    split at h
    · cases h; rename_i e; subst e; exact .inl ⟨by decide, rfl⟩
    split at h
    · cases h; rename_i e; subst e; exact .inl ⟨by decide, rfl⟩
    split at h
    · cases h; rename_i e; subst e; exact .inl ⟨by decide, rfl⟩
    split at h
    · rename_i e
      subst e
      split at h
      · cases h
      · cases h; exact .inl ⟨by decide, rfl⟩
    split at h
    · cases h; rename_i e; subst e; exact .inr ⟨rfl, rfl⟩
    · cases h

/-! ### The calls of the feature tree -/

/-- What holds of the variables between two lines: the groups made and those still open are below
    features that have been made, a different one for each. -/
structure GroupsMade (st : TreeSt) : Prop where
  kinds : ∀ a ∈ attrsOf st.calls, a.kind ≠ .root
  owners : ∃ l, ((attrsOf st.calls).map Attr.name).Perm
    (((groupsOf st.calls).map Prod.fst ++ st.groups.map fun g => g.2.1) ++ l)
  plain : ∀ k c, BCall.addConstraint k c ∉ st.calls

theorem groupsOf_flush (gs : List (Nat × Str × RKind)) :
    groupsOf (gs.map fun g => .emplaceRelationship g.2.2 g.2.1) = gs.map fun g => (g.2.1, g.2.2) := by
  induction gs with
  | nil => rfl
  | cons g gs ih =>
    unfold groupsOf at ih ⊢
    rw [List.map_cons, List.filterMap_cons, List.map_cons]
    simp only [ih]

theorem attrsOf_flush (gs : List (Nat × Str × RKind)) :
    attrsOf (gs.map fun g => .emplaceRelationship g.2.2 g.2.1) = [] := by
  unfold attrsOf
  rw [List.filterMap_map, List.filterMap_eq_nil_iff]
  intro g _; rfl

/-- The state after a line. -/
theorem enter_calls {st st' : TreeSt} {level : Nat} {e : Entry} (h : enter st level e = .ok st') :
    ∃ mid, (mid = [] ∨ ∃ p n, mid = [.addEdge p n]) ∧
      st'.calls = st.calls ++ ((if e.isRoot then .makeRoot (entryName st.counter e)
        else .makeFeature { name := entryName st.counter e, kind := .binary, opt := e.opt }) :: (mid ++ flushCalls st.groups level)) ∧
      st'.groups = (match e.card with
        | none => st.groups.filter fun g => ¬ g.1 = level
        | some k => (level, entryName st.counter e, k) :: st.groups.filter fun g => ¬ g.1 = level) ∧
      st'.table = (e.ids.map fun i => (i, e.name)).reverse ++ st.table := by
  unfold enter at h
  simp only at h
  split at h
  · cases h
  split at h
  · cases h
    exact ⟨[], .inl rfl, by simp, rfl, rfl⟩
  split at h
  · cases h
  split at h
  · cases h
  split at h
  · cases h
  · rename_i p _
    cases h
    exact ⟨[.addEdge p (entryName st.counter e)], .inr ⟨_, _, rfl⟩, by simp, rfl, rfl⟩

theorem enter_groupsMade {st st' : TreeSt} {level : Nat} {e : Entry} (w : GroupsMade st) (hc : e.card ≠ none → e.isRoot = false)
    (h : enter st level e = .ok st') : GroupsMade st' := by
  obtain ⟨mid, hm, h1, h2, -⟩ := enter_calls h
  have hma : attrsOf mid = [] := by rcases hm with rfl | ⟨_, _, rfl⟩ <;> rfl
  have hmg : groupsOf mid = [] := by rcases hm with rfl | ⟨_, _, rfl⟩ <;> rfl
  generalize hn : entryName st.counter e = n at h1 h2
  generalize hmk : (if e.isRoot = true then BCall.makeRoot n else .makeFeature { name := n, kind := .binary, opt := e.opt }) = mk at h1
  have ha : attrsOf st'.calls = attrsOf st.calls ++ (if e.isRoot = true then [] else [{ name := n, kind := .binary, opt := e.opt }]) := by
    rw [h1, show mk :: (mid ++ flushCalls st.groups level) = [mk] ++ (mid ++ flushCalls st.groups level) from rfl,
      attrsOf_append, attrsOf_append, attrsOf_append, hma]
    unfold flushCalls
    rw [attrsOf_flush, ← hmk]
    split <;> simp [attrsOf]
  have hg : groupsOf st'.calls = groupsOf st.calls ++ ((st.groups.filter fun g => g.1 = level).map fun g => (g.2.1, g.2.2)) := by
    rw [h1, show mk :: (mid ++ flushCalls st.groups level) = [mk] ++ (mid ++ flushCalls st.groups level) from rfl,
      groupsOf_append, groupsOf_append, groupsOf_append, hmg]
    unfold flushCalls
    rw [groupsOf_flush, ← hmk]
    split <;> simp [groupsOf]
  refine ⟨?_, ?_, ?_⟩
  · intro a ham
    rw [ha, List.mem_append] at ham
    rcases ham with ham | ham
    · exact w.kinds a ham
    · split at ham
      · cases ham
      · rw [List.mem_singleton] at ham; subst ham; simp
  · obtain ⟨l, hl⟩ := w.owners
    have hsplit : ((st.groups.filter fun g => g.1 = level).map (fun g => g.2.1) ++
        (st.groups.filter fun g => ¬ g.1 = level).map (fun g => g.2.1)).Perm (st.groups.map fun g => g.2.1) := by
      rw [← List.map_append]
      refine List.Perm.map _ ?_
      have := List.filter_append_perm (fun g : Nat × Str × RKind => decide (g.1 = level)) st.groups
      simpa using this
    generalize hF : (st.groups.filter fun g => g.1 = level) = Fl at hg hsplit
    generalize hR : (st.groups.filter fun g => ¬ g.1 = level) = Re at h2 hsplit
    have hg' : (groupsOf st'.calls).map Prod.fst = (groupsOf st.calls).map Prod.fst ++ Fl.map fun g => g.2.1 := by
      rw [hg, List.map_append, List.map_map]; rfl
    rw [ha, hg', List.map_append]
    have base : ((attrsOf st.calls).map Attr.name).Perm
        ((((groupsOf st.calls).map Prod.fst ++ Fl.map fun g => g.2.1) ++ Re.map fun g => g.2.1) ++ l) := by
      refine hl.trans (List.Perm.append_right _ ?_)
      rw [List.append_assoc]
      exact List.Perm.append_left _ hsplit.symm
    cases hcard : e.card with
    | none =>
      rw [hcard] at h2
      simp only at h2
      rw [h2]
      refine ⟨l ++ (if e.isRoot = true then [] else [({ name := n, kind := .binary, opt := e.opt } : Attr)]).map Attr.name, ?_⟩
      rw [← List.append_assoc]
      exact List.Perm.append_right _ base
    | some k =>
      rw [hcard] at h2
      simp only at h2
      rw [h2, if_neg (by rw [hc (by rw [hcard]; simp)]; simp)]
      refine ⟨l, ?_⟩
      simp only [List.map_cons, List.map_nil]
      refine (List.Perm.append_right _ base).trans ?_
      generalize (groupsOf st.calls).map Prod.fst ++ Fl.map (fun g => g.2.1) = A
      generalize Re.map (fun g => g.2.1) = B
      refine List.perm_append_comm.trans ?_
      simp only [List.cons_append, List.nil_append, List.append_assoc]
      exact List.perm_middle.symm
  · intro k c hm'
    rw [h1, List.mem_append, List.mem_cons, List.mem_append] at hm'
    rcases hm' with h' | h' | h' | h'
    · exact w.plain k c h'
    · rw [← hmk] at h'; split at h' <;> cases h'
    · rcases hm with rfl | ⟨_, _, rfl⟩
      · cases h'
      · simp at h'
    · unfold flushCalls at h'
      obtain ⟨g, _, hg'⟩ := List.mem_map.1 h'
      cases hg'

theorem treeLine_groupsMade {ind : Str} {st st' : TreeSt} {line : Str} (w : GroupsMade st) (h : treeLine ind st line = .ok st') :
    GroupsMade st' := by
  unfold treeLine at h
  split at h
  · cases h; exact w
  split at h
  · cases h
  simp only at h
  split at h
  · cases h
  cases he : readEntry line (levelOf ind line * ind.length + 1) with
  | ok e => rw [he] at h; exact enter_groupsMade w (readEntry_card he) h
  | fail => rw [he] at h; cases h
  | crash => rw [he] at h; cases h

theorem treeLines_groupsMade {ind : Str} : ∀ {ls : List Str} {st st' : TreeSt}, GroupsMade st → treeLines ind st ls = .ok st' →
    GroupsMade st'
  | [], st, st', w, h => by cases h; exact w
  | l :: ls, st, st', w, h => by
    rw [treeLines] at h
    cases hl : treeLine ind st l with
    | ok s => rw [hl] at h; exact treeLines_groupsMade (treeLine_groupsMade w hl) h
    | fail => rw [hl] at h; cases h
    | crash => rw [hl] at h; cases h

/-- A line whose identifiers stand for a name. -/
def NamesIds (ind line : Str) : Prop :=
  '(' ∈ line → ∃ n k c s, (line = times ind n ++ ':' :: k :: ' ' :: c :: s ∧ k ≠ ' ' ∨ line = times ind n ++ ':' :: ' ' :: c :: s) ∧
    c ≠ ' ' ∧ c ≠ '[' ∧ c ≠ '('

theorem treeLine_table {ind : Str} (hi : PlainIndent ind) {st st' : TreeSt} {line : Str} (hn : NamesIds ind line)
    (w : ∀ k v, (k, v) ∈ st.table → v ≠ []) (h : treeLine ind st line = .ok st') : ∀ k v, (k, v) ∈ st'.table → v ≠ [] := by
  unfold treeLine at h
  split at h
  · cases h; exact w
  split at h
  · cases h
  simp only at h
  split at h
  · cases h
  cases he : readEntry line (levelOf ind line * ind.length + 1) with
  | fail => rw [he] at h; cases h
  | crash => rw [he] at h; cases h
  | ok e =>
    rw [he] at h
    obtain ⟨_, _, _, _, h3⟩ := enter_calls h
    intro k v hkv
    rw [h3, List.mem_append, List.mem_reverse, List.mem_map] at hkv
    rcases hkv with ⟨i, hi', e'⟩ | hkv
    · cases e'
      have hp : '(' ∈ line := by
        refine Decidable.byContradiction fun hp => ?_
        rw [readEntry_ids he, idents_none hp] at hi'
        cases hi'
      obtain ⟨n, a, c, s, hl, c1, c2, c3⟩ := hn hp
      have := nameIn_cons c1 c2 c3 s
      rcases hl with ⟨hl, ha⟩ | hl
      · rw [hl, levelOf_times hi] at he
        rcases readEntry_name he with ⟨_, e2⟩ | ⟨e1, _⟩
        · rw [Nat.add_assoc, drop_times] at e2
          rw [e2]; exact this
        · rw [get_times] at e1
          exact absurd (Option.some.inj e1) ha
      · rw [hl, levelOf_times hi] at he
        rcases readEntry_name he with ⟨e1, _⟩ | ⟨_, e2⟩
        · rw [get_times] at e1
          exact absurd rfl e1
        · rw [Nat.add_assoc, drop_times] at e2
          rw [e2]; exact this
    · exact w k v hkv

theorem treeLines_table {ind : Str} (hi : PlainIndent ind) : ∀ {ls : List Str} {st st' : TreeSt}, (∀ l ∈ ls, NamesIds ind l) →
    (∀ k v, (k, v) ∈ st.table → v ≠ []) → treeLines ind st ls = .ok st' → ∀ k v, (k, v) ∈ st'.table → v ≠ []
  | [], st, st', _, w, h => by cases h; exact w
  | l :: ls, st, st', hn, w, h => by
    rw [treeLines] at h
    cases hl : treeLine ind st l with
    | ok s =>
      rw [hl] at h
      exact treeLines_table hi (fun x hx => hn x (by simp [hx])) (treeLine_table hi (hn l (by simp)) w hl) h
    | fail => rw [hl] at h; cases h
    | crash => rw [hl] at h; cases h

/-! ### All calls -/

theorem relOp_of_no_constraint : ∀ {calls : List BCall}, (∀ k c, BCall.addConstraint k c ∉ calls) →
    calls.filterMap BCall.relOp = (groupsOf calls).map fun g => .addRelationship g.2 (.name g.1)
  | [], _ => rfl
  | c :: cs, h => by
    have ih := relOp_of_no_constraint (calls := cs) (fun k x hx => h k x (by simp [hx]))
    unfold groupsOf at ih ⊢
    rw [List.filterMap_cons, List.filterMap_cons, ih]
    cases c with
    | addConstraint k x => exact absurd (by simp) (h k x)
    | _ => rfl

/-- The calls of the feature tree: where the groups are. -/
theorem parseTree_calls {order : List (Nat × Str × RKind) → List (Nat × Str × RKind)} (ho : ∀ l, (order l).Perm l) {ind : Str}
    {table : List (Str × Str)} {text : Str} {calls : List BCall} {table' : List (Str × Str)}
    (h : parseTree order ind table text = .ok (calls, table')) :
    (∀ a ∈ attrsOf calls, a.kind ≠ .root) ∧ (∃ l, ((attrsOf calls).map Attr.name).Perm ((groupsOf calls).map Prod.fst ++ l)) ∧
      (∀ k c, BCall.addConstraint k c ∉ calls) := by
  unfold parseTree at h
  cases hl : treeLines ind { table := table } (splitLines text) with
  | fail => rw [hl] at h; cases h
  | crash => rw [hl] at h; cases h
  | ok st =>
    rw [hl] at h
    cases h
    have w0 : GroupsMade { table := table } := ⟨fun a ha => (by cases ha), ⟨[], .refl _⟩, fun _ _ hx => (by cases hx)⟩
    have w := treeLines_groupsMade w0 hl
    refine ⟨?_, ?_, ?_⟩
    · intro a ha
      rw [attrsOf_append, attrsOf_flush, List.append_nil] at ha
      exact w.kinds a ha
    · obtain ⟨l, hp⟩ := w.owners
      refine ⟨l, ?_⟩
      rw [attrsOf_append, attrsOf_flush, List.append_nil, groupsOf_append, groupsOf_flush, List.map_append]
      refine hp.trans (List.Perm.append_right _ (List.Perm.append_left _ ?_))
      rw [List.map_map]
      exact (List.Perm.map (fun g : Nat × Str × RKind => g.2.1) (ho st.groups)).symm
    · intro k c hx
      rcases List.mem_append.1 hx with hx | hx
      · exact w.plain k c hx
      · obtain ⟨g, _, hg⟩ := List.mem_map.1 hx
        cases hg

theorem constraintLines_calls {sci : Str → Option Str} {o : Bool} {fuel : Nat} {table : List (Str × Str)} : ∀ {ls : List Str} {calls : List BCall},
    constraintLines sci o fuel table ls = some (.ok calls) → ∃ cs : List (CKind × Constraint), calls = cs.map fun c => .addConstraint c.1 c.2
  | [], calls, h => by cases h; exact ⟨[], rfl⟩
  | l :: ls, calls, h => by
    rw [constraintLines] at h
    cases hl : constraintLine sci o fuel table l with
    | none => rw [hl] at h; cases h
    | some r =>
      rw [hl] at h
      cases r with
      | fail => cases h
      | crash => cases h
      | ok cs =>
        simp only at h
        cases hr : constraintLines sci o fuel table ls with
        | none => rw [hr] at h; cases h
        | some r =>
          rw [hr] at h
          cases r with
          | fail => cases h
          | crash => cases h
          | ok cs' =>
            cases h
            obtain ⟨y, hy⟩ := constraintLines_calls hr
            have : ∃ x : List (CKind × Constraint), cs = x.map fun c => .addConstraint c.1 c.2 := by
              unfold constraintLine at hl
              split at hl
              · cases hl; exact ⟨[], rfl⟩
              split at hl
              · cases hl
              · obtain ⟨s, _, hs⟩ := Option.map_eq_some_iff.1 hl
                split at hs
                · cases hs; exact ⟨[(.boolean, _)], rfl⟩
                · cases hs; exact ⟨[], rfl⟩
                · cases hs
                · cases hs
            obtain ⟨x, hx⟩ := this
            exact ⟨x ++ y, by rw [hx, hy, List.map_append]⟩

theorem constraintLines_no_crash (sci : Str → Option Str) (o : Bool) (n : Nat) {table : List (Str × Str)}
    (ht : ∀ k v, (k, v) ∈ table → v ≠ []) : ∀ {ls : List Str}, (∀ l ∈ ls, ':' ∈ l → ¬ isBlank (after ':' l) = true) →
    constraintLines sci o n table ls ≠ some .crash
  | [], _ => by simp [constraintLines]
  | l :: ls, h => by
    rw [constraintLines]
    have h1 := constraintLine_no_crash sci o n ht (h l (by simp))
    have h2 := constraintLines_no_crash sci o n ht (ls := ls) (fun x hx => h x (by simp [hx]))
    cases hl : constraintLine sci o n table l with
    | none => simp
    | some r =>
      cases r with
      | crash => exact absurd hl h1
      | fail => simp
      | ok cs =>
        simp only
        cases hr : constraintLines sci o n table ls with
        | none => simp
        | some r =>
          cases r with
          | crash => exact absurd hr h2
          | fail => simp [SOut.bind]
          | ok cs => simp [SOut.bind]

/-- Calls of a feature tree and constraints can be carried out. -/
theorem build_sxfm {world : FModel} (hf : ∀ i, world.heap i ≠ none → i < world.next) (F : Env) {n : Str} {calls : List BCall}
    {cs : List (CKind × Constraint)} (h1 : ∀ a ∈ attrsOf calls, a.kind ≠ .root)
    (h2 : ∃ l, ((attrsOf calls).map Attr.name).Perm ((groupsOf calls).map Prod.fst ++ l)) (h3 : ∀ k c, BCall.addConstraint k c ∉ calls) :
    world.build F (builderOf (.setVmName n :: calls ++ cs.map fun c => .addConstraint c.1 c.2)) ≠ .ub := by
  have hca : attrsOf (cs.map fun c => BCall.addConstraint c.1 c.2) = [] := by
    unfold attrsOf
    rw [List.filterMap_map, List.filterMap_eq_nil_iff]
    intro g _; rfl
  have ha : attrsOf (.setVmName n :: calls ++ cs.map fun c => .addConstraint c.1 c.2) = attrsOf calls := by
    rw [attrsOf_append, hca, List.append_nil]; rfl
  obtain ⟨l, hl⟩ := h2
  refine build_no_ub F hf (gs := groupsOf calls) (cs := cs) (by rw [ha]; exact h1) ?_ ?_ ?_
  · rw [List.filterMap_append]
    congr 1
    · rw [List.filterMap_cons]
      exact relOp_of_no_constraint h3
    · rw [List.filterMap_map]
      clear hca ha
      induction cs with
      | nil => rfl
      | cons c cs ih =>
        rw [List.filterMap_cons, List.map_cons]
        simp only [Function.comp, BCall.relOp] at ih ⊢
        rw [ih]
  · rw [ha]
    intro hd
    exact (List.nodup_append.1 (hl.nodup_iff.1 hd)).1
  · rw [ha]
    intro g hg
    exact hl.mem_iff.2 (List.mem_append_left _ (List.mem_map_of_mem hg))

end Verif.Sxfm

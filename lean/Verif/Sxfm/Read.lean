import Verif.Sxfm.Tree
import Verif.FM.Buildable
/-! Reading a feature tree: the calls on the builder are those of the tree. -/

namespace Verif.Sxfm
open Verif Verif.Spec

theorem idsOk_entryOf {n : Label} (h : n.Plain) : idsOk (entryOf n) = true := by
  unfold idsOk entryOf
  cases hid : n.id with
  | none => rfl
  | some i =>
    have := (h.2 i hid).2
    simp only [Option.toList, List.all_cons, List.all_nil, Bool.and_true, Bool.or_eq_true, decide_eq_true_eq,
      Option.isNone_iff_eq_none]
    exact this.imp id findSub_none.2

theorem name_nil_iff {n : Label} (h : n.Plain) : n.name.getD [] = [] ↔ n.name = none := by
  cases hn : n.name with
  | none => simp
  | some s => simpa using (h.1 s hn).1

theorem entryName_entryOf {n : Label} (h : n.Plain) (k : Nat) : entryName k (entryOf n) = n.called k := by
  unfold entryName Label.called
  show (if n.name.getD [] = [] then _ else n.name.getD []) = _
  cases hn : n.name with
  | none => simp
  | some s =>
    have := (h.1 s hn).1
    simp [this]

/-- The group a line opens. -/
def opened (d : Nat) (name : Str) : LineKind → List (Nat × Str × RKind)
  | .group k _ => [(d, name, k)]
  | _ => []

/-- The state after the line of a label at level `d` below the feature `p`. -/
def next (st : TreeSt) (d : Nat) (p : Str) (n : Label) : TreeSt where
  last := some d
  rootLevel := st.rootLevel
  counter := st.counter + if n.name = none then 1 else 0
  parents := fun l => if l = d then some (n.called st.counter) else st.parents l
  groups := opened d (n.called st.counter) n.kind ++ st.groups.filter fun g => ¬ g.1 = d
  table := (n.id.toList.map fun i => (i, n.name.getD [])).reverse ++ st.table
  calls := st.calls ++ [.makeFeature { name := n.called st.counter, kind := .binary, opt := n.kind.opt }] ++
    .addEdge p (n.called st.counter) :: flushCalls st.groups d

theorem enter_next {st : TreeSt} {n : Label} (h : n.Plain) {l d : Nat} {p : Str} (hl : st.last = some l)
    (hr : st.rootLevel < d + 1) (hp : st.parents d = some p) : enter st (d + 1) (entryOf n) = .ok (next st (d + 1) p n) := by
  unfold enter
  have hne : ¬ (d + 1 = st.rootLevel) := by omega
  have hok : ¬ ¬ (idsOk (entryOf n) = true) := by simp [idsOk_entryOf h]
  rw [if_neg hok]
  simp only [hl, Option.isNone_some, hne, if_false, hp, entryName_entryOf h]
  have h1 : (if (entryOf n).name = [] then st.counter + 1 else st.counter) = st.counter + if n.name = none then 1 else 0 := by
    have : (entryOf n).name = [] ↔ n.name = none := name_nil_iff h
    simp only [this]
    split <;> rfl
  rw [h1]
  unfold next
  congr 2
  cases hk : n.kind <;> simp [entryOf, hk, opened]

theorem not_blank {s : Str} (h : ':' ∈ s) : ¬ isBlank s = true := by
  unfold isBlank
  intro hb
  exact absurd (List.all_eq_true.1 hb _ h) (by decide)

theorem treeLine_text {ind : Str} (hi : PlainIndent ind) {n : Label} (h : n.Plain) {st : TreeSt} {l d : Nat}
    (hl : st.last = some l) (hd : d ≤ l + 1) :
    treeLine ind st (times ind d ++ n.text) = enter st d (entryOf n) := by
  obtain ⟨s, hs⟩ := text_colon n
  have hm : ':' ∈ times ind d ++ n.text := by rw [hs]; simp
  have hlev : levelOf ind (times ind d ++ n.text) = d := by rw [hs, levelOf_times hi]
  unfold treeLine
  have hd' : ¬ (st.last.any (fun l => decide (l + 1 < d)) = true) := by simp [hl]; omega
  rw [if_neg (not_blank hm), if_neg (not_not_intro hm)]
  simp only [hlev]
  rw [if_neg hd', readEntry_text hi h]
  rfl

/-- What reading a forest does to the state. -/
structure Reads (f : Forest) (d : Nat) (p : Str) (st st' : TreeSt) : Prop where
  last : ∃ l, st'.last = some l ∧ d ≤ l + 1
  root : st'.rootLevel = st.rootLevel
  counter : st'.counter = st.counter + f.unnamed
  parents : ∀ i, i < d → st'.parents i = st.parents i
  table : st'.table = f.ids.reverse ++ st.table
  attrs : attrsOf st'.calls = attrsOf st.calls ++ f.attrs st.counter
  edges : edgesOf st'.calls = edgesOf st.calls ++ f.edges p st.counter
  groups : (groupsOf st'.calls ++ st'.groups.map Prod.snd).Perm
    (groupsOf st.calls ++ st.groups.map Prod.snd ++ f.groups st.counter)
  roots : rootsOf st'.calls = rootsOf st.calls
  names : namesOf st'.calls = namesOf st.calls
  paths : pathsOf st'.calls = pathsOf st.calls
  commits : commitsOf st'.calls = commitsOf st.calls
  constraints : constraintsOf st'.calls = constraintsOf st.calls

theorem flush_attrs (g : List (Nat × Str × RKind)) (d : Nat) : attrsOf (flushCalls g d) = [] := by
  unfold attrsOf flushCalls; rw [List.filterMap_map]
  exact List.filterMap_eq_nil_iff.2 (by intro _ _; rfl)

theorem flush_edges (g : List (Nat × Str × RKind)) (d : Nat) : edgesOf (flushCalls g d) = [] := by
  unfold edgesOf flushCalls; rw [List.filterMap_map]
  exact List.filterMap_eq_nil_iff.2 (by intro _ _; rfl)

theorem flush_roots (g : List (Nat × Str × RKind)) (d : Nat) : rootsOf (flushCalls g d) = [] := by
  unfold rootsOf flushCalls; rw [List.filterMap_map]
  exact List.filterMap_eq_nil_iff.2 (by intro _ _; rfl)

theorem flush_names (g : List (Nat × Str × RKind)) (d : Nat) : namesOf (flushCalls g d) = [] := by
  unfold namesOf flushCalls; rw [List.filterMap_map]
  exact List.filterMap_eq_nil_iff.2 (by intro _ _; rfl)

theorem flush_paths (g : List (Nat × Str × RKind)) (d : Nat) : pathsOf (flushCalls g d) = [] := by
  unfold pathsOf flushCalls; rw [List.filterMap_map]
  exact List.filterMap_eq_nil_iff.2 (by intro _ _; rfl)

theorem flush_commits (g : List (Nat × Str × RKind)) (d : Nat) : commitsOf (flushCalls g d) = [] := by
  unfold commitsOf flushCalls; rw [List.filterMap_map]
  exact List.filterMap_eq_nil_iff.2 (by intro _ _; rfl)

theorem flush_constraints (g : List (Nat × Str × RKind)) (d : Nat) : constraintsOf (flushCalls g d) = [] := by
  unfold constraintsOf flushCalls; rw [List.filterMap_map]
  exact List.filterMap_eq_nil_iff.2 (by intro _ _; rfl)

theorem groups_of_calls (g : List (Nat × Str × RKind)) :
    groupsOf (g.map fun g => .emplaceRelationship g.2.2 g.2.1) = g.map Prod.snd := by
  unfold groupsOf
  rw [List.filterMap_map]
  induction g with
  | nil => rfl
  | cons x xs ih => rw [List.filterMap_cons]; simp only [Function.comp, List.map_cons]; rw [← ih]

theorem flush_groups (g : List (Nat × Str × RKind)) (d : Nat) :
    groupsOf (flushCalls g d) = (g.filter fun x => x.1 = d).map Prod.snd := groups_of_calls _

theorem attrsOf_append (a b : List BCall) : attrsOf (a ++ b) = attrsOf a ++ attrsOf b := List.filterMap_append
theorem edgesOf_append (a b : List BCall) : edgesOf (a ++ b) = edgesOf a ++ edgesOf b := List.filterMap_append
theorem rootsOf_append (a b : List BCall) : rootsOf (a ++ b) = rootsOf a ++ rootsOf b := List.filterMap_append
theorem namesOf_append (a b : List BCall) : namesOf (a ++ b) = namesOf a ++ namesOf b := List.filterMap_append
theorem pathsOf_append (a b : List BCall) : pathsOf (a ++ b) = pathsOf a ++ pathsOf b := List.filterMap_append
theorem commitsOf_append (a b : List BCall) : commitsOf (a ++ b) = commitsOf a ++ commitsOf b := List.filterMap_append
theorem groupsOf_append (a b : List BCall) : groupsOf (a ++ b) = groupsOf a ++ groupsOf b := List.filterMap_append
theorem constraintsOf_append (a b : List BCall) : constraintsOf (a ++ b) = constraintsOf a ++ constraintsOf b :=
  List.filterMap_append

/-- The calls of one line. -/
theorem line_calls (a : Attr) (p c : Str) (g : List (Nat × Str × RKind)) (d : Nat) (cs : List BCall) :
    attrsOf (cs ++ [.makeFeature a] ++ .addEdge p c :: flushCalls g d) = attrsOf cs ++ [a] ∧
    edgesOf (cs ++ [.makeFeature a] ++ .addEdge p c :: flushCalls g d) = edgesOf cs ++ [(p, c)] ∧
    rootsOf (cs ++ [.makeFeature a] ++ .addEdge p c :: flushCalls g d) = rootsOf cs ∧
    namesOf (cs ++ [.makeFeature a] ++ .addEdge p c :: flushCalls g d) = namesOf cs ∧
    pathsOf (cs ++ [.makeFeature a] ++ .addEdge p c :: flushCalls g d) = pathsOf cs ∧
    commitsOf (cs ++ [.makeFeature a] ++ .addEdge p c :: flushCalls g d) = commitsOf cs ∧
    constraintsOf (cs ++ [.makeFeature a] ++ .addEdge p c :: flushCalls g d) = constraintsOf cs ∧
    groupsOf (cs ++ [.makeFeature a] ++ .addEdge p c :: flushCalls g d) =
      groupsOf cs ++ (g.filter fun x => x.1 = d).map Prod.snd := by
  have e : cs ++ [.makeFeature a] ++ .addEdge p c :: flushCalls g d =
      cs ++ ([.makeFeature a, .addEdge p c] ++ flushCalls g d) := by simp
  rw [e]
  refine ⟨?_, ?_, ?_, ?_, ?_, ?_, ?_, ?_⟩
  · rw [attrsOf_append, attrsOf_append, flush_attrs]; simp [attrsOf]
  · rw [edgesOf_append, edgesOf_append, flush_edges]; simp [edgesOf]
  · rw [rootsOf_append, rootsOf_append, flush_roots]; simp [rootsOf]
  · rw [namesOf_append, namesOf_append, flush_names]; simp [namesOf]
  · rw [pathsOf_append, pathsOf_append, flush_paths]; simp [pathsOf]
  · rw [commitsOf_append, commitsOf_append, flush_commits]; simp [commitsOf]
  · rw [constraintsOf_append, constraintsOf_append, flush_constraints]; simp [constraintsOf]
  · rw [groupsOf_append, groupsOf_append, flush_groups]; simp [groupsOf]

theorem perm_filter_split (g : List (Nat × Str × RKind)) (d : Nat) :
    ((g.filter fun x => decide (x.1 = d)) ++ g.filter fun x => decide (¬ x.1 = d)).Perm g := by
  have := List.filter_append_perm (fun x : Nat × Str × RKind => decide (x.1 = d)) g
  simpa using this

/-- The groups of one label. -/
def labelGroups (n : Label) (k : Nat) : List (Str × RKind) :=
  match n.kind with
  | .group g _ => [(n.called k, g)]
  | _ => []

theorem opened_groups (n : Label) (k d : Nat) : (opened d (n.called k) n.kind).map Prod.snd = labelGroups n k := by
  unfold opened labelGroups
  cases n.kind <;> rfl

theorem perm_line {A F R O : List (Str × RKind)} {G : List (Str × RKind)} (h : (F ++ R).Perm G) :
    (A ++ F ++ (O ++ R)).Perm (A ++ G ++ O) := by
  have h1 : (A ++ F ++ (O ++ R)).Perm (A ++ F ++ (R ++ O)) := List.Perm.append_left _ List.perm_append_comm
  refine h1.trans ?_
  have e : A ++ F ++ (R ++ O) = A ++ (F ++ R) ++ O := by simp
  rw [e]
  exact (List.Perm.append_left _ h).append_right _

theorem forest_groups_cons (n : Label) (c r : Forest) (k : Nat) : Forest.groups k (.cons n c r) =
    labelGroups n k ++ (c.groups (k + if n.name = none then 1 else 0) ++
      r.groups (k + (if n.name = none then 1 else 0) + c.unnamed)) := by
  rw [Forest.groups]; rfl

theorem treeLines_append (ind : Str) : ∀ (a b : List Str) (st : TreeSt),
    treeLines ind st (a ++ b) = (treeLines ind st a).bind fun st => treeLines ind st b
  | [], b, st => rfl
  | l :: ls, b, st => by
    rw [List.cons_append, treeLines, treeLines]
    cases treeLine ind st l with
    | ok st' => exact treeLines_append ind ls b st'
    | fail => rfl
    | crash => rfl

theorem read_forest {ind : Str} (hi : PlainIndent ind) : ∀ (f : Forest), f.Plain → ∀ (d : Nat) (p : Str) (st : TreeSt) (l : Nat),
    st.last = some l → d + 1 ≤ l + 1 → st.rootLevel < d + 1 → st.parents d = some p →
    ∃ st', treeLines ind st (f.lines ind (d + 1)) = .ok st' ∧ Reads f (d + 1) p st st'
  | .nil, _, d, p, st, l, hl, hd, _, _ => by
    refine ⟨st, rfl, ⟨⟨l, hl, hd⟩, rfl, rfl, fun _ _ => rfl, rfl, ?_, ?_, ?_, rfl, rfl, rfl, rfl, rfl⟩⟩
    · simp [Forest.attrs]
    · simp [Forest.edges]
    · simp [Forest.groups]
  | .cons n c r, h, d, p, st, l, hl, hd, hr, hp => by
    obtain ⟨hn, hc, hr'⟩ := h
    have e1 : treeLine ind st (times ind (d + 1) ++ n.text) = .ok (next st (d + 1) p n) := by
      rw [treeLine_text hi hn hl hd, enter_next hn hl hr hp]
    obtain ⟨st1, h1, r1⟩ := read_forest hi c hc (d + 1) (n.called st.counter) (next st (d + 1) p n) (d + 1) rfl (Nat.le_refl _)
      (by show st.rootLevel < _; omega) (by simp [next])
    obtain ⟨l1, hl1, hd1⟩ := r1.last
    obtain ⟨st2, h2, r2⟩ := read_forest hi r hr' d p st1 l1 hl1 (by omega)
      (by rw [r1.root]; exact hr) (by rw [r1.parents d (by omega)]; show (if d = d + 1 then _ else _) = _; rw [if_neg (by omega), hp])
    obtain ⟨l2, hl2, hd2⟩ := r2.last
    refine ⟨st2, ?_, ?_⟩
    · rw [Forest.lines, treeLines, e1]
      show treeLines ind (next st (d + 1) p n) (c.lines ind (d + 1 + 1) ++ r.lines ind (d + 1)) = _
      rw [treeLines_append, h1]
      exact h2
    · have hcalls := line_calls { name := n.called st.counter, kind := .binary, opt := n.kind.opt } p (n.called st.counter)
        st.groups (d + 1) st.calls
      obtain ⟨q1, q2, q3, q4, q5, q6, q7, q8⟩ := hcalls
      have hcnt : (next st (d + 1) p n).counter = st.counter + if n.name = none then 1 else 0 := rfl
      have hcnt1 : st1.counter = st.counter + (if n.name = none then 1 else 0) + c.unnamed := by rw [r1.counter, hcnt]
      refine ⟨⟨l2, hl2, hd2⟩, ?_, ?_, ?_, ?_, ?_, ?_, ?_, ?_, ?_, ?_, ?_, ?_⟩
      · rw [r2.root, r1.root]; rfl
      · rw [r2.counter, hcnt1, Forest.unnamed]; omega
      · intro i hi'
        rw [r2.parents i hi', r1.parents i (by omega)]
        show (if i = d + 1 then _ else _) = _
        rw [if_neg (by omega)]
      · rw [r2.table, r1.table]
        show _ ++ (_ ++ (_ ++ st.table)) = _
        rw [Forest.ids]
        simp only [List.reverse_append, List.append_assoc]
      · rw [r2.attrs, r1.attrs, hcnt1, hcnt]
        show attrsOf (st.calls ++ _ ++ _) ++ _ ++ _ = _
        rw [q1, Forest.attrs]
        simp only [List.append_assoc, List.cons_append, List.nil_append]
      · rw [r2.edges, r1.edges, hcnt1, hcnt]
        show edgesOf (st.calls ++ _ ++ _) ++ _ ++ _ = _
        rw [q2, Forest.edges]
        simp only [List.append_assoc, List.cons_append, List.nil_append]
      · refine r2.groups.trans ?_
        rw [forest_groups_cons, hcnt1]
        have g1 := r1.groups
        rw [hcnt] at g1
        have g0 : (groupsOf (next st (d + 1) p n).calls ++ (next st (d + 1) p n).groups.map Prod.snd).Perm
            (groupsOf st.calls ++ st.groups.map Prod.snd ++ labelGroups n st.counter) := by
          show (groupsOf (st.calls ++ _ ++ _) ++ (opened (d + 1) _ n.kind ++ _).map Prod.snd).Perm _
          rw [q8, List.map_append, opened_groups]
          apply perm_line
          rw [← List.map_append]
          exact (perm_filter_split st.groups (d + 1)).map _
        have g2 := (g1.trans (g0.append_right _)).append_right
          (Forest.groups (st.counter + (if n.name = none then 1 else 0) + c.unnamed) r)
        simpa only [List.append_assoc] using g2
      · rw [r2.roots, r1.roots]; exact q3
      · rw [r2.names, r1.names]; exact q4
      · rw [r2.paths, r1.paths]; exact q5
      · rw [r2.commits, r1.commits]; exact q6
      · rw [r2.constraints, r1.constraints]; exact q7

end Verif.Sxfm

namespace Verif.Sxfm
open Verif Verif.Spec

/-! ### The whole tree -/

/-- The root's line. -/
theorem readEntry_root {name : Str} {o : Option Str} (hn : PlainName name) (ho : ∀ i, o = some i → PlainId name i) :
    readEntry (c!":r " ++ name ++ idText o) 1 = .ok { isRoot := true, name := name, ids := o.toList } := by
  have hid : ∀ i, o = some i → ∀ c ∈ i, isIdChar c = true := fun i hi => (ho i hi).1
  have e : idents (c!":r " ++ name ++ idText o) = o.toList := by
    rw [List.append_assoc, idents_append (by decide), idents_append (fun hx => (hn.2 _ hx).2.2.1 rfl)]
    have := idents_idText hid (s := []) (by simp)
    simpa using this
  have e2 : nameIn ((c!":r " ++ name ++ idText o).drop 3) = name := by
    have := nameIn_title hn.2 hid (.inl rfl)
    simpa using this
  unfold readEntry
  rw [e, e2]
  rfl

/-- The state after the root's line. -/
def rootState (table : List (Str × Str)) (name : Str) (o : Option Str) : TreeSt where
  last := some 0
  rootLevel := 0
  counter := 0
  parents := fun l => if l = 0 then some name else none
  groups := []
  table := (o.toList.map fun i => (i, name)).reverse ++ table
  calls := [.makeRoot name]

theorem treeLine_root {ind name : Str} {o : Option Str} (hn : PlainName name)
    (ho : ∀ i, o = some i → PlainId name i) (table : List (Str × Str)) :
    treeLine ind { table := table } (c!":r " ++ name ++ idText o) = .ok (rootState table name o) := by
  have hlev : levelOf ind (c!":r " ++ name ++ idText o) = 0 := by
    unfold levelOf countSub
    have : upTo ':' (c!":r " ++ name ++ idText o) = [] := rfl
    rw [this]
    split <;> rfl
  have hok : idsOk { isRoot := true, name := name, ids := o.toList } = true := by
    unfold idsOk
    cases o with
    | none => rfl
    | some i =>
      simp only [Option.toList, List.all_cons, List.all_nil, Bool.and_true, Bool.or_eq_true, decide_eq_true_eq,
        Option.isNone_iff_eq_none]
      exact (ho i rfl).2.imp id findSub_none.2
  unfold treeLine
  rw [if_neg (not_blank (by simp)), if_neg (not_not_intro (by simp))]
  simp only [hlev]
  rw [if_neg (by simp), Nat.zero_mul, Nat.zero_add, readEntry_root hn ho]
  unfold SOut.bind enter
  simp only [hok, not_true_eq_false, if_false]
  have : entryName 0 { isRoot := true, name := name, ids := o.toList } = name := by
    unfold entryName; rw [if_neg hn.1]
  simp [this, rootState, flushCalls, hn.1]

/-- The calls that the parser makes for a feature tree. -/
structure TreeCalls (root : Str) (f : Forest) (calls : List BCall) : Prop where
  attrs : attrsOf calls = f.attrs 0
  edges : edgesOf calls = f.edges root 0
  groups : (groupsOf calls).Perm (f.groups 0)
  roots : rootsOf calls = [root]
  names : namesOf calls = []
  paths : pathsOf calls = []
  commits : commitsOf calls = []
  constraints : constraintsOf calls = []

theorem open_calls (g : List (Nat × Str × RKind)) :
    attrsOf (g.map fun g => .emplaceRelationship g.2.2 g.2.1) = [] ∧
    edgesOf (g.map fun g => .emplaceRelationship g.2.2 g.2.1) = [] ∧
    rootsOf (g.map fun g => .emplaceRelationship g.2.2 g.2.1) = [] ∧
    namesOf (g.map fun g => .emplaceRelationship g.2.2 g.2.1) = [] ∧
    pathsOf (g.map fun g => .emplaceRelationship g.2.2 g.2.1) = [] ∧
    commitsOf (g.map fun g => .emplaceRelationship g.2.2 g.2.1) = [] ∧
    constraintsOf (g.map fun g => .emplaceRelationship g.2.2 g.2.1) = [] := by
  refine ⟨?_, ?_, ?_, ?_, ?_, ?_, ?_⟩
  · unfold attrsOf; rw [List.filterMap_map]; exact List.filterMap_eq_nil_iff.2 (by intro _ _; rfl)
  · unfold edgesOf; rw [List.filterMap_map]; exact List.filterMap_eq_nil_iff.2 (by intro _ _; rfl)
  · unfold rootsOf; rw [List.filterMap_map]; exact List.filterMap_eq_nil_iff.2 (by intro _ _; rfl)
  · unfold namesOf; rw [List.filterMap_map]; exact List.filterMap_eq_nil_iff.2 (by intro _ _; rfl)
  · unfold pathsOf; rw [List.filterMap_map]; exact List.filterMap_eq_nil_iff.2 (by intro _ _; rfl)
  · unfold commitsOf; rw [List.filterMap_map]; exact List.filterMap_eq_nil_iff.2 (by intro _ _; rfl)
  · unfold constraintsOf; rw [List.filterMap_map]; exact List.filterMap_eq_nil_iff.2 (by intro _ _; rfl)

theorem lines_no_newline {ind : Str} (hi : PlainIndent ind) : ∀ (f : Forest) (d : Nat), f.Plain → ∀ l ∈ f.lines ind d, '\n' ∉ l
  | .nil, _, _, l, h => by cases h
  | .cons n c r, d, h, l, hl => by
    rw [Forest.lines] at hl
    rcases List.mem_cons.1 hl with rfl | hl
    · rw [List.mem_append]
      rintro (hx | hx)
      · exact (hi.2 _ (mem_times hx)).2.2.2 rfl
      · exact text_no_newline h.1 hx
    · rcases List.mem_append.1 hl with hl | hl
      · exact lines_no_newline hi c (d + 1) h.2.1 l hl
      · exact lines_no_newline hi r d h.2.2 l hl

theorem treeText_no_newline {ind : Str} (hi : PlainIndent ind) {name : Str} {o : Option Str} {f : Forest} (hn : PlainName name)
    (ho : ∀ i, o = some i → PlainId name i) (hf : f.Plain) : ∀ l ∈ treeText ind name o f, '\n' ∉ l := by
  intro l hl
  rcases List.mem_cons.1 hl with rfl | hl
  · simp only [List.mem_append]
    rintro ((hx | hx) | hx)
    · exact absurd hx (by decide)
    · exact (hn.2 _ hx).2.2.2 rfl
    · exact idText_no (fun i hi => (ho i hi).1) (by decide) (by decide) (by decide) hx
  · exact lines_no_newline hi f 1 hf l hl

/-- Reading the text of a feature tree. -/
theorem parseTree_text {ind : Str} (hi : PlainIndent ind) {name : Str} {o : Option Str} {f : Forest} (hn : PlainName name)
    (ho : ∀ i, o = some i → PlainId name i) (hf : f.Plain)
    {order : List (Nat × Str × RKind) → List (Nat × Str × RKind)} (hord : ∀ l, (order l).Perm l) (table : List (Str × Str)) :
    ∃ calls, parseTree order ind table (joinLines (treeText ind name o f)) =
        .ok (calls, f.ids.reverse ++ ((o.toList.map fun i => (i, name)).reverse ++ table)) ∧ TreeCalls name f calls := by
  obtain ⟨st, h1, r⟩ := read_forest hi f hf 0 name (rootState table name o) 0 rfl (Nat.le_refl _) (Nat.zero_lt_one) rfl
  refine ⟨st.calls ++ (order st.groups).map fun g => .emplaceRelationship g.2.2 g.2.1, ?_, ?_⟩
  · unfold parseTree
    rw [splitLines_join (treeText_no_newline hi hn ho hf), treeText, treeLines, treeLine_root hn ho]
    show SOut.bind (treeLines ind (rootState table name o) (f.lines ind 1)) _ = _
    rw [h1]
    show SOut.ok _ = _
    rw [r.table]
    rfl
  · obtain ⟨q1, q2, q3, q4, q5, q6, q7⟩ := open_calls (order st.groups)
    refine ⟨?_, ?_, ?_, ?_, ?_, ?_, ?_, ?_⟩
    · rw [attrsOf_append, q1, r.attrs]; simp [rootState, attrsOf]
    · rw [edgesOf_append, q2, r.edges]; simp [rootState, edgesOf]
    · rw [groupsOf_append, groups_of_calls]
      refine (List.Perm.append_left _ ((hord st.groups).map _)).trans (r.groups.trans ?_)
      simp [rootState, groupsOf]
    · rw [rootsOf_append, q3, r.roots]; simp [rootState, rootsOf]
    · rw [namesOf_append, q4, r.names]; simp [rootState, namesOf]
    · rw [pathsOf_append, q5, r.paths]; simp [rootState, pathsOf]
    · rw [commitsOf_append, q6, r.commits]; simp [rootState, commitsOf]
    · rw [constraintsOf_append, q7, r.constraints]; simp [rootState, constraintsOf]

/-! ### The edges of a tree -/

theorem edges_children (p : Str) : ∀ (f : Forest) (k : Nat), (f.edges p k).map Prod.snd = (f.attrs k).map Attr.name
  | .nil, _ => rfl
  | .cons n c r, k => by
    rw [Forest.edges, Forest.attrs]
    simp only [List.map_cons, List.map_append, edges_children (n.called k) c, edges_children p r]

/-- The parent of an edge comes before its child. -/
theorem edges_before : ∀ (f : Forest) (p : Str) (k : Nat) (e : Str × Str), e ∈ f.edges p k →
    ∃ a b, (f.attrs k).map Attr.name = a ++ e.2 :: b ∧ (e.1 = p ∨ e.1 ∈ a)
  | .nil, _, _, _, h => by cases h
  | .cons n c r, p, k, e, h => by
    rw [Forest.edges] at h
    rw [Forest.attrs]
    simp only [List.map_cons, List.map_append]
    rcases List.mem_cons.1 h with rfl | h
    · exact ⟨[], _, rfl, .inl rfl⟩
    · rcases List.mem_append.1 h with h | h
      · obtain ⟨a, b, h1, h2⟩ := edges_before c _ _ e h
        refine ⟨n.called k :: a, b ++ (r.attrs (k + (if n.name = none then 1 else 0) + c.unnamed)).map Attr.name, ?_, ?_⟩
        · rw [h1]; simp
        · rcases h2 with h2 | h2
          · exact .inr (by simp [h2])
          · exact .inr (by simp [h2])
      · obtain ⟨a, b, h1, h2⟩ := edges_before r _ _ e h
        refine ⟨n.called k :: ((c.attrs (k + if n.name = none then 1 else 0)).map Attr.name ++ a), b, ?_, ?_⟩
        · rw [h1]; simp
        · rcases h2 with h2 | h2
          · exact .inl h2
          · exact .inr (by simp [h2])

theorem find_edge : ∀ {es : List (Str × Str)} {e : Str × Str}, (es.map Prod.snd).Nodup → e ∈ es →
    es.find? (fun x => decide (x.2 = e.2)) = some e
  | [], _, _, h => by cases h
  | x :: xs, e, hnd, h => by
    rw [List.map_cons, List.nodup_cons] at hnd
    by_cases hx : x.2 = e.2
    · rcases List.mem_cons.1 h with rfl | h
      · simp
      · exact absurd (hx ▸ List.mem_map_of_mem h) hnd.1
    · rw [List.find?_cons_of_neg (by simpa using hx)]
      refine find_edge hnd.2 ((List.mem_cons.1 h).resolve_left ?_)
      rintro rfl
      exact hx rfl

theorem parentIn_edge {root : Str} {es : List (Str × Str)} {e : Str × Str} (hnd : (es.map Prod.snd).Nodup) (h : e ∈ es) :
    parentIn root es e.2 = e.1 := by
  unfold parentIn
  rw [find_edge hnd h]
  rfl

theorem groups_known_forest : ∀ (f : Forest) (k : Nat), ∀ g ∈ f.groups k, g.1 ∈ (f.attrs k).map Attr.name
  | .nil, _, _, h => by cases h
  | .cons n c r, k, g, h => by
    rw [forest_groups_cons] at h
    rw [Forest.attrs]
    simp only [List.map_cons, List.map_append, List.mem_cons, List.mem_append]
    rcases List.mem_append.1 h with h | h
    · left
      unfold labelGroups at h
      cases hk : n.kind <;> rw [hk] at h <;> simp at h
      rw [h]
    · right
      rcases List.mem_append.1 h with h | h
      · exact .inl (groups_known_forest c _ g h)
      · exact .inr (groups_known_forest r _ g h)

theorem groups_sublist : ∀ (f : Forest) (k : Nat), ((f.groups k).map Prod.fst).Sublist ((f.attrs k).map Attr.name)
  | .nil, _ => .slnil
  | .cons n c r, k => by
    rw [forest_groups_cons, Forest.attrs]
    simp only [List.map_cons, List.map_append]
    have h2 := (groups_sublist c (k + if n.name = none then 1 else 0)).append
      (groups_sublist r (k + (if n.name = none then 1 else 0) + c.unnamed))
    have h1 : ((labelGroups n k).map Prod.fst).Sublist [n.called k] := by
      unfold labelGroups
      cases n.kind
      · exact List.nil_sublist _
      · exact List.nil_sublist _
      · exact List.nil_sublist _
      · exact List.Sublist.refl _
    exact h1.append h2

theorem constraintsOf_map : ∀ cons : List (CKind × Constraint),
    constraintsOf (cons.map fun c => .addConstraint c.1 c.2) = cons
  | [] => rfl
  | x :: xs => by
    have ih := constraintsOf_map xs
    unfold constraintsOf at ih ⊢
    simp only [List.map_cons, List.filterMap_cons]
    rw [ih]

theorem idxOf_lt {l a b : List Str} {x y : Str} (hl : l = a ++ y :: b) (hnd : l.Nodup) (hx : x ∈ a) : l.idxOf x < l.idxOf y := by
  subst hl
  have hy : y ∉ a := by
    intro h
    have := (List.nodup_append.1 hnd).2.2 y h y (by simp)
    exact this rfl
  rw [List.idxOf_append, List.idxOf_append, if_pos hx, if_neg hy]
  have := List.idxOf_lt_length_of_mem hx
  omega

/-- The calls of a feature tree, with a model name and constraints, are buildable. -/
theorem buildable_tree {root : Str} {f : Forest} {calls cs : List BCall} {mn : Str} (h : TreeCalls root f calls)
    (hd : DistinctNames root f) {cons : List (CKind × Constraint)} (hcs : cs = cons.map fun c => .addConstraint c.1 c.2) :
    Buildable (.setVmName mn :: calls ++ cs) { treeDesc mn root f cons with groups := groupsOf calls } := by
  have ca : attrsOf cs = [] := by
    subst hcs; unfold attrsOf; rw [List.filterMap_map]; exact List.filterMap_eq_nil_iff.2 (by intro _ _; rfl)
  have cr : rootsOf cs = [] := by
    subst hcs; unfold rootsOf; rw [List.filterMap_map]; exact List.filterMap_eq_nil_iff.2 (by intro _ _; rfl)
  have cg : groupsOf cs = [] := by
    subst hcs; unfold groupsOf; rw [List.filterMap_map]; exact List.filterMap_eq_nil_iff.2 (by intro _ _; rfl)
  have cn : namesOf cs = [] := by
    subst hcs; unfold namesOf; rw [List.filterMap_map]; exact List.filterMap_eq_nil_iff.2 (by intro _ _; rfl)
  have cp : pathsOf cs = [] := by
    subst hcs; unfold pathsOf; rw [List.filterMap_map]; exact List.filterMap_eq_nil_iff.2 (by intro _ _; rfl)
  have cm : commitsOf cs = [] := by
    subst hcs; unfold commitsOf; rw [List.filterMap_map]; exact List.filterMap_eq_nil_iff.2 (by intro _ _; rfl)
  have cc : constraintsOf cs = cons := by rw [hcs, constraintsOf_map]
  have ha : attrsOf (.setVmName mn :: calls ++ cs) = f.attrs 0 := by
    rw [attrsOf_append, ca, List.append_nil]; exact h.attrs
  have hr : rootsOf (.setVmName mn :: calls ++ cs) = [root] := by
    rw [rootsOf_append, cr, List.append_nil]; exact h.roots
  have hg : groupsOf (.setVmName mn :: calls ++ cs) = groupsOf calls := by
    rw [groupsOf_append, cg, List.append_nil]; rfl
  have he : ∀ p c, .addEdge p c ∈ (.setVmName mn :: calls ++ cs : List BCall) ↔ (p, c) ∈ f.edges root 0 := by
    intro p c
    rw [← h.edges]
    unfold edgesOf
    rw [List.mem_filterMap]
    constructor
    · intro hx
      refine ⟨.addEdge p c, ?_, rfl⟩
      rcases List.mem_append.1 hx with hx | hx
      · rcases List.mem_cons.1 hx with hx | hx
        · cases hx
        · exact hx
      · subst hcs
        obtain ⟨y, _, hy⟩ := List.mem_map.1 hx
        cases hy
    · rintro ⟨x, hx, e⟩
      cases x <;> simp at e
      obtain ⟨rfl, rfl⟩ := e
      simp [hx]
  have hnd : ((f.edges root 0).map Prod.snd).Nodup := by
    rw [edges_children]; exact (List.nodup_cons.1 hd.1).2
  have hmem : ∀ n, n ∈ (f.attrs 0).map Attr.name → ∃ p, (p, n) ∈ f.edges root 0 := by
    intro n hn
    rw [← edges_children root] at hn
    obtain ⟨e, he, rfl⟩ := List.mem_map.1 hn
    exact ⟨e.1, he⟩
  refine ⟨ha.symm, ?_, ?_, .inr hr, ?_, ?_, ?_, ?_, ?_, hg.symm, ?_, ?_, ?_, ?_, ?_, ?_⟩
  · rw [ha]
    have : ∀ (f : Forest) (k : Nat), ∀ a ∈ f.attrs k, a.kind ≠ .root := by
      intro f
      induction f with
      | nil => intro k a ha; cases ha
      | cons n c r ih1 ih2 =>
        intro k a ha
        rw [Forest.attrs] at ha
        rcases List.mem_cons.1 ha with rfl | ha
        · simp
        · rcases List.mem_append.1 ha with ha | ha
          · exact ih1 _ a ha
          · exact ih2 _ a ha
    exact this f 0
  · rw [ha]; exact (List.nodup_cons.1 hd.1).2
  · rw [ha]; exact (List.nodup_cons.1 hd.1).1
  · rw [ha]; exact hd.2
  · intro p c hx
    rw [he] at hx
    rw [ha]
    obtain ⟨a, b, h1, h2⟩ := edges_before f root 0 _ hx
    refine ⟨by rw [h1]; simp, ?_, parentIn_edge hnd hx⟩
    rcases h2 with h2 | h2
    · exact .inl h2
    · exact .inr (by rw [h1]; simp [h2])
  · intro a ha' hno
    rw [ha] at ha'
    obtain ⟨p, hp⟩ := hmem a.name (List.mem_map_of_mem ha')
    exact absurd ((he p a.name).2 hp) (hno p)
  · refine ⟨fun n => (root :: (f.attrs 0).map Attr.name).idxOf n, ?_⟩
    intro a ha'
    rw [ha] at ha'
    obtain ⟨p, hp⟩ := hmem a.name (List.mem_map_of_mem ha')
    show List.idxOf (parentIn root (f.edges root 0) a.name) _ < _
    rw [parentIn_edge (e := (p, a.name)) hnd hp]
    obtain ⟨x, y, h1, h2⟩ := edges_before f root 0 _ hp
    refine idxOf_lt (a := root :: x) (b := y) (by rw [h1]; rfl) hd.1 ?_
    rcases h2 with h2 | h2
    · simp only at h2; rw [h2]; simp
    · simp [h2]
  · rw [hg]
    refine ((h.groups.map Prod.fst).nodup_iff).2 ?_
    exact (groups_sublist f 0).nodup (List.nodup_cons.1 hd.1).2
  · intro g hx
    rw [hg] at hx
    rw [ha]
    exact .inr (groups_known_forest f 0 g (h.groups.mem_iff.1 hx))
  · rw [constraintsOf_append, cc]
    have : constraintsOf (BCall.setVmName mn :: calls) = [] := h.constraints
    rw [this]
    rfl
  · right
    rw [namesOf_append, cn, List.append_nil]
    show mn :: namesOf calls = _
    rw [h.names]; rfl
  · left
    refine ⟨?_, rfl⟩
    rw [pathsOf_append, cp, List.append_nil]; exact h.paths
  · left
    refine ⟨?_, rfl⟩
    rw [commitsOf_append, cm, List.append_nil]; exact h.commits

end Verif.Sxfm

import Verif.Sxfm.Levels
import Verif.Solver.DescValid
/-!
# What a feature tree with clauses means

The selections of features that an SXFM document allows, read from the lines of the document.
-/

namespace Verif.Spec
open Verif Verif.Sxfm

def LineKind.isGroup : LineKind → Bool
  | .group _ _ => true
  | _ => false

/-- The names of the roots of the trees. -/
def Forest.tops : Nat → Forest → List Str
  | _, .nil => []
  | k, .cons n c r => n.called k :: r.tops (k + (if n.name = none then 1 else 0) + c.unnamed)

/-- What a cardinality demands of the members. -/
def CardHolds (sel : Str → Bool) (members : List Str) : RKind → Prop
  | .alternative => ∃ x ∈ members, sel x = true ∧ ∀ y ∈ members, sel y = true → y = x
  | .or => ∃ x ∈ members, sel x = true

/-- The selection respects the trees, which are below `p`; `grouped` says whether they are members of a
    group.  A selected feature has a selected parent; below a selected feature that is no group the
    mandatory features and the groups are selected; among the members of a selected group as many are
    selected as the cardinality says. -/
def Forest.Respects (sel : Str → Bool) (p : Str) (grouped : Bool) : Nat → Forest → Prop
  | _, .nil => True
  | k, .cons n c r =>
    (sel (n.called k) = true → sel p = true) ∧
    (grouped = false → (n.kind = .mandatory ∨ n.kind.isGroup = true) → sel p = true → sel (n.called k) = true) ∧
    (∀ q b, n.kind = .group q b → sel (n.called k) = true → CardHolds sel (c.tops (k + if n.name = none then 1 else 0)) q) ∧
    c.Respects sel (n.called k) n.kind.isGroup (k + if n.name = none then 1 else 0) ∧
    r.Respects sel p grouped (k + (if n.name = none then 1 else 0) + c.unnamed)

/-- Members are written below groups and only there; a group with cardinality one has members. -/
def Forest.WellPlaced (grouped : Bool) : Forest → Prop
  | .nil => True
  | .cons n c r =>
    (if grouped = true then n.kind = .member ∨ n.kind.isGroup = true else n.kind ≠ .member) ∧
    (∀ b, n.kind = .group .alternative b → c ≠ .nil) ∧ c.WellPlaced n.kind.isGroup ∧ r.WellPlaced grouped

/-- The name an identifier stands for. -/
def meantName (table : List (Str × Str)) (w : Str) : Str := (table.lookup w).getD w

/-- Some literal of the clause is true. -/
def ClauseLine.Holds (table : List (Str × Str)) (sel : Str → Bool) (c : ClauseLine) : Prop :=
  ∃ l ∈ c.lits, sel (meantName table l.2) = !l.1

/-- The selections that a document allows. -/
structure Permits (root : Str) (rootId : Option Str) (f : Forest) (cs : List ClauseLine) (sel : Str → Bool) : Prop where
  top : sel root = true
  tree : f.Respects sel root false 0
  clauses : ∀ c ∈ cs, c.Holds (treeTable root rootId f) sel

/-- All names in a document. -/
def docNames (root : Str) (f : Forest) : List Str := root :: (f.attrs 0).map Attr.name

/-- A configuration shows a selection: its options are the features, each with `true` or `false`. -/
structure ShowsSel (root : Str) (f : Forest) (sel : Str → Bool) (c : Config) : Prop where
  has : ∀ n ∈ docNames root f, c.value n = some (if sel n then c!"true" else c!"false")
  only : ∀ n, c.value n ≠ none → n ∈ docNames root f

/-- A list of all permitted selections, without repetition. -/
structure ListsAll (root : Str) (rootId : Option Str) (f : Forest) (cs : List ClauseLine) (l : List Config) : Prop where
  valid : ∀ c ∈ l, ∃ sel, Permits root rootId f cs sel ∧ ShowsSel root f sel c
  differ : l.Pairwise Differ
  all : ∀ sel, Permits root rootId f cs sel → ∃ c ∈ l, ShowsSel root f sel c

end Verif.Spec

namespace Verif.Sxfm
open Verif Verif.Spec

/-! ### The lines as a list -/

structure SNode where
  parent : Str
  grouped : Bool
  kind : LineKind
  name : Str
  kids : List Str

def nodes (p : Str) (g : Bool) : Nat → Forest → List SNode
  | _, .nil => []
  | k, .cons n c r =>
    ⟨p, g, n.kind, n.called k, c.tops (k + if n.name = none then 1 else 0)⟩ ::
      (nodes (n.called k) n.kind.isGroup (k + if n.name = none then 1 else 0) c ++
        nodes p g (k + (if n.name = none then 1 else 0) + c.unnamed) r)

theorem attrs_nodes (p : Str) (g : Bool) : ∀ (k : Nat) (f : Forest),
    f.attrs k = (nodes p g k f).map fun x => { name := x.name, kind := .binary, opt := x.kind.opt }
  | _, .nil => rfl
  | k, .cons n c r => by
    rw [Forest.attrs, nodes, List.map_cons, List.map_append, ← attrs_nodes (n.called k) n.kind.isGroup _ c, ← attrs_nodes p g _ r]

theorem edges_nodes (p : Str) (g : Bool) : ∀ (k : Nat) (f : Forest),
    f.edges p k = (nodes p g k f).map fun x => (x.parent, x.name)
  | _, .nil => rfl
  | k, .cons n c r => by
    rw [Forest.edges, nodes, List.map_cons, List.map_append, ← edges_nodes (n.called k) n.kind.isGroup _ c, ← edges_nodes p g _ r]

theorem mem_groups_nodes (p : Str) (g : Bool) (x : Str) (q : RKind) : ∀ (k : Nat) (f : Forest),
    (x, q) ∈ f.groups k ↔ ∃ y ∈ nodes p g k f, y.name = x ∧ ∃ b, y.kind = .group q b
  | _, .nil => by simp [Forest.groups, nodes]
  | k, .cons n c r => by
    rw [Forest.groups, nodes, List.mem_append, List.mem_append, mem_groups_nodes (n.called k) n.kind.isGroup x q _ c,
      mem_groups_nodes p g x q _ r]
    constructor
    · rintro (h | ⟨y, hy, h⟩ | ⟨y, hy, h⟩)
      · refine ⟨_, List.mem_cons_self .., ?_⟩
        cases hk : n.kind with
        | group q' b =>
          rw [hk] at h
          simp only [List.mem_singleton, Prod.mk.injEq] at h
          exact ⟨h.1.symm, b, by rw [h.2]⟩
        | _ => rw [hk] at h; cases h
      · exact ⟨y, List.mem_cons_of_mem _ (List.mem_append_left _ hy), h⟩
      · exact ⟨y, List.mem_cons_of_mem _ (List.mem_append_right _ hy), h⟩
    · rintro ⟨y, hy, h1, b, h2⟩
      rcases List.mem_cons.1 hy with rfl | hy
      · left
        dsimp only at h1 h2
        rw [h2, h1]
        exact List.mem_singleton_self _
      · rcases List.mem_append.1 hy with hy | hy
        · exact .inr (.inl ⟨y, hy, h1, b, h2⟩)
        · exact .inr (.inr ⟨y, hy, h1, b, h2⟩)

/-- What a line demands. -/
def NodeOk (sel : Str → Bool) (x : SNode) : Prop :=
  (sel x.name = true → sel x.parent = true) ∧
  (x.grouped = false → (x.kind = .mandatory ∨ x.kind.isGroup = true) → sel x.parent = true → sel x.name = true) ∧
  (∀ q b, x.kind = .group q b → sel x.name = true → CardHolds sel x.kids q)

theorem respects_nodes (sel : Str → Bool) (p : Str) (g : Bool) : ∀ (k : Nat) (f : Forest),
    f.Respects sel p g k ↔ ∀ x ∈ nodes p g k f, NodeOk sel x
  | _, .nil => by simp [Forest.Respects, nodes]
  | k, .cons n c r => by
    rw [Forest.Respects, nodes, List.forall_mem_cons, List.forall_mem_append,
      respects_nodes sel (n.called k) n.kind.isGroup _ c, respects_nodes sel p g _ r]
    exact ⟨fun ⟨h1, h2, h3, h4, h5⟩ => ⟨⟨h1, h2, h3⟩, h4, h5⟩, fun ⟨⟨h1, h2, h3⟩, h4, h5⟩ => ⟨h1, h2, h3, h4, h5⟩⟩

/-- The conditions of `WellPlaced` on one line. -/
def NodePlaced (x : SNode) : Prop :=
  (if x.grouped = true then x.kind = .member ∨ x.kind.isGroup = true else x.kind ≠ .member) ∧
  ∀ b, x.kind = .group .alternative b → x.kids ≠ []

theorem placed_nodes (p : Str) (g : Bool) : ∀ (k : Nat) (f : Forest), f.WellPlaced g → ∀ x ∈ nodes p g k f, NodePlaced x
  | _, .nil, _ => by simp [nodes]
  | k, .cons n c r, ⟨h1, h2, h3, h4⟩ => by
    rw [nodes, List.forall_mem_cons, List.forall_mem_append]
    refine ⟨⟨h1, fun b hb => ?_⟩, placed_nodes _ _ _ c h3, placed_nodes _ _ _ r h4⟩
    cases c with
    | nil => exact absurd rfl (h2 b hb)
    | cons => simp [Forest.tops]

theorem parent_nodes (p : Str) (g : Bool) : ∀ (k : Nat) (f : Forest), ∀ x ∈ nodes p g k f,
    (x.parent = p ∧ x.grouped = g) ∨ ∃ y ∈ nodes p g k f, y.name = x.parent ∧ x.grouped = y.kind.isGroup
  | _, .nil => by simp [nodes]
  | k, .cons n c r => by
    rw [nodes, List.forall_mem_cons, List.forall_mem_append]
    refine ⟨.inl ⟨rfl, rfl⟩, fun x hx => ?_, fun x hx => ?_⟩
    · rcases parent_nodes _ _ _ c x hx with ⟨h1, h2⟩ | ⟨y, hy, h⟩
      · exact .inr ⟨_, List.mem_cons_self .., h1.symm, h2⟩
      · exact .inr ⟨y, List.mem_cons_of_mem _ (List.mem_append_left _ hy), h⟩
    · rcases parent_nodes _ _ _ r x hx with h | ⟨y, hy, h⟩
      · exact .inl h
      · exact .inr ⟨y, List.mem_cons_of_mem _ (List.mem_append_right _ hy), h⟩

/-- The roots of the trees are the lines with the given parent. -/
theorem mem_tops (p : Str) (g : Bool) (y : Str) : ∀ (k : Nat) (f : Forest), p ∉ (nodes p g k f).map SNode.name →
    (y ∈ f.tops k ↔ ∃ z ∈ nodes p g k f, z.parent = p ∧ z.name = y)
  | _, .nil, _ => by simp [Forest.tops, nodes]
  | k, .cons n c r, h => by
    rw [nodes, List.map_cons, List.map_append] at h
    have h1 : p ≠ n.called k := fun e => h (by rw [e]; simp)
    have h2 : p ∉ (nodes (n.called k) n.kind.isGroup (k + if n.name = none then 1 else 0) c).map SNode.name :=
      fun e => h (List.mem_cons_of_mem _ (List.mem_append_left _ e))
    have h3 : p ∉ (nodes p g (k + (if n.name = none then 1 else 0) + c.unnamed) r).map SNode.name :=
      fun e => h (List.mem_cons_of_mem _ (List.mem_append_right _ e))
    rw [Forest.tops, nodes, List.mem_cons, mem_tops p g y _ r h3]
    constructor
    · rintro (rfl | ⟨z, hz, hzp⟩)
      · exact ⟨_, List.mem_cons_self .., rfl, rfl⟩
      · exact ⟨z, List.mem_cons_of_mem _ (List.mem_append_right _ hz), hzp⟩
    · rintro ⟨z, hz, hzp, hzn⟩
      rcases List.mem_cons.1 hz with rfl | hz
      · exact .inl hzn.symm
      · rcases List.mem_append.1 hz with hz | hz
        · rcases parent_nodes _ _ _ c z hz with ⟨e, _⟩ | ⟨w, hw, e, _⟩
          · exact absurd (hzp.symm.trans e) h1
          · exact absurd (List.mem_map.2 ⟨w, hw, e.trans hzp⟩) h2
        · exact .inr ⟨z, hz, hzp, hzn⟩

theorem mem_kids (p : Str) (g : Bool) : ∀ (k : Nat) (f : Forest), (p :: (nodes p g k f).map SNode.name).Nodup →
    ∀ x ∈ nodes p g k f, ∀ y, y ∈ x.kids ↔ ∃ z ∈ nodes p g k f, z.parent = x.name ∧ z.name = y
  | _, .nil, _ => by simp [nodes]
  | k, .cons n c r, h => by
    rw [nodes, List.map_cons, List.map_append] at h
    obtain ⟨h1, h⟩ := List.nodup_cons.1 h
    obtain ⟨h2, h⟩ := List.nodup_cons.1 h
    obtain ⟨hc, hr, hcr⟩ := List.nodup_append.1 h
    have hpn : p ≠ n.called k := fun e => h1 (by rw [e]; simp)
    have hpc := fun e => h1 (List.mem_cons_of_mem _ (List.mem_append_left _ e))
    have hpr := fun e => h1 (List.mem_cons_of_mem _ (List.mem_append_right _ e))
    have hnc := fun e => h2 (List.mem_append_left _ e)
    have hnr := fun e => h2 (List.mem_append_right _ e)
    rw [nodes, List.forall_mem_cons, List.forall_mem_append]
    refine ⟨fun y => ?_, fun x hx y => ?_, fun x hx y => ?_⟩
    · refine (mem_tops _ n.kind.isGroup y _ c hnc).trans ⟨fun ⟨z, hz, e⟩ => ⟨z, List.mem_cons_of_mem _ (List.mem_append_left _ hz), e⟩, ?_⟩
      rintro ⟨z, hz, e1, e2⟩
      rcases List.mem_cons.1 hz with rfl | hz
      · exact absurd e1 hpn
      · rcases List.mem_append.1 hz with hz | hz
        · exact ⟨z, hz, e1, e2⟩
        · rcases parent_nodes _ _ _ r z hz with ⟨e, _⟩ | ⟨w, hw, e, _⟩
          · exact absurd (e.symm.trans e1) hpn
          · exact absurd (List.mem_map.2 ⟨w, hw, e.trans e1⟩) hnr
    · refine (mem_kids _ _ _ c (List.nodup_cons.2 ⟨hnc, hc⟩) x hx y).trans
        ⟨fun ⟨z, hz, e⟩ => ⟨z, List.mem_cons_of_mem _ (List.mem_append_left _ hz), e⟩, ?_⟩
      have hxm := List.mem_map_of_mem (f := SNode.name) hx
      rintro ⟨z, hz, e1, e2⟩
      rcases List.mem_cons.1 hz with rfl | hz
      · exact absurd (show p ∈ _ from (show p = x.name from e1) ▸ hxm) hpc
      · rcases List.mem_append.1 hz with hz | hz
        · exact ⟨z, hz, e1, e2⟩
        · rcases parent_nodes _ _ _ r z hz with ⟨e, _⟩ | ⟨w, hw, e, _⟩
          · exact absurd (show p ∈ _ from (e.symm.trans e1) ▸ hxm) hpc
          · exact absurd (e.trans e1).symm (hcr _ hxm _ (List.mem_map_of_mem hw))
    · refine (mem_kids _ _ _ r (List.nodup_cons.2 ⟨hpr, hr⟩) x hx y).trans
        ⟨fun ⟨z, hz, e⟩ => ⟨z, List.mem_cons_of_mem _ (List.mem_append_right _ hz), e⟩, ?_⟩
      have hxm := List.mem_map_of_mem (f := SNode.name) hx
      rintro ⟨z, hz, e1, e2⟩
      rcases List.mem_cons.1 hz with rfl | hz
      · exact absurd (show p ∈ _ from (show p = x.name from e1) ▸ hxm) hpr
      · rcases List.mem_append.1 hz with hz | hz
        · rcases parent_nodes _ _ _ c z hz with ⟨e, _⟩ | ⟨w, hw, e, _⟩
          · exact absurd (show n.called k ∈ _ from (e.symm.trans e1) ▸ hxm) hnr
          · exact absurd (e.trans e1) (hcr _ (List.mem_map_of_mem hw) _ hxm)
        · exact ⟨z, hz, e1, e2⟩

/-! ### The tree as a description -/

section
variable {root mn : Str} {f : Forest} {cons : List (CKind × Constraint)}

theorem names_nodes (f : Forest) (root : Str) : (f.attrs 0).map Attr.name = (nodes root false 0 f).map SNode.name := by
  rw [attrs_nodes root false, List.map_map]; rfl

theorem parent_desc (hd : DistinctNames root f) {x : SNode} (hx : x ∈ nodes root false 0 f) :
    (treeDesc mn root f cons).parent x.name = x.parent := by
  have hnd : ((f.edges root 0).map Prod.snd).Nodup := by
    rw [edges_nodes root false, List.map_map]
    have := (List.nodup_cons.1 hd.1).2
    rw [names_nodes f root] at this
    exact this
  exact parentIn_edge (e := (x.parent, x.name)) hnd (by rw [edges_nodes root false]; exact List.mem_map.2 ⟨x, hx, rfl⟩)

theorem mem_attrs {a : Attr} : a ∈ (treeDesc mn root f cons).attrs ↔
    ∃ x ∈ nodes root false 0 f, a = { name := x.name, kind := .binary, opt := x.kind.opt } := by
  show a ∈ f.attrs 0 ↔ _
  rw [attrs_nodes root false, List.mem_map]
  exact ⟨fun ⟨x, h1, h2⟩ => ⟨x, h1, h2.symm⟩, fun ⟨x, h1, h2⟩ => ⟨x, h1, h2.symm⟩⟩

theorem no_num (n : Str) : ¬ DNum (treeDesc mn root f cons) n := by
  rintro ⟨a, ha, _, vs, st, hk⟩
  obtain ⟨x, _, rfl⟩ := mem_attrs.1 ha
  cases hk

theorem nodup_map_inj {α β} {g : α → β} : ∀ {l : List α}, (l.map g).Nodup → ∀ {x y : α}, x ∈ l → y ∈ l → g x = g y → x = y
  | a :: l, h, x, y, hx, hy, e => by
    obtain ⟨h1, h2⟩ := List.nodup_cons.1 (show (g a :: l.map g).Nodup from h)
    rcases List.mem_cons.1 hx with hx | hx'
    · rcases List.mem_cons.1 hy with hy | hy'
      · rw [hx, hy]
      · exact absurd (List.mem_map.2 ⟨y, hy', by rw [← e, hx]⟩) h1
    · rcases List.mem_cons.1 hy with hy | hy'
      · exact absurd (List.mem_map.2 ⟨x, hx', by rw [e, hy]⟩) h1
      · exact nodup_map_inj h2 hx' hy' e

theorem node_inj (hd : DistinctNames root f) {x y : SNode} (hx : x ∈ nodes root false 0 f) (hy : y ∈ nodes root false 0 f)
    (h : x.name = y.name) : x = y := by
  have := (List.nodup_cons.1 hd.1).2
  rw [names_nodes f root] at this
  exact nodup_map_inj this hx hy h

theorem root_no_node (hd : DistinctNames root f) {x : SNode} (hx : x ∈ nodes root false 0 f) : x.name ≠ root := by
  intro h
  have := (List.nodup_cons.1 hd.1).1
  rw [names_nodes f root] at this
  exact this (List.mem_map.2 ⟨x, hx, h⟩)

theorem mem_kids_desc (hd : DistinctNames root f) {x : SNode} (hx : x ∈ nodes root false 0 f) (n : Str) :
    (∃ a ∈ (treeDesc mn root f cons).kids x.name, a.name = n) ↔ n ∈ x.kids := by
  have hnd := hd.1
  rw [names_nodes f root] at hnd
  rw [mem_kids root false 0 f hnd x hx n]
  constructor
  · rintro ⟨a, ha, rfl⟩
    obtain ⟨h1, h2⟩ := List.mem_filter.1 ha
    obtain ⟨z, hz, rfl⟩ := mem_attrs.1 h1
    exact ⟨z, hz, by rw [← parent_desc (mn := mn) (cons := cons) hd hz]; exact of_decide_eq_true h2, rfl⟩
  · rintro ⟨z, hz, h1, rfl⟩
    exact ⟨_, List.mem_filter.2 ⟨mem_attrs.2 ⟨z, hz, rfl⟩, decide_eq_true (by rw [← h1]; exact parent_desc hd hz)⟩, rfl⟩

theorem mem_groups {n : Str} {q : RKind} : (n, q) ∈ (treeDesc mn root f cons).groups ↔
    ∃ y ∈ nodes root false 0 f, y.name = n ∧ ∃ b, y.kind = .group q b := mem_groups_nodes root false n q 0 f

/-- A line is grouped exactly if its parent has a group. -/
theorem grouped_iff (hd : DistinctNames root f) {x : SNode} (hx : x ∈ nodes root false 0 f) :
    x.grouped = false ↔ ∀ q, (x.parent, q) ∉ (treeDesc mn root f cons).groups := by
  rcases parent_nodes _ _ _ f x hx with ⟨h1, h2⟩ | ⟨y, hy, h1, h2⟩
  · rw [h1, h2]
    refine iff_of_true rfl fun q hq => ?_
    obtain ⟨y, hy, h, _⟩ := mem_groups.1 hq
    exact root_no_node hd hy h
  · constructor
    · intro h q hq
      obtain ⟨z, hz, h3, b, h4⟩ := mem_groups.1 hq
      have := node_inj hd hy hz (h1.trans h3.symm)
      subst this
      rw [h2, h4] at h
      cases h
    · intro h
      rw [h2]
      cases hk : y.kind with
      | group q b => exact absurd (mem_groups.2 ⟨y, hy, h1, b, hk⟩) (h q)
      | _ => rfl

theorem opt_iff {k : LineKind} : k.opt = false ↔ k ≠ .optional := by
  cases k <;> simp [LineKind.opt]

/-- The tree part of validity is respect for the lines. -/
theorem descTree_iff (hd : DistinctNames root f) (hw : f.WellPlaced false) {F : IntFloats} {a : Assign} :
    DescTree F (treeDesc mn root f cons) a ↔ a.bool root = true ∧ f.Respects a.bool root false 0 := by
  have hpl := placed_nodes root false 0 f hw
  rw [respects_nodes a.bool root false 0 f]
  constructor
  · intro v
    refine ⟨v.root, fun x hx => ⟨fun h => ?_, fun h1 h2 h3 => ?_, fun q b h1 h2 => ?_⟩⟩
    · have := v.parent _ (mem_attrs.2 ⟨x, hx, rfl⟩) rfl h
      rwa [parent_desc hd hx] at this
    · refine v.mandatory _ (mem_attrs.2 ⟨x, hx, rfl⟩) rfl ?_ ?_ ?_
      · refine opt_iff.2 fun e => ?_
        rcases h2 with h2 | h2 <;> rw [e] at h2 <;> cases h2
      · intro k
        show ((treeDesc mn root f cons).parent x.name, k) ∉ _
        rw [parent_desc hd hx]
        exact (grouped_iff hd hx).1 h1 k
      · show a.bool ((treeDesc mn root f cons).parent x.name) = true
        rw [parent_desc hd hx]; exact h3
    · have hg := (mem_groups (mn := mn) (cons := cons)).2 ⟨x, hx, rfl, b, h1⟩
      cases q with
      | alternative =>
        obtain ⟨y, hy, h3, h4⟩ := v.alternative _ hg h2
        refine ⟨y.name, (mem_kids_desc hd hx _).1 ⟨y, hy, rfl⟩, h3, fun z hz h5 => ?_⟩
        obtain ⟨w, hw, rfl⟩ := (mem_kids_desc (mn := mn) (cons := cons) hd hx _).2 hz
        exact h4 w hw h5
      | or =>
        obtain ⟨y, hy, h3⟩ := v.or _ hg h2
        exact ⟨y.name, (mem_kids_desc hd hx _).1 ⟨y, hy, rfl⟩, h3⟩
  · rintro ⟨hroot, h⟩
    refine ⟨hroot, ?_, ?_, ?_, ?_, ?_⟩
    · intro y hy _ h1
      obtain ⟨x, hx, rfl⟩ := mem_attrs.1 hy
      show a.bool ((treeDesc mn root f cons).parent x.name) = true
      rw [parent_desc hd hx]
      exact (h x hx).1 h1
    · intro y hy _ h1 h2 h3
      obtain ⟨x, hx, rfl⟩ := mem_attrs.1 hy
      have e : (treeDesc mn root f cons).parent x.name = x.parent := parent_desc hd hx
      have hg : x.grouped = false := (grouped_iff (mn := mn) (cons := cons) hd hx).2 (by
        intro q
        rw [← e]
        exact h2 q)
      refine (h x hx).2.1 hg ?_ (by rw [← e]; exact h3)
      have hp := (hpl x hx).1
      rw [if_neg (by simp [hg])] at hp
      have ho := opt_iff.1 h1
      cases hk : x.kind with
      | mandatory => exact .inl rfl
      | optional => exact absurd hk ho
      | member => exact absurd hk hp
      | group q b => exact .inr rfl
    · intro n hn h1
      obtain ⟨x, hx, rfl, b, hk⟩ := mem_groups.1 hn
      obtain ⟨y, hy, h2, h3⟩ := (h x hx).2.2 _ _ hk h1
      obtain ⟨w, hw, rfl⟩ := (mem_kids_desc (mn := mn) (cons := cons) hd hx _).2 hy
      exact ⟨w, hw, h2, fun z hz h4 => h3 z.name ((mem_kids_desc hd hx _).1 ⟨z, hz, rfl⟩) h4⟩
    · intro n hn h1
      obtain ⟨x, hx, rfl, b, hk⟩ := mem_groups.1 hn
      obtain ⟨y, hy, h2⟩ := (h x hx).2.2 _ _ hk h1
      obtain ⟨w, hw, rfl⟩ := (mem_kids_desc (mn := mn) (cons := cons) hd hx _).2 hy
      exact ⟨w, hw, h2⟩
    · intro y hy vs st hk
      obtain ⟨x, hx, rfl⟩ := mem_attrs.1 hy
      cases hk

/-! ### Clauses -/

/-- Only positive literals. -/
def Positive (c : ClauseLine) : Prop := ∀ l ∈ c.lits, l.1 = false

theorem meaning_clause {d : Desc} (hn : ∀ n, ¬ DNum d n) (a : Assign) : ∀ (ls : List Lit) (c : Constraint) (b : Bool),
    (∀ l ∈ ls, l.1 = false) → meaning (dvalue d a) a.div0 c = some (.bool b) →
    meaning (dvalue d a) a.div0 (ls.foldl (fun c l => .bin .or c (Lit.constraint l)) c) =
      some (.bool (b || ls.any fun l => a.bool l.2))
  | [], c, b, _, h => by simpa using h
  | l :: ls, c, b, hl, h => by
    have h1 := hl l (by simp)
    rw [List.foldl_cons, meaning_clause hn a ls _ (b || a.bool l.2) (fun x hx => hl x (by simp [hx]))]
    · simp [Bool.or_assoc]
    · have : Lit.constraint l = .feature l.2 := by simp [Lit.constraint, h1]
      rw [this, meaning, h, meaning]
      simp [dvalue, hn, opMeaning]

theorem sort_clause {d : Desc} (hn : ∀ n, ¬ DNum d n) : ∀ (ls : List Lit) (c : Constraint),
    (∀ l ∈ ls, l.1 = false) → sortOf (dsort d) c = some .bool →
    sortOf (dsort d) (ls.foldl (fun c l => .bin .or c (Lit.constraint l)) c) = some .bool
  | [], c, _, h => h
  | l :: ls, c, hl, h => by
    have h1 := hl l (by simp)
    refine sort_clause hn ls _ (fun x hx => hl x (by simp [hx])) ?_
    have : Lit.constraint l = .feature l.2 := by simp [Lit.constraint, h1]
    show sortOf (dsort d) (.bin .or c (Lit.constraint l)) = _
    rw [this, sortOf, h, sortOf]
    simp [dsort, hn, opSort]

theorem noXor_clause : ∀ (ls : List Lit) (c : Constraint), NoXor c →
    NoXor (ls.foldl (fun c l => .bin .or c (Lit.constraint l)) c)
  | [], _, h => h
  | l :: ls, c, h => by
    refine noXor_clause ls _ ⟨by decide, h, ?_⟩
    unfold Lit.constraint
    split <;> exact trivial

theorem features_clause : ∀ (ls : List Lit) (c : Constraint),
    (ls.foldl (fun c l => .bin .or c (Lit.constraint l)) c).features = c.features ++ ls.map Prod.snd
  | [], c => by simp
  | l :: ls, c => by
    rw [List.foldl_cons, features_clause ls]
    have : (Lit.constraint l).features = [l.2] := by unfold Lit.constraint; split <;> rfl
    simp [Constraint.features, this]

/-! ### The whole document -/

/-- The constraints of the clauses. -/
def clauseCons (table : List (Str × Str)) (cs : List ClauseLine) : List (CKind × Constraint) :=
  cs.map fun c => (.boolean, c.constraint table)

theorem clauseCons_holds {d : Desc} (hn : ∀ n, ¬ DNum d n) (a : Assign) {table : List (Str × Str)} {c : ClauseLine} (hp : Positive c) :
    DHolds d a (.boolean, c.constraint table) ↔ c.Holds table a.bool := by
  have h1 : (Lit.rename table c.first).1 = false := hp c.first (by simp [ClauseLine.lits])
  have h0 : Lit.constraint (Lit.rename table c.first) = .feature (Lit.rename table c.first).2 := by simp [Lit.constraint, h1]
  have h2 := meaning_clause hn a (c.rest.map (Lit.rename table)) (Lit.constraint (Lit.rename table c.first))
    (a.bool (Lit.rename table c.first).2) (by
      intro l hl
      obtain ⟨l', h, rfl⟩ := List.mem_map.1 hl
      exact hp l' (by simp [ClauseLine.lits, h])) (by rw [h0, meaning]; simp [dvalue, hn])
  show meaning (dvalue d a) a.div0 (clauseConstraint _ _) = some (.bool true) ↔ _
  unfold clauseConstraint
  rw [h2]
  simp only [Option.some.injEq, ZVal.bool.injEq, Bool.or_eq_true, List.any_map, List.any_eq_true, Function.comp_apply]
  unfold ClauseLine.Holds ClauseLine.lits
  constructor
  · rintro (h | ⟨l, hl, h⟩)
    · exact ⟨c.first, by simp, by rw [hp c.first (by simp [ClauseLine.lits])]; exact h⟩
    · exact ⟨l, by simp [hl], by rw [hp l (by simp [ClauseLine.lits, hl])]; exact h⟩
  · rintro ⟨l, hl, h⟩
    rw [hp l hl] at h
    rcases List.mem_cons.1 hl with rfl | hl
    · exact .inl h
    · exact .inr ⟨l, hl, h⟩

theorem permits_iff (hd : DistinctNames root f) (hw : f.WellPlaced false) {o : Option Str} {cs : List ClauseLine}
    (hp : ∀ c ∈ cs, Positive c) {F : IntFloats} {a : Assign} :
    DescValid F (treeDesc mn root f (clauseCons (treeTable root o f) cs)) a ↔ Permits root o f cs a.bool := by
  rw [descValid_iff, descTree_iff hd hw]
  constructor
  · rintro ⟨⟨h1, h2⟩, h3⟩
    exact ⟨h1, h2, fun c hc => (clauseCons_holds no_num a (hp c hc)).1 (h3 _ (List.mem_map.2 ⟨c, hc, rfl⟩))⟩
  · rintro ⟨h1, h2, h3⟩
    refine ⟨⟨h1, h2⟩, fun x hx => ?_⟩
    obtain ⟨c, hc, rfl⟩ := List.mem_map.1 hx
    exact (clauseCons_holds no_num a (hp c hc)).2 (h3 c hc)

theorem clear_tree (F : IntFloats) (hd : DistinctNames root f) (hw : f.WellPlaced false) {o : Option Str} {cs : List ClauseLine}
    (hz : ∀ n ∈ docNames root f, Char.ofNat 0 ∉ n) (hp : ∀ c ∈ cs, Positive c)
    (hk : ConstraintsKnown (treeDesc mn root f (clauseCons (treeTable root o f) cs))) :
    DescClear F (treeDesc mn root f (clauseCons (treeTable root o f) cs)) where
  root := hz root (by simp [docNames])
  names := fun x hx => hz x.name (List.mem_cons_of_mem _ (List.mem_map_of_mem hx))
  leaves := fun x hx n hn => by
    refine hz n ?_
    rcases hk x hx n hn with h | h
    · exact h ▸ List.mem_cons_self ..
    · exact List.mem_cons_of_mem _ h
  kinds := fun x hx h => by obtain ⟨y, _, rfl⟩ := mem_attrs.1 hx; cases h
  ranges := fun x hx lo hi st h => by obtain ⟨y, _, rfl⟩ := mem_attrs.1 hx; cases h
  parents := fun _ _ _ => no_num _
  owners := fun _ _ => no_num _
  members := fun g _ x hx => by obtain ⟨y, _, rfl⟩ := mem_attrs.1 (List.mem_filter.1 hx).1; rfl
  nonempty := fun g hg h => by
    obtain ⟨n, q⟩ := g
    cases h
    obtain ⟨x, hx, rfl, b, hk⟩ := mem_groups.1 hg
    have := (placed_nodes root false 0 f hw x hx).2 b hk
    obtain ⟨y, hy⟩ := List.exists_mem_of_ne_nil _ this
    obtain ⟨w, hw, _⟩ := (mem_kids_desc (mn := mn) (cons := clauseCons (treeTable root o f) cs) hd hx _).2 hy
    exact List.ne_nil_of_mem hw
  sorts := fun x hx => by
    obtain ⟨c, hc, rfl⟩ := List.mem_map.1 hx
    show sortOf _ (clauseConstraint _ _) = _
    refine sort_clause no_num _ _ ?_ ?_
    · intro l hl
      obtain ⟨l', h, rfl⟩ := List.mem_map.1 hl
      exact hp c hc l' (by simp [ClauseLine.lits, h])
    · have h1 : (Lit.rename (treeTable root o f) c.first).1 = false := hp c hc c.first (by simp [ClauseLine.lits])
      have : Lit.constraint (Lit.rename (treeTable root o f) c.first) = .feature (Lit.rename (treeTable root o f) c.first).2 := by
        simp [Lit.constraint, h1]
      rw [this, sortOf]
      simp [dsort, no_num]

theorem noXor_doc {table : List (Str × Str)} {cs : List ClauseLine} : ∀ x ∈ clauseCons table cs, NoXor x.2 := by
  intro x hx
  obtain ⟨c, _, rfl⟩ := List.mem_map.1 hx
  refine noXor_clause _ _ ?_
  unfold Lit.constraint
  split <;> exact trivial

/-- An assignment with the given selection. -/
def assignOf (sel : Str → Bool) : Assign := ⟨sel, fun _ => 0, fun _ => 0⟩

theorem showsSel_iff {a : Assign} {c : Config} : DescShows (treeDesc mn root f cons) a c ↔ ShowsSel root f a.bool c := by
  have hv : ∀ x ∈ (treeDesc mn root f cons).attrs, written (attrValue x a) = if a.bool x.name then c!"true" else c!"false" := by
    intro x hx
    obtain ⟨y, _, rfl⟩ := mem_attrs.1 hx
    show written (.bool (a.bool y.name)) = if a.bool y.name then _ else _
    cases a.bool y.name <;> rfl
  have hr : written (.bool (a.bool root)) = if a.bool root then c!"true" else c!"false" := by cases a.bool root <;> rfl
  constructor
  · intro h
    refine ⟨fun n hn => ?_, fun n hn => ?_⟩
    · rcases List.mem_cons.1 hn with rfl | hn
      · rw [← hr]; exact h.root
      · obtain ⟨x, hx, rfl⟩ := List.mem_map.1 hn
        rw [← hv x hx]; exact h.has x hx
    · rcases h.only n hn with rfl | h
      · exact List.mem_cons_self ..
      · exact List.mem_cons_of_mem _ h
  · intro h
    refine ⟨?_, fun x hx => ?_, fun n hn => ?_⟩
    · show _ = some (written (.bool (a.bool root)))
      rw [hr]; exact h.has root (List.mem_cons_self ..)
    · rw [hv x hx]; exact h.has x.name (List.mem_cons_of_mem _ (List.mem_map_of_mem hx))
    · rcases List.mem_cons.1 (h.only n hn) with h | h
      · exact .inl h
      · exact .inr h

theorem listsAll_iff (hd : DistinctNames root f) (hw : f.WellPlaced false) {o : Option Str} {cs : List ClauseLine}
    (hp : ∀ c ∈ cs, Positive c) {F : IntFloats} {l : List Config}
    (h : DescEnumerates F (treeDesc mn root f (clauseCons (treeTable root o f) cs)) l) : ListsAll root o f cs l := by
  refine ⟨fun c hc => ?_, h.differ, fun sel hs => ?_⟩
  · obtain ⟨a, h1, h2⟩ := h.valid c hc
    exact ⟨a.bool, (permits_iff hd hw hp).1 h1, showsSel_iff.1 h2⟩
  · obtain ⟨c, hc, h2⟩ := h.all (assignOf sel) ((permits_iff hd hw hp).2 hs)
    exact ⟨c, hc, showsSel_iff.1 h2⟩

/-! ### Negated literals -/

/-- No feature that is bound here is numeric. -/
def NoNumBound (m : FModel) (bs : List (Option Id)) : Prop :=
  ∀ i, some i ∈ bs → ∀ f, m.feat? i = some f → ∀ vs st, f.attr.kind ≠ .numeric vs st

theorem visitFeature_bool {m : FModel} {n : Str} {b : Option Id} {vars : ZTerm} {t v : ZTerm}
    (h : Z3Solver.visitFeature m false n b vars = some (t, v)) (hb : NoNumBound m [b]) : t.sort = .bool := by
  unfold Z3Solver.visitFeature at h
  cases b with
  | none => simp only [Bool.false_eq_true, if_false, Option.some.injEq, Prod.mk.injEq] at h; rw [← h.1]; rfl
  | some i =>
    cases hf : m.feat? i with
    | none => simp [hf] at h
    | some f =>
      simp only [hf, Bool.false_eq_true, if_false] at h
      cases hk : f.attr.kind with
      | numeric vs st => exact absurd hk (hb i (by simp) f hf vs st)
      | _ => simp only [hk, Option.some.injEq, Prod.mk.injEq] at h; rw [← h.1]; rfl

theorem visit_lit {m : FModel} {l : Lit} {bs bs' : List (Option Id)} {vars vars' t : ZTerm}
    (h : Z3Solver.visit m false (Lit.constraint l) bs vars = some (t, bs', vars')) (hb : NoNumBound m bs) :
    l.1 = false ∧ NoNumBound m bs' := by
  have key : ∀ {t}, Z3Solver.visit m false (.feature l.2) bs vars = some (t, bs', vars') → t.sort = .bool ∧ NoNumBound m bs' := by
    intro t h
    cases bs with
    | nil => cases h
    | cons b bs =>
      rw [Z3Solver.visit] at h
      cases hv : Z3Solver.visitFeature m false l.2 b vars with
      | none => simp [hv] at h
      | some x =>
        obtain ⟨t', v⟩ := x
        simp only [hv, Option.map_some, Option.some.injEq, Prod.mk.injEq] at h
        obtain ⟨rfl, rfl, rfl⟩ := h
        exact ⟨visitFeature_bool hv (fun i hi => hb i (by simp at hi; simp [hi])), fun i hi => hb i (by simp [hi])⟩
  unfold Lit.constraint at h
  cases hl : l.1 with
  | false => rw [hl] at h; exact ⟨rfl, (key h).2⟩
  | true =>
    rw [hl, if_pos rfl, Z3Solver.visit] at h
    cases hv : Z3Solver.visit m false (.feature l.2) bs vars with
    | none => simp [hv] at h
    | some x =>
      obtain ⟨t', bs'', v⟩ := x
      simp only [hv] at h
      cases hm : ZTerm.mkNeg t' with
      | none => simp [hm] at h
      | some t'' =>
        simp only [hm, Option.map_some, Option.some.injEq, Prod.mk.injEq] at h
        obtain ⟨rfl, rfl, rfl⟩ := h
        have := (key hv).1
        unfold ZTerm.mkNeg at hm
        rw [this] at hm
        cases hm

theorem visit_clause {m : FModel} : ∀ (ls : List Lit) (c : Constraint) {bs bs' : List (Option Id)} {vars vars' t : ZTerm},
    Z3Solver.visit m false (ls.foldl (fun c l => .bin .or c (Lit.constraint l)) c) bs vars = some (t, bs', vars') →
    NoNumBound m bs →
    (∀ {bs' : List (Option Id)} {vars' t : ZTerm}, Z3Solver.visit m false c bs vars = some (t, bs', vars') → NoNumBound m bs') →
    (∀ l ∈ ls, l.1 = false) ∧ ∃ t bs' vars', Z3Solver.visit m false c bs vars = some (t, bs', vars')
  | [], c, bs, bs', vars, vars', t, h, _, _ => ⟨by simp, t, bs', vars', h⟩
  | l :: ls, c, bs, bs', vars, vars', t, h, hb, hc => by
    have inv : ∀ {bs' : List (Option Id)} {vars' t : ZTerm},
        Z3Solver.visit m false (.bin .or c (Lit.constraint l)) bs vars = some (t, bs', vars') →
        NoNumBound m bs' ∧ l.1 = false ∧ ∃ t bs' vars', Z3Solver.visit m false c bs vars = some (t, bs', vars') := by
      intro bs' vars' t h
      rw [Z3Solver.visit] at h
      cases hv : Z3Solver.visit m false c bs vars with
      | none => simp [hv] at h
      | some x =>
        obtain ⟨t1, bs1, v1⟩ := x
        simp only [hv] at h
        cases hv2 : Z3Solver.visit m false (Lit.constraint l) bs1 v1 with
        | none => simp [hv2] at h
        | some y =>
          obtain ⟨t2, bs2, v2⟩ := y
          obtain ⟨h1, h2⟩ := visit_lit hv2 (hc hv)
          simp only [hv2] at h
          cases hb : Z3Solver.visitBin .or t1 t2 with
          | none => simp [hb] at h
          | some t3 =>
            simp only [hb, Option.map_some, Option.some.injEq, Prod.mk.injEq] at h
            obtain ⟨rfl, rfl, rfl⟩ := h
            exact ⟨h2, h1, t1, bs1, v1, rfl⟩
    obtain ⟨h1, t', bs1, v1, h2⟩ := visit_clause ls _ h hb (fun h => (inv h).1)
    obtain ⟨_, h3, h4⟩ := inv h2
    refine ⟨?_, h4⟩
    intro l' hl'
    rcases List.mem_cons.1 hl' with rfl | hl'
    · exact h3
    · exact h1 l' hl'

/-- A clause with a negated literal cannot be translated. -/
theorem visit_negated {m : FModel} {table : List (Str × Str)} {c : ClauseLine} {bs : List (Option Id)} (hb : NoNumBound m bs)
    (h : ¬ Positive c) (vars : ZTerm) : Z3Solver.visit m false (c.constraint table) bs vars = none := by
  cases hv : Z3Solver.visit m false (c.constraint table) bs vars with
  | none => rfl
  | some x =>
    obtain ⟨t, bs', v⟩ := x
    obtain ⟨h1, t', bs1, v1, h2⟩ := visit_clause _ _ hv hb (fun h => (visit_lit h hb).2)
    refine absurd ?_ h
    intro l hl
    rcases List.mem_cons.1 hl with rfl | hl
    · exact (visit_lit h2 hb).1
    · exact h1 (Lit.rename table l) (List.mem_map_of_mem hl)

end

end Verif.Sxfm

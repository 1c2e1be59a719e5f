import Verif.FM.Traverse
/-!
# Reading the tree node by node

What the Python class `FeatureTreeNode` offers (`/repo/bindings/python/vara-feature/pybind_Feature.cpp:13-38`) over
`/repo/include/vara/Feature/FeatureTreeNode.h:54-77`, and the two programs everyone writes with it: going down through
`children()` by recursion, and going up through `parent()`.  `none`: an object that was freed is used, or the recursion
is cut off.
-/

namespace Verif
open Verif.Spec

namespace FModel

/-- `parent()` (pybind_Feature.cpp:33-34, FeatureTreeNode.h:54). -/
def nodeParent (m : FModel) (i : Id) : Option (Option Id) := (m.heap i).map (·.parent)

/-- `children()` and `iter()`, to the end (pybind_Feature.cpp:17-28, FeatureTreeNode.h:63-73). -/
def nodeChildren (m : FModel) (i : Id) : Option (List Id) := (m.heap i).map (·.edges)

/-- `is_child` (pybind_Feature.cpp:29-30, FeatureTreeNode.h:75-77). -/
def hasEdgeTo (m : FModel) (i c : Id) : Option Bool := (m.heap i).map (fun n => n.edges.contains c)

/-- `is_parent` (pybind_Feature.cpp:35-36, FeatureTreeNode.h:56-58). -/
def hasEdgeFrom (m : FModel) (i p : Id) : Option Bool := (m.heap i).map (fun n => decide (n.parent = some p))

/-- `isLeaf` (FeatureTreeNode.h:95-99). -/
def isLeaf (m : FModel) (i : Id) : Option Bool := (m.heap i).map (·.edges.isEmpty)

mutual
/-- `def walk(n): yield n; for c in n.children(): yield from walk(c)`, with a bound on the depth of the recursion. -/
def walk (m : FModel) : Nat → Id → Option (List Id)
  | 0, _ => none
  | fuel + 1, i => (m.nodeChildren i).bind fun cs => (m.walkAll fuel cs).map (i :: ·)
/-- The loop of `walk`. -/
def walkAll (m : FModel) : Nat → List Id → Option (List Id)
  | _, [] => some []
  | fuel, c :: cs => (m.walk fuel c).bind fun a => (m.walkAll fuel cs).map (a ++ ·)
end

/-- `while n: yield n; n = n.parent()`, with a bound on the number of rounds. -/
def climb (m : FModel) : Nat → Id → Option (List Id)
  | 0, _ => none
  | fuel + 1, i => (m.nodeParent i).bind fun
    | none => some [i]
    | some p => (m.climb fuel p).map (i :: ·)

end FModel

theorem nodeChildren_eq {m : FModel} {i : Id} {d : NodeData} (h : data m i = some d) : m.nodeChildren i = some (edg m i) := by
  simp [FModel.nodeChildren, heap_of_data h]

theorem nodeParent_eq {m : FModel} {i : Id} {d : NodeData} (h : data m i = some d) : m.nodeParent i = some (par m i) := by
  simp [FModel.nodeParent, heap_of_data h]

/-- The recursion visits the subtree, each node once, nothing before what is above it. -/
theorem walk_spec {m : FModel} (w : WF m) (fuel : Nat) : ∀ i, Owned m i → m.next < fuel + lvlOf m i →
    ∃ l, m.walk fuel i = some (i :: l) ∧ (i :: l).Nodup ∧ (∀ x, x ∈ i :: l ↔ Owned m x ∧ Below m i x) ∧
      (i :: l).Pairwise (fun a b => ¬ Below m b a) := by
  induction fuel with
  | zero => intro i ho h; have := w.level_lt ho; omega
  | succ fuel ih =>
    intro i ho hf
    obtain ⟨d, hd⟩ := w.owned_data ho
    have key : ∀ cs : List Id, (∀ c ∈ cs, c ∈ edg m i) → cs.Nodup →
        ∃ l, m.walkAll fuel cs = some l ∧ l.Nodup ∧ (∀ x, x ∈ l ↔ Owned m x ∧ ∃ c ∈ cs, Below m c x) ∧
          l.Pairwise (fun a b => ¬ Below m b a) := by
      intro cs
      induction cs with
      | nil => intro _ _; exact ⟨[], by simp [FModel.walkAll], by simp, by simp, by simp⟩
      | cons c cs ihc =>
        intro hs hn
        have hc := hs c (by simp)
        obtain ⟨hoc, hpc⟩ := w.edge_par i c ho hc
        have hl := w.level_edge ho hc
        obtain ⟨l1, h1, h2, h3, h4⟩ := ih c hoc (by omega)
        obtain ⟨l2, g1, g2, g3, g4⟩ := ihc (fun x hx => hs x (by simp [hx])) (List.nodup_cons.1 hn).2
        -- subtrees of two children are apart
        have apart : ∀ c' ∈ cs, ∀ x y, Below m c x → Below m c' y → Owned m x → Owned m y → ¬ Below m x y ∧ ¬ Below m y x := by
          intro c' hc' x y hx hy hox hoy
          have hne : c ≠ c' := by rintro rfl; exact (List.nodup_cons.1 hn).1 hc'
          have he' := hs c' (by simp [hc'])
          obtain ⟨hoc', hpc'⟩ := w.edge_par i c' ho he'
          have sib : ∀ a b, par m a = some i → par m b = some i → a ≠ b → Owned m a → Owned m b → ¬ Below m a b := by
            intro a b ha hb hab hoa hob h
            cases h with
            | refl => exact hab rfl
            | step hp h =>
              rw [hb] at hp; cases hp
              exact w.not_below_parent hoa ha h
          have n1 := sib c c' hpc hpc' hne hoc hoc'
          have n2 := sib c' c hpc' hpc (Ne.symm hne) hoc' hoc
          constructor
          · intro h
            rcases below_chain (hx.trans h) hy with h | h
            · exact n1 h
            · exact n2 h
          · intro h
            rcases below_chain hx (hy.trans h) with h | h
            · exact n1 h
            · exact n2 h
        refine ⟨c :: l1 ++ l2, by simp [FModel.walkAll, h1, g1], ?_, ?_, ?_⟩
        · rw [List.nodup_append]
          refine ⟨h2, g2, ?_⟩
          intro x hx y hy hxy
          subst hxy
          obtain ⟨hox, c', hc', hb⟩ := (g3 x).1 hy
          exact (apart c' hc' x x ((h3 x).1 hx).2 hb hox hox).1 .refl
        · intro x
          rw [List.mem_append, h3, g3]
          constructor
          · rintro (⟨h, hb⟩ | ⟨h, c', hc', hb⟩)
            · exact ⟨h, c, by simp, hb⟩
            · exact ⟨h, c', by simp [hc'], hb⟩
          · rintro ⟨h, c', hc', hb⟩
            rcases List.mem_cons.1 hc' with rfl | hc'
            · exact .inl ⟨h, hb⟩
            · exact .inr ⟨h, c', hc', hb⟩
        · rw [List.pairwise_append]
          refine ⟨h4, g4, ?_⟩
          intro x hx y hy
          obtain ⟨hox, hbx⟩ := (h3 x).1 hx
          obtain ⟨hoy, c', hc', hby⟩ := (g3 y).1 hy
          exact (apart c' hc' x y hbx hby hox hoy).2
    obtain ⟨l, h1, h2, h3, h4⟩ := key (edg m i) (fun _ h => h) (w.edges_nodup i ho)
    have hlt : ∀ x ∈ l, ¬ Below m x i := by
      intro x hx h
      obtain ⟨hox, c, hc, hb⟩ := (h3 x).1 hx
      obtain ⟨hoc, hpc⟩ := w.edge_par i c ho hc
      exact w.not_below_parent hoc hpc (hb.trans h)
    refine ⟨l, by simp [FModel.walk, nodeChildren_eq hd, h1], ?_, ?_, ?_⟩
    · rw [List.nodup_cons]
      exact ⟨fun h => hlt i h .refl, h2⟩
    · intro x
      rw [List.mem_cons, h3]
      constructor
      · rintro (rfl | ⟨h, c, hc, hb⟩)
        · exact ⟨ho, .refl⟩
        · exact ⟨h, (Below.step (w.edge_par i c ho hc).2 .refl).trans hb⟩
      · rintro ⟨h, hb⟩
        by_cases he : x = i
        · exact .inl he
        · right
          refine ⟨h, ?_⟩
          -- the child of `i` that `x` is under
          clear h1 h2 h3 h4 hlt key
          induction hb with
          | refl => exact absurd rfl he
          | @step y p hp hb' ihb =>
            obtain ⟨hop, hyp⟩ := w.par_edge y p h hp
            by_cases hpi : p = i
            · subst hpi; exact ⟨y, hyp, .refl⟩
            · obtain ⟨c, hc, hb⟩ := ihb hop hpi
              exact ⟨c, hc, .step hp hb⟩
    · rw [List.pairwise_cons]
      exact ⟨hlt, h4⟩

/-- Going up ends at the root. -/
theorem climb_spec {m : FModel} (w : WF m) (fuel : Nat) : ∀ i, Owned m i → lvlOf m i < fuel →
    ∃ l, m.climb fuel i = some l ∧ l.Nodup ∧ l.head? = some i ∧ l.getLast? = m.root ∧ (∀ x, x ∈ l ↔ Below m x i) ∧
      l.Pairwise (fun a b => Below m b a) ∧ l.length = lvlOf m i + 1 := by
  induction fuel with
  | zero => intro i _ h; omega
  | succ fuel ih =>
    intro i ho hf
    obtain ⟨d, hd⟩ := w.owned_data ho
    cases hp : par m i with
    | none =>
      have hr := w.orphan i ho hp
      refine ⟨[i], by simp [FModel.climb, nodeParent_eq hd, hp], by simp, rfl, by simp [hr], ?_, by simp, ?_⟩
      · intro x
        rw [List.mem_singleton]
        constructor
        · rintro rfl; exact .refl
        · intro h
          cases h with
          | refl => rfl
          | step hp' _ => rw [hp] at hp'; cases hp'
      · have := w.level_lvl ho hr
        have h0 := Lvl.unique (w.root_par hr) this .zero
        simp; omega
    | some p =>
      obtain ⟨hop, hip⟩ := w.par_edge i p ho hp
      have hl := w.level_par ho hp
      obtain ⟨l, h1, h2, h3, h4, h5, h6, h7⟩ := ih p hop (by omega)
      refine ⟨i :: l, by simp [FModel.climb, nodeParent_eq hd, hp, h1], ?_, rfl, ?_, ?_, ?_, ?_⟩
      · rw [List.nodup_cons]
        exact ⟨fun h => w.not_below_parent ho hp ((h5 i).1 h), h2⟩
      · cases l with
        | nil => simp at h7
        | cons a l => simpa [List.getLast?_cons_cons] using h4
      · intro x
        rw [List.mem_cons, h5]
        constructor
        · rintro (rfl | h)
          · exact .refl
          · exact .step hp h
        · intro h
          cases h with
          | refl => exact .inl rfl
          | step hp' h => rw [hp] at hp'; cases hp'; exact .inr h
      · rw [List.pairwise_cons]
        exact ⟨fun x hx => .step hp ((h5 x).1 hx), h6⟩
      · simp; omega

end Verif

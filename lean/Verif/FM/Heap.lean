import Verif.FM.Spec
/-! Lemmas: how the primitive operations change data, parents and edges. -/

namespace Verif
open Verif.Spec

/-- Function update. -/
def upd {α : Type _} (f : Id → α) (i : Id) (v : α) : Id → α := fun j => if j = i then v else f j

@[simp] theorem upd_same {α : Type _} (f : Id → α) (i : Id) (v : α) : upd f i v i = v := by simp [upd]
theorem upd_ne {α : Type _} (f : Id → α) {i j : Id} (v : α) (h : j ≠ i) : upd f i v j = f j := by
  simp [upd, h]

/-- Everything of the model except the heap is the same. -/
structure SameMeta (m m' : FModel) : Prop where
  next : m'.next = m.next
  name : m'.name = m.name
  root : m'.root = m.root
  path : m'.path = m.path
  commit : m'.commit = m.commit
  features : m'.features = m.features
  booleans : m'.booleans = m.booleans
  nonBooleans : m'.nonBooleans = m.nonBooleans
  mixeds : m'.mixeds = m.mixeds
  rels : m'.rels = m.rels

theorem SameMeta.refl (m : FModel) : SameMeta m m := by constructor <;> rfl

theorem SameMeta.trans {a b c : FModel} (h : SameMeta a b) (h' : SameMeta b c) : SameMeta a c :=
  ⟨h'.next.trans h.next, h'.name.trans h.name, h'.root.trans h.root, h'.path.trans h.path,
   h'.commit.trans h.commit, h'.features.trans h.features, h'.booleans.trans h.booleans,
   h'.nonBooleans.trans h.nonBooleans, h'.mixeds.trans h.mixeds, h'.rels.trans h.rels⟩

theorem FModel.put_meta (m : FModel) (i : Id) (n : Node) : SameMeta m (m.put i n) := by
  constructor <;> rfl

theorem FModel.free_meta (m : FModel) (i : Id) : SameMeta m (m.free i) := by constructor <;> rfl

theorem put_heap (m : FModel) (i : Id) (n : Node) : (m.put i n).heap = upd m.heap i (some n) := rfl
theorem free_heap (m : FModel) (i : Id) : (m.free i).heap = upd m.heap i none := rfl

theorem data_put (m : FModel) (i : Id) (n : Node) : data (m.put i n) = upd (data m) i (some n.data) := by
  funext j; simp only [data, put_heap, upd]; split <;> rfl
theorem par_put (m : FModel) (i : Id) (n : Node) : par (m.put i n) = upd (par m) i n.parent := by
  funext j; simp only [par, put_heap, upd]; split <;> rfl
theorem edg_put (m : FModel) (i : Id) (n : Node) : edg (m.put i n) = upd (edg m) i n.edges := by
  funext j; simp only [edg, put_heap, upd]; by_cases h : j = i <;> simp [h]

theorem data_free (m : FModel) (i : Id) : data (m.free i) = upd (data m) i none := by
  funext j; simp only [data, free_heap, upd]; split <;> rfl
theorem par_free (m : FModel) (i : Id) : par (m.free i) = upd (par m) i none := by
  funext j; simp only [par, free_heap, upd]; split <;> rfl
theorem edg_free (m : FModel) (i : Id) : edg (m.free i) = upd (edg m) i [] := by
  funext j; simp only [edg, free_heap, upd]; by_cases h : j = i <;> simp [h]

theorem heap_of_data {m : FModel} {i : Id} {d : NodeData} (h : data m i = some d) :
    m.heap i = some ⟨d, par m i, edg m i⟩ := by
  unfold data at h
  cases hn : m.heap i with
  | none => simp [hn] at h
  | some n =>
    simp only [hn, Option.map_some, Option.some.injEq] at h
    simp [par, edg, hn, ← h]

theorem data_of_heap {m : FModel} {i : Id} {n : Node} (h : m.heap i = some n) : data m i = some n.data := by
  simp [data, h]
theorem par_of_heap {m : FModel} {i : Id} {n : Node} (h : m.heap i = some n) : par m i = n.parent := by
  simp [par, h]
theorem edg_of_heap {m : FModel} {i : Id} {n : Node} (h : m.heap i = some n) : edg m i = n.edges := by
  simp [edg, h]

theorem data_none {m : FModel} {i : Id} : data m i = none ↔ m.heap i = none := by
  simp [data]

theorem upd_self {α : Type _} (f : Id → α) (i : Id) : upd f i (f i) = f := by
  funext j; simp only [upd]; split <;> simp_all

/-- Two heaps with the same data, parents and edges are the same. -/
theorem heap_ext {m m' : FModel} (hd : data m' = data m) (hp : par m' = par m) (he : edg m' = edg m) :
    m'.heap = m.heap := by
  funext i
  cases h : m.heap i with
  | none =>
    have : data m' i = none := by rw [hd]; exact data_none.2 h
    exact data_none.1 this
  | some n =>
    have h1 : data m' i = some n.data := by rw [hd]; exact data_of_heap h
    rw [heap_of_data h1, hp, he, par_of_heap h, edg_of_heap h]

/-! ### setParent, addEdge, removeEdge -/

theorem setParent_eq {m : FModel} {i : Id} {p : Option Id} {d : NodeData} (h : data m i = some d) :
    m.setParent i p = some (m.put i ⟨d, p, edg m i⟩) := by
  simp [FModel.setParent, heap_of_data h]

theorem addEdge_eq {m : FModel} {p c : Id} {d : NodeData} (h : data m p = some d) :
    m.addEdge p c = some (m.put p ⟨d, par m p, FModel.insertSet (edg m p) c⟩) := by
  simp [FModel.addEdge, heap_of_data h]

theorem removeEdge_eq {m : FModel} {p c : Id} {d : NodeData} (h : data m p = some d) :
    m.removeEdge p c = some (m.put p ⟨d, par m p, (edg m p).erase c⟩) := by
  simp [FModel.removeEdge, heap_of_data h]

/-- What changed and what not, for an operation that only touches parents and edges. -/
structure Relinked (m m' : FModel) (par' : Id → Option Id) (edg' : Id → List Id) : Prop where
  rest : SameMeta m m'
  data : data m' = data m
  par : par m' = par'
  edg : edg m' = edg'

theorem setParent_ok {m : FModel} {i : Id} {p : Option Id} {d : NodeData} (h : data m i = some d) :
    ∃ m', m.setParent i p = some m' ∧ Relinked m m' (upd (par m) i p) (edg m) := by
  refine ⟨_, setParent_eq h, FModel.put_meta .., ?_, ?_, ?_⟩
  · rw [data_put]; simp only; rw [← h, upd_self]
  · rw [par_put]
  · rw [edg_put]; exact upd_self ..

theorem addEdge_ok {m : FModel} {p c : Id} {d : NodeData} (h : data m p = some d) :
    ∃ m', m.addEdge p c = some m' ∧ Relinked m m' (par m) (upd (edg m) p (FModel.insertSet (edg m p) c)) := by
  refine ⟨_, addEdge_eq h, FModel.put_meta .., ?_, ?_, ?_⟩
  · rw [data_put]; simp only; rw [← h, upd_self]
  · rw [par_put]; exact upd_self ..
  · rw [edg_put]

theorem removeEdge_ok {m : FModel} {p c : Id} {d : NodeData} (h : data m p = some d) :
    ∃ m', m.removeEdge p c = some m' ∧ Relinked m m' (par m) (upd (edg m) p ((edg m p).erase c)) := by
  refine ⟨_, removeEdge_eq h, FModel.put_meta .., ?_, ?_, ?_⟩
  · rw [data_put]; simp only; rw [← h, upd_self]
  · rw [par_put]; exact upd_self ..
  · rw [edg_put]

theorem link_ok {m : FModel} {p c : Id} {d d' : NodeData} (h : data m p = some d) (hc : data m c = some d') :
    ∃ m', m.link p c = some m' ∧
      Relinked m m' (upd (par m) c (some p)) (upd (edg m) p (FModel.insertSet (edg m p) c)) := by
  obtain ⟨m1, h1, r1⟩ := setParent_ok (p := some p) hc
  have h' : data m1 p = some d := by rw [r1.data, h]
  obtain ⟨m2, h2, r2⟩ := addEdge_ok (c := c) h'
  refine ⟨m2, by simp [FModel.link, h1, h2], r1.rest.trans r2.rest, ?_, ?_, ?_⟩
  · rw [r2.data, r1.data]
  · rw [r2.par, r1.par]
  · rw [r2.edg, r1.edg]

theorem Relinked.heap_none {m m' : FModel} {pa ed} (h : Relinked m m' pa ed) (i : Id) :
    m'.heap i = none ↔ m.heap i = none := by
  rw [← data_none, ← data_none, h.data]

theorem Relinked.known {m m' : FModel} {pa ed} (h : Relinked m m' pa ed) (i : Id) :
    Known m' i ↔ Known m i := by unfold Known; rw [h.rest.features]

theorem Relinked.owned {m m' : FModel} {pa ed} (h : Relinked m m' pa ed) (i : Id) :
    Owned m' i ↔ Owned m i := by unfold Owned; rw [h.known, h.rest.rels]

theorem mem_insertSet {l : List Id} {x y : Id} : y ∈ FModel.insertSet l x ↔ y ∈ l ∨ y = x := by
  unfold FModel.insertSet
  split
  · constructor
    · exact .inl
    · rintro (h | h)
      · exact h
      · subst h; assumption
  · simp

theorem nodup_insertSet {l : List Id} (h : l.Nodup) (x : Id) : (FModel.insertSet l x).Nodup := by
  unfold FModel.insertSet
  split
  · exact h
  · rename_i hx
    rw [List.nodup_append]
    refine ⟨h, by simp, ?_⟩
    intro a ha b hb e
    simp only [List.mem_singleton] at hb
    subst hb e
    exact hx ha

end Verif

import Verif.FM.Compare
import Verif.FM.Examples
/-!
# Properties C25, C26, C27: iterating, comparing and sorting features
-/

namespace Verif.Props
open Spec FModel

/-! ## C25 -/

/-- Iterating a well-formed model ends, and visits every feature once, in preorder with siblings in
    alphabetical order (`Pre`); in particular ancestors come first. -/
theorem C25_preorder {m : FModel} (w : WF m) (E : Env) :
    ∃ r l, m.root = some r ∧ m.iterate E = some l ∧ Pre m r l ∧ l.Nodup ∧ (∀ x, x ∈ l ↔ Known m x) ∧
      l.Pairwise (fun a b => ¬ Below m b a) := by
  obtain ⟨r, _, hr, _⟩ := w.root_ok
  have kr := w.root_known hr
  obtain ⟨l, h1, h2⟩ := iterate_spec w E hr
  have ho := h2.ordered w kr
  refine ⟨r, l, hr, h1, h2, ho.imp (fun h => h.1), ?_, ?_⟩
  · intro x
    rw [h2.mem w kr x]
    exact ⟨fun h => h.1, fun h => ⟨h, w.reach x r (.inl h) hr⟩⟩
  · refine List.Pairwise.imp_of_mem ?_ ho
    intro a b ha hb h hba
    have ka := ((h2.mem w kr a).1 ha).1
    have kb := ((h2.mem w kr b).1 hb).1
    exact earlier_not_after w ka kb h (.inl ⟨Ne.symm h.1, hba⟩)

/-- There is only one such order if siblings have different names ignoring case. -/
theorem C25_unique {m : FModel} (w : WF m) (hs : SiblingsDiffer m) {r : Id} (hr : m.root = some r) {l l' : List Id}
    (h : Pre m r l) (h' : Pre m r l') : l = l' := by
  have kr := w.root_known hr
  have ho := h.ordered w kr
  have ho' := h'.ordered w kr
  have hperm : l.Perm l' := by
    refine (List.perm_ext_iff_of_nodup (ho.imp (fun h => h.1)) (ho'.imp (fun h => h.1))).2 ?_
    intro x
    rw [h.mem w kr x, h'.mem w kr x]
  refine hperm.eq_of_pairwise ?_ (ho.imp (fun h => earlier_before hs h)) (ho'.imp (fun h => earlier_before hs h))
  intro a b ha hb h1 h2
  exact absurd h2 (before_asymm w ((h.mem w kr a).1 ha).1 ((h'.mem w kr b).1 hb).1 h1)

/-- So the order does not depend on memory layout. -/
theorem C25_independent {m : FModel} (w : WF m) (hs : SiblingsDiffer m) (E E' : Env) :
    m.iterate E = m.iterate E' := by
  obtain ⟨r, l, hr, h1, h2, _⟩ := C25_preorder w E
  obtain ⟨r', l', hr', h1', h2', _⟩ := C25_preorder w E'
  rw [hr] at hr'; cases hr'
  rw [h1, h1', C25_unique w hs hr h2 h2']

/-- `SiblingsDiffer` by evaluation. -/
theorem siblings_of_check {m : FModel} (w : WF m) (h : (m.features.map Prod.snd).Pairwise (fun a b => m.low a ≠ m.low b)) :
    SiblingsDiffer m := by
  intro p a b hp ha hb hl
  have ka := (w.via_known hp ha).1
  have kb := (w.via_known hp hb).1
  obtain ⟨i, hi, rfl⟩ := List.mem_iff_getElem.1 ka
  obtain ⟨j, hj, rfl⟩ := List.mem_iff_getElem.1 kb
  rcases Nat.lt_trichotomy i j with hij | hij | hij
  · exact absurd hl (List.pairwise_iff_getElem.1 h i j hi hj hij)
  · subst hij; rfl
  · exact absurd hl.symm (List.pairwise_iff_getElem.1 h j i hj hi hij)

theorem grouped_siblings : SiblingsDiffer grouped := siblings_of_check grouped_wf (by decide)

/-- root, A, C (below A), B: through a group and against the order of a reversed set. -/
example : grouped.iterate (revEnv true) = some [0, 2, 4, 3] := by decide

/-- root with children A and a, each with a child. -/
def twins : FModel :=
  ofNodes [featNode "root" none [1, 2] .root, featNode "A" (some 0) [3], featNode "a" (some 0) [4],
           featNode "X" (some 1) [], featNode "Y" (some 2) []]
    (some 0) [(c!"root", 0), (c!"A", 1), (c!"a", 2), (c!"X", 3), (c!"Y", 4)] []

theorem twins_wf : WF twins := wf_of_check (fun i => i) (ofNodes_fresh _ _ _ _ _) (by decide)

/-- The hypothesis is needed: siblings whose names differ in case only are visited in the order of
    their addresses. -/
theorem C25_depends_on_layout : WF twins ∧ twins.iterate (stdEnv true) ≠ twins.iterate (revEnv true) :=
  ⟨twins_wf, by decide⟩

/-! ## C26 -/

/-- Comparing two features of a well-formed model is defined, and true exactly if the first is above
    the second or in the subtree of an alphabetically earlier sibling. -/
theorem C26_before {m : FModel} (w : WF m) {a b : Id} (ha : Known m a) (hb : Known m b) :
    ∃ v, m.less a b = some v ∧ (v = true ↔ Before m a b) := less_spec w ha hb

theorem less_iff {m : FModel} (w : WF m) {a b : Id} (ha : Known m a) (hb : Known m b) :
    m.less a b = some true ↔ Before m a b := by
  obtain ⟨v, h1, h2⟩ := less_spec w ha hb
  rw [h1, ← h2]
  exact ⟨fun h => Option.some.inj h, fun h => by rw [h]⟩

/-- It is a strict order: irreflexive, asymmetric, transitive. -/
theorem C26_strict {m : FModel} (w : WF m) :
    (∀ a, Known m a → m.less a a = some false) ∧
    (∀ a b, Known m a → Known m b → m.less a b = some true → m.less b a = some false) ∧
    (∀ a b c, Known m a → Known m b → Known m c → m.less a b = some true → m.less b c = some true →
      m.less a c = some true) := by
  have no : ∀ a b, Known m a → Known m b → ¬ Before m a b → m.less a b = some false := by
    intro a b ha hb h
    obtain ⟨v, h1, h2⟩ := less_spec w ha hb
    cases v with
    | false => exact h1
    | true => exact absurd (h2.1 rfl) h
  refine ⟨fun a ha => no a a ha ha (before_irrefl w), ?_, ?_⟩
  · intro a b ha hb h
    exact no b a hb ha (before_asymm w ha hb ((less_iff w ha hb).1 h))
  · intro a b c ha hb hc h1 h2
    exact (less_iff w ha hc).2 (before_trans w ha hb hc ((less_iff w ha hb).1 h1) ((less_iff w hb hc).1 h2))

/-- With different names among siblings it is total, so a strict weak order. -/
theorem C26_total_partial {m : FModel} (w : WF m) (hs : SiblingsDiffer m) {a b : Id} (ha : Known m a) (hb : Known m b)
    (hne : a ≠ b) : m.less a b = some true ∨ m.less b a = some true := by
  rcases before_total w hs ha hb hne with h | h
  · exact .inl ((less_iff w ha hb).2 h)
  · exact .inr ((less_iff w hb ha).2 h)

/-- `a < b` exactly if `a` is visited before `b`. -/
theorem C26_iteration_partial {m : FModel} (w : WF m) (hs : SiblingsDiffer m) (E : Env) {l : List Id}
    (h : m.iterate E = some l) {i j : Nat} {a b : Id} (hi : l[i]? = some a) (hj : l[j]? = some b) :
    m.less a b = some true ↔ i < j := by
  obtain ⟨r, l', hr, h1, h2, hnd, hmem, _⟩ := C25_preorder w E
  rw [h] at h1; cases h1
  have kr := w.root_known hr
  have ka := (hmem a).1 (List.mem_of_getElem? hi)
  have kb := (hmem b).1 (List.mem_of_getElem? hj)
  have ho := h2.ordered w kr
  obtain ⟨hil, hi⟩ := List.getElem?_eq_some_iff.1 hi
  obtain ⟨hjl, hj⟩ := List.getElem?_eq_some_iff.1 hj
  rw [less_iff w ka kb]
  constructor
  · intro hb
    rcases Nat.lt_trichotomy i j with hij | hij | hij
    · exact hij
    · subst hij
      rw [hi] at hj; subst hj
      exact absurd hb (before_irrefl w)
    · have := List.pairwise_iff_getElem.1 ho j i hjl hil hij
      rw [hi, hj] at this
      exact absurd hb (earlier_not_after w kb ka this)
  · intro hij
    have := List.pairwise_iff_getElem.1 ho i j hil hjl hij
    rw [hi, hj] at this
    exact earlier_before hs this

/-- In every well-formed model iteration never contradicts the comparison. -/
theorem C26_iteration_agrees {m : FModel} (w : WF m) (E : Env) {l : List Id} (h : m.iterate E = some l) :
    l.Pairwise (fun a b => m.less b a = some false) := by
  obtain ⟨r, l', hr, h1, h2, hnd, hmem, _⟩ := C25_preorder w E
  rw [h] at h1; cases h1
  refine List.Pairwise.imp_of_mem ?_ (h2.ordered w (w.root_known hr))
  intro a b ha hb he
  obtain ⟨v, g1, g2⟩ := less_spec w ((hmem b).1 hb) ((hmem a).1 ha)
  cases v with
  | false => exact g1
  | true => exact absurd (g2.1 rfl) (earlier_not_after w ((hmem a).1 ha) ((hmem b).1 hb) he)

example : grouped.less 4 3 = some true ∧ grouped.less 3 4 = some false ∧ grouped.less 2 4 = some true := by decide

/-- It is not a strict weak order for siblings whose names differ in case only: neither A and Y nor Y
    and X are ordered, but A is before X. -/
theorem C26_not_weak : WF twins ∧ twins.less 1 4 = some false ∧ twins.less 4 1 = some false ∧
    twins.less 4 3 = some false ∧ twins.less 3 4 = some false ∧ twins.less 1 3 = some true :=
  ⟨twins_wf, by decide⟩

/-! ## C27 -/

/-- What the vector should contain after some calls. -/
def contents : List Id → List VecOp → List Id
  | l, [] => l
  | l, .insert f :: os => contents (f :: l) os
  | l, .remove f :: os => contents (l.filter (fun x => x ≠ f)) os

/-- All features in the calls are features of the model. -/
def AllKnown (m : FModel) (os : List VecOp) : Prop := ∀ o ∈ os, ∀ f, (o = .insert f ∨ o = .remove f) → Known m f

theorem vecRun_spec {m : FModel} (w : WF m) (hs : SiblingsDiffer m) (os : List VecOp) :
    ∀ l c, AllKnown m os → (∀ x ∈ l, Known m x) → l.Pairwise (fun a b => m.less b a = some false) → l.Perm c →
      ∃ l', m.vecRun l os = some l' ∧ l'.Pairwise (fun a b => m.less b a = some false) ∧ l'.Perm (contents c os) := by
  have hB : ∀ a b, Known m a → Known m b → (m.lessB a b = true ↔ Before m a b) := by
    intro a b ha hb
    obtain ⟨v, h1, h2⟩ := less_spec w ha hb
    simp [lessB, h1, h2]
  have hF : ∀ a b, Known m a → Known m b → (m.lessB a b = false ↔ m.less a b = some false) := by
    intro a b ha hb
    obtain ⟨v, h1, h2⟩ := less_spec w ha hb
    simp [lessB, h1]
  induction os with
  | nil => intro l c _ _ h1 h2; exact ⟨l, rfl, h1, h2⟩
  | cons o os ih =>
    intro l c hk hl h1 h2
    have hk' : AllKnown m os := fun o ho => hk o (List.mem_cons_of_mem _ ho)
    cases o with
    | remove f =>
      obtain ⟨l', g⟩ := ih (l.filter (fun x => x ≠ f)) (c.filter (fun x => x ≠ f)) hk'
        (fun x hx => hl x ((List.mem_filter.1 hx).1)) (h1.filter _) (h2.filter _)
      exact ⟨l', by simpa [vecRun, vecStep] using g.1, g.2.1, g.2.2⟩
    | insert f =>
      have kf := hk _ (List.mem_cons_self ..) f (.inl rfl)
      have hsort : l.Pairwise (fun a b => m.lessB b a = false) := by
        refine List.Pairwise.imp_of_mem ?_ h1
        intro a b ha hb h
        exact (hF b a (hl b hb) (hl a ha)).2 h
      obtain ⟨pre, post, e1, e2, e3, e4, e5⟩ := upperInsert_sorted (lt := m.lessB) (Known m)
        (by
          intro a b c ha hb hc h h'
          have h := (hB a b ha hb).1 h
          have h' : ¬ Before m c b := fun hh => by rw [(hB c b hc hb).2 hh] at h'; cases h'
          rw [hB a c ha hc]
          by_cases hcb : c = b
          · rw [hcb]; exact h
          · rcases before_total w hs hc hb hcb with hh | hh
            · exact absurd hh h'
            · exact before_trans w ha hb hc h hh)
        (by
          intro a b ha hb h
          have := before_asymm w ha hb ((hB a b ha hb).1 h)
          cases hh : m.lessB b a with
          | false => rfl
          | true => exact absurd ((hB b a hb ha).1 hh) this)
        kf hl hsort
      have hp := upperInsert_perm e2
      have hkn : ∀ x ∈ pre ++ f :: post, Known m x := by
        intro x hx
        rcases List.mem_cons.1 (hp.mem_iff.1 hx) with rfl | h
        · exact kf
        · exact hl x h
      obtain ⟨l', g⟩ := ih (pre ++ f :: post) (f :: c) hk' hkn
        (by
          refine List.Pairwise.imp_of_mem ?_ e5
          intro a b ha hb h
          exact (hF b a (hkn b hb) (hkn a ha)).1 h)
        (hp.trans (h2.cons f))
      refine ⟨l', ?_, g.2.1, g.2.2⟩
      have hall : l.all (fun e => (m.less f e).isSome) = true := by
        rw [List.all_eq_true]
        intro e he
        obtain ⟨v, h1, _⟩ := less_spec w kf (hl e he)
        rw [h1]; rfl
      simp only [vecRun, vecStep, hall, if_true, e2, Option.bind_some]
      exact g.1

/-- After any insertions and removals of features of a model the vector is sorted and contains what
    was inserted and not removed afterwards, as often as it was inserted. -/
theorem C27_sorted_partial {m : FModel} (w : WF m) (hs : SiblingsDiffer m) {os : List VecOp} (hk : AllKnown m os) :
    ∃ l, m.vecRun [] os = some l ∧ l.Pairwise (fun a b => m.less b a = some false) ∧ l.Perm (contents [] os) :=
  vecRun_spec w hs os [] [] hk (by intro x hx; cases hx) .nil (.refl _)

/-- Two vectors with the same contents are the same: the order of insertion does not matter. -/
theorem C27_canonical {m : FModel} (w : WF m) (hs : SiblingsDiffer m) {os os' : List VecOp} (hk : AllKnown m os)
    (hk' : AllKnown m os') (hc : (contents [] os).Perm (contents [] os')) : m.vecRun [] os = m.vecRun [] os' := by
  have hkn : ∀ os, AllKnown m os → ∀ c, (∀ x ∈ c, Known m x) → ∀ x ∈ contents c os, Known m x := by
    intro os
    induction os with
    | nil => intro _ c hc; exact hc
    | cons o os ih =>
      intro hk c hc
      have hk' : AllKnown m os := fun o ho => hk o (List.mem_cons_of_mem _ ho)
      cases o with
      | insert f =>
        refine ih hk' _ ?_
        intro x hx
        rcases List.mem_cons.1 hx with rfl | h
        · exact hk _ (List.mem_cons_self ..) _ (.inl rfl)
        · exact hc x h
      | remove f => exact ih hk' _ (fun x hx => hc x ((List.mem_filter.1 hx).1))
  obtain ⟨l, h1, h2, h3⟩ := C27_sorted_partial w hs hk
  obtain ⟨l', h1', h2', h3'⟩ := C27_sorted_partial w hs hk'
  rw [h1, h1']
  congr 1
  refine (h3.trans (hc.trans h3'.symm)).eq_of_pairwise ?_ h2 h2'
  intro a b ha hb hab hba
  apply Classical.byContradiction
  intro hne
  have ka := hkn os hk [] (by intro x hx; cases hx) a (h3.mem_iff.1 ha)
  have kb := hkn os' hk' [] (by intro x hx; cases hx) b (h3'.mem_iff.1 hb)
  rcases C26_total_partial w hs ka kb hne with h | h
  · rw [hba] at h; cases h
  · rw [hab] at h; cases h

/-- Removal deletes all occurrences and keeps the order of the rest. -/
theorem C27_remove (m : FModel) (l : List Id) (f : Id) :
    ∃ l', m.vecStep l (.remove f) = some l' ∧ l'.Sublist l ∧ ∀ x, l'.count x = if x = f then 0 else l.count x := by
  refine ⟨_, rfl, List.filter_sublist, ?_⟩
  intro x
  by_cases hx : x = f
  · subst hx
    rw [if_pos rfl, List.count_eq_zero]
    simp
  · rw [if_neg hx, List.count_filter]
    simpa using hx

example : grouped.vecRun [] [.insert 3, .insert 4, .insert 0, .insert 3, .insert 2, .remove 0] = some [2, 4, 3, 3] := by
  decide

/-- Without different names: after X and Y, inserting A has no defined position. -/
theorem C27_undefined : WF twins ∧ AllKnown twins [.insert 3, .insert 4, .insert 1] ∧
    twins.vecRun [] [.insert 3, .insert 4, .insert 1] = none := by
  refine ⟨twins_wf, ?_, by decide⟩
  intro o ho f hf
  simp at ho
  rcases ho with rfl | rfl | rfl <;> simp at hf <;> subst hf <;> simp [Known, twins, ofNodes]

/-- Two models on one heap: r1 -- B -- A, and r2 -- AB. -/
def twoModels : FModel :=
  ofNodes [featNode "r1" none [1] .root, featNode "B" (some 0) [2], featNode "A" (some 1) [],
           featNode "r2" none [4] .root, featNode "AB" (some 3) []]
    (some 0) [(c!"r1", 0), (c!"B", 1), (c!"A", 2)] []

/-- Features of different models must not be mixed: the comparison is cyclic, B < A < AB < B. -/
theorem C27_two_models_cycle : twoModels.less 1 2 = some true ∧ twoModels.less 2 4 = some true ∧
    twoModels.less 4 1 = some true := by decide

/-! ### Trees that change later -/

theorem down_mem {m : FModel} {h a : Id} {t : List Id} (d : Down m h t a) : ∀ x ∈ t, Known m x := by
  induction d with
  | nil => intro x hx; cases hx
  | cons _ h2 _ ih =>
    intro x hx
    rcases List.mem_cons.1 hx with rfl | hx
    · exact h2
    · exact ih x hx

theorem lessTrace_congr {m m' : FModel} : ∀ (ta tb : List Id), (∀ x ∈ ta, m'.low x = m.low x) → (∀ x ∈ tb, m'.low x = m.low x) →
    m'.lessTrace ta tb = m.lessTrace ta tb
  | _, [], _, _ => by cases ‹List Id› <;> simp [lessTrace]
  | [], _ :: _, _, _ => by simp [lessTrace]
  | a :: as, b :: bs, ha, hb => by
    simp only [lessTrace]
    rw [ha a (List.mem_cons_self ..), hb b (List.mem_cons_self ..),
      lessTrace_congr as bs (fun x hx => ha x (List.mem_cons_of_mem _ hx)) (fun x hx => hb x (List.mem_cons_of_mem _ hx))]

/-- The order of features changes only if names or parents change. -/
theorem C27_stable {m m' : FModel} (w : WF m) (w' : WF m')
    (hk : ∀ i, Known m i → Known m' i ∧ m'.low i = m.low i ∧ ∀ p, FParent m i p → FParent m' i p)
    {l : List Id} (hl : ∀ x ∈ l, Known m x) (hs : l.Pairwise (fun a b => m.less b a = some false)) :
    l.Pairwise (fun a b => m'.less b a = some false) := by
  have key : ∀ {a b}, Known m a → Known m b → m'.less a b = m.less a b := by
    intro a b ha hb
    obtain ⟨r, _, hr0, _⟩ := w.root_ok
    obtain ⟨ta, _, da⟩ := trace_spec w hr0 (m.next + 1) a [] ha (by have := w.level_lt (.inl ha); omega)
    obtain ⟨tb, _, db⟩ := trace_spec w hr0 (m.next + 1) b [] hb (by have := w.level_lt (.inl hb); omega)
    have move : ∀ {h t x}, Down m h t x → Down m' h t x := by
      intro h t x d
      induction d with
      | nil => exact .nil
      | cons h1 h2 _ ih => exact .cons ((hk _ h2).2.2 _ h1) (hk _ h2).1 ih
    obtain ⟨v, v1, v2⟩ := less_spec w ha hb
    obtain ⟨v', u1, u2⟩ := less_spec w' (hk a ha).1 (hk b hb).1
    have e1 := lessTrace_iff w ta r tb (w.root_known hr0) da db
    have e2 := lessTrace_iff w' ta r tb (hk r (w.root_known hr0)).1 (move da) (move db)
    rw [lessTrace_congr ta tb (fun x hx => (hk x (down_mem da x hx)).2.1) (fun x hx => (hk x (down_mem db x hx)).2.1)] at e2
    have hv : v' = v := by
      rw [Bool.eq_iff_iff, u2, v2, ← e1, ← e2]
    rw [u1, v1, hv]
  refine List.Pairwise.imp_of_mem ?_ hs
  intro a b ha hb h
  rw [key (hl b hb) (hl a ha)]; exact h

/-- root with children a, b, bb, c. -/
def row : FModel :=
  ofNodes [featNode "r" none [1, 2, 3, 4] .root, featNode "a" (some 0) [], featNode "b" (some 0) [], featNode "bb" (some 0) [],
           featNode "c" (some 0) []]
    (some 0) [(c!"r", 0), (c!"a", 1), (c!"b", 2), (c!"bb", 3), (c!"c", 4)] []

/-- The same with one feature more. -/
def rowPlus : FModel :=
  ofNodes [featNode "r" none [1, 2, 3, 4, 5] .root, featNode "a" (some 0) [], featNode "b" (some 0) [], featNode "bb" (some 0) [],
           featNode "c" (some 0) [], featNode "ab" (some 0) []]
    (some 0) [(c!"r", 0), (c!"a", 1), (c!"b", 2), (c!"bb", 3), (c!"c", 4), (c!"ab", 5)] []

theorem row_wf : WF row := wf_of_check (fun i => i) (ofNodes_fresh _ _ _ _ _) (by decide)
theorem rowPlus_wf : WF rowPlus := wf_of_check (fun i => i) (ofNodes_fresh _ _ _ _ _) (by decide)

/-- Another feature does not change the order of those there were. -/
example : [1, 2, 4].Pairwise (fun a b => rowPlus.less b a = some false) := by
  refine C27_stable row_wf rowPlus_wf ?_ (m := row) (by intro x hx; simp at hx; rcases hx with rfl | rfl | rfl <;> simp [Known, row, ofNodes]) (by decide)
  intro i hi
  have hi' : i = 0 ∨ i = 1 ∨ i = 2 ∨ i = 3 ∨ i = 4 := by simpa [Known, row, ofNodes] using hi
  refine ⟨by rcases hi' with rfl | rfl | rfl | rfl | rfl <;> simp [Known, rowPlus, ofNodes],
    by rcases hi' with rfl | rfl | rfl | rfl | rfl <;> decide, fun p hp => ?_⟩
  have hf : ∀ q, par row i = some q → q = 0 ∧ par rowPlus i = some 0 := by
    intro q hq
    rcases hi' with rfl | rfl | rfl | rfl | rfl <;> simp [par, row, rowPlus, ofNodes, featNode] at hq ⊢ <;> exact hq.symm
  cases hp with
  | direct h1 h2 =>
    obtain ⟨rfl, h3⟩ := hf _ h1
    exact .direct h3 ⟨_, rfl⟩
  | skip h1 h2 _ =>
    obtain ⟨rfl, h3⟩ := hf _ h1
    obtain ⟨k, hk⟩ := h2
    cases hk

/-- The same after a was moved below c. -/
def rowMoved : FModel :=
  ofNodes [featNode "r" none [2, 3, 4] .root, featNode "a" (some 4) [], featNode "b" (some 0) [], featNode "bb" (some 0) [],
           featNode "c" (some 0) [1]]
    (some 0) [(c!"r", 0), (c!"a", 1), (c!"b", 2), (c!"bb", 3), (c!"c", 4)] []

/-- A vector does not notice that the tree changes: after a is moved below c the vector a, b, c is no longer sorted, and the next
    insertion has no defined position. -/
theorem C27_stale : WF row ∧ row.vecRun [] [.insert 4, .insert 2, .insert 1] = some [1, 2, 4] ∧
    row.execAddChild (.ptr (some 4)) (.ptr (some 1)) = .ok rowMoved ∧ rowMoved.less 4 1 = some true ∧ rowMoved.vecStep [1, 2, 4] (.insert 3) = none := by
  refine ⟨row_wf, by decide, ?_, by decide, by decide⟩
  unfold row rowMoved
  simp [execAddChild, resolve, ofNodes, featNode, FModel.removeEdge, FModel.addEdge, FModel.setParent, outOf, FModel.put]
  funext i
  match i with
  | 0 | 1 | 2 | 3 | 4 => rfl
  | i + 5 => simp

/-- Comparing with a feature that was freed is undefined. -/
theorem C26_freed {m : FModel} {e : Id} (h : m.heap e = none) (f : Id) : m.less e f = none ∧ m.less f e = none := by
  have ht : m.trace (m.next + 1) e [] = none := by simp only [FModel.trace, FModel.parentFeature, FModel.parentFeatureFuel, h]
  refine ⟨by simp only [FModel.less, ht], ?_⟩
  unfold FModel.less
  rw [ht]
  cases m.trace (m.next + 1) f [] with
  | none => rfl
  | some l => cases l <;> rfl

/-- So a vector must not hold a feature that was removed from its model: the next insertion is undefined. -/
theorem C27_freed {m : FModel} {e : Id} {l : List Id} (h : m.heap e = none) (he : e ∈ l) (f : Id) : m.vecStep l (.insert f) = none := by
  unfold FModel.vecStep
  simp only
  rw [if_neg]
  simp only [List.all_eq_true]
  intro hall
  have := hall e he
  rw [(C26_freed h f).2] at this
  cases this

/-- It is met after a removal: b, held with a and c, is removed from the model. -/
example : row.vecRun [] [.insert 4, .insert 2, .insert 1] = some [1, 2, 4] ∧
    ∃ m', row.execRemoveFeature (stdEnv true) (.ptr (some 2)) false = .ok m' ∧ m'.heap 2 = none ∧ ∀ f, m'.vecStep [1, 2, 4] (.insert f) = none := by
  refine ⟨by decide, ?_⟩
  have : (match row.execRemoveFeature (stdEnv true) (.ptr (some 2)) false with | .ok m' => (m'.heap 2).isNone | _ => false) = true := by decide
  cases h : row.execRemoveFeature (stdEnv true) (.ptr (some 2)) false with
  | ok m' =>
    rw [h] at this
    have h2 : m'.heap 2 = none := by simpa using this
    exact ⟨m', rfl, h2, fun f => C27_freed h2 (by decide) f⟩
  | err _ _ => rw [h] at this; cases this
  | ub => rw [h] at this; cases this

end Verif.Props

import Verif.Props.Iteration
/-!
# Properties C26, C27: siblings whose names differ in case only

Exactly when the comparison of features is a strict weak order, and exactly when sorted vectors are
sorted after all insertions and removals.
-/

namespace Verif.Props
open Spec FModel

/-- Two children of one feature whose names are the same ignoring case. -/
def TwinsOf (m : FModel) (x y : Id) : Prop :=
  ∃ p, Known m p ∧ Via m isF p x ∧ Via m isF p y ∧ x ≠ y ∧ m.low x = m.low y

/-- A feature that has a twin has nothing below it. -/
def TwinsLeaves (m : FModel) : Prop := ∀ x y c, TwinsOf m x y → Known m c → Below m x c → c = x

theorem TwinsOf.symm {m : FModel} {x y : Id} (h : TwinsOf m x y) : TwinsOf m y x := by
  obtain ⟨p, h1, h2, h3, h4, h5⟩ := h
  exact ⟨p, h1, h3, h2, Ne.symm h4, h5.symm⟩

theorem earlier_total {m : FModel} (w : WF m) {a b : Id} (ha : Known m a) (hb : Known m b)
    (hne : a ≠ b) : Earlier m a b ∨ Earlier m b a := by
  obtain ⟨r, _, hr, _⟩ := w.root_ok
  have kr := w.root_known hr
  obtain ⟨l, _, hp⟩ := iterate_spec w (⟨id, fun _ => .refl _, id, fun _ => .refl _, true⟩ : Env) hr
  have ma := (hp.mem w kr a).2 ⟨ha, w.reach a r (.inl ha) hr⟩
  have mb := (hp.mem w kr b).2 ⟨hb, w.reach b r (.inl hb) hr⟩
  have ho := hp.ordered w kr
  obtain ⟨i, hi, rfl⟩ := List.mem_iff_getElem.1 ma
  obtain ⟨j, hj, rfl⟩ := List.mem_iff_getElem.1 mb
  rcases Nat.lt_trichotomy i j with h | h | h
  · exact .inl (List.pairwise_iff_getElem.1 ho i j hi hj h)
  · subst h; exact absurd rfl hne
  · exact .inr (List.pairwise_iff_getElem.1 ho j i hj hi h)

theorem twins_earlier {m : FModel} {x y a b : Id} (w : WF m) (h : TwinsOf m x y)
    (ha : Below m x a) (hb : Below m y b) : Earlier m a b := by
  obtain ⟨p, h1, h2, h3, h4, h5⟩ := h
  refine ⟨?_, .inr ⟨p, x, y, h1, h2, h3, h4, ha, hb, by rw [h5]; exact strLt_irrefl _⟩⟩
  rintro rfl
  exact h4 (w.via_disjoint h1 h2 h3 ha hb)

/-- Neither comes first exactly if they are the same or below twins. -/
theorem unordered_iff {m : FModel} (w : WF m) {a b : Id} (ha : Known m a) (hb : Known m b) :
    (¬ Before m a b ∧ ¬ Before m b a) ↔ a = b ∨ ∃ x y, TwinsOf m x y ∧ Below m x a ∧ Below m y b := by
  constructor
  · rintro ⟨h1, h2⟩
    by_cases hne : a = b
    · exact .inl hne
    · right
      have key : ∀ a b : Id, ¬ Before m a b → Earlier m a b → ∃ x y, TwinsOf m x y ∧ Below m x a ∧ Below m y b := by
        rintro a b h1 ⟨hne, h | ⟨p, x, y, kp, hx, hy, hxy, hxa, hyb, hl⟩⟩
        · exact absurd (.inl ⟨hne, h⟩) h1
        · refine ⟨x, y, ⟨p, kp, hx, hy, hxy, ?_⟩, hxa, hyb⟩
          refine strLt_total ?_ hl
          cases hh : strLt (m.low x) (m.low y) with
          | false => rfl
          | true => exact absurd (.inr ⟨p, x, y, kp, hx, hy, hxa, hyb, hh⟩) h1
      rcases earlier_total w ha hb hne with h | h
      · exact key a b h1 h
      · obtain ⟨x, y, t, h3, h4⟩ := key b a h2 h
        exact ⟨y, x, t.symm, h4, h3⟩
  · rintro (rfl | ⟨x, y, t, h3, h4⟩)
    · exact ⟨before_irrefl w, before_irrefl w⟩
    · exact ⟨earlier_not_after w hb ha (twins_earlier w t.symm h4 h3),
        earlier_not_after w ha hb (twins_earlier w t h3 h4)⟩

theorem less_false_iff {m : FModel} (w : WF m) {a b : Id} (ha : Known m a) (hb : Known m b) :
    m.less a b = some false ↔ ¬ Before m a b := by
  obtain ⟨v, h1, h2⟩ := less_spec w ha hb
  rw [h1, ← h2]
  cases v <;> simp

theorem TwinsOf.known {m : FModel} (w : WF m) {x y : Id} (h : TwinsOf m x y) : Known m x ∧ Known m y := by
  obtain ⟨p, h1, h2, h3, _, _⟩ := h
  exact ⟨(w.via_known h1 h2).1, (w.via_known h1 h3).1⟩

/-- Two features of a well-formed model are not ordered exactly if they are the same or below (or
    are) two siblings whose names are the same ignoring case. -/
theorem C26_unordered_iff {m : FModel} (w : WF m) {a b : Id} (ha : Known m a) (hb : Known m b) :
    (m.less a b = some false ∧ m.less b a = some false) ↔
      a = b ∨ ∃ x y, TwinsOf m x y ∧ Below m x a ∧ Below m y b := by
  rw [less_false_iff w ha hb, less_false_iff w hb ha]
  exact unordered_iff w ha hb

theorem unordered_trans {m : FModel} (w : WF m) (ht : TwinsLeaves m) {a b c : Id} (ha : Known m a) (hb : Known m b)
    (hc : Known m c) (h1 : ¬ Before m a b ∧ ¬ Before m b a) (h2 : ¬ Before m b c ∧ ¬ Before m c b) :
    ¬ Before m a c ∧ ¬ Before m c a := by
  rw [unordered_iff w ha hb] at h1
  rw [unordered_iff w hb hc] at h2
  rw [unordered_iff w ha hc]
  rcases h1 with rfl | ⟨x, y, t, hx, hy⟩
  · exact h2
  · rcases h2 with rfl | ⟨x', y', t', hx', hy'⟩
    · exact .inr ⟨x, y, t, hx, hy⟩
    · cases ht x y a t ha hx
      cases ht y a b t.symm hb hy
      cases ht x' y' b t' hb hx'
      cases ht y' b c t'.symm hc hy'
      by_cases hac : a = c
      · exact .inl hac
      · obtain ⟨p, p1, p2, p3, p4, p5⟩ := t
        obtain ⟨q, q1, q2, q3, q4, q5⟩ := t'
        cases (w.via_known p1 p3).2.1.functional (w.via_known q1 q2).2.1
        exact .inr ⟨a, c, ⟨p, p1, p2, q3, hac, p5.trans q5⟩, .refl, .refl⟩

/-- The comparison is a strict weak order (being unordered is transitive) exactly if no feature with
    a twin has children. -/
theorem C26_weak_iff {m : FModel} (w : WF m) :
    (∀ a b c, Known m a → Known m b → Known m c →
      m.less a b = some false → m.less b a = some false → m.less b c = some false → m.less c b = some false →
      m.less a c = some false ∧ m.less c a = some false) ↔ TwinsLeaves m := by
  constructor
  · intro h x y c t hc hxc
    apply Classical.byContradiction
    intro hne
    obtain ⟨kx, ky⟩ := t.known w
    have u1 := (C26_unordered_iff w kx ky).2 (.inr ⟨x, y, t, .refl, .refl⟩)
    have u2 := (C26_unordered_iff w ky hc).2 (.inr ⟨y, x, t.symm, .refl, hxc⟩)
    have := (h x y c kx ky hc u1.1 u1.2 u2.1 u2.2).1
    rw [less_false_iff w kx hc] at this
    exact this (.inl ⟨Ne.symm hne, hxc⟩)
  · intro ht a b c ha hb hc h1 h2 h3 h4
    rw [less_false_iff w ha hb] at h1
    rw [less_false_iff w hb ha] at h2
    rw [less_false_iff w hb hc] at h3
    rw [less_false_iff w hc hb] at h4
    rw [less_false_iff w ha hc, less_false_iff w hc ha]
    exact unordered_trans w ht ha hb hc ⟨h1, h2⟩ ⟨h3, h4⟩

/-- In any layout the comparison is the order of iteration exactly if there are no twins. -/
theorem C26_iteration_iff {m : FModel} (w : WF m) (E : Env) :
    (∀ (l : List Id) (i j : Nat) (a b : Id), m.iterate E = some l → l[i]? = some a → l[j]? = some b → (m.less a b = some true ↔ i < j)) ↔
      SiblingsDiffer m := by
  constructor
  · intro h p x y kp hx hy hl
    apply Classical.byContradiction
    intro hne
    have t : TwinsOf m x y := ⟨p, kp, hx, hy, hne, hl⟩
    obtain ⟨kx, ky⟩ := t.known w
    have u := (C26_unordered_iff w kx ky).2 (.inr ⟨x, y, t, .refl, .refl⟩)
    obtain ⟨_, l, _, h1, _, _, hmem, _⟩ := C25_preorder w E
    obtain ⟨i, hi⟩ := List.getElem?_of_mem ((hmem x).2 kx)
    obtain ⟨j, hj⟩ := List.getElem?_of_mem ((hmem y).2 ky)
    have h2 := h l i j x y h1 hi hj
    have h3 := h l j i y x h1 hj hi
    rw [u.1] at h2
    rw [u.2] at h3
    simp at h2 h3
    have : i = j := by omega
    subst this
    rw [hi] at hj; cases hj
    exact hne rfl
  · intro hs l i j a b h1 hi hj
    exact C26_iteration_partial w hs E h1 hi hj

theorem vecRun_leaves {m : FModel} (w : WF m) (ht : TwinsLeaves m) (os : List VecOp) :
    ∀ l c, AllKnown m os → (∀ x ∈ l, Known m x) → l.Pairwise (fun a b => m.less b a = some false) → l.Perm c →
      ∃ l', m.vecRun l os = some l' ∧ l'.Pairwise (fun a b => m.less b a = some false) ∧ l'.Perm (contents c os) := by
  have hB : ∀ a b, Known m a → Known m b → (m.lessB a b = true ↔ Before m a b) := by
    intro a b ha hb
    obtain ⟨v, h1, h2⟩ := less_spec w ha hb
    simp [lessB, h1, h2]
  have hF : ∀ a b, Known m a → Known m b → (m.lessB a b = false ↔ m.less a b = some false) := by
    intro a b ha hb
    obtain ⟨v, h1, h2⟩ := less_spec w ha hb
    simp [lessB, h1]
  induction os with
  | nil => intro l c _ _ h1 h2; exact ⟨l, rfl, h1, h2⟩
  | cons o os ih =>
    intro l c hk hl h1 h2
    have hk' : AllKnown m os := fun o ho => hk o (List.mem_cons_of_mem _ ho)
    cases o with
    | remove f =>
      obtain ⟨l', g⟩ := ih (l.filter (fun x => x ≠ f)) (c.filter (fun x => x ≠ f)) hk'
        (fun x hx => hl x ((List.mem_filter.1 hx).1)) (h1.filter _) (h2.filter _)
      exact ⟨l', by simpa [vecRun, vecStep] using g.1, g.2.1, g.2.2⟩
    | insert f =>
      have kf := hk _ (List.mem_cons_self ..) f (.inl rfl)
      have hsort : l.Pairwise (fun a b => m.lessB b a = false) := by
        refine List.Pairwise.imp_of_mem ?_ h1
        intro a b ha hb h
        exact (hF b a (hl b hb) (hl a ha)).2 h
      obtain ⟨pre, post, e1, e2, e3, e4, e5⟩ := upperInsert_sorted (lt := m.lessB) (Known m)
        (by
          intro a b c ha hb hc h h'
          have h := (hB a b ha hb).1 h
          have h' : ¬ Before m c b := fun hh => by rw [(hB c b hc hb).2 hh] at h'; cases h'
          rw [hB a c ha hc]
          by_cases hbc : Before m b c
          · exact before_trans w ha hb hc h hbc
          · apply Classical.byContradiction
            intro hac
            by_cases hca : Before m c a
            · exact h' (before_trans w hc ha hb hca h)
            · exact (unordered_trans w ht ha hc hb ⟨hac, hca⟩ ⟨h', hbc⟩).1 h)
        (by
          intro a b ha hb h
          have := before_asymm w ha hb ((hB a b ha hb).1 h)
          cases hh : m.lessB b a with
          | false => rfl
          | true => exact absurd ((hB b a hb ha).1 hh) this)
        kf hl hsort
      have hp := upperInsert_perm e2
      have hkn : ∀ x ∈ pre ++ f :: post, Known m x := by
        intro x hx
        rcases List.mem_cons.1 (hp.mem_iff.1 hx) with rfl | h
        · exact kf
        · exact hl x h
      obtain ⟨l', g⟩ := ih (pre ++ f :: post) (f :: c) hk' hkn
        (by
          refine List.Pairwise.imp_of_mem ?_ e5
          intro a b ha hb h
          exact (hF b a (hkn b hb) (hkn a ha)).1 h)
        (hp.trans (h2.cons f))
      refine ⟨l', ?_, g.2.1, g.2.2⟩
      have hall : l.all (fun e => (m.less f e).isSome) = true := by
        rw [List.all_eq_true]
        intro e he
        obtain ⟨v, h1, _⟩ := less_spec w kf (hl e he)
        rw [h1]; rfl
      simp only [vecRun, vecStep, hall, if_true, e2, Option.bind_some]
      exact g.1

/-- Whenever a feature with a twin has something below it: inserting that, the twin and the feature,
    in this order, has no defined result. -/
theorem C27_twins {m : FModel} (w : WF m) {a b c : Id} (t : TwinsOf m a b) (hc : Known m c) (hac : Below m a c)
    (hne : c ≠ a) : m.vecRun [] [.insert c, .insert b, .insert a] = none := by
  obtain ⟨ka, kb⟩ := t.known w
  have u1 := (C26_unordered_iff w ka kb).2 (.inr ⟨a, b, t, .refl, .refl⟩)
  have u2 := (C26_unordered_iff w kb hc).2 (.inr ⟨b, a, t.symm, .refl, hac⟩)
  have l3 : m.less a c = some true := (less_iff w ka hc).2 (.inl ⟨Ne.symm hne, hac⟩)
  simp [vecRun, vecStep, upperInsert, lessB, u1.1, u2.1, l3]

/-- All sequences of insertions and removals of features of a model give the sorted contents exactly
    if no feature with a twin has children. -/
theorem C27_sorted_iff {m : FModel} (w : WF m) :
    (∀ os, AllKnown m os → ∃ l, m.vecRun [] os = some l ∧ l.Pairwise (fun a b => m.less b a = some false) ∧
      l.Perm (contents [] os)) ↔ TwinsLeaves m := by
  constructor
  · intro h x y c t hc hxc
    apply Classical.byContradiction
    intro hne
    obtain ⟨kx, ky⟩ := t.known w
    obtain ⟨l, h1, _⟩ := h [.insert c, .insert y, .insert x] (by
      intro o ho f hf
      simp at ho
      rcases ho with rfl | rfl | rfl <;> simp at hf <;> subst hf <;> assumption)
    rw [C27_twins w t hc hxc hne] at h1
    cases h1
  · intro ht os hk
    exact vecRun_leaves w ht os [] [] hk (by intro x hx; cases hx) .nil (.refl _)

/-- The order of insertion does not matter exactly if there are no twins. -/
theorem C27_canonical_iff {m : FModel} (w : WF m) :
    (∀ os os', AllKnown m os → AllKnown m os' → (contents [] os).Perm (contents [] os') →
      m.vecRun [] os = m.vecRun [] os') ↔ SiblingsDiffer m := by
  constructor
  · intro h p x y kp hx hy hl
    apply Classical.byContradiction
    intro hne
    have t : TwinsOf m x y := ⟨p, kp, hx, hy, hne, hl⟩
    obtain ⟨kx, ky⟩ := t.known w
    have u := (C26_unordered_iff w kx ky).2 (.inr ⟨x, y, t, .refl, .refl⟩)
    have hk : ∀ x y, Known m x → Known m y → AllKnown m [.insert x, .insert y] := by
      intro x y kx ky o ho f hf
      simp at ho
      rcases ho with rfl | rfl <;> simp at hf <;> subst hf <;> assumption
    have := h [.insert x, .insert y] [.insert y, .insert x] (hk x y kx ky) (hk y x ky kx) (.swap ..)
    simp [vecRun, vecStep, upperInsert, lessB, u.1, u.2] at this
    exact hne this.1
  · intro hs os os' hk hk' hc
    exact C27_canonical w hs hk hk' hc

/-- `TwinsLeaves` by evaluation. -/
theorem leaves_of_check {m : FModel} (w : WF m)
    (h : ∀ a ∈ m.features.map Prod.snd, ∀ b ∈ m.features.map Prod.snd, a ≠ b → m.low a = m.low b → edg m a = []) :
    TwinsLeaves m := by
  intro x y c t hc hb
  obtain ⟨kx, ky⟩ := t.known w
  obtain ⟨p, _, _, _, hne, hl⟩ := t
  have he := h x kx y ky hne hl
  have key : ∀ c, Below m x c → Owned m c → c = x := by
    intro c hb
    induction hb with
    | refl => intro _; rfl
    | @step i p hp hb ih =>
      intro ho
      obtain ⟨h1, h2⟩ := w.par_edge i p ho hp
      cases ih h1
      rw [he] at h2; cases h2
  exact key c hb (.inl hc)

/-- root with children A and a without children, and b with a child. -/
def leafTwins : FModel :=
  ofNodes [featNode "root" none [1, 2, 3] .root, featNode "A" (some 0) [], featNode "a" (some 0) [],
           featNode "b" (some 0) [4], featNode "X" (some 3) []]
    (some 0) [(c!"root", 0), (c!"A", 1), (c!"a", 2), (c!"b", 3), (c!"X", 4)] []

theorem leafTwins_wf : WF leafTwins := wf_of_check (fun i => i) (ofNodes_fresh _ _ _ _ _) (by decide)

theorem leafTwins_leaves : TwinsLeaves leafTwins := leaves_of_check leafTwins_wf (by decide)

/-- Siblings are not different here, but vectors are sorted; of the twins the one inserted first comes
    first. -/
example : leafTwins.vecRun [] [.insert 4, .insert 2, .insert 3, .insert 1, .insert 0] = some [0, 2, 1, 3, 4] ∧
    leafTwins.vecRun [] [.insert 1, .insert 3, .insert 2, .insert 0, .insert 4] = some [0, 1, 2, 3, 4] := by decide

/-- In `twins` the feature A has the twin a and the child X. -/
example : ¬ TwinsLeaves twins := by
  intro h
  obtain ⟨_, _, h3⟩ := C27_undefined
  obtain ⟨l, h1, _⟩ := (C27_sorted_iff twins_wf).2 h _ C27_undefined.2.1
  rw [h3] at h1; cases h1

end Verif.Props

import Verif.Props.Layout
import Verif.Props.NormalForm
/-!
# Property C104: siblings whose names differ in case only

The general form of the witness `C104_case_fails`.
-/

namespace Verif.Props
open Verif Verif.Spec Verif.FModel Verif.Xml

/-- Two siblings whose names differ in case only change places when sets are visited backwards. -/
theorem twins_swapped {m : FModel} (w : WF m) (E : Env) {p a b : Id} (kp : Known m p) (va : Via m isF p a) (vb : Via m isF p b)
    (hl : m.low a = m.low b) (hne : a ≠ b) : ∃ l l', m.iterate E = some l ∧ m.iterate (backwards E) = some l' ∧ l.Nodup ∧
      l'.Nodup ∧ (∀ x ∈ l, Known m x) ∧ (∀ x ∈ l', Known m x) ∧
      (([a, b].Sublist l ∧ [b, a].Sublist l') ∨ ([b, a].Sublist l ∧ [a, b].Sublist l')) := by
  obtain ⟨r, _, hr, _⟩ := w.root_ok
  have kr := w.root_known hr
  obtain ⟨l, h1, h2⟩ := iterate_exact w E hr
  obtain ⟨l', h3, h4⟩ := iterate_exact w (backwards E) hr
  have p1 := h2.pre w kr
  have p2 := h4.pre w kr
  refine ⟨l, l', h1, h3, (p1.ordered w kr).imp (fun h => h.1), (p2.ordered w kr).imp (fun h => h.1),
    fun x hx => ((p1.mem w kr x).1 hx).1, fun x hx => ((p2.mem w kr x).1 hx).1, ?_⟩
  obtain ⟨l1, e1, s1⟩ := h2.part p ((p1.mem w kr p).2 ⟨kp, w.reach p r (.inl kp) hr⟩)
  obtain ⟨l2, e2, s2⟩ := h4.part p ((p2.mem w kr p).2 ⟨kp, w.reach p r (.inl kp) hr⟩)
  obtain ⟨cs, c1, c2, c3⟩ := childrenF w E (.inl kp)
  have c4 : m.children (backwards E) Node.isFeat p = some cs.reverse := by
    simp only [FModel.children] at c1 ⊢
    cases hi : m.childrenImpl Node.isFeat (m.next + 1) (-1) p [] with
    | none => rw [hi] at c1; cases c1
    | some fs => rw [hi] at c1; cases c1; rfl
  have ma := (c3 a).2 va
  have mb := (c3 b).2 vb
  have key : ∀ a b : Id, m.low a = m.low b → [a, b].Sublist cs → [b, a].Sublist l ∧ [a, b].Sublist l' := by
    intro a b hl hab
    have hba : [b, a].Sublist cs.reverse := by
      have := List.reverse_sublist.2 hab
      simpa using this
    exact ⟨(exact_twins e1 c1 hl hab).trans s1, (exact_twins e2 c4 hl.symm hba).trans s2⟩
  obtain ⟨x, y, rfl⟩ := List.append_of_mem ma
  rcases List.mem_append.1 mb with hb | hb
  · exact .inl (key b a hl.symm
      (List.Sublist.append (List.singleton_sublist.2 hb) (List.singleton_sublist.2 (List.mem_cons_self ..))))
  · rcases List.mem_cons.1 hb with hb | hb
    · exact absurd hb.symm hne
    · exact .inr (key a b hl
        (List.Sublist.trans (List.Sublist.cons_cons a (List.singleton_sublist.2 hb)) (List.sublist_append_right ..)))

/-- The name an option is written with. -/
def nameOfOption (x : Xml) : Option Str := x.kids.head?.map Xml.text

theorem writeFeatures_names {E : Env} {m : FModel} : ∀ {is : List Id} {xs : List Xml}, writeFeatures E m is = some xs →
    xs.map nameOfOption = is.map m.nameOf
  | [], xs, h => by cases h; rfl
  | i :: is, xs, h => by
    unfold writeFeatures at h
    cases hx : writeFeature E m i with
    | none => rw [hx] at h; cases h
    | some x =>
      rw [hx] at h
      dsimp only at h
      cases hr : writeFeatures E m is with
      | none => rw [hr] at h; cases h
      | some ys =>
        rw [hr] at h; cases h
        rw [List.map_cons, List.map_cons, writeFeatures_names hr]
        congr 1
        unfold writeFeature at hx
        cases hf : m.feat? i with
        | none => rw [hf] at hx; cases hx
        | some f =>
          rw [hf] at hx
          dsimp only at hx
          split at hx
          · cases hx
            simp [nameOfOption, group, leaf, Xml.kids, Xml.text, FModel.nameOf, hf]
          · cases hx

/-- The options of the same list of names come in the same order. -/
theorem names_order {m : FModel} (w : WF m) {l l' : List Id} {a b : Id} (hl : l.Nodup) (kl : ∀ x ∈ l, Known m x)
    (h : l.map m.nameOf = l'.map m.nameOf) (hs : [a, b].Sublist l) : ¬ [b, a].Sublist l' := by
  have inj : ∀ x y, Known m x → Known m y → m.nameOf x = m.nameOf y → x = y := by
    intro x y kx ky e
    obtain ⟨n, f, h1, h2, h3⟩ := known_entry w kx
    obtain ⟨n', f', h1', h2', h3'⟩ := known_entry w ky
    rw [nameOf_of_data h2, nameOf_of_data h2', h3, h3'] at e
    cases e
    exact w.entry_unique h1 h1'
  intro hs'
  have hnd : (l.map m.nameOf).Nodup := by
    refine List.pairwise_map.2 (List.Pairwise.imp_of_mem ?_ hl)
    intro x y hx hy hne e
    exact hne (inj x y (kl x hx) (kl y hy) e)
  have s1 := hs.map m.nameOf
  have s2 := hs'.map m.nameOf
  rw [← h] at s2
  exact two_orders hnd s1 s2

/-- In every well-formed model with two siblings of the same kind (both Boolean or both numeric) whose names
    differ in case only, and in every layout, another document is saved when sets are visited backwards. -/
theorem C104_layout {m : FModel} (w : WF m) (E : Env) {p a b : Id} (kp : Known m p) (va : Via m isF p a) (vb : Via m isF p b)
    (hl : m.low a = m.low b) (hne : a ≠ b)
    (hk : (isBinary m a = true ∧ isBinary m b = true) ∨ (isNumeric m a = true ∧ isNumeric m b = true))
    {x y : Xml} (hx : write E m = some x) (hy : write (backwards E) m = some y) : x ≠ y := by
  obtain ⟨l, l', h1, h2, n1, _, k1, _, hs⟩ := twins_swapped w E kp va vb hl hne
  unfold write at hx hy
  rw [h1] at hx
  rw [h2] at hy
  dsimp only at hx hy
  split at hx
  · rename_i bs ns c1 c2 c3 e1 e2 _ _ _
    split at hy
    · rename_i bs' ns' c1' c2' c3' e1' e2' _ _ _
      cases hx; cases hy
      intro e
      have hb : bs = bs' ∧ ns = ns' := by
        simp only [group, Xml.node.injEq, List.cons.injEq] at e
        exact ⟨e.2.2.2.1.2.2.2, e.2.2.2.2.1.2.2.2⟩
      have names : ∀ which : Id → Bool, (l.filter which).map m.nameOf = (l'.filter which).map m.nameOf →
          which a = true → which b = true → False := by
        intro which hn wa wb
        have f1 : ∀ {c d : Id} {t : List Id}, which c = true → which d = true → [c, d].Sublist t → [c, d].Sublist (t.filter which) := by
          intro c d t hc hd h
          have := h.filter which
          simpa [hc, hd] using this
        have g1 := n1.sublist (List.filter_sublist (p := which))
        have g2 : ∀ x ∈ l.filter which, Known m x := fun x hx => k1 x (List.mem_filter.1 hx).1
        rcases hs with ⟨s1, s2⟩ | ⟨s1, s2⟩
        · exact names_order w g1 g2 hn (f1 wa wb s1) (f1 wb wa s2)
        · exact names_order w g1 g2 hn (f1 wb wa s1) (f1 wa wb s2)
      rcases hk with ⟨ha, hb'⟩ | ⟨ha, hb'⟩
      · exact names (isBinary m) (by rw [← writeFeatures_names e1, ← writeFeatures_names e1', hb.1]) ha hb'
      · exact names (isNumeric m) (by rw [← writeFeatures_names e2, ← writeFeatures_names e2', hb.2]) ha hb'
    · cases hy
  · cases hx

/-- `A` and `a` in `caseModel`. -/
example : WF caseModel ∧ Known caseModel 0 ∧ Via caseModel isF 0 1 ∧ Via caseModel isF 0 2 ∧ caseModel.low 1 = caseModel.low 2 ∧
    isBinary caseModel 1 = true ∧ isBinary caseModel 2 = true ∧ (write (stdEnv true) caseModel).isSome = true ∧
    (write (backwards (stdEnv true)) caseModel).isSome = true :=
  ⟨C104_case_fails.1, by simp [Known, caseModel, ofNodes], .here (by decide) rfl rfl, .here (by decide) rfl rfl, by decide, by decide,
    by decide, by decide, by decide⟩

end Verif.Props

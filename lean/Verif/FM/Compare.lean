import Verif.FM.Traverse
/-!
# Comparison of features
-/

namespace Verif
open Verif.Spec Verif.FModel

/-- A chain of features from `h` down to `a`, each the parent feature of the next. -/
inductive Down (m : FModel) : Id → List Id → Id → Prop
  | nil {a} : Down m a [] a
  | cons {h x t a} : FParent m x h → Known m x → Down m x t a → Down m h (x :: t) a

theorem Down.snoc {m : FModel} {h a b : Id} {t : List Id} (d : Down m h t a) (hp : FParent m b a) (hb : Known m b) :
    Down m h (t ++ [b]) b := by
  induction d with
  | nil => exact .cons hp hb .nil
  | cons h1 h2 _ ih => exact .cons h1 h2 (ih hp)

theorem Down.isBelow {m : FModel} {h a : Id} {t : List Id} (d : Down m h t a) : Below m h a := by
  induction d with
  | nil => exact .refl
  | cons h1 _ _ ih => exact (fparent_isBelow h1).trans ih

theorem Down.known {m : FModel} {h a : Id} {t : List Id} (d : Down m h t a) (hk : Known m h) : Known m a := by
  induction d with
  | nil => exact hk
  | cons _ h2 _ ih => exact ih h2

/-- The stack of ancestors. -/
theorem trace_spec {m : FModel} (w : WF m) {r : Id} (hr : m.root = some r) (fuel : Nat) :
    ∀ a acc, Known m a → lvlOf m a < fuel → ∃ t, m.trace fuel a acc = some (r :: t ++ acc) ∧ Down m r t a := by
  induction fuel with
  | zero => intro a acc _ h; omega
  | succ fuel ih =>
    intro a acc ha hl
    obtain ⟨q, h1, h2⟩ := parentFeature_spec w (.inl ha)
    cases q with
    | none =>
      have hroot : m.root = some a := by
        apply Classical.byContradiction
        intro hn
        obtain ⟨p, hp, _⟩ := w.has_fparent (.inl ha) hn
        cases (h2 p).2 hp
      rw [hr] at hroot; cases hroot
      exact ⟨[], by simp [trace, h1], .nil⟩
    | some p =>
      have hp := (h2 p).1 rfl
      have hnr : m.root ≠ some a := by
        intro h
        have := w.root_par h
        cases hp with
        | direct hp _ => rw [this] at hp; cases hp
        | skip hp _ _ => rw [this] at hp; cases hp
      obtain ⟨p', hp', kp⟩ := w.has_fparent (.inl ha) hnr
      cases hp.functional hp'
      have hlv := (w.via_known kp ((via_iff_fparent w (.inl kp) (w.known_data kp)).2 ⟨ha, hp⟩)).2.2.2
      obtain ⟨t, t1, t2⟩ := ih p (a :: acc) kp (by omega)
      exact ⟨t ++ [a], by simp [trace, h1, t1], t2.snoc hp ha⟩

theorem before_irrefl {m : FModel} (w : WF m) {a : Id} : ¬ Before m a a := by
  rintro (⟨h, _⟩ | ⟨p, x, y, kp, hx, hy, ha, hb, hl⟩)
  · exact h rfl
  · cases w.via_disjoint kp hx hy ha hb
    rw [strLt_irrefl] at hl; cases hl

theorem lessTrace_iff {m : FModel} (w : WF m) {a b : Id} (ta : List Id) :
    ∀ h tb, Known m h → Down m h ta a → Down m h tb b → (m.lessTrace ta tb = true ↔ Before m a b) := by
  induction ta with
  | nil =>
    intro h tb kh da db
    cases da
    cases db with
    | nil => simp [lessTrace, before_irrefl w]
    | @cons _ x t _ h1 h2 d =>
      have hv := (via_iff_fparent w (.inl kh) (w.known_data kh)).2 ⟨h2, h1⟩
      have hlv := (w.via_known kh hv).2.2.2
      have hb := (fparent_isBelow h1).trans d.isBelow
      simp only [lessTrace, true_iff]
      refine .inl ⟨?_, hb⟩
      rintro rfl
      have := w.below_level (.inl kh) d.isBelow; omega
  | cons x ta ih =>
    intro h tb kh da db
    cases da with
    | cons h1 h2 da =>
    have hv := (via_iff_fparent w (.inl kh) (w.known_data kh)).2 ⟨h2, h1⟩
    have ka := da.known h2
    have hha := (fparent_isBelow h1).trans da.isBelow
    cases db with
    | nil =>
      simp only [lessTrace, Bool.false_eq_true, false_iff]
      rintro (⟨hne, hab⟩ | ⟨p, x', y', kp, hx, hy, ha, hb, hl⟩)
      · exact hne (w.below_antisymm (.inl kh) hab hha)
      · cases w.via_disjoint kp hx hy ha (hb.trans hha)
        rw [strLt_irrefl] at hl; cases hl
    | @cons _ y tb _ h1' h2' db =>
      have hv' := (via_iff_fparent w (.inl kh) (w.known_data kh)).2 ⟨h2', h1'⟩
      unfold lessTrace
      by_cases hxy : x = y
      · subst hxy
        rw [if_pos rfl]
        exact ih x tb h2 da db
      · rw [if_neg hxy]
        have hhb := (fparent_isBelow h1').trans db.isBelow
        constructor
        · intro hl
          exact .inr ⟨h, x, y, kh, hv, hv', da.isBelow, db.isBelow, hl⟩
        · rintro (⟨_, hab⟩ | ⟨p, x', y', kp, hx, hy, ha, hb, hl⟩)
          · exact absurd (w.via_disjoint kh hv hv' (da.isBelow.trans hab) db.isBelow) hxy
          · have kx' := w.via_known kp hx
            have ky' := w.via_known kp hy
            have hx'y' : x' ≠ y' := by rintro rfl; rw [strLt_irrefl] at hl; cases hl
            have ex : x = x' := by
              apply Classical.byContradiction
              intro hne
              rcases below_chain da.isBelow ha with hc | hc
              · have := fparent_above kx'.2.1 hc hne (w.known_data h2)
                exact hxy (w.via_disjoint kh hv hv' ((this.trans ky'.2.2.1).trans hb) db.isBelow)
              · have := fparent_above h1 hc (Ne.symm hne) (w.known_data kx'.1)
                exact hx'y' (w.via_disjoint kp hx hy (this.trans hhb) hb)
            have ey : y = y' := by
              apply Classical.byContradiction
              intro hne
              rcases below_chain db.isBelow hb with hc | hc
              · have := fparent_above ky'.2.1 hc hne (w.known_data h2')
                exact hxy (w.via_disjoint kh hv hv' da.isBelow ((this.trans kx'.2.2.1).trans ha))
              · have := fparent_above h1' hc (Ne.symm hne) (w.known_data ky'.1)
                exact hx'y' (w.via_disjoint kp hx hy ha (this.trans hha))
            rw [ex, ey]; exact hl

/-- Comparison of two features of the model. -/
theorem less_spec {m : FModel} (w : WF m) {a b : Id} (ha : Known m a) (hb : Known m b) :
    ∃ v, m.less a b = some v ∧ (v = true ↔ Before m a b) := by
  obtain ⟨r, _, hr, _⟩ := w.root_ok
  obtain ⟨ta, a1, a2⟩ := trace_spec w hr (m.next + 1) a [] ha (by have := w.level_lt (.inl ha); omega)
  obtain ⟨tb, b1, b2⟩ := trace_spec w hr (m.next + 1) b [] hb (by have := w.level_lt (.inl hb); omega)
  refine ⟨m.lessTrace ta tb, ?_, lessTrace_iff w ta r tb (w.root_known hr) a2 b2⟩
  simp only [less, a1, b1, List.append_nil, if_true, lessTrace]

theorem lessTrace_trans {m : FModel} {s t u : List Id} (h1 : m.lessTrace s t = true) (h2 : m.lessTrace t u = true) :
    m.lessTrace s u = true := by
  induction s generalizing t u with
  | nil =>
    cases u with
    | nil => cases t <;> simp [lessTrace] at h2
    | cons => rfl
  | cons x xs ih =>
    cases t with
    | nil => simp [lessTrace] at h1
    | cons y ys =>
      cases u with
      | nil => simp [lessTrace] at h2
      | cons z zs =>
        unfold lessTrace at h1 h2 ⊢
        by_cases hxy : x = y
        · subst hxy
          by_cases hxz : x = z
          · subst hxz
            simp only [if_true] at h1 h2 ⊢
            exact ih h1 h2
          · simp only [if_neg hxz] at h2 ⊢; exact h2
        · by_cases hyz : y = z
          · subst hyz
            simp only [if_neg hxy] at h1 ⊢; exact h1
          · simp only [if_neg hxy, if_neg hyz] at h1 h2
            have h3 := strLt_trans h1 h2
            have hxz : x ≠ z := by rintro rfl; rw [strLt_irrefl] at h3; cases h3
            simp only [if_neg hxz]; exact h3

theorem before_trans {m : FModel} (w : WF m) {a b c : Id} (ha : Known m a) (hb : Known m b) (hc : Known m c)
    (h1 : Before m a b) (h2 : Before m b c) : Before m a c := by
  obtain ⟨r, _, hr, _⟩ := w.root_ok
  have kr := w.root_known hr
  obtain ⟨ta, _, a2⟩ := trace_spec w hr (m.next + 1) a [] ha (by have := w.level_lt (.inl ha); omega)
  obtain ⟨tb, _, b2⟩ := trace_spec w hr (m.next + 1) b [] hb (by have := w.level_lt (.inl hb); omega)
  obtain ⟨tc, _, c2⟩ := trace_spec w hr (m.next + 1) c [] hc (by have := w.level_lt (.inl hc); omega)
  exact (lessTrace_iff w ta r tc kr a2 c2).1 (lessTrace_trans ((lessTrace_iff w ta r tb kr a2 b2).2 h1)
    ((lessTrace_iff w tb r tc kr b2 c2).2 h2))

theorem before_asymm {m : FModel} (w : WF m) {a b : Id} (ha : Known m a) (hb : Known m b) (h : Before m a b) :
    ¬ Before m b a := fun h' => before_irrefl w (before_trans w ha hb ha h h')

/-- Earlier in iteration order is not after. -/
theorem earlier_not_after {m : FModel} (w : WF m) {a b : Id} (ha : Known m a) (hb : Known m b) (h : Earlier m a b) :
    ¬ Before m b a := by
  obtain ⟨hne, h | ⟨p, x, y, kp, hx, hy, hxy, hxa, hyb, hl⟩⟩ := h
  · exact before_asymm w ha hb (.inl ⟨hne, h⟩)
  · rintro (⟨_, hba⟩ | ⟨q, y', x', kq, hy', hx', hyb', hxa', hl'⟩)
    · exact hxy (w.via_disjoint kp hx hy hxa (hyb.trans hba))
    · have kx' := w.via_known kq hx'
      have ky' := w.via_known kq hy'
      have kx := w.via_known kp hx
      have ky := w.via_known kp hy
      have hne' : x' ≠ y' := by rintro rfl; rw [strLt_irrefl] at hl'; cases hl'
      have ex : x = x' := by
        apply Classical.byContradiction
        intro hne
        rcases below_chain hxa hxa' with hc | hc
        · have := fparent_above kx'.2.1 hc hne (w.known_data kx.1)
          exact hxy (w.via_disjoint kp hx hy ((this.trans ky'.2.2.1).trans hyb') hyb)
        · have := fparent_above kx.2.1 hc (Ne.symm hne) (w.known_data kx'.1)
          exact hne' (w.via_disjoint kq hx' hy' ((this.trans ky.2.2.1).trans hyb) hyb')
      have ey : y = y' := by
        apply Classical.byContradiction
        intro hne
        rcases below_chain hyb hyb' with hc | hc
        · have := fparent_above ky'.2.1 hc hne (w.known_data ky.1)
          exact hxy (w.via_disjoint kp hx hy hxa ((this.trans kx'.2.2.1).trans hxa'))
        · have := fparent_above ky.2.1 hc (Ne.symm hne) (w.known_data ky'.1)
          exact hne' (w.via_disjoint kq hx' hy' hxa' ((this.trans kx.2.2.1).trans hxa))
      rw [ex, ey, hl'] at hl; cases hl

/-- With different names among siblings the order is total. -/
theorem before_total {m : FModel} (w : WF m) (hs : SiblingsDiffer m) {a b : Id} (ha : Known m a) (hb : Known m b)
    (hne : a ≠ b) : Before m a b ∨ Before m b a := by
  obtain ⟨r, _, hr, _⟩ := w.root_ok
  have kr := w.root_known hr
  obtain ⟨l, _, hp⟩ := iterate_spec w (⟨id, fun _ => .refl _, id, fun _ => .refl _, true⟩ : Env) hr
  have ma := (hp.mem w kr a).2 ⟨ha, w.reach a r (.inl ha) hr⟩
  have mb := (hp.mem w kr b).2 ⟨hb, w.reach b r (.inl hb) hr⟩
  have ho := hp.ordered w kr
  obtain ⟨i, hi, rfl⟩ := List.mem_iff_getElem.1 ma
  obtain ⟨j, hj, rfl⟩ := List.mem_iff_getElem.1 mb
  rcases Nat.lt_trichotomy i j with h | h | h
  · exact .inl (earlier_before hs (List.pairwise_iff_getElem.1 ho i j hi hj h))
  · subst h; exact absurd rfl hne
  · exact .inr (earlier_before hs (List.pairwise_iff_getElem.1 ho j i hj hi h))

end Verif

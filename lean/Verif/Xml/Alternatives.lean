import Verif.Xml.Model
import Verif.FM.Buildable
import Verif.FM.Traverse
import Verif.FM.Clone
import Verif.FM.Effects
/-!
# Alternative groups in XML models

What `detectXMLAlternatives` does to a model without groups.
-/

namespace Verif
namespace Spec

/-- The features whose parent is `n`. -/
def Desc.kids (d : Desc) (n : Str) : List Attr := d.attrs.filter fun a => decide (d.parent a.name = n)

/-- The model has the constraint that `a` excludes `b`. -/
def Excludes (d : Desc) (a b : Str) : Prop := ∃ k, (k, .bin .excludes (.feature a) (.feature b)) ∈ d.constraints

/-- There are at least two children, none is optional and each excludes each other one. -/
structure Exclusive (d : Desc) (n : Str) : Prop where
  many : 2 ≤ (d.kids n).length
  mandatory : ∀ a ∈ d.kids n, a.opt = false
  excludes : ∀ a ∈ d.kids n, ∀ b ∈ d.kids n, a.name ≠ b.name → Excludes d a.name b.name

end Spec
end Verif

namespace Verif.Xml
open Verif Verif.Spec

theorem anyM_spec {α} {p : α → Option Bool} {q : α → Prop} :
    ∀ {l : List α}, (∀ x ∈ l, ∃ b, p x = some b ∧ (b = true ↔ q x)) → ∃ b, anyM p l = some b ∧ (b = true ↔ ∃ x ∈ l, q x)
  | [], _ => ⟨false, rfl, by simp⟩
  | x :: xs, h => by
    obtain ⟨b, h1, h2⟩ := h x (by simp)
    obtain ⟨c, h3, h4⟩ := anyM_spec (l := xs) fun y hy => h y (by simp [hy])
    unfold anyM
    rw [h1]
    cases b with
    | true => exact ⟨true, rfl, by simp [h2.1 rfl]⟩
    | false =>
      refine ⟨c, h3, h4.trans ?_⟩
      have : ¬ q x := fun hq => by have := h2.2 hq; cases this
      simp [this]

theorem allM_spec {α} {p : α → Option Bool} {q : α → Prop} :
    ∀ {l : List α}, (∀ x ∈ l, ∃ b, p x = some b ∧ (b = true ↔ q x)) →
      ∃ b, FModel.allM p l = some b ∧ (b = true ↔ ∀ x ∈ l, q x)
  | [], _ => ⟨true, rfl, by simp⟩
  | x :: xs, h => by
    obtain ⟨b, h1, h2⟩ := h x (by simp)
    obtain ⟨c, h3, h4⟩ := allM_spec (l := xs) fun y hy => h y (by simp [hy])
    unfold FModel.allM
    rw [h1]
    cases b with
    | true => exact ⟨c, h3, h4.trans (by simp [h2.1 rfl])⟩
    | false =>
      refine ⟨false, rfl, ?_⟩
      have : ¬ q x := fun hq => by have := h2.2 hq; cases this
      simp [this]

variable {d : Desc} {m : FModel}

/-- A stored constraint belongs to one of the description. -/
theorem stored_desc (h : Describes d m) {cl : CClass} {k : Nat} {s : Stored} (hs : (m.store cl)[k]? = some s) :
    ∃ x ∈ d.constraints, x.1.cls = cl ∧ s = ⟨x.2, x.2.features.map m.getFeature, x.1.info⟩ := by
  rw [h.store cl, List.getElem?_map] at hs
  cases hx : (d.ofClass cl)[k]? with
  | none => rw [hx] at hs; cases hs
  | some x =>
    rw [hx] at hs
    cases hs
    have := List.mem_of_getElem? hx
    rw [Desc.ofClass, List.mem_filter] at this
    exact ⟨x, this.1, by simpa using this.2, rfl⟩

theorem desc_stored (h : Describes d m) {x : CKind × Constraint} (hx : x ∈ d.constraints) :
    ∃ k : Nat, (m.store x.1.cls)[k]? = some (⟨x.2, x.2.features.map m.getFeature, x.1.info⟩ : Stored) := by
  have : x ∈ d.ofClass x.1.cls := by simp [Desc.ofClass, hx]
  obtain ⟨k, hk⟩ := List.getElem?_of_mem this
  exact ⟨k, by rw [h.store, List.getElem?_map, hk]; rfl⟩

/-- A leaf of a stored constraint has the name it was written with. -/
theorem leafName_eq (h : Describes d m) {c : Constraint} {i : Option MixedInfo} {k : Nat} {n : Str}
    (hn : c.features[k]? = some n) : leafName m ⟨c, c.features.map m.getFeature, i⟩ k = some n := by
  unfold leafName
  simp only [List.getElem?_map, hn, Option.map_some]
  cases hg : m.getFeature n with
  | none => rfl
  | some j =>
    obtain ⟨f, hf, hfn⟩ := h.wf.feat_ok _ (getFeature_some hg)
    simp only at hf hfn
    simp [nameOf_of_data hf, hfn]

theorem excludesPair_spec (h : Describes d m) {a b : Str} {r : CRoot}
    (hr : ∃ s, (m.store r.cls)[r.idx]? = some s ∧ IsExcludes s.tree) :
    ∃ v, excludesPair m a b r = some v ∧ (v = true ↔
      ∃ s, (m.store r.cls)[r.idx]? = some s ∧ s.tree = .bin .excludes (.feature a) (.feature b)) := by
  obtain ⟨s, hs, l, rr, ht⟩ := hr
  obtain ⟨x, hx, hcl, rfl⟩ := stored_desc h hs
  simp only at ht
  unfold excludesPair
  rw [hs]
  simp only [ht]
  cases l with
  | feature n1 =>
    cases rr with
    | feature n2 =>
      have e1 := leafName_eq h (c := x.2) (i := x.1.info) (k := 0) (n := n1) (by rw [ht]; rfl)
      have e2 := leafName_eq h (c := x.2) (i := x.1.info) (k := 1) (n := n2) (by rw [ht]; rfl)
      rw [ht] at e1 e2
      simp only [e1, e2]
      exact ⟨_, rfl, by simp⟩
    | _ => exact ⟨false, rfl, by simp⟩
  | _ => exact ⟨false, rfl, by simp⟩

theorem detectExclude_spec (h : Describes d m) {a b : Str} {i j : Id} (hi : (a, i) ∈ m.features) (hj : (b, j) ∈ m.features) :
    ∃ v, detectExclude m i j = some v ∧ (v = true ↔ Excludes d a b) := by
  obtain ⟨f, hf, hfn⟩ := h.wf.feat_ok _ hi
  obtain ⟨g, hg, hgn⟩ := h.wf.feat_ok _ hj
  simp only at hf hfn hg hgn
  have hreg := (h.registered i f (known_of_mem hi) hf).2.2.1
  obtain ⟨v, h1, h2⟩ := anyM_spec (p := excludesPair m f.attr.name b) (l := f.excludes)
    (q := fun r => ∃ s, (m.store r.cls)[r.idx]? = some s ∧ s.tree = .bin .excludes (.feature a) (.feature b)) (by
      intro r hr
      obtain ⟨s, s1, s2, _⟩ := (hreg r).1 hr
      rw [hfn]
      exact excludesPair_spec h ⟨s, s1, s2⟩)
  refine ⟨v, ?_, h2.trans ⟨?_, ?_⟩⟩
  · unfold detectExclude
    rw [feat?_of_data hf, nameOf_of_data hg, hgn]
    exact h1
  · rintro ⟨r, _, s, s1, s2⟩
    obtain ⟨x, hx, _, rfl⟩ := stored_desc h s1
    simp only at s2
    exact ⟨x.1, by rw [← s2]; exact hx⟩
  · rintro ⟨k, hk⟩
    obtain ⟨idx, hidx⟩ := desc_stored h hk
    refine ⟨⟨k.cls, idx⟩, (hreg _).2 ⟨_, hidx, ⟨_, _, rfl⟩, ?_⟩, _, hidx, rfl⟩
    rw [hfn]
    simp [Constraint.features]

theorem root_no_fparent (w : WF m) {r p : Id} (hr : m.root = some r) : ¬ FParent m r p := by
  intro h
  obtain ⟨r', f, h1, _, _, _, h5⟩ := w.root_ok
  rw [hr] at h1; cases h1
  cases h with
  | direct h _ => rw [h5] at h; cases h
  | skip h _ _ => rw [h5] at h; cases h

/-- The children of a feature and the descriptions of them. -/
theorem children_desc (h : Describes d m) (E : Env) {n : Str} {i : Id} (hi : (n, i) ∈ m.features) :
    ∃ cs, m.children E Node.isFeat i = some cs ∧ cs.Nodup ∧
      (∀ c ∈ cs, ∃ a ∈ d.kids n, ∃ f, (a.name, c) ∈ m.features ∧ data m c = some (.feat f) ∧ f.attr = a) ∧
      (∀ a ∈ d.kids n, ∃ c ∈ cs, (a.name, c) ∈ m.features) := by
  have hk := known_of_mem hi
  obtain ⟨cs, h1, h2, h3⟩ := childrenF h.wf E (.inl hk)
  refine ⟨cs, h1, h2, ?_, ?_⟩
  · intro c hc
    have hv := (h3 c).1 hc
    obtain ⟨g, hg⟩ := h.wf.known_data hk
    have hkc := (h.wf.via_known hk hv).1
    obtain ⟨e, he, hec⟩ : ∃ e ∈ m.features, e.2 = c := by
      obtain ⟨nm, hnm⟩ := known_name hkc
      exact ⟨_, hnm, rfl⟩
    obtain ⟨f, hf, hfn⟩ := h.wf.feat_ok _ he
    rw [hec] at hf
    have hfp : FParent m c i := ((via_iff_fparent h.wf (.inl hk) ⟨g, hg⟩).1 hv).2
    have hmem : (f.attr.name, c) ∈ m.features := by rw [hfn, ← hec]; exact he
    rcases (h.names _).1 ⟨c, hmem⟩ with hr | ha
    · obtain ⟨r, rf, r1, r2, _, _⟩ := h.root
      rw [hr] at hmem
      have := h.wf.entry_unique hmem r2
      subst this
      exact absurd hfp (root_no_fparent h.wf r1)
    · obtain ⟨a, ha, hna⟩ := List.mem_map.1 ha
      obtain ⟨c', f', p, f1, f2, f3, f4, f5⟩ := h.feat a ha
      rw [hna] at f1
      have := h.wf.entry_unique f1 hmem
      subst this
      rw [hf] at f2; cases f2
      have := hfp.functional f5
      subst this
      refine ⟨a, ?_, f, by rw [hna]; exact hmem, hf, f3⟩
      rw [Desc.kids, List.mem_filter]
      exact ⟨ha, by simpa using h.wf.id_unique f4 hi⟩
  · intro a ha
    rw [Desc.kids, List.mem_filter] at ha
    obtain ⟨c, f, p, f1, f2, f3, f4, f5⟩ := h.feat a ha.1
    have : d.parent a.name = n := by simpa using ha.2
    rw [this] at f4
    have := h.wf.entry_unique f4 hi
    subst this
    obtain ⟨g, hg⟩ := h.wf.known_data hk
    exact ⟨c, (h3 c).2 ((via_iff_fparent h.wf (.inl hk) ⟨g, hg⟩).2 ⟨known_of_mem f1, f5⟩), f1⟩

theorem kids_length_two {cs : List Id} {ks : List Attr} (hn : cs.Nodup) (hk : ks.Nodup) (R : Id → Attr → Prop)
    (h1 : ∀ c ∈ cs, ∃ a ∈ ks, R c a) (h2 : ∀ a ∈ ks, ∃ c ∈ cs, R c a)
    (u1 : ∀ c c' a, R c a → R c' a → c = c') (u2 : ∀ c a a', R c a → R c a' → a = a') : cs.length = ks.length := by
  induction cs generalizing ks with
  | nil =>
    cases ks with
    | nil => rfl
    | cons a _ => obtain ⟨c, hc, _⟩ := h2 a (by simp); cases hc
  | cons c cs ih =>
    obtain ⟨a, ha, hr⟩ := h1 c (by simp)
    have hl := List.length_erase_of_mem ha
    have hpos : 0 < ks.length := by
      cases ks with
      | nil => cases ha
      | cons _ _ => simp
    have := ih (ks := ks.erase a) (List.nodup_cons.1 hn).2 (hk.erase a) (by
      intro c' hc'
      obtain ⟨a', ha', hr'⟩ := h1 c' (by simp [hc'])
      refine ⟨a', (hk.mem_erase_iff).2 ⟨?_, ha'⟩, hr'⟩
      rintro rfl
      have := u1 _ _ _ hr hr'
      subst this
      exact (List.nodup_cons.1 hn).1 hc') (by
      intro a' ha'
      obtain ⟨hne, ha'⟩ := (hk.mem_erase_iff).1 ha'
      obtain ⟨c', hc', hr'⟩ := h2 a' ha'
      rcases List.mem_cons.1 hc' with rfl | hc'
      · exact absurd (u2 _ _ _ hr' hr) hne
      · exact ⟨c', hc', hr'⟩)
    simp only [List.length_cons, this, hl]
    omega

theorem altParent_spec (h : Describes d m) (E : Env) {n : Str} {i : Id} (hi : (n, i) ∈ m.features) :
    ∃ v, altParent E m i = some v ∧ (v = true ↔ Exclusive d n) := by
  have w := h.wf
  obtain ⟨cs, c1, c2, c3, c4⟩ := children_desc h E hi
  have hnd : (d.kids n).Nodup := by
    have := (List.pairwise_map.1 h.distinct).imp (S := fun a b => a ≠ b) (fun hab hc => hab (by rw [hc]))
    exact this.filter _
  have hattr : ∀ a b, a ∈ d.attrs → b ∈ d.attrs → a.name = b.name → a = b := by
    intro a b ha hb hab
    obtain ⟨i1, f1, _, a1, a2, a3, _⟩ := h.feat a ha
    obtain ⟨i2, f2, _, b1, b2, b3, _⟩ := h.feat b hb
    rw [hab] at a1
    have := w.entry_unique a1 b1
    subst this
    rw [a2] at b2; cases b2
    exact a3.symm.trans b3
  have hkin : ∀ a ∈ d.kids n, a ∈ d.attrs := fun a ha => (List.mem_filter.1 ha).1
  have hlen : cs.length = (d.kids n).length := by
    refine kids_length_two c2 hnd (fun c a => (a.name, c) ∈ m.features ∧ a ∈ d.attrs) ?_ ?_ ?_ ?_
    · intro c hc
      obtain ⟨a, ha, f, f1, _⟩ := c3 c hc
      exact ⟨a, ha, f1, hkin a ha⟩
    · intro a ha
      obtain ⟨c, hc, f1⟩ := c4 a ha
      exact ⟨c, hc, f1, hkin a ha⟩
    · intro c c' a h1 h2; exact w.entry_unique h1.1 h2.1
    · intro c a a' h1 h2; exact hattr a a' h1.2 h2.2 (w.id_unique h1.1 h2.1)
  unfold altParent
  rw [c1]
  simp only
  by_cases hl : cs.length > 1
  · rw [if_pos hl]
    -- for one child and another
    have hmut : ∀ c ∈ cs, ∀ c' ∈ cs, ∃ v, mutually m c c' = some v ∧
        (v = true ↔ ∀ a b : Attr, (a.name, c) ∈ m.features → (b.name, c') ∈ m.features → a.name ≠ b.name →
          Excludes d a.name b.name ∧ Excludes d b.name a.name) := by
      intro c hc c' hc'
      obtain ⟨a, ha, f, f1, _⟩ := c3 c hc
      obtain ⟨b, hb, g, g1, _⟩ := c3 c' hc'
      unfold mutually
      by_cases he : c = c'
      · rw [if_pos he]
        subst he
        refine ⟨true, rfl, ?_⟩
        simp only [true_iff]
        intro a b ha hb hne
        exact absurd (w.id_unique ha hb) hne
      · rw [if_neg he]
        have hne : a.name ≠ b.name := by
          intro hab
          rw [hab] at f1
          exact he (w.entry_unique f1 g1)
        have hall : (∀ a' b' : Attr, (a'.name, c) ∈ m.features → (b'.name, c') ∈ m.features → a'.name ≠ b'.name →
          Excludes d a'.name b'.name ∧ Excludes d b'.name a'.name) ↔ (Excludes d a.name b.name ∧ Excludes d b.name a.name) := by
          constructor
          · intro h; exact h a b f1 g1 hne
          · intro h a' b' ha' hb' _
            rw [w.id_unique ha' f1, w.id_unique hb' g1]; exact h
        rw [hall]
        obtain ⟨v1, e1, e2⟩ := detectExclude_spec h f1 g1
        obtain ⟨v2, e3, e4⟩ := detectExclude_spec h g1 f1
        rw [e1]
        cases v1 with
        | true => exact ⟨v2, e3, e4.trans (by simp [e2.1 rfl])⟩
        | false =>
          refine ⟨false, rfl, ?_⟩
          have : ¬ Excludes d a.name b.name := fun hq => by have := e2.2 hq; cases this
          simp [this]
    have hchild : ∀ c ∈ cs, ∃ v, altChild m cs c = some v ∧
        (v = true ↔ (∀ a ∈ d.kids n, (a.name, c) ∈ m.features → a.opt = false ∧ ∀ b ∈ d.kids n, a.name ≠ b.name →
          Excludes d a.name b.name ∧ Excludes d b.name a.name)) := by
      intro c hc
      obtain ⟨a, ha, f, f1, f2, f3⟩ := c3 c hc
      have hall : (∀ a' ∈ d.kids n, (a'.name, c) ∈ m.features → a'.opt = false ∧ ∀ b ∈ d.kids n, a'.name ≠ b.name →
          Excludes d a'.name b.name ∧ Excludes d b.name a'.name) ↔ (a.opt = false ∧ ∀ b ∈ d.kids n, a.name ≠ b.name →
          Excludes d a.name b.name ∧ Excludes d b.name a.name) := by
        constructor
        · intro h; exact h a ha f1
        · intro h a' ha' hm'
          rw [hattr a' a (hkin a' ha') (hkin a ha) (w.id_unique hm' f1)]; exact h
      rw [hall]
      unfold altChild
      rw [feat?_of_data f2]
      simp only [f3]
      cases ho : a.opt with
      | true => exact ⟨false, rfl, by simp⟩
      | false =>
        simp only [Bool.false_eq_true, if_false, true_and]
        obtain ⟨v, v1, v2⟩ := allM_spec (hmut c hc)
        refine ⟨v, v1, v2.trans ⟨?_, ?_⟩⟩
        · intro hv b hb hne
          obtain ⟨c', hc', g1⟩ := c4 b hb
          exact hv c' hc' a b f1 g1 hne
        · intro hv c' hc' a' b' ha' hb' hne
          obtain ⟨b, hb, g, g1, _⟩ := c3 c' hc'
          rw [w.id_unique ha' f1, w.id_unique hb' g1] at hne ⊢
          exact hv b hb hne
    obtain ⟨v, v1, v2⟩ := allM_spec hchild
    refine ⟨v, v1, v2.trans ⟨?_, ?_⟩⟩
    · intro hv
      refine ⟨by omega, ?_, ?_⟩
      · intro a ha
        obtain ⟨c, hc, f1⟩ := c4 a ha
        exact (hv c hc a ha f1).1
      · intro a ha b hb hne
        obtain ⟨c, hc, f1⟩ := c4 a ha
        exact ((hv c hc a ha f1).2 b hb hne).1
    · intro hv c hc a ha f1
      exact ⟨hv.mandatory a ha, fun b hb hne => ⟨hv.excludes a ha b hb hne, hv.excludes b hb a ha (Ne.symm hne)⟩⟩
  · rw [if_neg hl]
    refine ⟨false, rfl, ?_⟩
    simp only [Bool.false_eq_true, false_iff]
    intro hv
    have := hv.many
    omega

/-- The relationships asked for belong to the features with such children. -/
theorem altOps_spec (h : Describes d m) (E : Env) : ∀ {is : List Id}, is.Nodup → (∀ i ∈ is, Known m i) →
    ∃ gs : List (Str × Id), altOps E m is = some (gs.map fun g => .addRelationship .alternative (.ptr (some g.2))) ∧
      (gs.map Prod.fst).Nodup ∧ ∀ g, g ∈ gs ↔ g ∈ m.features ∧ g.2 ∈ is ∧ Exclusive d g.1
  | [], _, _ => ⟨[], rfl, by simp, by simp⟩
  | i :: is, hn, hk => by
    obtain ⟨gs, g1, g2, g3⟩ := altOps_spec h E (List.nodup_cons.1 hn).2 (fun j hj => hk j (by simp [hj]))
    obtain ⟨n, hi⟩ := known_name (hk i (by simp))
    obtain ⟨v, v1, v2⟩ := altParent_spec h E hi
    unfold altOps
    rw [v1, g1]
    simp only [Option.map_some]
    cases v with
    | true =>
      have hx := v2.1 rfl
      refine ⟨(n, i) :: gs, rfl, ?_, ?_⟩
      · rw [List.map_cons, List.nodup_cons]
        refine ⟨?_, g2⟩
        intro hm
        obtain ⟨g, hg, hgn⟩ := List.mem_map.1 hm
        obtain ⟨a1, a2, _⟩ := (g3 g).1 hg
        have : g.2 = i := h.wf.entry_unique (n := n) (by have hgn : g.1 = n := hgn; rw [← hgn]; exact a1) hi
        rw [this] at a2
        exact (List.nodup_cons.1 hn).1 a2
      · intro g
        rw [List.mem_cons, g3]
        constructor
        · rintro (rfl | ⟨a1, a2, a3⟩)
          · exact ⟨hi, by simp, hx⟩
          · exact ⟨a1, by simp [a2], a3⟩
        · rintro ⟨a1, a2, a3⟩
          rcases List.mem_cons.1 a2 with hgi | a2
          · refine .inl (Prod.ext ?_ hgi)
            exact h.wf.id_unique (i := i) (by rw [← hgi]; exact a1) hi
          · exact .inr ⟨a1, a2, a3⟩
    | false =>
      refine ⟨gs, rfl, g2, ?_⟩
      intro g
      rw [g3]
      constructor
      · rintro ⟨a1, a2, a3⟩; exact ⟨a1, by simp [a2], a3⟩
      · rintro ⟨a1, a2, a3⟩
        rcases List.mem_cons.1 a2 with hgi | a2
        · have : g.1 = n := h.wf.id_unique (i := i) (by rw [← hgi]; exact a1) hi
          rw [this] at a3
          have := v2.2 a3
          cases this
        · exact ⟨a1, a2, a3⟩

/-- The same relationship through a pointer instead of a name. -/
theorem describes_addRelationship_ptr (E : Env) (h : Describes d m) {k : RKind} {n : Str} {i : Id} (hi : (n, i) ∈ m.features)
    (hng : ∀ k, (n, k) ∉ d.groups) :
    ∃ m', m.exec E (.addRelationship k (.ptr (some i))) = .ok m' ∧ Describes { d with groups := d.groups ++ [(n, k)] } m' ∧
      m'.features = m.features := by
  obtain ⟨m', h1, h2⟩ := describes_addRelationship E h (k := k) ((h.names n).1 ⟨i, hi⟩) hng
  have hr : m.exec E (.addRelationship k (.ptr (some i))) = m.exec E (.addRelationship k (.name n)) := by
    have : ∀ m1 : FModel, m1.features = m.features → m1.resolve (.name n) = m1.resolve (.ptr (some i)) := by
      intro m1 he
      have := getFeature_congr he
      show m1.getFeature n = some i
      rw [this]
      exact getFeature_mem h.wf.names hi
    simp only [FModel.exec, FModel.execAddRelationship]
    rw [this { m.put m.next { data := .rel k } with next := m.next + 1, rels := m.rels ++ [m.next] } rfl]
  refine ⟨m', by rw [hr]; exact h1, h2, ?_⟩
  have hall := h.ungrouped n i hi hng
  obtain ⟨m2, cs, e1, e2, _⟩ := execAddRelationship_ok h.wf E (k := k) (pr := .name n) (getFeature_mem h.wf.names hi)
    (known_of_mem hi) (by
      intro c hv
      cases hv with
      | here h1 _ _ => exact h1
      | skip h1 h2 h3 _ =>
        obtain ⟨f, hf⟩ := hall _ h1
        rw [h2] at hf; cases hf; cases h3)
  have : m.exec E (.addRelationship k (.name n)) = .ok m2 := e1
  rw [h1] at this
  cases this
  exact e2.features

theorem groups_fold (E : Env) : ∀ (gs : List (Str × Id)) (d : Desc) (m : FModel), Describes d m → (∀ g ∈ gs, g ∈ m.features) →
    (gs.map Prod.fst).Nodup → (∀ g ∈ gs, ∀ k, (g.1, k) ∉ d.groups) →
    ∃ m', FModel.outFold (FModel.exec E) m (gs.map fun g => .addRelationship .alternative (.ptr (some g.2))) = .ok m' ∧
      Describes { d with groups := d.groups ++ gs.map fun g => (g.1, .alternative) } m'
  | [], d, m, h, _, _, _ => ⟨m, rfl, by simpa using h⟩
  | g :: gs, d, m, h, hm, hn, hd => by
    obtain ⟨m1, h1, h2, h3⟩ := describes_addRelationship_ptr E h (k := .alternative) (n := g.1) (i := g.2) (hm g (by simp))
      (hd g (by simp))
    rw [List.map_cons, List.nodup_cons] at hn
    obtain ⟨m', h4, h5⟩ := groups_fold E gs _ m1 h2 (fun g' hg' => by rw [h3]; exact hm g' (by simp [hg'])) hn.2 (by
      intro g' hg' k hk
      simp only at hk
      rcases List.mem_append.1 hk with hk | hk
      · exact hd g' (by simp [hg']) k hk
      · rw [List.mem_singleton] at hk
        have : g'.1 = g.1 := (Prod.mk.inj hk).1
        exact hn.1 (this ▸ List.mem_map_of_mem hg'))
    refine ⟨m', ?_, ?_⟩
    · rw [List.map_cons, outFold_cons h1]
      exact h4
    · simpa using h5

/-- `detectXMLAlternatives` makes exactly the groups of mutually exclusive mandatory children. -/
theorem detectAlternatives_spec (h : Describes d m) (hg : d.groups = []) (E : Env) :
    ∃ m' gs, detectAlternatives E m = .ok m' ∧ Describes { d with groups := gs } m' ∧
      ∀ n k, (n, k) ∈ gs ↔ k = .alternative ∧ Exclusive d n := by
  obtain ⟨r, _, hr, _⟩ := h.root
  obtain ⟨is, i1, i2⟩ := iterate_spec h.wf E hr
  have kr := h.wf.root_known hr
  have hkn : ∀ i, i ∈ is ↔ Known m i := by
    intro x
    rw [i2.mem h.wf kr x]
    exact ⟨fun h => h.1, fun hk => ⟨hk, h.wf.reach x r (.inl hk) hr⟩⟩
  have hnd : is.Nodup := (i2.ordered h.wf kr).imp fun h => h.1
  obtain ⟨gs, g1, g2, g3⟩ := altOps_spec h E hnd (fun i hi => (hkn i).1 hi)
  obtain ⟨m', o1, o2⟩ := groups_fold E gs d m h (fun g hg => ((g3 g).1 hg).1) g2 (by simp [hg])
  refine ⟨m', _, ?_, o2, ?_⟩
  · unfold detectAlternatives
    rw [i1]
    simp only [g1]
    exact commitOps_ok o1 o2.wf
  · intro n k
    rw [hg, List.nil_append, List.mem_map]
    constructor
    · rintro ⟨g, hg', he⟩
      cases he
      exact ⟨rfl, ((g3 g).1 hg').2.2⟩
    · rintro ⟨rfl, hx⟩
      have hknown : ∃ i, (n, i) ∈ m.features := by
        have := hx.many
        cases hk : d.kids n with
        | nil => rw [hk] at this; simp at this
        | cons a _ =>
          have ha : a ∈ d.kids n := by rw [hk]; simp
          rw [Desc.kids, List.mem_filter] at ha
          obtain ⟨_, _, p, _, _, _, f4, _⟩ := h.feat a ha.1
          exact ⟨p, by rw [← (by simpa using ha.2 : d.parent a.name = n)]; exact f4⟩
      obtain ⟨i, hi⟩ := hknown
      exact ⟨(n, i), (g3 _).2 ⟨hi, (hkn i).2 (known_of_mem hi), hx⟩, rfl⟩

end Verif.Xml

import Verif.FM.Equality
import Verif.FM.Clone
import Verif.FM.BuildSteps
import Verif.Props.SourceRange
import Verif.Props.Iteration
import Verif.Props.TransactionEffects
/-!
# Equality of features, and changing a location in place

C66 and C67.
-/

namespace Verif.Props
open Verif Verif.Spec

variable {m : FModel}

/-! ## C66 -/

/-- The entry of a feature is under its name. -/
theorem featEntry_mem (w : WF m) {a : Id} {f : Feat} (ha : Known m a) (hf : data m a = some (.feat f)) :
    (f.attr.name, a) ∈ m.features := by
  obtain ⟨n, hn⟩ := known_name ha
  obtain ⟨g, hg, rfl⟩ := w.feat_ok _ hn
  rw [hf] at hg
  cases hg
  exact hn

theorem featEq_iff {a b : Id} {f g : Feat} (ha : data m a = some (.feat f)) (hb : data m b = some (.feat g)) :
    m.featEq a b = some (decide (lower f.attr.name = lower g.attr.name)) := by
  unfold FModel.featEq
  rw [feat?_of_data ha, feat?_of_data hb]

/-- Comparing features is always defined and an equivalence; equal features have equal hashes. -/
theorem C66_equivalence (w : WF m) (h : Str → Nat) :
    (∀ a b, Known m a → Known m b → ∃ v, m.featEq a b = some v) ∧
    (∀ a, Known m a → m.featEq a a = some true) ∧
    (∀ a b, Known m a → Known m b → m.featEq a b = m.featEq b a) ∧
    (∀ a b c, Known m a → Known m b → Known m c → m.featEq a b = some true → m.featEq b c = some true → m.featEq a c = some true) ∧
    (∀ a b, Known m a → Known m b → m.featEq a b = some true → m.featHash h a = m.featHash h b) := by
  refine ⟨?_, ?_, ?_, ?_, ?_⟩
  · intro a b ha hb
    obtain ⟨f, hf⟩ := w.known_data ha
    obtain ⟨g, hg⟩ := w.known_data hb
    exact ⟨_, featEq_iff hf hg⟩
  · intro a ha
    obtain ⟨f, hf⟩ := w.known_data ha
    rw [featEq_iff hf hf]
    simp
  · intro a b ha hb
    obtain ⟨f, hf⟩ := w.known_data ha
    obtain ⟨g, hg⟩ := w.known_data hb
    rw [featEq_iff hf hg, featEq_iff hg hf, decide_eq_decide.2 eq_comm]
  · intro a b c ha hb hc h1 h2
    obtain ⟨f, hf⟩ := w.known_data ha
    obtain ⟨g, hg⟩ := w.known_data hb
    obtain ⟨k, hk⟩ := w.known_data hc
    rw [featEq_iff hf hg] at h1
    rw [featEq_iff hg hk] at h2
    rw [featEq_iff hf hk]
    simp only [Option.some.injEq, decide_eq_true_eq] at *
    exact h1.trans h2
  · intro a b ha hb h1
    obtain ⟨f, hf⟩ := w.known_data ha
    obtain ⟨g, hg⟩ := w.known_data hb
    rw [featEq_iff hf hg] at h1
    simp only [Option.some.injEq, decide_eq_true_eq] at h1
    simp [FModel.featHash, feat?_of_data hf, feat?_of_data hg, h1]

/-- No two names of features are the same ignoring case. -/
def NamesDiffer (m : FModel) : Prop :=
  ∀ n n' i j, (n, i) ∈ m.features → (n', j) ∈ m.features → lower n = lower n' → n = n'

/-- If no two names are the same ignoring case, only a feature itself is equal to it.  The claim has no
    such condition. -/
theorem C66_identity_partial (w : WF m) (hn : NamesDiffer m) {a b : Id} (ha : Known m a) (hb : Known m b) :
    m.featEq a b = some true ↔ a = b := by
  obtain ⟨f, hf⟩ := w.known_data ha
  obtain ⟨g, hg⟩ := w.known_data hb
  rw [featEq_iff hf hg]
  simp only [Option.some.injEq, decide_eq_true_eq]
  have h1 := featEntry_mem w ha hf
  have h2 := featEntry_mem w hb hg
  constructor
  · intro h
    have := hn _ _ _ _ h1 h2 h
    rw [this] at h1
    have e1 := getFeature_mem w.names h1
    rw [getFeature_mem w.names h2] at e1
    exact (Option.some.inj e1).symm
  · rintro rfl
    rw [hf] at hg
    cases hg
    rfl

/-- Then exactly one of `<`, `>` and `==` holds. -/
theorem C66_trichotomy_partial (w : WF m) (hn : NamesDiffer m) {a b : Id} (ha : Known m a) (hb : Known m b) :
    (m.featEq a b = some true ∧ m.less a b = some false ∧ m.less b a = some false) ∨
    (m.featEq a b = some false ∧ m.less a b = some true ∧ m.less b a = some false) ∨
    (m.featEq a b = some false ∧ m.less a b = some false ∧ m.less b a = some true) := by
  obtain ⟨s1, s2, s3⟩ := C26_strict w
  have hs : SiblingsDiffer m := by
    intro p x y kp hx hy hl
    have kx := (w.via_known kp hx).1
    have ky := (w.via_known kp hy).1
    obtain ⟨f, hf⟩ := w.known_data kx
    obtain ⟨g, hg⟩ := w.known_data ky
    refine (C66_identity_partial w hn kx ky).1 ?_
    rw [featEq_iff hf hg]
    simp only [FModel.low, FModel.nameOf, feat?_of_data hf, feat?_of_data hg] at hl
    simpa using hl
  by_cases h : a = b
  · subst h
    exact .inl ⟨(C66_identity_partial w hn ha ha).2 rfl, s1 a ha, s1 a ha⟩
  · have he : m.featEq a b = some false := by
      obtain ⟨v, hv⟩ := (C66_equivalence w fun _ => 0).1 a b ha hb
      cases v with
      | false => exact hv
      | true => exact absurd ((C66_identity_partial w hn ha hb).1 hv) h
    rcases C26_total_partial w hs ha hb h with h1 | h1
    · exact .inr (.inl ⟨he, h1, s2 a b ha hb h1⟩)
    · exact .inr (.inr ⟨he, s2 b a hb ha h1, h1⟩)

/-- `root` with `A` with `a`. -/
def nestedCase : FModel :=
  ofNodes [featNode "root" none [1] .root, featNode "A" (some 0) [2], featNode "a" (some 1) []]
    (some 0) [(c!"root", 0), (c!"A", 1), (c!"a", 2)] []

theorem nestedCase_wf : WF nestedCase := wf_of_check (fun i => i) (ofNodes_fresh _ _ _ _ _) (by decide)

/-- The claim is false: a feature may be equal to its own child, and then it is less than it, too. -/
theorem C66_equal_to_child : WF nestedCase ∧ par nestedCase 2 = some 1 ∧ nestedCase.featEq 1 2 = some true ∧
    nestedCase.less 1 2 = some true := ⟨nestedCase_wf, rfl, by decide, by decide⟩

/-- The hypotheses are met. -/
example : WF chain ∧ NamesDiffer chain := by
  refine ⟨chain_wf, ?_⟩
  intro n n' i j h1 h2 h
  have key : ∀ e ∈ chain.features, ∀ e' ∈ chain.features, lower e.1 = lower e'.1 → e.1 = e'.1 := by decide
  exact key _ h1 _ h2 h

/-! ## C67 -/

/-- Two ranges that differ in their revisions at most. -/
def AlikeRange (a b : Range) : Prop := b = { a with revision := b.revision }

theorem eq_iff_alike {a b : Range} : a.eq b = true ↔ AlikeRange a b := by
  rw [C14_range_eq_partial]
  cases a
  cases b
  simp only [AlikeRange, Range.mk.injEq, and_true]
  constructor
  · rintro ⟨rfl, rfl, rfl, rfl, rfl⟩
    exact ⟨rfl, rfl, rfl, rfl, rfl⟩
  · rintro ⟨rfl, rfl, rfl, rfl, rfl⟩
    exact ⟨rfl, rfl, rfl, rfl, rfl⟩

theorem eq_false_of_not_alike {a b : Range} (h : ¬ AlikeRange a b) : a.eq b = false := by
  cases e : a.eq b with
  | false => rfl
  | true => exact absurd (eq_iff_alike.1 e) h

theorem replaceLoc_split {old new x : Range} {pre post : List Range} (hx : x.eq old = true) (hp : ∀ y ∈ pre, y.eq old = false) :
    FModel.replaceLoc old new (pre ++ x :: post) = (pre ++ new :: post, true) := by
  induction pre with
  | nil => simp [FModel.replaceLoc, hx]
  | cons y pre ih => simp [FModel.replaceLoc, hp y (by simp), ih fun z hz => hp z (by simp [hz])]

theorem replaceLoc_missing {old new : Range} {l : List Range} (h : ∀ y ∈ l, y.eq old = false) : FModel.replaceLoc old new l = (l, false) := by
  induction l with
  | nil => rfl
  | cons y l ih => simp [FModel.replaceLoc, h y (by simp), ih fun z hz => h z (by simp [hz])]

/-- The first location that is like the old one up to its revision is replaced in its place, nothing else
    changes.  The claim is about the location that is the old one. -/
theorem C67_update_partial {i : Id} {ft : Feat} (hd : data m i = some (.feat ft)) {old new x : Range} {pre post : List Range}
    (hl : ft.attr.locs = pre ++ x :: post) (hx : AlikeRange x old) (hp : ∀ y ∈ pre, ¬ AlikeRange y old) :
    ∃ m', m.updateLocation i old new = some (m', true) ∧ Relocated m m' i ft (pre ++ new :: post) := by
  obtain ⟨m', h1, h2, h3, h4, h5⟩ :=
    updFeat_ok (fun f => { f with attr := { f.attr with locs := (FModel.replaceLoc old new f.attr.locs).1 } }) hd
  have hx := eq_iff_alike.2 hx
  have hp := fun y hy => eq_false_of_not_alike (hp y hy)
  rw [hl, replaceLoc_split hx hp] at h5
  refine ⟨m', ?_, relocated_of_upd hd h2 h3 h4 h5⟩
  simp [FModel.updateLocation, feat?_of_data hd, h1, hl, replaceLoc_split hx hp]

/-- If none compares equal the call says so and nothing changes. -/
theorem C67_missing {i : Id} {ft : Feat} (hd : data m i = some (.feat ft)) {old new : Range} (hl : ∀ y ∈ ft.attr.locs, ¬ AlikeRange y old) :
    ∃ m', m.updateLocation i old new = some (m', false) ∧ Relocated m m' i ft ft.attr.locs := by
  obtain ⟨m', h1, h2, h3, h4, h5⟩ :=
    updFeat_ok (fun f => { f with attr := { f.attr with locs := (FModel.replaceLoc old new f.attr.locs).1 } }) hd
  have hl := fun y hy => eq_false_of_not_alike (hl y hy)
  rw [replaceLoc_missing hl] at h5
  refine ⟨m', ?_, relocated_of_upd hd h2 h3 h4 h5⟩
  simp [FModel.updateLocation, feat?_of_data hd, h1, replaceLoc_missing hl]

/-- The claim is false: for any two ranges of different revisions but otherwise alike, asking to replace the
    second replaces the first. -/
theorem C67_wrong_revision {i : Id} {ft : Feat} (hd : data m i = some (.feat ft)) {a b : Range} (new : Range)
    (hab : AlikeRange a b) (hl : ft.attr.locs = [a, b]) :
    ∃ m', m.updateLocation i b new = some (m', true) ∧ Relocated m m' i ft [new, b] := by
  exact C67_update_partial (pre := []) (post := [b]) hd hl hab (by simp)

/-- Updating twice with the roles exchanged gives the locations back, if the new one is not among those
    before it. -/
theorem C67_undo {i : Id} {ft : Feat} (hd : data m i = some (.feat ft)) {old new : Range} {pre post : List Range}
    (hl : ft.attr.locs = pre ++ old :: post) (hp : ∀ y ∈ pre, ¬ AlikeRange y old) (hn : ∀ y ∈ pre, ¬ AlikeRange y new) :
    ∃ m1 m2, m.updateLocation i old new = some (m1, true) ∧ m1.updateLocation i new old = some (m2, true) ∧
      data m2 i = some (.feat ft) := by
  have self : ∀ r : Range, AlikeRange r r := fun r => rfl
  obtain ⟨m1, h1, h2⟩ := C67_update_partial (new := new) hd hl (self old) hp
  obtain ⟨m2, h3, h4⟩ := C67_update_partial (new := old) h2.after (x := new) (pre := pre) (post := post) rfl (self new) hn
  refine ⟨m1, m2, h1, h3, ?_⟩
  rw [h4.after, ← hl]

/-- A feature with two locations that differ only in their revisions. -/
def revModel : FModel :=
  ofNodes [featNode "root" none [1] .root,
    { data := .feat { attr := { name := c!"A", kind := .binary, locs :=
        [⟨[c!"f"], none, none, .necessary, none, some ⟨c!"1", none⟩⟩, ⟨[c!"f"], none, none, .necessary, none, some ⟨c!"2", none⟩⟩] } },
      parent := some 0, edges := [] }] (some 0) [(c!"root", 0), (c!"A", 1)] []

theorem revModel_wf : WF revModel := wf_of_check (fun i => i) (ofNodes_fresh _ _ _ _ _) (by decide)

example (new : Range) : ∃ m' ft, revModel.updateLocation 1 ⟨[c!"f"], none, none, .necessary, none, some ⟨c!"2", none⟩⟩ new = some (m', true) ∧
    data m' 1 = some (.feat ft) ∧ ft.attr.locs = [new, ⟨[c!"f"], none, none, .necessary, none, some ⟨c!"2", none⟩⟩] := by
  obtain ⟨m', h1, h2⟩ := C67_wrong_revision (m := revModel) (i := 1) (a := ⟨[c!"f"], none, none, .necessary, none, some ⟨c!"1", none⟩⟩)
    (b := ⟨[c!"f"], none, none, .necessary, none, some ⟨c!"2", none⟩⟩) rfl new rfl rfl
  exact ⟨m', _, h1, h2.after, rfl⟩

end Verif.Props

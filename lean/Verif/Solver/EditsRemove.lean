import Verif.Solver.Edits
/-!
# How removing features changes the valid configurations
-/

namespace Verif.Spec
open Verif

/-- The name belongs to a feature in the set. -/
def NameIn (m : FModel) (S : Id → Prop) (n : Str) : Prop := ∃ j, (n, j) ∈ m.features ∧ S j

/-- Configurations that agree except on the features in the set. -/
structure AgreeOff (m : FModel) (S : Id → Prop) (a b : Assign) : Prop where
  bool : ∀ n, ¬ NameIn m S n → b.bool n = a.bool n
  int : ∀ n, ¬ NameIn m S n → b.int n = a.int n
  div0 : b.div0 = a.div0

end Verif.Spec

namespace Verif
open Verif.Spec

variable {F : IntFloats} {m m' : FModel} {a b : Assign} {S : Id → Prop}

/-- What is used of the part of a model that is taken away: it is a subtree. -/
structure Cut (m : FModel) (S : Id → Prop) (i : Id) : Prop where
  top : S i
  owned : ∀ j, S j → Owned m j
  down : ∀ j q, Owned m j → par m j = some q → S q → S j
  edge : ∀ j q, S j → par m j = some q → S q ∨ j = i
  root : ∀ r, m.root = some r → ¬ S r
  out : ∀ q, par m i = some q → ¬ S q

theorem cut_below {i : Id} (w : WF m) (hi : Known m i) (hr : m.root ≠ some i) : Cut m (fun j => Owned m j ∧ Below m i j) i := by
  refine ⟨⟨.inl hi, .refl⟩, fun j h => h.1, fun j q ho hp hs => ⟨ho, .step hp hs.2⟩, ?_, ?_,
    fun q hq hs => w.not_below_parent (.inl hi) hq hs.2⟩
  · rintro j q ⟨ho, hb⟩ hp
    cases hb with
    | refl => exact .inr rfl
    | step h1 h2 => rw [hp] at h1; cases h1; exact .inl ⟨(w.par_edge _ _ ho hp).1, h2⟩
  · rintro r h ⟨_, hb⟩
    cases hb with
    | refl => exact hr h
    | step h1 _ => rw [w.root_par h] at h1; cases h1

theorem known_name_inj {j k : Id} {f g : Feat} (w : WF m) (hj : Known m j) (hk : Known m k) (hf : data m j = some (.feat f))
    (hg : data m k = some (.feat g)) (hn : f.attr.name = g.attr.name) : j = k := by
  obtain ⟨⟨n1, j⟩, h1, rfl⟩ := List.mem_map.1 hj
  obtain ⟨⟨n2, k⟩, h2, rfl⟩ := List.mem_map.1 hk
  obtain ⟨f', q1, e1⟩ := w.feat_ok _ h1
  obtain ⟨g', q2, e2⟩ := w.feat_ok _ h2
  simp only at hf hg q1 q2 e1 e2 ⊢
  rw [hf] at q1; cases q1
  rw [hg] at q2; cases q2
  rw [← e1] at h1
  rw [← e2, ← hn] at h2
  have t1 := getFeature_mem w.names h1
  rw [getFeature_mem w.names h2] at t1
  exact (Option.some.inj t1).symm

theorem nameIn_of {j : Id} {f : Feat} (w : WF m) (hj : Known m j) (hf : data m j = some (.feat f)) (hs : S j) : NameIn m S f.attr.name := by
  obtain ⟨e, he, rfl⟩ := List.mem_map.1 hj
  obtain ⟨g, hg, hn⟩ := w.feat_ok e he
  rw [hf] at hg; cases hg
  exact ⟨e.2, by rw [hn]; exact he, hs⟩

theorem not_nameIn_of {j : Id} {f : Feat} (w : WF m) (hj : Known m j) (hf : data m j = some (.feat f)) (hs : ¬ S j) : ¬ NameIn m S f.attr.name := by
  rintro ⟨k, hk, hs'⟩
  obtain ⟨e, he, rfl⟩ := List.mem_map.1 hj
  obtain ⟨g, hg, hn⟩ := w.feat_ok e he
  rw [hf] at hg; cases hg
  rw [hn] at hk
  have h1 := getFeature_mem w.names hk
  have h2 := getFeature_mem w.names (show (e.1, e.2) ∈ m.features from he)
  rw [h1] at h2; cases h2
  exact hs hs'

/-- What the part of a model asks of a configuration. -/
structure PartValid (F : IntFloats) (m : FModel) (S : Id → Prop) (a : Assign) : Prop where
  parent : ∀ i f p, S i → data m i = some (.feat f) → f.attr.kind = .binary → FParent m i p → Selected m a i → Selected m a p
  mandatory : ∀ i f p, S i → data m i = some (.feat f) → f.attr.kind = .binary → f.attr.opt = false →
    par m i = some p → IsFeat m p → Selected m a p → Selected m a i
  alternative : ∀ r p, S r → data m r = some (.rel .alternative) → par m r = some p → Selected m a p →
    ∃ c, c ∈ edg m r ∧ Selected m a c ∧ ∀ c', c' ∈ edg m r → Selected m a c' → c' = c
  or : ∀ r p, S r → data m r = some (.rel .or) → par m r = some p → Selected m a p →
    ∃ c, c ∈ edg m r ∧ Selected m a c
  numeric : ∀ i f vs st, S i → data m i = some (.feat f) → f.attr.kind = .numeric vs st → Allowed F vs st (a.int f.attr.name)

section
variable {i : Id} (w : WF m) (h : Without m m' S) (c : Cut m S i)
include w h c

theorem without_wf : WF m' :=
  wf_of_without w h (fun j d ho hs hd => by
    obtain ⟨h1, h2⟩ := w.edge_par j d ho hd
    exact c.down d j h1 h2 hs) c.root

theorem without_fparent {x q : Id} (hx : Owned m x) (hs : ¬ S x) : FParent m' x q ↔ FParent m x q := by
  have hx' : Owned m' x := (h.owned x).2 ⟨hx, hs⟩
  refine (fparent_part (without_wf w h c) ?_ ?_ hx').symm
  · intro y hy; exact (h.par y ((h.owned y).1 hy).2).symm
  · intro y hy; exact (h.data y ((h.owned y).1 hy).2).symm

omit h in
/-- The parent feature of something that stays stays. -/
theorem cut_fparent {x q : Id} (hx : Owned m x) (hs : ¬ S x) (hq : FParent m x q) : ¬ S q := by
  induction hq with
  | direct h1 _ => intro hsq; exact hs (c.down _ _ hx h1 hsq)
  | skip h1 _ _ ih => exact ih (w.par_edge _ _ hx h1).1 (fun hsq => hs (c.down _ _ hx h1 hsq))

omit w c in
theorem without_isNum {n : Str} (hn : ¬ NameIn m S n) : IsNum m' n ↔ IsNum m n := by
  constructor
  · rintro ⟨j, f, vs, st, hj, hf, hk⟩
    obtain ⟨h1, h2⟩ := (h.features.2 _).1 hj
    rw [h.data j h2] at hf
    exact ⟨j, f, vs, st, h1, hf, hk⟩
  · rintro ⟨j, f, vs, st, hj, hf, hk⟩
    have hs : ¬ S j := fun hs => hn ⟨j, hj, hs⟩
    exact ⟨j, f, vs, st, (h.features.2 _).2 ⟨hj, hs⟩, by rw [h.data j hs]; exact hf, hk⟩

/-- What is left after taking a subtree away from a valid configuration is one, unless the subtree was the
    choice made in a group. -/
theorem tree_without_left (hg : IsRel m ((par m i).getD i) → ¬ Selected m b i) (v : TreeValid F m b) : TreeValid F m' b := by
  have hsel : ∀ y, ¬ S y → (Selected m' b y ↔ Selected m b y) := fun y hy => selected_congr (h.data y hy)
  have hedge : ∀ r, r ∈ m.rels → ¬ S r → ∀ d, d ∈ edg m r → Selected m b d → d ∈ edg m' r := by
    intro r hr hs d hd hsd
    refine ((h.edges r (.inr hr) hs).2 d).2 ⟨hd, ?_⟩
    intro hsS
    obtain ⟨h1, h2⟩ := w.edge_par r d (.inr hr) hd
    rcases c.edge d r hsS h2 with h3 | rfl
    · exact hs h3
    · refine hg ?_ hsd
      rw [h2]; exact w.rel_ok r hr
  refine ⟨?_, ?_, ?_, ?_, ?_, ?_⟩
  · intro r hr
    rw [h.root] at hr
    exact (hsel r (c.root r hr)).2 (v.root r hr)
  · intro y f q hy hf hk hq hs
    obtain ⟨hy1, hy2⟩ := (h.known y).1 hy
    rw [without_fparent w h c (.inl hy1) hy2] at hq
    rw [h.data y hy2] at hf
    exact (hsel q (cut_fparent w c (.inl hy1) hy2 hq)).2 (v.parent y f q hy1 hf hk hq ((hsel y hy2).1 hs))
  · intro y f q hy hf hk ho hq hqf hs
    obtain ⟨hy1, hy2⟩ := (h.known y).1 hy
    rw [h.data y hy2] at hf
    rw [h.par y hy2] at hq
    have hq2 : ¬ S q := fun hs => hy2 (c.down y q (.inl hy1) hq hs)
    obtain ⟨g, hg⟩ := hqf
    rw [h.data q hq2] at hg
    exact (hsel y hy2).2 (v.mandatory y f q hy1 hf hk ho hq ⟨g, hg⟩ ((hsel q hq2).1 hs))
  · intro r q hr hk hq hs
    obtain ⟨hr1, hr2⟩ := (h.rels.2 r).1 hr
    rw [h.data r hr2] at hk
    rw [h.par r hr2] at hq
    have hq2 : ¬ S q := fun hs => hr2 (c.down r q (.inr hr1) hq hs)
    obtain ⟨d, h1, h2, h3⟩ := v.alternative r q hr1 hk hq ((hsel q hq2).1 hs)
    have h1' := hedge r hr1 hr2 d h1 h2
    have hd2 := (((h.edges r (.inr hr1) hr2).2 d).1 h1').2
    refine ⟨d, h1', (hsel d hd2).2 h2, ?_⟩
    intro d' hd' hs'
    obtain ⟨k1, k2⟩ := ((h.edges r (.inr hr1) hr2).2 d').1 hd'
    exact h3 d' k1 ((hsel d' k2).1 hs')
  · intro r q hr hk hq hs
    obtain ⟨hr1, hr2⟩ := (h.rels.2 r).1 hr
    rw [h.data r hr2] at hk
    rw [h.par r hr2] at hq
    have hq2 : ¬ S q := fun hs => hr2 (c.down r q (.inr hr1) hq hs)
    obtain ⟨d, h1, h2⟩ := v.or r q hr1 hk hq ((hsel q hq2).1 hs)
    have h1' := hedge r hr1 hr2 d h1 h2
    exact ⟨d, h1', (hsel d (((h.edges r (.inr hr1) hr2).2 d).1 h1').2).2 h2⟩
  · intro y f vs st hy hf hk
    obtain ⟨hy1, hy2⟩ := (h.known y).1 hy
    rw [h.data y hy2] at hf
    exact v.numeric y f vs st hy1 hf hk

omit h w in
/-- The parent feature of something else that goes goes. -/
theorem cut_fparent_in (hifeat : IsFeat m i) {x q : Id} (hx : S x) (hne : x ≠ i) (hq : FParent m x q) : S q := by
  induction hq with
  | direct h1 _ => exact (c.edge _ _ hx h1).resolve_right hne
  | skip h1 h2 _ ih =>
    refine ih ((c.edge _ _ hx h1).resolve_right hne) ?_
    rintro rfl
    obtain ⟨f, hf⟩ := hifeat
    obtain ⟨k, hk⟩ := h2
    rw [hf] at hk; cases hk

/-- A configuration that is valid for what is left, and for what goes, is valid for the whole. -/
theorem tree_without_right (hg : IsRel m ((par m i).getD i) → ¬ Selected m b i) (p : PartValid F m S b)
    (v : TreeValid F m' b) : TreeValid F m b := by
  have hsel : ∀ y, ¬ S y → (Selected m' b y ↔ Selected m b y) := fun y hy => selected_congr (h.data y hy)
  have hedge : ∀ r, r ∈ m.rels → ¬ S r → ∀ d, d ∈ edg m r → Selected m b d → d ∈ edg m' r ∧ ¬ S d := by
    intro r hr hs d hd hsd
    have : ¬ S d := by
      intro hsS
      obtain ⟨h1, h2⟩ := w.edge_par r d (.inr hr) hd
      rcases c.edge d r hsS h2 with h3 | rfl
      · exact hs h3
      · refine hg ?_ hsd
        rw [h2]; exact w.rel_ok r hr
    exact ⟨((h.edges r (.inr hr) hs).2 d).2 ⟨hd, this⟩, this⟩
  refine ⟨?_, ?_, ?_, ?_, ?_, ?_⟩
  · intro r hr
    exact (hsel r (c.root r hr)).1 (v.root r (by rw [h.root]; exact hr))
  · intro y f q hy hf hk hq hs
    by_cases hy2 : S y
    · exact p.parent y f q hy2 hf hk hq hs
    exact (hsel q (cut_fparent w c (.inl hy) hy2 hq)).1 (v.parent y f q ((h.known y).2 ⟨hy, hy2⟩) (by rw [h.data y hy2]; exact hf) hk
      ((without_fparent w h c (.inl hy) hy2).2 hq) ((hsel y hy2).2 hs))
  · intro y f q hy hf hk ho hq hqf hs
    by_cases hy2 : S y
    · exact p.mandatory y f q hy2 hf hk ho hq hqf hs
    have hq2 : ¬ S q := fun hs => hy2 (c.down y q (.inl hy) hq hs)
    obtain ⟨g, hg⟩ := hqf
    exact (hsel y hy2).1 (v.mandatory y f q ((h.known y).2 ⟨hy, hy2⟩) (by rw [h.data y hy2]; exact hf) hk ho
      (by rw [h.par y hy2]; exact hq) ⟨g, by rw [h.data q hq2]; exact hg⟩ ((hsel q hq2).2 hs))
  · intro r q hr hk hq hs
    by_cases hr2 : S r
    · exact p.alternative r q hr2 hk hq hs
    have hq2 : ¬ S q := fun hs => hr2 (c.down r q (.inr hr) hq hs)
    obtain ⟨d, h1, h2, h3⟩ := v.alternative r q ((h.rels.2 r).2 ⟨hr, hr2⟩) (by rw [h.data r hr2]; exact hk)
      (by rw [h.par r hr2]; exact hq) ((hsel q hq2).2 hs)
    obtain ⟨k1, k2⟩ := ((h.edges r (.inr hr) hr2).2 d).1 h1
    refine ⟨d, k1, (hsel d k2).1 h2, ?_⟩
    intro d' hd' hs'
    obtain ⟨k3, k4⟩ := hedge r hr hr2 d' hd' hs'
    exact h3 d' k3 ((hsel d' k4).2 hs')
  · intro r q hr hk hq hs
    by_cases hr2 : S r
    · exact p.or r q hr2 hk hq hs
    have hq2 : ¬ S q := fun hs => hr2 (c.down r q (.inr hr) hq hs)
    obtain ⟨d, h1, h2⟩ := v.or r q ((h.rels.2 r).2 ⟨hr, hr2⟩) (by rw [h.data r hr2]; exact hk)
      (by rw [h.par r hr2]; exact hq) ((hsel q hq2).2 hs)
    obtain ⟨k1, k2⟩ := ((h.edges r (.inr hr) hr2).2 d).1 h1
    exact ⟨d, k1, (hsel d k2).1 h2⟩
  · intro y f vs st hy hf hk
    by_cases hy2 : S y
    · exact p.numeric y f vs st hy2 hf hk
    · exact v.numeric y f vs st ((h.known y).2 ⟨hy, hy2⟩) (by rw [h.data y hy2]; exact hf) hk

omit h in
/-- Nothing of the subtree need be selected. -/
theorem part_off (hopt : ∀ f, data m i = some (.feat f) → f.attr.kind = .binary → f.attr.opt = false → ∀ q, par m i = some q →
      IsFeat m q → ¬ Selected m b q)
    (hifeat : IsFeat m i)
    (hoff : ∀ n, NameIn m S n → b.bool n = false)
    (hval : ∀ j f vs st, S j → data m j = some (.feat f) → f.attr.kind = .numeric vs st → Allowed F vs st (b.int f.attr.name)) :
    PartValid F m S b := by
  have hun : ∀ y, S y → ¬ Selected m b y := by
    rintro y hy ⟨f, hf, hb⟩
    have hk : Known m y := w.known_feat (c.owned y hy) ⟨f, hf⟩
    rw [hoff _ (nameIn_of w hk hf hy)] at hb; cases hb
  have hrel : ∀ r k, S r → data m r = some (.rel k) → r ≠ i := by
    rintro r k hr hk rfl
    obtain ⟨f, hf⟩ := hifeat
    rw [hk] at hf; cases hf
  refine ⟨fun y f q hy _ _ _ hs => absurd hs (hun y hy), ?_, ?_, ?_, hval⟩
  · intro y f q hy hf hk ho hq hqf hs
    rcases c.edge y q hy hq with h3 | rfl
    · exact absurd hs (hun q h3)
    · exact absurd hs (hopt f hf hk ho q hq hqf)
  · intro r q hr hk hq hs
    exact absurd hs (hun q ((c.edge r q hr hq).resolve_right (hrel r _ hr hk)))
  · intro r q hr hk hq hs
    exact absurd hs (hun q ((c.edge r q hr hq).resolve_right (hrel r _ hr hk)))

omit h in
/-- Or it is selected as in some valid configuration. -/
theorem part_on {b0 : Assign} (hifeat : IsFeat m i) (v : TreeValid F m b0) (hi : Selected m b0 i) {p : Id}
    (hp : par m i = some p) (hpf : IsFeat m p) (hsp : Selected m b p)
    (hon : ∀ n, NameIn m S n → b.bool n = b0.bool n ∧ b.int n = b0.int n) : PartValid F m S b := by
  have hsel : ∀ y, S y → (Selected m b y ↔ Selected m b0 y) := by
    intro y hy
    unfold Selected
    constructor
    · rintro ⟨f, hf, hb⟩
      exact ⟨f, hf, by rw [← (hon _ (nameIn_of w (w.known_feat (c.owned y hy) ⟨f, hf⟩) hf hy)).1]; exact hb⟩
    · rintro ⟨f, hf, hb⟩
      exact ⟨f, hf, by rw [(hon _ (nameIn_of w (w.known_feat (c.owned y hy) ⟨f, hf⟩) hf hy)).1]; exact hb⟩
  have hkn : ∀ y f, S y → data m y = some (.feat f) → Known m y := fun y f hy hf => w.known_feat (c.owned y hy) ⟨f, hf⟩
  have hrl : ∀ r k, S r → data m r = some (.rel k) → r ∈ m.rels := fun r k hr hk => w.owned_rel (c.owned r hr) ⟨k, hk⟩
  have hrel : ∀ r k, S r → data m r = some (.rel k) → r ≠ i := by
    rintro r k hr hk rfl
    obtain ⟨f, hf⟩ := hifeat
    rw [hk] at hf; cases hf
  have hdown : ∀ r, S r → ∀ d ∈ edg m r, S d := by
    intro r hr d hd
    obtain ⟨h1, h2⟩ := w.edge_par r d (c.owned r hr) hd
    exact c.down d r h1 h2 hr
  refine ⟨?_, ?_, ?_, ?_, ?_⟩
  · intro y f q hy hf hk hq hs
    by_cases hne : y = i
    · subst hne
      have : q = p := hq.functional (.direct hp hpf)
      rw [this]; exact hsp
    · have hq' := cut_fparent_in c hifeat hy hne hq
      exact (hsel q hq').2 (v.parent y f q (hkn y f hy hf) hf hk hq ((hsel y hy).1 hs))
  · intro y f q hy hf hk ho hq hqf hs
    by_cases hne : y = i
    · subst hne; exact (hsel y hy).2 hi
    · have hq' := (c.edge y q hy hq).resolve_right hne
      exact (hsel y hy).2 (v.mandatory y f q (hkn y f hy hf) hf hk ho hq hqf ((hsel q hq').1 hs))
  · intro r q hr hk hq hs
    have hq' := (c.edge r q hr hq).resolve_right (hrel r _ hr hk)
    obtain ⟨d, h1, h2, h3⟩ := v.alternative r q (hrl r _ hr hk) hk hq ((hsel q hq').1 hs)
    refine ⟨d, h1, (hsel d (hdown r hr d h1)).2 h2, ?_⟩
    intro d' hd' hs'
    exact h3 d' hd' ((hsel d' (hdown r hr d' hd')).1 hs')
  · intro r q hr hk hq hs
    have hq' := (c.edge r q hr hq).resolve_right (hrel r _ hr hk)
    obtain ⟨d, h1, h2⟩ := v.or r q (hrl r _ hr hk) hk hq ((hsel q hq').1 hs)
    exact ⟨d, h1, (hsel d (hdown r hr d h1)).2 h2⟩
  · intro y f vs st hy hf hk
    rw [(hon _ (nameIn_of w (hkn y f hy hf) hf hy)).2]
    exact v.numeric y f vs st (hkn y f hy hf) hf hk

/-- Agreement on what is left is enough. -/
theorem without_agree (hab : AgreeOff m S a b) (v : TreeValid F m' a) : TreeValid F m' b := by
  have hsel : ∀ y, ¬ S y → Owned m y → (Selected m' b y ↔ Selected m' a y) := by
    intro y hs ho
    unfold Selected
    rw [h.data y hs]
    constructor
    · rintro ⟨f, hf, hb⟩
      exact ⟨f, hf, by rw [← hab.bool _ (not_nameIn_of w (w.known_feat ho ⟨f, hf⟩) hf hs)]; exact hb⟩
    · rintro ⟨f, hf, hb⟩
      exact ⟨f, hf, by rw [hab.bool _ (not_nameIn_of w (w.known_feat ho ⟨f, hf⟩) hf hs)]; exact hb⟩
  have w' := without_wf w h c
  have hs' : ∀ y, Owned m' y → (Selected m' b y ↔ Selected m' a y) := fun y hy => hsel y ((h.owned y).1 hy).2 ((h.owned y).1 hy).1
  refine ⟨?_, ?_, ?_, ?_, ?_, ?_⟩
  · intro r hr
    exact (hs' r (.inl (w'.root_known hr))).2 (v.root r hr)
  · intro y f q hy hf hk hq hs
    exact (hs' q (fparent_owned w' (.inl hy) hq)).2 (v.parent y f q hy hf hk hq ((hs' y (.inl hy)).1 hs))
  · intro y f q hy hf hk ho hq hqf hs
    exact (hs' y (.inl hy)).2 (v.mandatory y f q hy hf hk ho hq hqf ((hs' q (w'.par_edge _ _ (.inl hy) hq).1).1 hs))
  · intro r q hr hk hq hs
    obtain ⟨d, h1, h2, h3⟩ := v.alternative r q hr hk hq ((hs' q (w'.par_edge _ _ (.inr hr) hq).1).1 hs)
    refine ⟨d, h1, (hs' d (w'.edge_par r d (.inr hr) h1).1).2 h2, ?_⟩
    intro d' hd' hs2
    exact h3 d' hd' ((hs' d' (w'.edge_par r d' (.inr hr) hd').1).1 hs2)
  · intro r q hr hk hq hs
    obtain ⟨d, h1, h2⟩ := v.or r q hr hk hq ((hs' q (w'.par_edge _ _ (.inr hr) hq).1).1 hs)
    exact ⟨d, h1, (hs' d (w'.edge_par r d (.inr hr) h1).1).2 h2⟩
  · intro y f vs st hy hf hk
    obtain ⟨hy1, hy2⟩ := (h.known y).1 hy
    have := v.numeric y f vs st hy hf hk
    rwa [← hab.int] at this
    rw [h.data y hy2] at hf
    exact not_nameIn_of w hy1 hf hy2

omit w c in
theorem without_cons (hm : ∀ s ∈ allStored m, ∀ n ∈ s.tree.features, ¬ NameIn m S n) (hab : AgreeOff m S a b) :
    ConsHold m' a ↔ ConsHold m b := by
  refine consHold_congr h.booleans h.nonBooleans h.mixeds hab.div0.symm ?_
  intro s hs n hn
  have := hm s hs n hn
  exact ⟨without_isNum h this, (hab.bool n this).symm, (hab.int n this).symm⟩

theorem without_down (hm : ∀ s ∈ allStored m, ∀ n ∈ s.tree.features, ¬ NameIn m S n) (hab : AgreeOff m S a b)
    (hg : IsRel m ((par m i).getD i) → ¬ Selected m b i) (v : Valid F m b) : Valid F m' a := by
  rw [valid_cons] at v ⊢
  have hba : AgreeOff m S b a := ⟨fun n hn => (hab.bool n hn).symm, fun n hn => (hab.int n hn).symm, hab.div0.symm⟩
  exact ⟨without_agree w h c hba (tree_without_left w h c hg v.1), (without_cons h hm hab).2 v.2⟩

/-- The valid configurations of what is left when a feature goes that need not be selected: those in which it
    is not, without the removed part. -/
theorem valid_without_free (hifeat : IsFeat m i)
    (hopt : ∀ f, data m i = some (.feat f) → f.attr.kind = .binary → f.attr.opt = false → ∀ q, par m i = some q → ¬ IsFeat m q)
    (hm : ∀ s ∈ allStored m, ∀ n ∈ s.tree.features, ¬ NameIn m S n) (hex : ∃ b, Valid F m b) :
    Valid F m' a ↔ ∃ b, Valid F m b ∧ AgreeOff m S a b ∧ ¬ Selected m b i := by
  constructor
  · intro v
    rw [valid_cons] at v
    obtain ⟨b0, v0⟩ := hex
    classical
    let b : Assign :=
      { bool := fun n => if NameIn m S n then false else a.bool n
        int := fun n => if NameIn m S n then b0.int n else a.int n
        div0 := a.div0 }
    have hab : AgreeOff m S a b := ⟨fun n hn => if_neg hn, fun n hn => if_neg hn, rfl⟩
    have hoff : ∀ n, NameIn m S n → b.bool n = false := fun n hn => if_pos hn
    have hns : ¬ Selected m b i := by
      rintro ⟨f, hf, hb⟩
      rw [hoff _ (nameIn_of w (w.known_feat (c.owned i c.top) hifeat) hf c.top)] at hb
      cases hb
    refine ⟨b, ?_, hab, hns⟩
    rw [valid_cons]
    refine ⟨tree_without_right w h c (fun _ => hns) (part_off w c ?_ hifeat hoff ?_) (without_agree w h c hab v.1),
      (without_cons h hm hab).1 v.2⟩
    · intro f hf hk ho q hq hqf; exact absurd hqf (hopt f hf hk ho q hq)
    · intro j f vs st hs hf hk
      have hj := w.known_feat (c.owned j hs) ⟨f, hf⟩
      have e : b.int f.attr.name = b0.int f.attr.name := if_pos (nameIn_of w hj hf hs)
      rw [e]
      exact v0.numeric j f vs st hj hf hk
  · rintro ⟨b, v, hab, hns⟩
    exact without_down w h c hm hab (fun _ => hns) v

/-- The valid configurations of what is left when a feature goes that is not in a group: the valid ones without
    the removed part. -/
theorem valid_without_all (hifeat : IsFeat m i) (hpf : ∀ p, par m i = some p → IsFeat m p)
    (hm : ∀ s ∈ allStored m, ∀ n ∈ s.tree.features, ¬ NameIn m S n) (hex : ∃ b, Valid F m b ∧ Selected m b i) :
    Valid F m' a ↔ ∃ b, Valid F m b ∧ AgreeOff m S a b := by
  have hg : ∀ b : Assign, IsRel m ((par m i).getD i) → ¬ Selected m b i := by
    intro b hr
    cases hp : par m i with
    | none => exact absurd c.top (c.root i (w.orphan i (c.owned i c.top) hp))
    | some p =>
      rw [hp] at hr
      obtain ⟨k, hk⟩ := hr
      obtain ⟨f, hf⟩ := hpf p hp
      simp only [Option.getD_some] at hk
      rw [hk] at hf; cases hf
  constructor
  · intro v
    obtain ⟨b0, v0, hs0⟩ := hex
    obtain ⟨p, hp⟩ : ∃ p, par m i = some p := by
      cases hp : par m i with
      | none => exact absurd c.top (c.root i (w.orphan i (c.owned i c.top) hp))
      | some p => exact ⟨p, rfl⟩
    have hps := c.out p hp
    rw [valid_cons] at v
    have hop := (w.par_edge _ _ (c.owned i c.top) hp).1
    by_cases hsp : Selected m a p
    · classical
      let b : Assign :=
        { bool := fun n => if NameIn m S n then b0.bool n else a.bool n
          int := fun n => if NameIn m S n then b0.int n else a.int n
          div0 := a.div0 }
      have hab : AgreeOff m S a b := ⟨fun n hn => if_neg hn, fun n hn => if_neg hn, rfl⟩
      refine ⟨b, ?_, hab⟩
      rw [valid_cons]
      refine ⟨tree_without_right w h c (hg b) (part_on w c hifeat (valid_cons.1 v0).1 hs0 hp (hpf p hp) ?_ ?_)
        (without_agree w h c hab v.1), (without_cons h hm hab).1 v.2⟩
      · obtain ⟨f, hf, hb⟩ := hsp
        exact ⟨f, hf, by rw [hab.bool _ (not_nameIn_of w (w.known_feat hop ⟨f, hf⟩) hf hps)]; exact hb⟩
      · intro n hn; exact ⟨if_pos hn, if_pos hn⟩
    · classical
      let b : Assign :=
        { bool := fun n => if NameIn m S n then false else a.bool n
          int := fun n => if NameIn m S n then b0.int n else a.int n
          div0 := a.div0 }
      have hab : AgreeOff m S a b := ⟨fun n hn => if_neg hn, fun n hn => if_neg hn, rfl⟩
      have hoff : ∀ n, NameIn m S n → b.bool n = false := fun n hn => if_pos hn
      refine ⟨b, ?_, hab⟩
      rw [valid_cons]
      refine ⟨tree_without_right w h c (hg b) (part_off w c ?_ hifeat hoff ?_) (without_agree w h c hab v.1),
        (without_cons h hm hab).1 v.2⟩
      · intro f hf hk ho q hq hqf hs
        rw [hp] at hq; cases hq
        obtain ⟨g, hg', hb⟩ := hs
        exact hsp ⟨g, hg', by rw [← hab.bool _ (not_nameIn_of w (w.known_feat hop ⟨g, hg'⟩) hg' hps)]; exact hb⟩
      · intro j f vs st hs hf hk
        have hj := w.known_feat (c.owned j hs) ⟨f, hf⟩
        have e : b.int f.attr.name = b0.int f.attr.name := if_pos (nameIn_of w hj hf hs)
        rw [e]
        exact v0.numeric j f vs st hj hf hk
  · rintro ⟨b, v, hab⟩
    exact without_down w h c hm hab (hg b) v

end

end Verif

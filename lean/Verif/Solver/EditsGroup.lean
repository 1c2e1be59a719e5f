import Verif.Solver.EditsRemove
import Verif.FM.Effects
import Verif.FM.Move
/-!
# How grouping, moving and replacing the root change the valid configurations
-/

namespace Verif.Spec
open Verif

/-- A valid configuration except for what ties some features to their parents: those of `P` may be selected
    without them, those of `M` need not be selected with them. -/
structure ValidBut (F : IntFloats) (m : FModel) (P M : Id → Prop) (a : Assign) : Prop where
  root : ∀ r, m.root = some r → Selected m a r
  parent : ∀ i f p, ¬ P i → Known m i → data m i = some (.feat f) → f.attr.kind = .binary → FParent m i p →
    Selected m a i → Selected m a p
  mandatory : ∀ i f p, ¬ M i → Known m i → data m i = some (.feat f) → f.attr.kind = .binary → f.attr.opt = false →
    par m i = some p → IsFeat m p → Selected m a p → Selected m a i
  alternative : ∀ r p, r ∈ m.rels → data m r = some (.rel .alternative) → par m r = some p → Selected m a p →
    ∃ c, c ∈ edg m r ∧ Selected m a c ∧ ∀ c', c' ∈ edg m r → Selected m a c' → c' = c
  or : ∀ r p, r ∈ m.rels → data m r = some (.rel .or) → par m r = some p → Selected m a p →
    ∃ c, c ∈ edg m r ∧ Selected m a c
  numeric : ∀ i f vs st, Known m i → data m i = some (.feat f) → f.attr.kind = .numeric vs st →
    Allowed F vs st (a.int f.attr.name)
  boolean : ∀ c, c ∈ m.booleans ++ m.nonBooleans → meaning (value m a) a.div0 c.tree = some (.bool true)
  mixed : ∀ c, c ∈ m.mixeds → MixedHolds m a c

/-- What a group of a kind asks of its members when the feature `p` is selected. -/
def GroupHolds (m : FModel) (a : Assign) (p : Id) (C : Id → Prop) : RKind → Prop
  | .alternative => Selected m a p → ∃ c, C c ∧ Selected m a c ∧ ∀ c', C c' → Selected m a c' → c' = c
  | .or => Selected m a p → ∃ c, C c ∧ Selected m a c

end Verif.Spec

namespace Verif
open Verif.Spec

variable {F : IntFloats} {m m' : FModel} {a b : Assign}

theorem validBut_none : ValidBut F m (fun _ => False) (fun _ => False) a ↔ Valid F m a :=
  ⟨fun v => ⟨v.root, fun i f p => v.parent i f p (fun h => h), fun i f p => v.mandatory i f p (fun h => h), v.alternative, v.or,
    v.numeric, v.boolean, v.mixed⟩,
   fun v => ⟨v.root, fun i f p _ => v.parent i f p, fun i f p _ => v.mandatory i f p, v.alternative, v.or, v.numeric, v.boolean, v.mixed⟩⟩

/-- Features that are not mandatory need not be exempted. -/
theorem validBut_optional {M : Id → Prop} (hM : ∀ i f, M i → data m i = some (.feat f) → f.attr.opt = true) :
    ValidBut F m (fun _ => False) M a ↔ Valid F m a := by
  constructor
  · intro v
    refine ⟨v.root, fun i f p => v.parent i f p (fun h => h), ?_, v.alternative, v.or, v.numeric, v.boolean, v.mixed⟩
    intro i f p hi hf hk ho
    refine v.mandatory i f p ?_ hi hf hk ho
    intro hMi
    rw [hM i f hMi hf] at ho; cases ho
  · intro v
    exact ⟨v.root, fun i f p _ => v.parent i f p, fun i f p _ => v.mandatory i f p, v.alternative, v.or, v.numeric, v.boolean, v.mixed⟩

/-- `m'` is `m` with the children `cs` of `p` in a group. -/
structure InGroup (m m' : FModel) (r : Id) (k : RKind) (p : Id) (cs : List Id) : Prop where
  free : ¬ Owned m r
  owner : Known m p
  members : ∀ c ∈ cs, Known m c ∧ par m c = some p
  data : ∀ j, Owned m j → data m' j = data m j
  data_r : Spec.data m' r = some (.rel k)
  par : ∀ j, Owned m j → par m' j = if j ∈ cs then some r else par m j
  par_r : Spec.par m' r = some p
  edge : ∀ j ∈ m.rels, edg m' j = edg m j
  edge_r : ∀ c, c ∈ edg m' r ↔ c ∈ cs
  features : m'.features = m.features
  rels : ∀ j, j ∈ m'.rels ↔ j ∈ m.rels ∨ j = r
  root : m'.root = m.root
  fparent : ∀ x q, Known m x → (FParent m' x q ↔ FParent m x q)
  booleans : m'.booleans = m.booleans
  nonBooleans : m'.nonBooleans = m.nonBooleans
  mixeds : m'.mixeds = m.mixeds

theorem inGroup_isNum {r p : Id} {k : RKind} {cs : List Id} (h : InGroup m m' r k p cs) (n : Str) : IsNum m' n ↔ IsNum m n := by
  unfold IsNum
  rw [h.features]
  constructor
  · rintro ⟨i, f, vs, st, h1, h2, h3⟩
    rw [h.data i (.inl (List.mem_map_of_mem (f := Prod.snd) h1))] at h2
    exact ⟨i, f, vs, st, h1, h2, h3⟩
  · rintro ⟨i, f, vs, st, h1, h2, h3⟩
    exact ⟨i, f, vs, st, h1, by rw [h.data i (.inl (List.mem_map_of_mem (f := Prod.snd) h1))]; exact h2, h3⟩

theorem valid_inGroup {r p : Id} {k : RKind} {cs : List Id} (w : WF m) (h : InGroup m m' r k p cs) :
    Valid F m' a ↔ ValidBut F m (fun _ => False) (· ∈ cs) a ∧ GroupHolds m a p (· ∈ cs) k := by
  have hsel : ∀ y, Owned m y → (Selected m' a y ↔ Selected m a y) := fun y hy => selected_congr (h.data y hy)
  have hkn : ∀ y, Known m' y ↔ Known m y := by intro y; unfold Known; rw [h.features]
  have hne : ∀ y, Owned m y → y ≠ r := by rintro y hy rfl; exact h.free hy
  have hcons : ConsHold m' a ↔ ConsHold m a :=
    consHold_congr h.booleans h.nonBooleans h.mixeds rfl (fun c _ n _ => ⟨inGroup_isNum h n, rfl, rfl⟩)
  have hcs : ∀ c ∈ cs, Owned m c := fun c hc => .inl (h.members c hc).1
  have hmem : ∀ c ∈ cs, (Selected m' a c ↔ Selected m a c) := fun c hc => hsel c (hcs c hc)
  have hrelp : ∀ q, Owned m q → q ∈ m.rels → q ∉ cs := by
    intro q _ hq hc
    exact w.known_not_rel (h.members q hc).1 hq
  have hparr : ∀ y, y ∈ m.rels → par m' y = par m y := by
    intro y hy
    rw [h.par y (.inr hy), if_neg (hrelp y (.inr hy) hy)]
  constructor
  · intro v
    obtain ⟨c1, c2⟩ := hcons.1 (valid_cons.1 v).2
    refine ⟨⟨?_, ?_, ?_, ?_, ?_, ?_, c1, c2⟩, ?_⟩
    · intro s hs
      exact (hsel s (.inl (w.root_known hs))).1 (v.root s (by rw [h.root]; exact hs))
    · intro y f q _ hy hf hk hq hs
      exact (hsel q (fparent_owned w (.inl hy) hq)).1 (v.parent y f q ((hkn y).2 hy) (by rw [h.data y (.inl hy)]; exact hf) hk
        ((h.fparent y q hy).2 hq) ((hsel y (.inl hy)).2 hs))
    · intro y f q hny hy hf hk ho hq hqf hs
      have hoq := (w.par_edge _ _ (.inl hy) hq).1
      obtain ⟨g, hg⟩ := hqf
      exact (hsel y (.inl hy)).1 (v.mandatory y f q ((hkn y).2 hy) (by rw [h.data y (.inl hy)]; exact hf) hk ho
        (by rw [h.par y (.inl hy), if_neg hny]; exact hq) ⟨g, by rw [h.data q hoq]; exact hg⟩ ((hsel q hoq).2 hs))
    · intro s q hr hk hq hs
      have hoq := (w.par_edge _ _ (.inr hr) hq).1
      obtain ⟨c, h1, h2, h3⟩ := v.alternative s q ((h.rels s).2 (.inl hr)) (by rw [h.data s (.inr hr)]; exact hk)
        (by rw [hparr s hr]; exact hq) ((hsel q hoq).2 hs)
      rw [h.edge s hr] at h1
      refine ⟨c, h1, (hsel c (w.edge_par s c (.inr hr) h1).1).1 h2, ?_⟩
      intro c' hc' hs'
      exact h3 c' (by rw [h.edge s hr]; exact hc') ((hsel c' (w.edge_par s c' (.inr hr) hc').1).2 hs')
    · intro s q hr hk hq hs
      have hoq := (w.par_edge _ _ (.inr hr) hq).1
      obtain ⟨c, h1, h2⟩ := v.or s q ((h.rels s).2 (.inl hr)) (by rw [h.data s (.inr hr)]; exact hk)
        (by rw [hparr s hr]; exact hq) ((hsel q hoq).2 hs)
      rw [h.edge s hr] at h1
      exact ⟨c, h1, (hsel c (w.edge_par s c (.inr hr) h1).1).1 h2⟩
    · intro y f vs st hy hf hk
      exact v.numeric y f vs st ((hkn y).2 hy) (by rw [h.data y (.inl hy)]; exact hf) hk
    · cases k with
      | alternative =>
        intro hs
        obtain ⟨c, h1, h2, h3⟩ := v.alternative r p ((h.rels r).2 (.inr rfl)) h.data_r h.par_r ((hsel p (.inl h.owner)).2 hs)
        rw [h.edge_r] at h1
        refine ⟨c, h1, (hmem c h1).1 h2, ?_⟩
        intro c' hc' hs'
        exact h3 c' ((h.edge_r c').2 hc') ((hmem c' hc').2 hs')
      | or =>
        intro hs
        obtain ⟨c, h1, h2⟩ := v.or r p ((h.rels r).2 (.inr rfl)) h.data_r h.par_r ((hsel p (.inl h.owner)).2 hs)
        rw [h.edge_r] at h1
        exact ⟨c, h1, (hmem c h1).1 h2⟩
  · rintro ⟨v, g⟩
    obtain ⟨c1, c2⟩ := hcons.2 ⟨v.boolean, v.mixed⟩
    refine ⟨?_, ?_, ?_, ?_, ?_, ?_, c1, c2⟩
    · intro s hs
      rw [h.root] at hs
      exact (hsel s (.inl (w.root_known hs))).2 (v.root s hs)
    · intro y f q hy hf hk hq hs
      rw [hkn] at hy
      rw [h.data y (.inl hy)] at hf
      rw [h.fparent y q hy] at hq
      exact (hsel q (fparent_owned w (.inl hy) hq)).2 (v.parent y f q (fun x => x) hy hf hk hq ((hsel y (.inl hy)).1 hs))
    · intro y f q hy hf hk ho hq hqf hs
      rw [hkn] at hy
      rw [h.data y (.inl hy)] at hf
      rw [h.par y (.inl hy)] at hq
      by_cases hc : y ∈ cs
      · rw [if_pos hc] at hq; cases hq
        obtain ⟨g', hg'⟩ := hqf
        rw [h.data_r] at hg'; cases hg'
      · rw [if_neg hc] at hq
        have hoq := (w.par_edge _ _ (.inl hy) hq).1
        obtain ⟨g', hg'⟩ := hqf
        rw [h.data q hoq] at hg'
        exact (hsel y (.inl hy)).2 (v.mandatory y f q hc hy hf hk ho hq ⟨g', hg'⟩ ((hsel q hoq).1 hs))
    · intro s q hr hk hq hs
      rcases (h.rels s).1 hr with hr | rfl
      · rw [h.data s (.inr hr)] at hk
        rw [hparr s hr] at hq
        have hoq := (w.par_edge _ _ (.inr hr) hq).1
        obtain ⟨c, h1, h2, h3⟩ := v.alternative s q hr hk hq ((hsel q hoq).1 hs)
        refine ⟨c, by rw [h.edge s hr]; exact h1, (hsel c (w.edge_par s c (.inr hr) h1).1).2 h2, ?_⟩
        intro c' hc' hs'
        rw [h.edge s hr] at hc'
        exact h3 c' hc' ((hsel c' (w.edge_par s c' (.inr hr) hc').1).1 hs')
      · rw [h.data_r] at hk; cases hk
        rw [h.par_r] at hq; cases hq
        obtain ⟨c, h1, h2, h3⟩ := g ((hsel p (.inl h.owner)).1 hs)
        refine ⟨c, (h.edge_r c).2 h1, (hmem c h1).2 h2, ?_⟩
        intro c' hc' hs'
        have := (h.edge_r c').1 hc'
        exact h3 c' this ((hmem c' this).1 hs')
    · intro s q hr hk hq hs
      rcases (h.rels s).1 hr with hr | rfl
      · rw [h.data s (.inr hr)] at hk
        rw [hparr s hr] at hq
        have hoq := (w.par_edge _ _ (.inr hr) hq).1
        obtain ⟨c, h1, h2⟩ := v.or s q hr hk hq ((hsel q hoq).1 hs)
        exact ⟨c, by rw [h.edge s hr]; exact h1, (hsel c (w.edge_par s c (.inr hr) h1).1).2 h2⟩
      · rw [h.data_r] at hk; cases hk
        rw [h.par_r] at hq; cases hq
        obtain ⟨c, h1, h2⟩ := g ((hsel p (.inl h.owner)).1 hs)
        exact ⟨c, (h.edge_r c).2 h1, (hmem c h1).2 h2⟩
    · intro y f vs st hy hf hk
      rw [hkn] at hy
      rw [h.data y (.inl hy)] at hf
      exact v.numeric y f vs st hy hf hk

theorem inGroup_of_grouped {r p : Id} {k : RKind} {cs : List Id} (w : WF m) (hp : Known m p) (h : Grouped m m' r k p cs) :
    InGroup m m' r k p cs := by
  have hfree : ∀ y, Owned m y → y ≠ r := by
    rintro y ho rfl
    obtain ⟨d, hd⟩ := w.owned_data ho
    have := h.new
    rw [heap_of_data hd] at this
    cases this
  refine
    { free := fun hr => hfree r hr rfl
      owner := hp
      members := ?_
      data := fun j hj => by rw [h.data, upd_ne _ _ (hfree j hj)]
      data_r := by rw [h.data, upd_same]
      par := fun j hj => by rw [h.par, if_neg (hfree j hj)]
      par_r := by rw [h.par, if_pos rfl]
      edge := ?_
      edge_r := fun c => by rw [h.edge_r]
      features := h.features
      rels := fun j => by rw [h.rels]; simp
      root := h.root
      fparent := fun x q hx => grouped_fparent w hp h (.inl hx)
      booleans := h.booleans
      nonBooleans := h.nonBooleans
      mixeds := h.mixeds }
  · intro c hc
    obtain ⟨h1, h2⟩ := (h.mem c).1 hc
    obtain ⟨h3, h4⟩ := w.edge_par p c (.inl hp) h1
    exact ⟨w.known_feat h3 h2, h4⟩
  · intro j hj
    refine h.edge j ?_ (hfree j (.inr hj))
    rintro rfl
    exact w.known_not_rel hp hj

theorem inGroup_of_ungrouped {r p : Id} {cs : List Id} {k : RKind} (w : WF m) (hp : Known m p) (hrp : r ∈ edg m p)
    (hk : data m r = some (.rel k)) (hf : ∀ c ∈ edg m r, IsFeat m c) (h : Ungrouped m m' r p cs) : InGroup m' m r k p cs := by
  obtain ⟨hor, hpr⟩ := w.edge_par p r (.inl hp) hrp
  have hrr := w.owned_rel hor ⟨k, hk⟩
  have hrels : ∀ j, j ∈ m'.rels ↔ j ∈ m.rels ∧ j ≠ r := by
    intro j
    rw [h.rels, w.rels_nodup.mem_erase_iff]
    exact ⟨fun x => ⟨x.2, x.1⟩, fun x => ⟨x.2, x.1⟩⟩
  have hkn : ∀ y, Known m' y ↔ Known m y := by intro y; unfold Known; rw [h.features]
  have hown : ∀ j, Owned m' j ↔ Owned m j ∧ j ≠ r := by
    intro j
    unfold Owned
    rw [hkn, hrels]
    constructor
    · rintro (h1 | h1)
      · exact ⟨.inl h1, by rintro rfl; exact w.known_not_rel h1 hrr⟩
      · exact ⟨.inr h1.1, h1.2⟩
    · rintro ⟨h1 | h1, h2⟩
      · exact .inl h1
      · exact .inr ⟨h1, h2⟩
  have hcsk : ∀ c ∈ cs, Known m c ∧ par m c = some r := by
    intro c hc
    have := h.perm.mem_iff.1 hc
    obtain ⟨h1, h2⟩ := w.edge_par r c hor this
    exact ⟨w.known_feat h1 (hf c this), h2⟩
  have hcne : ∀ c ∈ cs, c ≠ r := by
    rintro c hc rfl
    exact w.known_not_rel (hcsk c hc).1 hrr
  refine
    { free := fun x => ((hown r).1 x).2 rfl
      owner := (hkn p).2 hp
      members := ?_
      data := fun j hj => by rw [h.data, upd_ne _ _ ((hown j).1 hj).2]
      data_r := hk
      par := ?_
      par_r := hpr
      edge := ?_
      edge_r := fun c => (h.perm.mem_iff).symm
      features := h.features.symm
      rels := ?_
      root := h.root.symm
      fparent := fun x q hx => (ungrouped_fparent w hp hrp ⟨k, hk⟩ h ((hkn x).1 hx)).symm
      booleans := h.booleans.symm
      nonBooleans := h.nonBooleans.symm
      mixeds := h.mixeds.symm }
  · intro c hc
    refine ⟨(hkn c).2 (hcsk c hc).1, ?_⟩
    rw [h.par, if_neg (hcne c hc), if_pos hc]
  · intro j hj
    obtain ⟨_, h2⟩ := (hown j).1 hj
    by_cases hc : j ∈ cs
    · rw [if_pos hc]; exact (hcsk j hc).2
    · rw [if_neg hc, h.par, if_neg h2, if_neg hc]
  · intro j hj
    obtain ⟨h1, h2⟩ := (hrels j).1 hj
    refine (h.edge j ?_ h2).symm
    rintro rfl
    exact w.known_not_rel hp h1
  · intro j
    rw [hrels]
    by_cases hj : j = r
    · subst hj; exact ⟨fun _ => .inr rfl, fun _ => hrr⟩
    · exact ⟨fun x => .inl ⟨x, hj⟩, fun x => x.elim (fun y => y.1) (fun y => absurd y hj)⟩

/-! ## Moving a feature from one feature to another -/

theorem valid_moved {p q c : Id} {f : Feat} (w : WF m) (h : Moved m m' p c) (hc : Known m c) (hf : data m c = some (.feat f))
    (hp : Known m p) (hcq : par m c = some q) (hqf : IsFeat m q) :
    Valid F m' a ↔ ValidBut F m (· = c) (· = c) a ∧ Joins F m a f.attr p := by
  have hd := h.data
  have hsel : ∀ y, (Selected m' a y ↔ Selected m a y) := fun y => selected_congr (by rw [hd])
  have hkn : ∀ y, Known m' y ↔ Known m y := by intro y; unfold Known; rw [h.rest.features]
  have hnum : ∀ n, IsNum m' n ↔ IsNum m n := by intro n; unfold IsNum; rw [h.rest.features, hd]
  have hcons : ConsHold m' a ↔ ConsHold m a :=
    consHold_congr h.rest.booleans h.rest.nonBooleans h.rest.mixeds rfl (fun c _ n _ => ⟨hnum n, rfl, rfl⟩)
  have hfeat : ∀ y, IsFeat m' y ↔ IsFeat m y := by intro y; unfold IsFeat; rw [hd]
  have hrel : ∀ y, IsRel m' y ↔ IsRel m y := by intro y; unfold IsRel; rw [hd]
  have hpne : ∀ y, y ≠ c → par m' y = par m y := fun y hy => by rw [h.par, upd_ne _ _ hy]
  have hpc : par m' c = some p := by rw [h.par, upd_same]
  have hpf : IsFeat m p := w.known_data hp
  have hcrel : ∀ y, IsRel m y → y ≠ c := by
    rintro y ⟨k, hk⟩ rfl
    rw [hf] at hk; cases hk
  have hfp : ∀ y q, y ≠ c → (FParent m' y q ↔ FParent m y q) := by
    intro y q hy
    constructor
    · intro hx
      induction hx with
      | direct h1 h2 => rw [hpne _ hy] at h1; exact .direct h1 ((hfeat _).1 h2)
      | skip h1 h2 _ ih => rw [hpne _ hy] at h1; exact .skip h1 ((hrel _).1 h2) (ih (hcrel _ ((hrel _).1 h2)))
    · intro hx
      induction hx with
      | direct h1 h2 => exact .direct (by rw [hpne _ hy]; exact h1) ((hfeat _).2 h2)
      | skip h1 h2 _ ih => exact .skip (by rw [hpne _ hy]; exact h1) ((hrel _).2 h2) (ih (hcrel _ h2))
  have hedge : ∀ r ∈ m.rels, edg m' r = edg m r := by
    intro r hr
    rw [h.edge r (.inr hr) (by rintro rfl; exact w.known_not_rel hp hr)]
    refine List.erase_of_not_mem ?_
    intro hx
    have := (w.edge_par r c (.inr hr) hx).2
    rw [hcq] at this; cases this
    obtain ⟨g, hg⟩ := hqf
    obtain ⟨k, hk⟩ := w.rel_ok _ hr
    rw [hg] at hk; cases hk
  have hselc : Selected m a c ↔ a.bool f.attr.name = true := by
    constructor
    · rintro ⟨g, hg, hb⟩; rw [hf] at hg; cases hg; exact hb
    · intro hb; exact ⟨f, hf, hb⟩
  constructor
  · intro v
    obtain ⟨c1, c2⟩ := hcons.1 (valid_cons.1 v).2
    refine ⟨⟨?_, ?_, ?_, ?_, ?_, ?_, c1, c2⟩, ?_, ?_, ?_⟩
    · intro s hs
      exact (hsel s).1 (v.root s (by rw [h.rest.root]; exact hs))
    · intro y g q hyc hy hg hk hq hs
      exact (hsel q).1 (v.parent y g q ((hkn y).2 hy) (by rw [hd]; exact hg) hk ((hfp y q hyc).2 hq) ((hsel y).2 hs))
    · intro y g q hyc hy hg hk ho hq hqf hs
      exact (hsel y).1 (v.mandatory y g q ((hkn y).2 hy) (by rw [hd]; exact hg) hk ho
        (by rw [hpne y hyc]; exact hq) ((hfeat q).2 hqf) ((hsel q).2 hs))
    · intro s q hr hk hq hs
      obtain ⟨d, h1, h2, h3⟩ := v.alternative s q (by rw [h.rest.rels]; exact hr) (by rw [hd]; exact hk)
        (by rw [hpne s (hcrel s ⟨_, hk⟩)]; exact hq) ((hsel q).2 hs)
      rw [hedge s hr] at h1
      refine ⟨d, h1, (hsel d).1 h2, ?_⟩
      intro d' hd' hs'
      exact h3 d' (by rw [hedge s hr]; exact hd') ((hsel d').2 hs')
    · intro s q hr hk hq hs
      obtain ⟨d, h1, h2⟩ := v.or s q (by rw [h.rest.rels]; exact hr) (by rw [hd]; exact hk)
        (by rw [hpne s (hcrel s ⟨_, hk⟩)]; exact hq) ((hsel q).2 hs)
      rw [hedge s hr] at h1
      exact ⟨d, h1, (hsel d).1 h2⟩
    · intro y g vs st hy hg hk
      exact v.numeric y g vs st ((hkn y).2 hy) (by rw [hd]; exact hg) hk
    · intro hk hs
      exact (hsel p).1 (v.parent c f p ((hkn c).2 hc) (by rw [hd]; exact hf) hk (.direct hpc ((hfeat p).2 hpf)) ((hsel c).2 (hselc.2 hs)))
    · intro hk ho hs
      exact hselc.1 ((hsel c).1 (v.mandatory c f p ((hkn c).2 hc) (by rw [hd]; exact hf) hk ho hpc ((hfeat p).2 hpf) ((hsel p).2 hs)))
    · intro vs st hk
      exact v.numeric c f vs st ((hkn c).2 hc) (by rw [hd]; exact hf) hk
  · rintro ⟨v, j⟩
    obtain ⟨c1, c2⟩ := hcons.2 ⟨v.boolean, v.mixed⟩
    refine ⟨?_, ?_, ?_, ?_, ?_, ?_, c1, c2⟩
    · intro s hs
      rw [h.rest.root] at hs
      exact (hsel s).2 (v.root s hs)
    · intro y g q hy hg hk hq hs
      rw [hkn] at hy
      rw [hd] at hg
      by_cases hyc : y = c
      · subst hyc
        rw [hf] at hg; cases hg
        have : q = p := hq.functional (.direct hpc ((hfeat p).2 hpf))
        rw [this]
        exact (hsel p).2 (j.child hk (hselc.1 ((hsel y).1 hs)))
      · exact (hsel q).2 (v.parent y g q hyc hy hg hk ((hfp y q hyc).1 hq) ((hsel y).1 hs))
    · intro y g q hy hg hk ho hq hqf hs
      rw [hkn] at hy
      rw [hd] at hg
      by_cases hyc : y = c
      · subst hyc
        rw [hf] at hg; cases hg
        rw [hpc] at hq; cases hq
        exact (hsel y).2 (hselc.2 (j.mandatory hk ho ((hsel p).1 hs)))
      · rw [hpne y hyc] at hq
        exact (hsel y).2 (v.mandatory y g q hyc hy hg hk ho hq ((hfeat q).1 hqf) ((hsel q).1 hs))
    · intro s q hr hk hq hs
      rw [h.rest.rels] at hr
      rw [hd] at hk
      rw [hpne s (hcrel s ⟨_, hk⟩)] at hq
      obtain ⟨d, h1, h2, h3⟩ := v.alternative s q hr hk hq ((hsel q).1 hs)
      refine ⟨d, by rw [hedge s hr]; exact h1, (hsel d).2 h2, ?_⟩
      intro d' hd' hs'
      rw [hedge s hr] at hd'
      exact h3 d' hd' ((hsel d').1 hs')
    · intro s q hr hk hq hs
      rw [h.rest.rels] at hr
      rw [hd] at hk
      rw [hpne s (hcrel s ⟨_, hk⟩)] at hq
      obtain ⟨d, h1, h2⟩ := v.or s q hr hk hq ((hsel q).1 hs)
      exact ⟨d, by rw [hedge s hr]; exact h1, (hsel d).2 h2⟩
    · intro y g vs st hy hg hk
      rw [hkn] at hy
      rw [hd] at hg
      exact v.numeric y g vs st hy hg hk

/-- What `ValidBut` leaves open is what ties the feature to its own parent. -/
theorem valid_joins {q c : Id} {f : Feat} (hc : Known m c) (hf : data m c = some (.feat f)) (hq : par m c = some q) (hqf : IsFeat m q) :
    Valid F m a ↔ ValidBut F m (· = c) (· = c) a ∧ Joins F m a f.attr q := by
  have hselc : Selected m a c ↔ a.bool f.attr.name = true := by
    constructor
    · rintro ⟨g, hg, hb⟩; rw [hf] at hg; cases hg; exact hb
    · intro hb; exact ⟨f, hf, hb⟩
  constructor
  · intro v
    refine ⟨⟨v.root, fun i f p _ => v.parent i f p, fun i f p _ => v.mandatory i f p, v.alternative, v.or, v.numeric, v.boolean, v.mixed⟩,
      fun hk hs => v.parent c f q hc hf hk (.direct hq hqf) (hselc.2 hs),
      fun hk ho hs => hselc.1 (v.mandatory c f q hc hf hk ho hq hqf hs), fun vs st hk => v.numeric c f vs st hc hf hk⟩
  · rintro ⟨v, j⟩
    refine ⟨v.root, ?_, ?_, v.alternative, v.or, v.numeric, v.boolean, v.mixed⟩
    · intro y g p hy hg hk hp hs
      by_cases hyc : y = c
      · subst hyc
        rw [hf] at hg; cases hg
        have : p = q := hp.functional (.direct hq hqf)
        rw [this]; exact j.child hk (hselc.1 hs)
      · exact v.parent y g p hyc hy hg hk hp hs
    · intro y g p hy hg hk ho hp hpf hs
      by_cases hyc : y = c
      · subst hyc
        rw [hf] at hg; cases hg
        rw [hq] at hp; cases hp
        exact hselc.2 (j.mandatory hk ho hs)
      · exact v.mandatory y g p hyc hy hg hk ho hp hpf hs

/-! ## Replacing the root -/

namespace Spec
open Verif

/-- The configuration in which also the feature `n` is selected. -/
def _root_.Verif.Assign.select (a : Assign) (n : Str) : Assign := { a with bool := fun x => if x = n then true else a.bool x }

end Spec

theorem valid_rerooted {r i : Id} {n : Str} {f : Feat} (w : WF m) (h : Rerooted m m' r i n) (hr : m.root = some r)
    (hf : data m r = some (.feat f)) (hm : ∀ s ∈ allStored m, f.attr.name ∉ s.tree.features) :
    Valid F m' a ↔ a.bool n = true ∧ Valid F m (a.select f.attr.name) := by
  have hrk := w.root_known hr
  have hrp := w.root_par hr
  have hfree : ∀ y, Owned m y → y ≠ i := by
    rintro y ho rfl
    obtain ⟨d, hd⟩ := w.owned_data ho
    have := h.new
    rw [heap_of_data hd] at this
    cases this
  have hri := hfree r (.inl hrk)
  have hd : ∀ y, Owned m y → y ≠ r → data m' y = data m y := fun y hy hy' => by
    rw [h.data, upd_ne _ _ hy', upd_ne _ _ (hfree y hy)]
  have hdi : data m' i = some (.feat { attr := { name := n, kind := .root } }) := by
    rw [h.data, upd_ne _ _ (Ne.symm hri), upd_same]
  have hname : ∀ y g, Known m y → data m y = some (.feat g) → y ≠ r → g.attr.name ≠ f.attr.name := by
    intro y g hy hg hne he
    exact hne (known_name_inj w hy hrk hg hf he)
  have hsel : ∀ y, Owned m y → y ≠ r → (Selected m' a y ↔ Selected m (a.select f.attr.name) y) := by
    intro y hy hne
    unfold Selected
    rw [hd y hy hne]
    constructor
    · rintro ⟨g, hg, hb⟩
      exact ⟨g, hg, by
        show (if g.attr.name = f.attr.name then true else a.bool g.attr.name) = true
        rw [if_neg (hname y g (w.known_feat hy ⟨g, hg⟩) hg hne)]; exact hb⟩
    · rintro ⟨g, hg, hb⟩
      refine ⟨g, hg, ?_⟩
      have hb : (if g.attr.name = f.attr.name then true else a.bool g.attr.name) = true := hb
      rw [if_neg (hname y g (w.known_feat hy ⟨g, hg⟩) hg hne)] at hb; exact hb
  have hselr : Selected m (a.select f.attr.name) r :=
    ⟨f, hf, by show (if f.attr.name = f.attr.name then true else _) = true; rw [if_pos rfl]⟩
  have hseli : Selected m' a i ↔ a.bool n = true := by
    constructor
    · rintro ⟨g, hg, hb⟩; rw [hdi] at hg; cases hg; exact hb
    · intro hb; exact ⟨_, hdi, hb⟩
  have hkn : ∀ y, Known m' y ↔ (Known m y ∧ y ≠ r) ∨ y = i := by
    intro y
    unfold Known
    constructor
    · intro hy
      obtain ⟨e, he, rfl⟩ := List.mem_map.1 hy
      rcases (h.features e).1 he with ⟨h1, h2⟩ | rfl
      · exact .inl ⟨List.mem_map_of_mem h1, h2⟩
      · exact .inr rfl
    · rintro (⟨h1, h2⟩ | rfl)
      · obtain ⟨e, he, rfl⟩ := List.mem_map.1 h1
        exact List.mem_map_of_mem ((h.features e).2 (.inl ⟨he, h2⟩))
      · exact List.mem_map.2 ⟨(n, y), (h.features _).2 (.inr rfl), rfl⟩
  have hown : ∀ y, Owned m y → par m y = some r ∨ (y ≠ r ∧ par m' y = par m y) ∨ y = r := by
    intro y hy
    by_cases hyr : y = r
    · exact .inr (.inr hyr)
    · by_cases hc : y ∈ edg m r
      · exact .inl (w.edge_par r y (.inl hrk) hc).2
      · exact .inr (.inl ⟨hyr, by rw [h.par, if_neg hc, if_neg (hfree y hy)]⟩)
  have hchild : ∀ y, Owned m y → par m y = some r → par m' y = some i := by
    intro y hy hp
    rw [h.par, if_pos (w.par_edge y r hy hp).2]
  have hparne : ∀ y q, Owned m y → par m y = some q → q ≠ r → par m' y = some q := by
    intro y q hy hq hne
    rw [h.par, if_neg, if_neg (hfree y hy), hq]
    intro hc
    have := (w.edge_par r y (.inl hrk) hc).2
    rw [hq] at this; exact hne (Option.some.inj this)
  have hreld : ∀ s, s ∈ m.rels → s ≠ r := by rintro s hs rfl; exact w.known_not_rel hrk hs
  -- parent features
  have hfp : ∀ y q, Owned m y → FParent m y q → FParent m' y (if q = r then i else q) := by
    intro y q hy hq
    induction hq with
    | @direct y q h1 h2 =>
      by_cases hqr : q = r
      · subst hqr
        rw [if_pos rfl]
        exact .direct (hchild y hy h1) ⟨_, hdi⟩
      · rw [if_neg hqr]
        obtain ⟨g, hg⟩ := h2
        have hoq := (w.par_edge y q hy h1).1
        exact .direct (hparne y q hy h1 hqr) ⟨g, by rw [hd q hoq hqr]; exact hg⟩
    | @skip y s q h1 h2 _ ih =>
      have hos := (w.par_edge y s hy h1).1
      have hsr := hreld s (w.owned_rel hos h2)
      obtain ⟨k, hk⟩ := h2
      exact .skip (hparne y s hy h1 hsr) ⟨k, by rw [hd s hos hsr]; exact hk⟩ (ih hos)
  have hfp' : ∀ y q, Owned m y → y ≠ r → FParent m' y q → ∃ q', FParent m y q' ∧ q = if q' = r then i else q' := by
    intro y q hy hyr hq
    obtain ⟨q', h1, _⟩ := w.has_fparent hy (by rw [hr]; intro e; exact hyr (Option.some.inj e).symm)
    exact ⟨q', h1, hq.functional (hfp y q' hy h1)⟩
  have hedge : ∀ s, s ∈ m.rels → edg m' s = edg m s := by
    intro s hs
    rw [h.edg, upd_ne _ _ (hreld s hs), upd_ne _ _ (hfree s (.inr hs))]
  have hmemne : ∀ s c, s ∈ m.rels → c ∈ edg m s → Owned m c ∧ c ≠ r := by
    intro s c hs hc
    obtain ⟨h1, h2⟩ := w.edge_par s c (.inr hs) hc
    refine ⟨h1, ?_⟩
    rintro rfl
    rw [hrp] at h2; cases h2
  have hfi : ∀ y, y ≠ r → Known m y → Known m' y := fun y hy hk => (hkn y).2 (.inl ⟨hk, hy⟩)
  have hrootkind : f.attr.kind = .root := by
    obtain ⟨r', f', h1, _, h3, h4, _⟩ := w.root_ok
    rw [hr] at h1; cases h1
    rw [hf] at h3; cases h3
    exact h4
  have hnum : ∀ x, IsNum m' x ↔ IsNum m x := by
    intro x
    constructor
    · rintro ⟨j, g, vs, st, hj, hg, hk⟩
      rcases (h.features _).1 hj with ⟨h1, h2⟩ | h1
      · rw [hd j (.inl (List.mem_map_of_mem (f := Prod.snd) h1)) h2] at hg
        exact ⟨j, g, vs, st, h1, hg, hk⟩
      · cases h1
        rw [hdi] at hg; cases hg; cases hk
    · rintro ⟨j, g, vs, st, hj, hg, hk⟩
      have hjr : j ≠ r := by
        rintro rfl
        rw [hf] at hg; cases hg
        rw [hrootkind] at hk; cases hk
      exact ⟨j, g, vs, st, (h.features _).2 (.inl ⟨hj, hjr⟩), by rw [hd j (.inl (List.mem_map_of_mem (f := Prod.snd) hj)) hjr]; exact hg, hk⟩
  have hcons : ConsHold m' a ↔ ConsHold m (a.select f.attr.name) := by
    refine consHold_congr h.booleans h.nonBooleans h.mixeds rfl ?_
    intro s hs x hx
    refine ⟨hnum x, ?_, rfl⟩
    show a.bool x = if x = f.attr.name then true else a.bool x
    rw [if_neg]
    rintro rfl
    exact hm s hs hx
  -- selection of parents
  have hselp : a.bool n = true → ∀ q, Owned m q → (Selected m' a (if q = r then i else q) ↔ Selected m (a.select f.attr.name) q) := by
    intro hn q hq
    by_cases hqr : q = r
    · subst hqr
      rw [if_pos rfl]
      exact ⟨fun _ => hselr, fun _ => hseli.2 hn⟩
    · rw [if_neg hqr]; exact hsel q hq hqr
  have hpar2 : ∀ y q, Owned m y → par m y = some q → par m' y = some (if q = r then i else q) := by
    intro y q hy hq
    by_cases hqr : q = r
    · subst hqr; rw [if_pos rfl]; exact hchild y hy hq
    · rw [if_neg hqr]; exact hparne y q hy hq hqr
  have hpar2' : ∀ y q, Owned m y → y ≠ r → par m' y = some q → ∃ q', par m y = some q' ∧ q = if q' = r then i else q' := by
    intro y q hy hyr hq
    cases hp : par m y with
    | none =>
      have := w.orphan y hy hp
      rw [hr] at this; cases this; exact absurd rfl hyr
    | some q' =>
      refine ⟨q', rfl, ?_⟩
      rw [hpar2 y q' hy hp] at hq; exact (Option.some.inj hq).symm
  have hfeat2 : ∀ q, Owned m q → (IsFeat m' (if q = r then i else q) ↔ IsFeat m q) := by
    intro q hq
    by_cases hqr : q = r
    · subst hqr; rw [if_pos rfl]; exact ⟨fun _ => ⟨f, hf⟩, fun _ => ⟨_, hdi⟩⟩
    · rw [if_neg hqr]; unfold IsFeat; rw [hd q hq hqr]
  constructor
  · intro v
    have hn : a.bool n = true := hseli.1 (v.root i h.root)
    obtain ⟨c1, c2⟩ := hcons.1 (valid_cons.1 v).2
    refine ⟨hn, ?_, ?_, ?_, ?_, ?_, ?_, c1, c2⟩
    · intro s hs
      rw [hr] at hs; cases hs; exact hselr
    · intro y g q hy hg hk hq hs
      have hyr : y ≠ r := by
        rintro rfl
        rw [hf] at hg; cases hg; rw [hrootkind] at hk; cases hk
      exact (hselp hn q (fparent_owned w (.inl hy) hq)).1 (v.parent y g _ (hfi y hyr hy) (by rw [hd y (.inl hy) hyr]; exact hg) hk
        (hfp y q (.inl hy) hq) ((hsel y (.inl hy) hyr).2 hs))
    · intro y g q hy hg hk ho hq hqf hs
      have hyr : y ≠ r := by
        rintro rfl
        rw [hf] at hg; cases hg; rw [hrootkind] at hk; cases hk
      have hoq := (w.par_edge _ _ (.inl hy) hq).1
      exact (hsel y (.inl hy) hyr).1 (v.mandatory y g _ (hfi y hyr hy) (by rw [hd y (.inl hy) hyr]; exact hg) hk ho
        (hpar2 y q (.inl hy) hq) ((hfeat2 q hoq).2 hqf) ((hselp hn q hoq).2 hs))
    · intro s q hs hk hq hsq
      have hoq := (w.par_edge _ _ (.inr hs) hq).1
      obtain ⟨d, h1, h2, h3⟩ := v.alternative s _ (by rw [h.rels]; exact hs) (by rw [hd s (.inr hs) (hreld s hs)]; exact hk)
        (hpar2 s q (.inr hs) hq) ((hselp hn q hoq).2 hsq)
      rw [hedge s hs] at h1
      obtain ⟨k1, k2⟩ := hmemne s d hs h1
      refine ⟨d, h1, (hsel d k1 k2).1 h2, ?_⟩
      intro d' hd' hs'
      obtain ⟨k3, k4⟩ := hmemne s d' hs hd'
      exact h3 d' (by rw [hedge s hs]; exact hd') ((hsel d' k3 k4).2 hs')
    · intro s q hs hk hq hsq
      have hoq := (w.par_edge _ _ (.inr hs) hq).1
      obtain ⟨d, h1, h2⟩ := v.or s _ (by rw [h.rels]; exact hs) (by rw [hd s (.inr hs) (hreld s hs)]; exact hk)
        (hpar2 s q (.inr hs) hq) ((hselp hn q hoq).2 hsq)
      rw [hedge s hs] at h1
      obtain ⟨k1, k2⟩ := hmemne s d hs h1
      exact ⟨d, h1, (hsel d k1 k2).1 h2⟩
    · intro y g vs st hy hg hk
      have hyr : y ≠ r := by
        rintro rfl
        rw [hf] at hg; cases hg; rw [hrootkind] at hk; cases hk
      exact v.numeric y g vs st (hfi y hyr hy) (by rw [hd y (.inl hy) hyr]; exact hg) hk
  · rintro ⟨hn, v⟩
    obtain ⟨c1, c2⟩ := hcons.2 (valid_cons.1 v).2
    refine ⟨?_, ?_, ?_, ?_, ?_, ?_, c1, c2⟩
    · intro s hs
      rw [h.root] at hs; cases hs; exact hseli.2 hn
    · intro y g q hy hg hk hq hs
      rcases (hkn y).1 hy with ⟨hy, hyr⟩ | rfl
      · rw [hd y (.inl hy) hyr] at hg
        obtain ⟨q', h1, rfl⟩ := hfp' y q (.inl hy) hyr hq
        exact (hselp hn q' (fparent_owned w (.inl hy) h1)).2 (v.parent y g q' hy hg hk h1 ((hsel y (.inl hy) hyr).1 hs))
      · rw [hdi] at hg; cases hg; cases hk
    · intro y g q hy hg hk ho hq hqf hs
      rcases (hkn y).1 hy with ⟨hy, hyr⟩ | rfl
      · rw [hd y (.inl hy) hyr] at hg
        obtain ⟨q', h1, rfl⟩ := hpar2' y q (.inl hy) hyr hq
        have hoq := (w.par_edge _ _ (.inl hy) h1).1
        exact (hsel y (.inl hy) hyr).2 (v.mandatory y g q' hy hg hk ho h1 ((hfeat2 q' hoq).1 hqf) ((hselp hn q' hoq).1 hs))
      · rw [hdi] at hg; cases hg; cases hk
    · intro s q hs hk hq hsq
      rw [h.rels] at hs
      rw [hd s (.inr hs) (hreld s hs)] at hk
      obtain ⟨q', h1', rfl⟩ := hpar2' s q (.inr hs) (hreld s hs) hq
      have hoq := (w.par_edge _ _ (.inr hs) h1').1
      obtain ⟨d, h1, h2, h3⟩ := v.alternative s q' hs hk h1' ((hselp hn q' hoq).1 hsq)
      obtain ⟨k1, k2⟩ := hmemne s d hs h1
      refine ⟨d, by rw [hedge s hs]; exact h1, (hsel d k1 k2).2 h2, ?_⟩
      intro d' hd' hs'
      rw [hedge s hs] at hd'
      obtain ⟨k3, k4⟩ := hmemne s d' hs hd'
      exact h3 d' hd' ((hsel d' k3 k4).1 hs')
    · intro s q hs hk hq hsq
      rw [h.rels] at hs
      rw [hd s (.inr hs) (hreld s hs)] at hk
      obtain ⟨q', h1', rfl⟩ := hpar2' s q (.inr hs) (hreld s hs) hq
      have hoq := (w.par_edge _ _ (.inr hs) h1').1
      obtain ⟨d, h1, h2⟩ := v.or s q' hs hk h1' ((hselp hn q' hoq).1 hsq)
      obtain ⟨k1, k2⟩ := hmemne s d hs h1
      exact ⟨d, by rw [hedge s hs]; exact h1, (hsel d k1 k2).2 h2⟩
    · intro y g vs st hy hg hk
      rcases (hkn y).1 hy with ⟨hy, hyr⟩ | rfl
      · rw [hd y (.inl hy) hyr] at hg
        exact v.numeric y g vs st hy hg hk
      · rw [hdi] at hg; cases hg; cases hk

end Verif

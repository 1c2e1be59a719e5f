import Verif.Solver.EditsGroup
/-!
# How moving any node, a group or a member of one included, changes the valid configurations
-/

namespace Verif.Spec
open Verif

/-- `x` is `c`, or a member of it if it is a group (or of a group in it). -/
inductive Hangs (m : FModel) (c : Id) : Id → Prop
  | refl : Hangs m c c
  | step {x y} : par m x = some y → IsRel m y → Hangs m c y → Hangs m c x

/-- The feature a child of the node `n` belongs to: `n`, or the feature of the group `n`. -/
def Over (m : FModel) (n o : Id) : Prop := (IsFeat m n ∧ o = n) ∨ (IsRel m n ∧ FParent m n o)

/-- A valid configuration except for what ties the node `c` to its parent, and except for the groups `G`. -/
structure ValidOff (F : IntFloats) (m : FModel) (c : Id) (G : Id → Prop) (a : Assign) : Prop where
  root : ∀ r, m.root = some r → Selected m a r
  parent : ∀ i f p, ¬ Hangs m c i → Known m i → data m i = some (.feat f) → f.attr.kind = .binary → FParent m i p →
    Selected m a i → Selected m a p
  mandatory : ∀ i f p, i ≠ c → Known m i → data m i = some (.feat f) → f.attr.kind = .binary → f.attr.opt = false →
    par m i = some p → IsFeat m p → Selected m a p → Selected m a i
  group : ∀ r k p, r ≠ c → ¬ G r → r ∈ m.rels → data m r = some (.rel k) → par m r = some p → GroupHolds m a p (· ∈ edg m r) k
  numeric : ∀ i f vs st, Known m i → data m i = some (.feat f) → f.attr.kind = .numeric vs st →
    Allowed F vs st (a.int f.attr.name)
  boolean : ∀ c, c ∈ m.booleans ++ m.nonBooleans → meaning (value m a) a.div0 c.tree = some (.bool true)
  mixed : ∀ c, c ∈ m.mixeds → MixedHolds m a c

/-- What the node `c` asks for as a child of `n`, and what the groups `G` ask for then. -/
structure TiedTo (m : FModel) (a : Assign) (c n : Id) (G : Id → Prop) : Prop where
  /-- `c` is selected only with the feature it is below; if it is a group this holds for its members -/
  child : ∀ x f o, Hangs m c x → Known m x → data m x = some (.feat f) → f.attr.kind = .binary → Over m n o →
    Selected m a x → Selected m a o
  /-- a mandatory feature below a feature is selected with it -/
  mandatory : ∀ f, Known m c → data m c = some (.feat f) → f.attr.kind = .binary → f.attr.opt = false → IsFeat m n →
    Selected m a n → Selected m a c
  /-- a group asks of its members what its kind says when `n` is selected -/
  own : ∀ k, data m c = some (.rel k) → GroupHolds m a n (· ∈ edg m c) k
  /-- the groups `G`, of which only `n` has `c` as a member -/
  group : ∀ r k p, r ≠ c → G r → r ∈ m.rels → data m r = some (.rel k) → par m r = some p →
    GroupHolds m a p (fun x => (x = c ∧ r = n) ∨ (x ≠ c ∧ x ∈ edg m r)) k

end Verif.Spec

namespace Verif
open Verif.Spec

variable {F : IntFloats} {m m' : FModel} {a b : Assign}

theorem hangs_below {c x : Id} (h : Hangs m c x) : Below m c x := by
  induction h with
  | refl => exact .refl
  | step hp _ _ ih => exact .step hp ih

theorem hangs_feat {c x : Id} (hf : IsFeat m c) (h : Hangs m c x) : x = c := by
  induction h with
  | refl => rfl
  | @step x y _ hr _ ih =>
    subst ih
    obtain ⟨f, hf⟩ := hf
    obtain ⟨k, hk⟩ := hr
    rw [hf] at hk; cases hk

theorem groupHolds_congr {p : Id} {C D : Id → Prop} {k : RKind} (hd : ∀ y, Selected m' a y ↔ Selected m a y)
    (hC : ∀ x, C x ↔ D x) : GroupHolds m' a p C k ↔ GroupHolds m a p D k := by
  have : C = D := funext fun x => propext (hC x)
  subst this
  cases k with
  | alternative => simp only [GroupHolds, hd]
  | or => simp only [GroupHolds, hd]

/-- The group rules of a valid configuration. -/
theorem valid_group (v : Valid F m a) {r p : Id} {k : RKind} (hr : r ∈ m.rels) (hk : data m r = some (.rel k))
    (hp : par m r = some p) : GroupHolds m a p (· ∈ edg m r) k := by
  cases k with
  | alternative => exact v.alternative r p hr hk hp
  | or => exact v.or r p hr hk hp

/-- `m1` is `m` with the node `c` below `n`. -/
structure Placed (m m1 : FModel) (c n : Id) : Prop where
  rest : SameMeta m m1
  data : data m1 = data m
  par : par m1 = upd (par m) c (some n)
  edge : ∀ r ∈ m.rels, ∀ x, x ∈ edg m1 r ↔ (x = c ∧ r = n) ∨ (x ≠ c ∧ x ∈ edg m r)

theorem placed_here {c q : Id} (w : WF m) (hc : Owned m c) (hq : par m c = some q) : Placed m m c q := by
  refine ⟨.refl m, rfl, ?_, ?_⟩
  · funext x
    by_cases hx : x = c
    · subst hx; rw [upd_same, hq]
    · rw [upd_ne _ _ hx]
  · intro r hr x
    by_cases hx : x = c
    · subst hx
      constructor
      · intro h
        have := (w.edge_par r x (.inr hr) h).2
        rw [hq] at this; exact .inl ⟨rfl, (Option.some.inj this).symm⟩
      · rintro (⟨_, rfl⟩ | ⟨h, _⟩)
        · exact (w.par_edge x _ hc hq).2
        · exact absurd rfl h
    · constructor
      · exact fun h => .inr ⟨hx, h⟩
      · rintro (⟨h, _⟩ | ⟨_, h⟩)
        · exact absurd h hx
        · exact h

theorem placed_moved {p c : Id} (w : WF m) (h : Moved m m' p c) : Placed m m' c p := by
  refine ⟨h.rest, h.data, h.par, ?_⟩
  intro r hr x
  have hn := w.edges_nodup r (.inr hr)
  by_cases hrp : r = p
  · subst hrp
    rw [h.edge_new, List.mem_append, hn.mem_erase_iff, List.mem_singleton]
    constructor
    · rintro (⟨h1, h2⟩ | rfl)
      · exact .inr ⟨h1, h2⟩
      · exact .inl ⟨rfl, rfl⟩
    · rintro (⟨rfl, _⟩ | ⟨h1, h2⟩)
      · exact .inr rfl
      · exact .inl ⟨h1, h2⟩
  · rw [h.edge r (.inr hr) hrp, hn.mem_erase_iff]
    constructor
    · exact fun ⟨h1, h2⟩ => .inr ⟨h1, h2⟩
    · rintro (⟨_, h2⟩ | h1)
      · exact absurd h2 hrp
      · exact h1

theorem placed_fparent {c n x o : Id} (h : Placed m m' c n) (hn : ¬ Hangs m c n) :
    (Hangs m c x → (FParent m' x o ↔ Over m n o)) ∧ (¬ Hangs m c x → (FParent m' x o ↔ FParent m x o)) := by
  have hfeat : ∀ y, IsFeat m' y ↔ IsFeat m y := by intro y; unfold IsFeat; rw [h.data]
  have hrel : ∀ y, IsRel m' y ↔ IsRel m y := by intro y; unfold IsRel; rw [h.data]
  have hne : ∀ y, y ≠ c → par m' y = par m y := fun y hy => by rw [h.par, upd_ne _ _ hy]
  have hpc : par m' c = some n := by rw [h.par, upd_same]
  have off : ∀ y, ¬ Hangs m c y → (FParent m' y o ↔ FParent m y o) := by
    intro y hy
    have hyc : ∀ y, ¬ Hangs m c y → y ≠ c := by rintro _ h rfl; exact h .refl
    constructor
    · intro hx
      induction hx with
      | direct h1 h2 => rw [hne _ (hyc _ hy)] at h1; exact .direct h1 ((hfeat _).1 h2)
      | skip h1 h2 _ ih =>
        rw [hne _ (hyc _ hy)] at h1
        exact .skip h1 ((hrel _).1 h2) (ih (fun hh => hy (.step h1 ((hrel _).1 h2) hh)))
    · intro hx
      induction hx with
      | direct h1 h2 => exact .direct (by rw [hne _ (hyc _ hy)]; exact h1) ((hfeat _).2 h2)
      | skip h1 h2 _ ih =>
        exact .skip (by rw [hne _ (hyc _ hy)]; exact h1) ((hrel _).2 h2) (ih (fun hh => hy (.step h1 h2 hh)))
  have base : FParent m' c o ↔ Over m n o := by
    constructor
    · intro hx
      cases hx with
      | direct h1 h2 => rw [hpc] at h1; cases h1; exact .inl ⟨(hfeat _).1 h2, rfl⟩
      | skip h1 h2 h3 => rw [hpc] at h1; cases h1; exact .inr ⟨(hrel _).1 h2, (off _ hn).1 h3⟩
    · rintro (⟨h1, rfl⟩ | ⟨h1, h2⟩)
      · exact .direct hpc ((hfeat _).2 h1)
      · exact .skip hpc ((hrel _).2 h1) ((off _ hn).2 h2)
  refine ⟨?_, off x⟩
  intro hx
  induction hx with
  | refl => exact base
  | @step x y h1 h2 _ ih =>
    by_cases hxc : x = c
    · subst hxc; exact base
    · rw [← ih]
      constructor
      · intro hx
        cases hx with
        | direct h3 h4 =>
          rw [hne _ hxc, h1] at h3; cases h3
          obtain ⟨f, hf⟩ := (hfeat _).1 h4
          obtain ⟨k, hk⟩ := h2
          rw [hf] at hk; cases hk
        | skip h3 h4 h5 => rw [hne _ hxc, h1] at h3; cases h3; exact h5
      · intro hx
        exact .skip (by rw [hne _ hxc]; exact h1) ((hrel _).2 h2) hx

/-- The valid configurations of the model with `c` below `n`. -/
theorem valid_placed {c n q : Id} (w : WF m) (hc : Owned m c) (hq : par m c = some q) (h : Placed m m' c n) (hn : ¬ Hangs m c n)
    {G : Id → Prop} (hG : ∀ r, r = q ∨ r = n → G r) :
    Valid F m' a ↔ ValidOff F m c G a ∧ TiedTo m a c n G := by
  have hd := h.data
  have hsel : ∀ y, (Selected m' a y ↔ Selected m a y) := fun y => selected_congr (by rw [hd])
  have hkn : ∀ y, Known m' y ↔ Known m y := by intro y; unfold Known; rw [h.rest.features]
  have hnum : ∀ n, IsNum m' n ↔ IsNum m n := by intro n; unfold IsNum; rw [h.rest.features, hd]
  have hcons : ConsHold m' a ↔ ConsHold m a :=
    consHold_congr h.rest.booleans h.rest.nonBooleans h.rest.mixeds rfl (fun c _ n _ => ⟨hnum n, rfl, rfl⟩)
  have hfeat : ∀ y, IsFeat m' y ↔ IsFeat m y := by intro y; unfold IsFeat; rw [hd]
  have hpne : ∀ y, y ≠ c → par m' y = par m y := fun y hy => by rw [h.par, upd_ne _ _ hy]
  have hpc : par m' c = some n := by rw [h.par, upd_same]
  have hcq : ∀ r ∈ m.rels, r ≠ q → c ∉ edg m r := by
    intro r hr hrq hx
    have := (w.edge_par r c (.inr hr) hx).2
    rw [hq] at this
    exact hrq (Option.some.inj this).symm
  have hkeep : ∀ r ∈ m.rels, ¬ G r → ∀ x, x ∈ edg m' r ↔ x ∈ edg m r := by
    intro r hr hg x
    rw [h.edge r hr x]
    constructor
    · rintro (⟨_, rfl⟩ | ⟨_, h2⟩)
      · exact absurd (hG _ (.inr rfl)) hg
      · exact h2
    · intro hx
      refine .inr ⟨?_, hx⟩
      rintro rfl
      exact hcq r hr (by rintro rfl; exact hg (hG _ (.inl rfl))) hx
  have hself : IsRel m c → ∀ x, x ∈ edg m' c ↔ x ∈ edg m c := by
    intro hr x
    have hcr : c ∈ m.rels := by
      rcases hc with hk | hk
      · obtain ⟨f, hf⟩ := w.known_data hk
        obtain ⟨k, hk'⟩ := hr
        rw [hf] at hk'; cases hk'
      · exact hk
    rw [h.edge c hcr x]
    constructor
    · rintro (⟨_, rfl⟩ | ⟨_, h2⟩)
      · exact absurd .refl hn
      · exact h2
    · intro hx
      refine .inr ⟨?_, hx⟩
      rintro rfl
      have := (w.edge_par x x hc hx).2
      exact w.not_below_parent hc this .refl
  constructor
  · intro v
    obtain ⟨c1, c2⟩ := hcons.1 (valid_cons.1 v).2
    have hgrp : ∀ r p k, r ∈ m.rels → data m r = some (.rel k) → par m' r = some p →
        GroupHolds m' a p (· ∈ edg m' r) k := fun r p k hr hk hp =>
      valid_group v (by rw [h.rest.rels]; exact hr) (by rw [hd]; exact hk) hp
    refine ⟨⟨?_, ?_, ?_, ?_, ?_, c1, c2⟩, ?_, ?_, ?_, ?_⟩
    · intro s hs
      exact (hsel s).1 (v.root s (by rw [h.rest.root]; exact hs))
    · intro y g q hy hky hg hk hq hs
      exact (hsel q).1 (v.parent y g q ((hkn y).2 hky) (by rw [hd]; exact hg) hk (((placed_fparent h hn).2 hy).2 hq) ((hsel y).2 hs))
    · intro y g q hyc hy hg hk ho hq hqf hs
      exact (hsel y).1 (v.mandatory y g q ((hkn y).2 hy) (by rw [hd]; exact hg) hk ho
        (by rw [hpne y hyc]; exact hq) ((hfeat q).2 hqf) ((hsel q).2 hs))
    · intro r k p hrc hg hr hk hp
      exact (groupHolds_congr hsel (hkeep r hr hg)).1 (hgrp r p k hr hk (by rw [hpne r hrc]; exact hp))
    · intro y g vs st hy hg hk
      exact v.numeric y g vs st ((hkn y).2 hy) (by rw [hd]; exact hg) hk
    · intro x f o hx hkx hf hk ho hs
      exact (hsel o).1 (v.parent x f o ((hkn x).2 hkx) (by rw [hd]; exact hf) hk (((placed_fparent h hn).1 hx).2 ho) ((hsel x).2 hs))
    · intro f hkc hf hk ho hnf hs
      exact (hsel c).1 (v.mandatory c f n ((hkn c).2 hkc) (by rw [hd]; exact hf) hk ho hpc ((hfeat n).2 hnf) ((hsel n).2 hs))
    · intro k hk
      have hcr : c ∈ m.rels := by
        rcases hc with hk' | hk'
        · obtain ⟨f, hf⟩ := w.known_data hk'
          rw [hf] at hk; cases hk
        · exact hk'
      exact (groupHolds_congr hsel (hself ⟨k, hk⟩)).1 (hgrp c n k hcr hk hpc)
    · intro r k p hrc _ hr hk hp
      exact (groupHolds_congr hsel (h.edge r hr)).1 (hgrp r p k hr hk (by rw [hpne r hrc]; exact hp))
  · rintro ⟨v, t⟩
    obtain ⟨c1, c2⟩ := hcons.2 ⟨v.boolean, v.mixed⟩
    have hgrp : ∀ r p k, r ∈ m'.rels → data m' r = some (.rel k) → par m' r = some p → GroupHolds m' a p (· ∈ edg m' r) k := by
      intro r p k hr hk hp
      rw [h.rest.rels] at hr
      rw [hd] at hk
      by_cases hrc : r = c
      · subst hrc
        rw [hpc] at hp; cases hp
        exact (groupHolds_congr hsel (hself ⟨k, hk⟩)).2 (t.own k hk)
      · rw [hpne r hrc] at hp
        by_cases hg : G r
        · exact (groupHolds_congr hsel (h.edge r hr)).2 (t.group r k p hrc hg hr hk hp)
        · exact (groupHolds_congr hsel (hkeep r hr hg)).2 (v.group r k p hrc hg hr hk hp)
    refine ⟨?_, ?_, ?_, fun r p hr hk hp => hgrp r p .alternative hr hk hp, fun r p hr hk hp => hgrp r p .or hr hk hp, ?_, c1, c2⟩
    · intro s hs
      exact (hsel s).2 (v.root s (by rw [← h.rest.root]; exact hs))
    · intro y g q hy hg hk hq hs
      rw [hd] at hg
      by_cases hx : Hangs m c y
      · exact (hsel q).2 (t.child y g q hx ((hkn y).1 hy) hg hk (((placed_fparent h hn).1 hx).1 hq) ((hsel y).1 hs))
      · exact (hsel q).2 (v.parent y g q hx ((hkn y).1 hy) hg hk (((placed_fparent h hn).2 hx).1 hq) ((hsel y).1 hs))
    · intro y g q' hy hg hk ho hq' hqf hs
      rw [hd] at hg
      by_cases hyc : y = c
      · subst hyc
        rw [hpc] at hq'; cases hq'
        exact (hsel y).2 (t.mandatory g ((hkn y).1 hy) hg hk ho ((hfeat _).1 hqf) ((hsel _).1 hs))
      · rw [hpne y hyc] at hq'
        exact (hsel y).2 (v.mandatory y g q' hyc ((hkn y).1 hy) hg hk ho hq' ((hfeat q').1 hqf) ((hsel q').1 hs))
    · intro y g vs st hy hg hk
      rw [hd] at hg
      exact v.numeric y g vs st ((hkn y).1 hy) hg hk

end Verif

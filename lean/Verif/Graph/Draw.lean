import Verif.Graph.Spec
import Verif.FM.Traverse
/-! Lemmas: what the graph writer emits. -/

namespace Verif
open Verif.Spec

theorem Spec.WF.siblings_disjoint {m : FModel} (w : WF m) {i c d j : Id} (hi : Owned m i) (hc : c ∈ edg m i)
    (hd : d ∈ edg m i) (h1 : Below m c j) (h2 : Below m d j) : c = d := by
  have key : ∀ {x y : Id}, x ∈ edg m i → y ∈ edg m i → Below m x y → x = y := by
    intro x y hx hy h
    cases h with
    | refl => rfl
    | step hp hb =>
      rw [(w.edge_par i y hi hy).2] at hp
      cases hp
      have := w.below_level hi hb
      rw [w.level_edge hi hx] at this
      omega
  rcases below_chain h1 h2 with h | h
  · exact key hc hd h
  · exact (key hd hc h).symm

/-- A part of the picture: the subtree of `i`. -/
structure SubPicture (m : FModel) (i : Id) (anc : List Id) (xs : List DotItem) (evs : List (Shown × List Block)) : Prop where
  read : ∀ rest, reading (clusters anc) (xs ++ rest) = (reading (clusters anc) rest).map (evs ++ ·)
  nodes : (nodesIn evs).Nodup ∧ ∀ j, j ∈ nodesIn evs ↔ Owned m j ∧ Below m i j
  targets : (targetsIn evs).Nodup ∧ ∀ j, j ∈ targetsIn evs ↔ Owned m j ∧ Below m i j ∧ j ≠ i
  ranks : (ranksIn evs).Nodup ∧ ∀ j, j ∈ ranksIn evs ↔ Owned m j ∧ Below m i j ∧ j ≠ i
  right : ∀ e ∈ evs, Right m e

/-- The same for children `es` of `i`, without the rank block. -/
structure ListPicture (m : FModel) (anc : List Id) (es : List Id) (xs : List DotItem)
    (evs : List (Shown × List Block)) : Prop where
  read : ∀ rest, reading (clusters anc) (xs ++ rest) = (reading (clusters anc) rest).map (evs ++ ·)
  nodes : (nodesIn evs).Nodup ∧ ∀ j, j ∈ nodesIn evs ↔ Owned m j ∧ ∃ c ∈ es, Below m c j
  targets : (targetsIn evs).Nodup ∧ ∀ j, j ∈ targetsIn evs ↔ Owned m j ∧ ∃ c ∈ es, Below m c j
  ranks : (ranksIn evs).Nodup ∧ ∀ j, j ∈ ranksIn evs ↔ Owned m j ∧ ∃ c ∈ es, Below m c j ∧ j ≠ c
  right : ∀ e ∈ evs, Right m e

theorem nodesIn_append (a b) : nodesIn (a ++ b) = nodesIn a ++ nodesIn b := by simp [nodesIn]
theorem targetsIn_append (a b) : targetsIn (a ++ b) = targetsIn a ++ targetsIn b := by simp [targetsIn]
theorem ranksIn_append (a b) : ranksIn (a ++ b) = ranksIn a ++ ranksIn b := by simp [ranksIn]

theorem emitChildren_spec {m : FModel} (w : WF m) {i : Id} (hi : Owned m i) {anc : List Id}
    (ha : Ancestors m i anc) (indent : Nat) {emit : Id → Option (List DotItem)} :
    ∀ (es : List Id), es.Nodup → (∀ c ∈ es, c ∈ edg m i) →
      (∀ c ∈ es, ∃ xs evs, emit c = some xs ∧ SubPicture m c (i :: anc) xs evs) →
      ∃ xs evs, m.emitChildren emit indent i es = some xs ∧ ListPicture m (i :: anc) es xs evs
  | [], _, _, _ => by
    refine ⟨[], [], rfl, ?_, ?_, ?_, ?_, ?_⟩
    · intro rest; simp
    · simp [nodesIn]
    · simp [targetsIn]
    · simp [ranksIn]
    · simp
  | c :: es, hn, he, hs => by
    rw [List.nodup_cons] at hn
    have hc := he c (List.mem_cons_self ..)
    obtain ⟨hoc, hpc⟩ := w.edge_par i c hi hc
    obtain ⟨xs, evs, e1, p⟩ := hs c (List.mem_cons_self ..)
    obtain ⟨ys, fvs, e2, q⟩ := emitChildren_spec w hi ha indent es hn.2 (fun d hd => he d (List.mem_cons_of_mem _ hd))
      (fun d hd => hs d (List.mem_cons_of_mem _ hd))
    obtain ⟨d, hd⟩ := w.owned_data hoc
    have hh := heap_of_data hd
    have dis : ∀ {x j}, x ∈ es → Below m c j → Below m x j → False := by
      intro x j hx h1 h2
      have := w.siblings_disjoint hi hc (he x (List.mem_cons_of_mem _ hx)) h1 h2
      subst this
      exact hn.1 hx
    refine ⟨xs ++ .edge (indent + 4) i c (FModel.arrow ⟨d, par m c, edg m c⟩) :: ys,
      evs ++ (.edge i c (FModel.arrow ⟨d, par m c, edg m c⟩), clusters (i :: anc)) :: fvs, ?_, ?_, ?_, ?_, ?_, ?_⟩
    · rw [FModel.emitChildren, e1, hh, e2]
    · intro rest
      rw [List.append_assoc, p.read, List.cons_append]
      rw [show reading (clusters (i :: anc)) (DotItem.edge (indent + 4) i c (FModel.arrow ⟨d, par m c, edg m c⟩) :: (ys ++ rest))
        = (reading (clusters (i :: anc)) (ys ++ rest)).map
          ((Shown.edge i c (FModel.arrow ⟨d, par m c, edg m c⟩), clusters (i :: anc)) :: ·) from rfl, q.read]
      cases reading (clusters (i :: anc)) rest <;> simp
    · rw [nodesIn_append, show nodesIn ((Shown.edge i c (FModel.arrow ⟨d, par m c, edg m c⟩), clusters (i :: anc)) :: fvs)
        = nodesIn fvs from rfl]
      refine ⟨List.nodup_append.2 ⟨p.nodes.1, q.nodes.1, ?_⟩, ?_⟩
      · intro a ha b hb hab
        subst hab
        obtain ⟨_, x, hx, hb⟩ := (q.nodes.2 a).1 hb
        exact dis hx ((p.nodes.2 a).1 ha).2 hb
      · intro j
        rw [List.mem_append, p.nodes.2, q.nodes.2]
        simp only [List.mem_cons]
        constructor
        · rintro (⟨h1, h2⟩ | ⟨h1, x, hx, h2⟩)
          · exact ⟨h1, c, .inl rfl, h2⟩
          · exact ⟨h1, x, .inr hx, h2⟩
        · rintro ⟨h1, x, rfl | hx, h2⟩
          · exact .inl ⟨h1, h2⟩
          · exact .inr ⟨h1, x, hx, h2⟩
    · rw [targetsIn_append, show targetsIn ((Shown.edge i c (FModel.arrow ⟨d, par m c, edg m c⟩), clusters (i :: anc)) :: fvs)
        = c :: targetsIn fvs from rfl]
      refine ⟨List.nodup_append.2 ⟨p.targets.1, List.nodup_cons.2 ⟨?_, q.targets.1⟩, ?_⟩, ?_⟩
      · intro h
        obtain ⟨_, x, hx, hb⟩ := (q.targets.2 c).1 h
        exact dis hx .refl hb
      · intro a ha b hb hab
        subst hab
        obtain ⟨_, h2, h3⟩ := (p.targets.2 a).1 ha
        rcases List.mem_cons.1 hb with h | hb
        · exact h3 h
        · obtain ⟨_, x, hx, hb⟩ := (q.targets.2 a).1 hb
          exact dis hx h2 hb
      · intro j
        rw [List.mem_append, List.mem_cons, p.targets.2, q.targets.2]
        simp only [List.mem_cons]
        constructor
        · rintro (⟨h1, h2, _⟩ | rfl | ⟨h1, x, hx, h2⟩)
          · exact ⟨h1, c, .inl rfl, h2⟩
          · exact ⟨hoc, j, .inl rfl, .refl⟩
          · exact ⟨h1, x, .inr hx, h2⟩
        · rintro ⟨h1, x, rfl | hx, h2⟩
          · by_cases hj : j = x
            · exact .inr (.inl hj)
            · exact .inl ⟨h1, h2, hj⟩
          · exact .inr (.inr ⟨h1, x, hx, h2⟩)
    · rw [ranksIn_append, show ranksIn ((Shown.edge i c (FModel.arrow ⟨d, par m c, edg m c⟩), clusters (i :: anc)) :: fvs)
        = ranksIn fvs from rfl]
      refine ⟨List.nodup_append.2 ⟨p.ranks.1, q.ranks.1, ?_⟩, ?_⟩
      · intro a ha b hb hab
        subst hab
        obtain ⟨_, x, hx, hb, _⟩ := (q.ranks.2 a).1 hb
        exact dis hx ((p.ranks.2 a).1 ha).2.1 hb
      · intro j
        rw [List.mem_append, p.ranks.2, q.ranks.2]
        simp only [List.mem_cons]
        constructor
        · rintro (⟨h1, h2⟩ | ⟨h1, x, hx, h2⟩)
          · exact ⟨h1, c, .inl rfl, h2⟩
          · exact ⟨h1, x, .inr hx, h2⟩
        · rintro ⟨h1, x, rfl | hx, h2⟩
          · exact .inl ⟨h1, h2⟩
          · exact .inr ⟨h1, x, hx, h2⟩
    · intro e hm
      rcases List.mem_append.1 hm with h | h
      · exact p.right e h
      · rcases List.mem_cons.1 h with rfl | h
        · refine ⟨hpc, ⟨i :: anc, .step hpc ha, rfl⟩, ?_⟩
          cases d with
          | feat f =>
            cases ho : f.attr.opt with
            | true => exact .inl ⟨f, hd, ho, by simp [FModel.arrow, ho]⟩
            | false => exact .inr (.inl ⟨f, hd, ho, by simp [FModel.arrow, ho]⟩)
          | rel k => exact .inr (.inr ⟨⟨k, hd⟩, rfl⟩)
        · exact q.right e h

/-- The labels of all features are defined. -/
def Labelled (m : FModel) : Prop :=
  ∀ i f, Known m i → data m i = some (.feat f) → ∃ l, m.featureLabel f = some l ∧ LabelOf m f l

theorem emitNode_spec {m : FModel} (w : WF m) (hl : Labelled m) {i : Id} (hi : Owned m i) (indent : Nat) {anc : List Id}
    (ha : Ancestors m i anc) :
    ∃ s l, m.emitNode indent i = some (.node (indent + 2) i s l) ∧ Right m (.node i s l, clusters anc) := by
  obtain ⟨d, hd⟩ := w.owned_data hi
  have hh := heap_of_data hd
  cases d with
  | feat f =>
    obtain ⟨l, h, h3⟩ := hl i f (w.known_feat hi ⟨f, hd⟩) hd
    exact ⟨_, l, by simp [FModel.emitNode, hh, h], ⟨anc, ha, rfl⟩, .inl ⟨f, hd, rfl, h3⟩⟩
  | rel k =>
    cases k with
    | alternative =>
      exact ⟨_, _, by simp only [FModel.emitNode, hh], ⟨anc, ha, rfl⟩, .inr (.inl ⟨hd, rfl, rfl⟩)⟩
    | or => exact ⟨_, _, by simp only [FModel.emitNode, hh], ⟨anc, ha, rfl⟩, .inr (.inr ⟨hd, rfl, rfl⟩)⟩

theorem reading_ranks (n : Nat) (st : List Block) (rest : List DotItem) : ∀ es : List Id,
    reading st (es.map (DotItem.rankNode n) ++ rest) = (reading st rest).map ((es.map fun c => (Shown.rank c, st)) ++ ·)
  | [] => by simp
  | c :: es => by
    rw [List.map_cons, List.cons_append,
      show reading st (DotItem.rankNode n c :: (es.map (DotItem.rankNode n) ++ rest)) =
        (reading st (es.map (DotItem.rankNode n) ++ rest)).map ((Shown.rank c, st) :: ·) by cases st <;> rfl,
      reading_ranks n st rest es]
    cases reading st rest <;> simp

theorem ranksIn_map (st : List Block) : ∀ es : List Id, ranksIn (es.map fun c => (Shown.rank c, st)) = es
  | [] => rfl
  | c :: es => by
    have := ranksIn_map st es
    simp only [ranksIn, List.map_cons, List.filterMap_cons] at this ⊢
    rw [this]

theorem emitCluster_spec {m : FModel} (w : WF m) (hl : Labelled m) (fuel : Nat) :
    ∀ (indent : Nat) (i : Id) (anc : List Id), Owned m i → Ancestors m i anc → m.next < fuel + lvlOf m i →
      ∃ xs evs, m.emitCluster fuel indent i = some xs ∧ SubPicture m i anc xs evs := by
  induction fuel with
  | zero =>
    intro indent i anc hi ha hf
    have := w.level_lt hi
    omega
  | succ fuel ih =>
    intro indent i anc hi ha hf
    obtain ⟨d, hd⟩ := w.owned_data hi
    have hh := heap_of_data hd
    obtain ⟨s, l, hn, hr⟩ := emitNode_spec w hl hi indent ha
    have hread : ∀ rest, reading (clusters anc) (DotItem.node (indent + 2) i s l :: rest) =
        (reading (clusters anc) rest).map ((Shown.node i s l, clusters anc) :: ·) := by
      intro rest; cases anc <;> rfl
    by_cases he : edg m i = []
    · refine ⟨[.node (indent + 2) i s l], [(.node i s l, clusters anc)], ?_, ?_, ?_, ?_, ?_, ?_⟩
      · rw [FModel.emitCluster, hh, hn]
        simp only [he, if_pos]
      · intro rest
        rw [List.singleton_append, hread]
        rfl
      · refine ⟨by simp [nodesIn], fun j => ?_⟩
        rw [show nodesIn [(Shown.node i s l, clusters anc)] = [i] from rfl, List.mem_singleton]
        constructor
        · rintro rfl; exact ⟨hi, .refl⟩
        · rintro ⟨h1, h2⟩
          rcases w.below_down h2 h1 with h | ⟨c, hc, _⟩
          · exact h.symm
          · rw [he] at hc; cases hc
      · refine ⟨by simp [targetsIn], fun j => ?_⟩
        simp only [targetsIn, List.filterMap_cons, List.filterMap_nil, List.not_mem_nil, false_iff]
        rintro ⟨h1, h2, h3⟩
        rcases w.below_down h2 h1 with h | ⟨c, hc, _⟩
        · exact h3 h.symm
        · rw [he] at hc; cases hc
      · refine ⟨by simp [ranksIn], fun j => ?_⟩
        simp only [ranksIn, List.filterMap_cons, List.filterMap_nil, List.not_mem_nil, false_iff]
        rintro ⟨h1, h2, h3⟩
        rcases w.below_down h2 h1 with h | ⟨c, hc, _⟩
        · exact h3 h.symm
        · rw [he] at hc; cases hc
      · intro e hm
        rw [List.mem_singleton] at hm
        subst hm; exact hr
    · obtain ⟨xs, evs, e1, p⟩ := emitChildren_spec w hi ha indent (emit := FModel.emitCluster m fuel (indent + 2)) (edg m i)
        (w.edges_nodup i hi) (fun _ h => h) (by
          intro c hc
          obtain ⟨hoc, hpc⟩ := w.edge_par i c hi hc
          exact ih (indent + 2) c (i :: anc) hoc (.step hpc ha) (by
            have := w.level_edge hi hc
            omega))
      have notself : ∀ {c}, c ∈ edg m i → ¬ Below m c i := by
        intro c hc
        obtain ⟨hoc, hpc⟩ := w.edge_par i c hi hc
        exact w.not_below_parent hoc hpc
      refine ⟨.node (indent + 2) i s l :: .openCluster (indent + 2) i ::
            (xs ++ .openRank (indent + 4) :: ((edg m i).map fun c => .rankNode (indent + 6) c) ++
              [.closeRank (indent + 4), .closeCluster (indent + 2)]), (.node i s l, clusters anc) :: (evs ++ (edg m i).map fun c => (Shown.rank c, Block.rank :: clusters (i :: anc))),
        ?_, ?_, ?_, ?_, ?_, ?_⟩
      rotate_left
      · intro rest
        rw [List.cons_append, hread, List.cons_append]
        rw [show ∀ ys, reading (clusters anc) (DotItem.openCluster (indent + 2) i :: ys) =
          reading (clusters (i :: anc)) ys by intro ys; cases anc <;> rfl]
        rw [List.append_assoc, List.append_assoc, p.read, List.cons_append]
        rw [show ∀ ys, reading (clusters (i :: anc)) (DotItem.openRank (indent + 4) :: ys) =
          reading (Block.rank :: clusters (i :: anc)) ys by intro ys; rfl]
        rw [reading_ranks]
        rw [show reading (Block.rank :: clusters (i :: anc))
          ([DotItem.closeRank (indent + 4), DotItem.closeCluster (indent + 2)] ++ rest) = reading (clusters anc) rest from rfl]
        cases reading (clusters anc) rest <;> simp
      · have e0 : nodesIn ((Shown.node i s l, clusters anc) ::
            (evs ++ (edg m i).map fun c => (Shown.rank c, Block.rank :: clusters (i :: anc)))) = i :: nodesIn evs := by
          rw [← List.singleton_append, nodesIn_append, nodesIn_append]
          have : nodesIn ((edg m i).map fun c => (Shown.rank c, Block.rank :: clusters (i :: anc))) = [] := by
            simp [nodesIn]
          rw [this]; simp [nodesIn]
        rw [e0]
        refine ⟨List.nodup_cons.2 ⟨?_, p.nodes.1⟩, fun j => ?_⟩
        · intro h
          obtain ⟨_, c, hc, hb⟩ := (p.nodes.2 i).1 h
          exact notself hc hb
        · rw [List.mem_cons, p.nodes.2]
          constructor
          · rintro (rfl | ⟨h1, c, hc, hb⟩)
            · exact ⟨hi, .refl⟩
            · exact ⟨h1, w.below_edge hi hc hb⟩
          · rintro ⟨h1, h2⟩
            rcases w.below_down h2 h1 with h | h
            · exact .inl h.symm
            · exact .inr ⟨h1, h⟩
      · have e0 : targetsIn ((Shown.node i s l, clusters anc) ::
            (evs ++ (edg m i).map fun c => (Shown.rank c, Block.rank :: clusters (i :: anc)))) = targetsIn evs := by
          rw [← List.singleton_append, targetsIn_append, targetsIn_append]
          have : targetsIn ((edg m i).map fun c => (Shown.rank c, Block.rank :: clusters (i :: anc))) = [] := by
            simp [targetsIn]
          rw [this]; simp [targetsIn]
        rw [e0]
        refine ⟨p.targets.1, fun j => ?_⟩
        rw [p.targets.2]
        constructor
        · rintro ⟨h1, c, hc, hb⟩
          exact ⟨h1, w.below_edge hi hc hb, fun h => notself hc (h ▸ hb)⟩
        · rintro ⟨h1, h2, h3⟩
          rcases w.below_down h2 h1 with h | h
          · exact absurd h.symm h3
          · exact ⟨h1, h⟩
      · have e0 : ranksIn ((Shown.node i s l, clusters anc) ::
            (evs ++ (edg m i).map fun c => (Shown.rank c, Block.rank :: clusters (i :: anc)))) = ranksIn evs ++ edg m i := by
          rw [← List.singleton_append, ranksIn_append, ranksIn_append]
          have : ranksIn ((edg m i).map fun c => (Shown.rank c, Block.rank :: clusters (i :: anc))) = edg m i := by
            exact ranksIn_map _ _
          rw [this]; simp [ranksIn]
        rw [e0]
        refine ⟨List.nodup_append.2 ⟨p.ranks.1, w.edges_nodup i hi, ?_⟩, fun j => ?_⟩
        · intro a h b hb hab
          subst hab
          obtain ⟨_, c, hc, h1, h2⟩ := (p.ranks.2 a).1 h
          exact h2 (w.siblings_disjoint hi hc hb h1 .refl).symm
        · rw [List.mem_append, p.ranks.2]
          constructor
          · rintro (⟨h1, c, hc, hb, _⟩ | h)
            · exact ⟨h1, w.below_edge hi hc hb, fun h => notself hc (h ▸ hb)⟩
            · exact ⟨(w.edge_par i j hi h).1, w.below_edge hi h .refl, fun e => notself h (e ▸ .refl)⟩
          · rintro ⟨h1, h2, h3⟩
            rcases w.below_down h2 h1 with h | ⟨c, hc, hb⟩
            · exact absurd h.symm h3
            · by_cases hj : j = c
              · exact .inr (hj ▸ hc)
              · exact .inl ⟨h1, c, hc, hb, hj⟩
      · intro e hm
        rcases List.mem_cons.1 hm with rfl | hm
        · exact hr
        · rcases List.mem_append.1 hm with h | h
          · exact p.right e h
          · obtain ⟨c, hc, rfl⟩ := List.mem_map.1 h
            exact ⟨i :: anc, .step (w.edge_par i c hi hc).2 ha, rfl⟩
      · rw [FModel.emitCluster, hh, hn]
        simp only [he, if_false, e1, Option.map_some]

theorem writeNodes_spec {m : FModel} (w : WF m) (hl : Labelled m) :
    ∃ xs, m.writeNodes = some xs ∧ Drawing m xs := by
  obtain ⟨r, f, hr, hk, hd, _, hp⟩ := w.root_ok
  obtain ⟨xs, evs, e, p⟩ := emitCluster_spec w hl (m.next + 1) 0 r [] (.inl hk) (.root hp) (by omega)
  refine ⟨xs, by simp [FModel.writeNodes, hr, e], evs, ?_, p.nodes.1, ?_, p.targets.1, ?_, p.ranks.1, ?_, p.right⟩
  · have := p.read []
    rw [List.append_nil] at this
    rw [show clusters [] = [] from rfl] at this
    rw [this]; simp [reading]
  · intro i
    rw [p.nodes.2]
    exact ⟨fun h => h.1, fun h => ⟨h, w.reach i r h hr⟩⟩
  · intro c
    rw [p.targets.2, hr]
    constructor
    · rintro ⟨h1, _, h3⟩; exact ⟨h1, fun h => h3 (Option.some.inj h).symm⟩
    · rintro ⟨h1, h2⟩; exact ⟨h1, w.reach c r h1 hr, fun h => h2 (h ▸ rfl)⟩
  · intro c
    rw [p.ranks.2, hr]
    constructor
    · rintro ⟨h1, _, h3⟩; exact ⟨h1, fun h => h3 (Option.some.inj h).symm⟩
    · rintro ⟨h1, h2⟩; exact ⟨h1, w.reach c r h1 hr, fun h => h2 (h ▸ rfl)⟩

/-! ### Labels -/

theorem constraintRows_some {m : FModel} (w : WF m) (b : Bound m) : ∀ ls : List CLeaf,
    (∀ l ∈ ls, ∃ s, (m.store l.root.cls)[l.root.idx]? = some s) →
    ∃ cs : List Constraint, m.constraintRows ls = some ((cs.map fun c => escapeDot c.toHtml).flatMap cell) ∧
      (ls.map fun l => ((m.store l.root.cls)[l.root.idx]?).map Stored.tree) = cs.map some
  | [], _ => ⟨[], rfl, rfl⟩
  | l :: ls, h => by
    obtain ⟨s, hs⟩ := h l (List.mem_cons_self ..)
    obtain ⟨t, ht, hm⟩ := constraintRows_some w b ls (fun x hx => h x (List.mem_cons_of_mem _ hx))
    have hmem : s ∈ allStored m := by
      have := List.mem_of_getElem? hs
      unfold allStored
      cases hc : l.root.cls <;> rw [hc] at this <;> simp only [FModel.store] at this <;> simp [this]
    have hc : m.cloneStored s = some s.tree := by
      unfold FModel.cloneStored
      rw [if_pos]
      rw [List.all_eq_true]
      intro x hx
      cases x with
      | none => rfl
      | some i =>
        obtain ⟨k, hk⟩ := List.getElem?_of_mem hx
        obtain ⟨n, _, hn⟩ := b.bind s hmem k i hk
        obtain ⟨f, hf, _⟩ := w.feat_ok _ hn
        simp only [FModel.feat?, heap_of_data hf, Option.isSome_some]
    refine ⟨s.tree :: t, ?_, by simp [hs, hm]⟩
    rw [FModel.constraintRows, hs]
    simp only [hc, ht]
    simp [cell]

theorem labelled {m : FModel} (w : WF m) (b : Bound m) (hr : Registered m) : Labelled m := by
  intro i f hk hd
  obtain ⟨cs, ht, hm⟩ := constraintRows_some w b f.constraints (fun l hl => by
    obtain ⟨s, hs, _⟩ := ((hr i f hk hd).1 l).1 hl
    exact ⟨s, hs⟩)
  refine ⟨_, by unfold FModel.featureLabel; rw [ht]; rfl, cs, hm, ?_⟩
  by_cases hl : f.attr.locs = []
  · simp [labelText, cell, bold, hl]
  · simp [labelText, cell, bold, hl, List.flatMap_map, Function.comp_def]

end Verif

import Verif.FM.Order
/-!
# Iteration is a preorder traversal
-/

namespace Verif
open Verif.Spec Verif.FModel

/-! ### Subtrees -/

theorem fparent_isBelow {m : FModel} {b i : Id} (h : FParent m b i) : Below m i b := by
  induction h with
  | direct hp _ => exact .step hp .refl
  | skip hp _ _ ih => exact .step hp ih

theorem fparent_above {m : FModel} {a b i : Id} (h : FParent m b i) (hb : Below m a b) (hne : a ≠ b)
    (ha : IsFeat m a) : Below m a i := by
  induction h with
  | direct hp _ =>
    cases hb with
    | refl => exact absurd rfl hne
    | step hp' hb => rw [hp] at hp'; cases hp'; exact hb
  | skip hp hr _ ih =>
    cases hb with
    | refl => exact absurd rfl hne
    | step hp' hb =>
      rw [hp] at hp'; cases hp'
      refine ih hb ?_
      rintro rfl
      obtain ⟨f, hf⟩ := ha; obtain ⟨k, hk⟩ := hr
      rw [hf] at hk; cases hk

/-- Ancestors of a node are above each other. -/
theorem below_chain {m : FModel} {a b x : Id} (ha : Below m a x) (hb : Below m b x) : Below m a b ∨ Below m b a := by
  induction ha generalizing b with
  | refl => exact .inr hb
  | step hp ha ih =>
    cases hb with
    | refl => exact .inl (.step hp ha)
    | step hp' hb => rw [hp] at hp'; cases hp'; exact ih hb

theorem Spec.WF.below_antisymm {m : FModel} (w : WF m) {a b : Id} (ho : Owned m b) (h1 : Below m a b) (h2 : Below m b a) :
    a = b := by
  have hoa := w.below_owned ho h1
  cases h1 with
  | refl => rfl
  | step hp h1 =>
    exfalso
    have l1 := w.below_level (w.par_edge _ _ ho hp).1 h1
    have l2 := w.below_level hoa h2
    rw [w.level_par ho hp] at l2
    omega

theorem Spec.WF.via_known {m : FModel} (w : WF m) {i c : Id} (hi : Known m i) (h : Via m isF i c) :
    Known m c ∧ FParent m c i ∧ Below m i c ∧ lvlOf m i < lvlOf m c := by
  obtain ⟨h1, h2⟩ := (via_iff_fparent w (.inl hi) (w.known_data hi)).1 h
  refine ⟨h1, h2, fparent_isBelow h2, ?_⟩
  have hb := fparent_isBelow h2
  have hle := w.below_level (.inl h1) hb
  refine Nat.lt_of_le_of_ne hle ?_
  intro he
  cases hb with
  | refl =>
    -- a feature is not its own parent feature
    cases h2 with
    | direct hp _ => have := w.level_par (.inl h1) hp; omega
    | skip hp hr h2 =>
      have := w.level_par (.inl h1) hp
      have := w.below_level (w.par_edge _ _ (.inl h1) hp).1 (fparent_isBelow h2)
      omega
  | step hp hb =>
    have := w.level_par (.inl h1) hp
    have := w.below_level (w.par_edge _ _ (.inl h1) hp).1 hb
    omega

/-- Subtrees of two children features are disjoint. -/
theorem Spec.WF.via_disjoint {m : FModel} (w : WF m) {i a b x : Id} (hi : Known m i) (ha : Via m isF i a)
    (hb : Via m isF i b) (hxa : Below m a x) (hxb : Below m b x) : a = b := by
  obtain ⟨ka, fa, _, la⟩ := w.via_known hi ha
  obtain ⟨kb, fb, _, lb⟩ := w.via_known hi hb
  apply Classical.byContradiction
  intro hne
  rcases below_chain hxa hxb with h | h
  · have := w.below_level (.inl hi) (fparent_above fb h hne (w.known_data ka)); omega
  · have := w.below_level (.inl hi) (fparent_above fa h (Ne.symm hne) (w.known_data kb)); omega

/-! ### Sorting the children -/

theorem sortedChildren_spec {m : FModel} (w : WF m) (E : Env) {i : Id} (hi : Known m i) :
    ∃ cs, m.sortedChildren E i = some cs ∧ Kids m i cs.reverse := by
  obtain ⟨cs, h1, h2, h3⟩ := childrenF w E (.inl hi)
  obtain ⟨r, g1, g2, g3⟩ := insertAll_sorted (lt := fun a b => strLt (m.low b) (m.low a)) (fun _ => True)
    (fun a b c _ _ _ h h' => by
      cases hh : strLt (m.low c) (m.low a) with
      | true => rfl
      | false => have := strLe_trans (a := m.low a) hh h'; rw [h] at this; cases this)
    (fun a b _ _ h => strLt_asymm h) cs [] (fun _ _ => trivial) (fun _ _ => trivial) .nil
  rw [List.append_nil] at g2
  refine ⟨r, by simp only [sortedChildren, h1]; exact g1, ?_, ?_, ?_⟩
  · exact ((List.reverse_perm r).trans g2).nodup_iff.2 h2
  · intro c; rw [List.mem_reverse, g2.mem_iff, h3]
  · rw [List.pairwise_reverse]; exact g3

/-! ### The loop -/

theorem collect_sub {m : FModel} (w : WF m) (E : Env) {stop : DFS} (hstop : stop.frontier = []) :
    ∀ n i, Known m i → m.next - lvlOf m i < n →
      ∃ l, Pre m i l ∧ (∀ x ∈ l, Below m i x) ∧
        ∀ rest vis fuel, (∀ x ∈ vis, ¬ Below m i x) →
          collect m E stop (fuel + l.length) ⟨i :: rest, vis⟩ =
            (collect m E stop fuel ⟨rest, l.reverse ++ vis⟩).map (l ++ ·) := by
  intro n
  induction n with
  | zero => intro i _ h; omega
  | succ n ih =>
    intro i hi hn
    obtain ⟨cs, hc, hk⟩ := sortedChildren_spec w E hi
    -- the traversals of a list of children
    have key : ∀ ds : List Id, ds.Nodup → (∀ d ∈ ds, Via m isF i d) →
        ∃ ls : List (List Id), ls.length = ds.length ∧
          (∀ (k : Nat) c l, ds[k]? = some c → ls[k]? = some l → Pre m c l) ∧
          (∀ x ∈ ls.flatten, ∃ d ∈ ds, Below m d x) ∧
          ∀ rest vis fuel, (∀ x ∈ vis, ∀ d ∈ ds, ¬ Below m d x) →
            collect m E stop (fuel + ls.flatten.length) ⟨ds ++ rest, vis⟩ =
              (collect m E stop fuel ⟨rest, ls.flatten.reverse ++ vis⟩).map (ls.flatten ++ ·) := by
      intro ds
      induction ds with
      | nil =>
        intro _ _
        refine ⟨[], rfl, by intro k c l h; simp at h, by intro x hx; simp at hx, ?_⟩
        intro rest vis fuel _
        simp
      | cons d ds ihd =>
        intro hnd hv
        obtain ⟨hd1, hd2⟩ := List.nodup_cons.1 hnd
        have vd := hv d (List.mem_cons_self ..)
        obtain ⟨kd, _, _, ld⟩ := w.via_known hi vd
        have hlt := w.level_lt (.inl kd)
        obtain ⟨l, p1, p2, p3⟩ := ih d kd (by omega)
        obtain ⟨ls, q1, q2, q3, q4⟩ := ihd hd2 (fun e he => hv e (List.mem_cons_of_mem _ he))
        refine ⟨l :: ls, by simp [q1], ?_, ?_, ?_⟩
        · intro k c l' hc hl
          cases k with
          | zero => simp at hc hl; subst hc hl; exact p1
          | succ k => exact q2 k c l' (by simpa using hc) (by simpa using hl)
        · intro x hx
          simp only [List.flatten_cons, List.mem_append] at hx
          rcases hx with hx | hx
          · exact ⟨d, List.mem_cons_self .., p2 x hx⟩
          · obtain ⟨e, he, hb⟩ := q3 x hx
            exact ⟨e, List.mem_cons_of_mem _ he, hb⟩
        · intro rest vis fuel hvis
          have h1 := p3 (ds ++ rest) vis (fuel + ls.flatten.length) (fun x hx => hvis x hx d (List.mem_cons_self ..))
          have h2 := q4 rest (l.reverse ++ vis) fuel (by
            intro x hx e he hb
            rcases List.mem_append.1 hx with hx | hx
            · have := w.via_disjoint hi vd (hv e (List.mem_cons_of_mem _ he)) (p2 x (List.mem_reverse.1 hx)) hb
              exact hd1 (this ▸ he)
            · exact hvis x hx e (List.mem_cons_of_mem _ he) hb)
          have e1 : fuel + (l :: ls).flatten.length = fuel + ls.flatten.length + l.length := by
            simp; omega
          rw [e1, List.cons_append, h1, h2]
          simp [Function.comp_def, List.append_assoc]
    obtain ⟨ls, q1, q2, q3, q4⟩ := key cs.reverse hk.nodup (fun d hd => (hk.mem d).1 hd)
    refine ⟨i :: ls.flatten, .node hk q1 q2, ?_, ?_⟩
    · intro x hx
      rcases List.mem_cons.1 hx with rfl | hx
      · exact .refl
      · obtain ⟨d, hd, hb⟩ := q3 x hx
        exact (w.via_known hi ((hk.mem d).1 hd)).2.2.1.trans hb
    · intro rest vis fuel hvis
      have hstep : DFS.next m E ⟨i :: rest, vis⟩ = some ⟨cs.reverse ++ rest, i :: vis⟩ := by
        simp only [DFS.next, hc]
        congr 2
        rw [List.filter_eq_self.2]
        intro c hcs
        have hv := (hk.mem c).1 (List.mem_reverse.2 hcs)
        obtain ⟨_, _, hb, hl⟩ := w.via_known hi hv
        simp only [Bool.not_eq_true', decide_eq_false_iff_not, List.mem_cons, not_or]
        refine ⟨?_, fun h => hvis c h hb⟩
        rintro rfl; omega
      have h4 := q4 rest (i :: vis) fuel (by
        intro x hx d hd hb
        have hv := (hk.mem d).1 hd
        obtain ⟨kd, _, hbd, hl⟩ := w.via_known hi hv
        rcases List.mem_cons.1 hx with rfl | hx
        · have := w.below_level (.inl hi) hb; omega
        · exact hvis x hx (hbd.trans hb))
      have e1 : fuel + (i :: ls.flatten).length = fuel + ls.flatten.length + 1 := by simp; omega
      rw [e1]
      have hne : DFS.eq m ⟨i :: rest, vis⟩ stop = false := by
        simp [DFS.eq, hstop]
      simp only [collect, hne, hstep, h4, Bool.false_eq_true, if_false]
      simp [Function.comp_def]

/-! ### What a preorder traversal contains -/

theorem Spec.Pre.mem {m : FModel} (w : WF m) {i : Id} {l : List Id} (h : Pre m i l) :
    Known m i → ∀ x, x ∈ l ↔ Known m x ∧ Below m i x := by
  induction h with
  | @node i cs ls hk hlen hp ih =>
    intro hi x
    constructor
    · intro hx
      rcases List.mem_cons.1 hx with rfl | hx
      · exact ⟨hi, .refl⟩
      · obtain ⟨l, hl, hx⟩ := List.mem_flatten.1 hx
        obtain ⟨k, hk1⟩ := List.mem_iff_getElem?.1 hl
        have hlt : k < cs.length := by
          have := (List.getElem?_eq_some_iff.1 hk1).1; omega
        have hck : cs[k]? = some cs[k] := List.getElem?_eq_getElem hlt
        have hv := (hk.mem _).1 (List.mem_of_getElem? hck)
        obtain ⟨kc, _, hb, _⟩ := w.via_known hi hv
        obtain ⟨h1, h2⟩ := (ih k _ l hck hk1 kc x).1 hx
        exact ⟨h1, hb.trans h2⟩
    · rintro ⟨hx, hb⟩
      apply Classical.byContradiction
      intro hnot
      -- the highest ancestor of x that is not in l has its parent feature in l
      have hxi : x ≠ i := fun h => hnot (h ▸ List.mem_cons_self ..)
      have key : ∀ n y, lvlOf m y = n → Known m y → Below m i y → y ≠ i →
          ∃ c, Via m isF i c ∧ Below m c y := by
        intro n
        induction n using Nat.strongRecOn with
        | _ n ihn =>
          intro y hy ky hby hne
          have hnr : m.root ≠ some y := by
            intro hr
            have := w.root_par hr
            cases hby with
            | refl => exact hne rfl
            | step hp _ => rw [this] at hp; cases hp
          obtain ⟨p, hp, kp⟩ := w.has_fparent (.inl ky) hnr
          have hv := (via_iff_fparent w (.inl kp) (w.known_data kp)).2 ⟨ky, hp⟩
          by_cases hpi : p = i
          · subst hpi; exact ⟨y, hv, .refl⟩
          · have hl := (w.via_known kp hv).2.2.2
            obtain ⟨c, hc1, hc2⟩ := ihn (lvlOf m p) (by omega) p rfl kp
              (fparent_above hp hby (Ne.symm hne) (w.known_data hi)) hpi
            exact ⟨c, hc1, hc2.trans (fparent_isBelow hp)⟩
      obtain ⟨c, hv, hcx⟩ := key _ x rfl hx hb hxi
      obtain ⟨k, hk1⟩ := List.mem_iff_getElem?.1 ((hk.mem c).2 hv)
      have hlt : k < ls.length := by
        have := (List.getElem?_eq_some_iff.1 hk1).1; omega
      have hlk : ls[k]? = some ls[k] := List.getElem?_eq_getElem hlt
      have := (ih k c _ hk1 hlk (w.via_known hi hv).1 x).2 ⟨hx, hcx⟩
      exact hnot (List.mem_cons_of_mem _ (List.mem_flatten.2 ⟨_, List.mem_of_getElem? hlk, this⟩))

/-- `a` is above `b`, or in the subtree of an earlier sibling or one with the same name ignoring
    case. -/
def Earlier (m : FModel) (a b : Id) : Prop :=
  a ≠ b ∧ (Below m a b ∨
    ∃ p x y, Known m p ∧ Via m isF p x ∧ Via m isF p y ∧ x ≠ y ∧ Below m x a ∧ Below m y b ∧
      strLt (m.low y) (m.low x) = false)

theorem Spec.Pre.ordered {m : FModel} (w : WF m) {i : Id} {l : List Id} (h : Pre m i l) :
    Known m i → l.Pairwise (Earlier m) := by
  induction h with
  | @node i cs ls hk hlen hp ih =>
    intro hi
    have kid : ∀ (k : Nat) (l : List Id), ls[k]? = some l → ∃ c, cs[k]? = some c ∧ Via m isF i c ∧ Known m c := by
      intro k l hl
      have hlt : k < cs.length := by
        have := (List.getElem?_eq_some_iff.1 hl).1; omega
      have hck : cs[k]? = some cs[k] := List.getElem?_eq_getElem hlt
      have hv := (hk.mem _).1 (List.mem_of_getElem? hck)
      exact ⟨_, hck, hv, (w.via_known hi hv).1⟩
    refine List.pairwise_cons.2 ⟨?_, List.pairwise_flatten.2 ⟨?_, ?_⟩⟩
    · intro x hx
      obtain ⟨l, hl, hx⟩ := List.mem_flatten.1 hx
      obtain ⟨k, hk1⟩ := List.mem_iff_getElem?.1 hl
      obtain ⟨c, hc, hv, kc⟩ := kid k l hk1
      obtain ⟨_, hb⟩ := ((hp k c l hc hk1).mem w kc x).1 hx
      obtain ⟨_, _, hic, hlv⟩ := w.via_known hi hv
      refine ⟨?_, .inl (hic.trans hb)⟩
      rintro rfl
      have := w.below_level (.inl hi) hb; omega
    · intro l hl
      obtain ⟨k, hk1⟩ := List.mem_iff_getElem?.1 hl
      obtain ⟨c, hc, hv, kc⟩ := kid k l hk1
      exact ih k c l hc hk1 kc
    · rw [List.pairwise_iff_getElem]
      intro j k hj hk' hjk x hx y hy
      have g1 : ls[j]? = some ls[j] := List.getElem?_eq_getElem hj
      have g2 : ls[k]? = some ls[k] := List.getElem?_eq_getElem hk'
      obtain ⟨c, hc, hv, kc⟩ := kid j _ g1
      obtain ⟨d, hd, hv', kd⟩ := kid k _ g2
      obtain ⟨_, hbx⟩ := ((hp j c _ hc g1).mem w kc x).1 hx
      obtain ⟨_, hby⟩ := ((hp k d _ hd g2).mem w kd y).1 hy
      obtain ⟨hcj, hc⟩ := List.getElem?_eq_some_iff.1 hc
      obtain ⟨hdk, hd⟩ := List.getElem?_eq_some_iff.1 hd
      have hcd : c ≠ d := by
        have := List.pairwise_iff_getElem.1 hk.nodup j k hcj hdk hjk
        rw [hc, hd] at this; exact this
      have hs := List.pairwise_iff_getElem.1 hk.sorted j k hcj hdk hjk
      rw [hc, hd] at hs
      refine ⟨?_, .inr ⟨i, c, d, hi, hv, hv', hcd, hbx, hby, hs⟩⟩
      rintro rfl
      exact hcd (w.via_disjoint hi hv hv' hbx hby)

theorem earlier_before {m : FModel} (hs : SiblingsDiffer m) {a b : Id} (h : Earlier m a b) : Before m a b := by
  obtain ⟨hne, h | ⟨p, x, y, kp, hx, hy, hxy, ha, hb, hl⟩⟩ := h
  · exact .inl ⟨hne, h⟩
  · refine .inr ⟨p, x, y, kp, hx, hy, ha, hb, ?_⟩
    cases h : strLt (m.low x) (m.low y) with
    | true => rfl
    | false => exact absurd (hs p x y kp hx hy (strLt_total h hl)) hxy

theorem iterate_spec {m : FModel} (w : WF m) (E : Env) {r : Id} (hr : m.root = some r) :
    ∃ l, m.iterate E = some l ∧ Pre m r l := by
  have hkr := w.root_known hr
  have hend : m.end? = some ⟨[], []⟩ := by
    obtain ⟨q, h1, h2⟩ := parentFeature_spec w (.inl hkr)
    have : q = none := by
      cases q with
      | none => rfl
      | some p =>
        have hf := (h2 p).1 rfl
        have := w.root_par hr
        cases hf with
        | direct hp _ => rw [this] at hp; cases hp
        | skip hp _ _ => rw [this] at hp; cases hp
    subst this
    simp [end?, hr, h1, DFS.mk']
  obtain ⟨l, p1, p2, p3⟩ := collect_sub w E (stop := ⟨[], []⟩) rfl (m.next + 1) r hkr (by omega)
  refine ⟨l, ?_, p1⟩
  have hnd : l.Nodup := (p1.ordered w hkr).imp (fun h => h.1)
  have hlen : l.length ≤ m.next := by
    have hsub : l ⊆ List.range m.next := by
      intro x hx
      rw [List.mem_range]
      exact w.owned_lt (.inl ((p1.mem w hkr x).1 hx).1)
    have := hnd.length_le_of_subset hsub
    simpa using this
  have h := p3 [] [] (m.next + 1 - l.length) (by intro x hx; cases hx)
  have e1 : m.next + 1 - l.length + l.length = m.next + 1 := by omega
  rw [e1] at h
  have e2 : ∃ k, m.next + 1 - l.length = k + 1 := ⟨m.next - l.length, by omega⟩
  obtain ⟨k, e2⟩ := e2
  have h0 : collect m E ⟨[], []⟩ (k + 1) ⟨[], l.reverse ++ []⟩ = some [] := by
    simp [collect, DFS.eq]
  rw [e2, h0] at h
  simp only [iterate, hend, begin, hr, DFS.mk', h, Option.map_some, List.append_nil]

end Verif

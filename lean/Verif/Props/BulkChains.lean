import Verif.Props.BulkNested
/-!
# Property C31: features and their children in one list

What `removeFeatures` (/repo/lib/Feature/FeatureModelTransaction.cpp:88-139) does in recursive mode when a
listed feature is below another one, and everything between the two is listed too.
-/

namespace Verif.Props
open Spec FModel

/-- A listed feature below another listed one is the child of a listed one. -/
def Chained (m : FModel) (us : List Ref) : Prop :=
  ∀ u ∈ us, ∀ v ∈ us, ∀ i j, m.resolve u = some i → m.resolve v = some j → i ≠ j → Below m i j →
    ∃ t ∈ us, ∃ p, m.resolve t = some p ∧ par m j = some p

/-- The children of a listed feature with a listed child are visited in the order of their addresses, and
    are still when some of them have been removed. -/
def InOrder (E : Env) (B : Bulk) (m : FModel) (us : List Ref) : Prop :=
  ∀ u ∈ us, ∀ v ∈ us, ∀ i c, m.resolve u = some i → m.resolve v = some c → c ∈ edg m i →
    ∀ l, l.Sublist (edg m i) → (E.setOrder l).Pairwise (fun a b => B.addr a ≤ B.addr b)

/-! ### The intersection of sorted ranges -/

theorem setIntersection_sorted {addr : Id → Nat} {x : Id} (l1 : List Id) :
    ∀ l2 : List Id, l1.Pairwise (fun a b => addr a ≤ addr b) → l2.Pairwise (fun a b => addr a ≤ addr b) →
      x ∈ l1 → x ∈ l2 → setIntersection addr l1 l2 ≠ [] := by
  induction l1 with
  | nil => intro l2 _ _ h; cases h
  | cons a as ih =>
    intro l2 h1
    unfold setIntersection
    induction l2 with
    | nil => intro _ _ h; cases h
    | cons b bs ih2 =>
      intro h2 hx1 hx2
      unfold interStep
      split
      · rename_i hlt
        refine ih _ (List.pairwise_cons.1 h1).2 h2 ?_ hx2
        rcases List.mem_cons.1 hx1 with rfl | h
        · rcases List.mem_cons.1 hx2 with rfl | h
          · omega
          · have := (List.pairwise_cons.1 h2).1 x h; omega
        · exact h
      · split
        · rename_i hlt
          refine ih2 (List.pairwise_cons.1 h2).2 hx1 ?_
          rcases List.mem_cons.1 hx2 with rfl | h
          · rcases List.mem_cons.1 hx1 with rfl | h
            · omega
            · have := (List.pairwise_cons.1 h1).1 x h; omega
          · exact h
        · simp

theorem addrInsert_le {addr : Id → Nat} {x y : Id} {l : List Id} (h : ∀ z ∈ l, addr y ≤ addr z) (hx : addr y ≤ addr x) :
    ∀ z ∈ addrInsert addr x l, addr y ≤ addr z := by
  intro z hz
  rcases addrInsert_mem hz with rfl | hz
  · exact hx
  · exact h z hz

theorem addrInsert_sorted {addr : Id → Nat} {x : Id} {l : List Id} (h : l.Pairwise (fun a b => addr a ≤ addr b)) :
    (addrInsert addr x l).Pairwise (fun a b => addr a ≤ addr b) := by
  induction l with
  | nil => simp [addrInsert]
  | cons y ys ih =>
    obtain ⟨h1, h2⟩ := List.pairwise_cons.1 h
    unfold addrInsert
    split
    · rename_i hlt
      refine .cons ?_ h
      intro z hz
      rcases List.mem_cons.1 hz with rfl | hz
      · omega
      · have := h1 z hz; omega
    · split
      · rename_i hlt
        exact .cons (addrInsert_le h1 (by omega)) (ih h2)
      · exact h

theorem addrInsert_has {addr : Id → Nat} (hinj : ∀ a b, addr a = addr b → a = b) {x : Id} {l : List Id} :
    x ∈ addrInsert addr x l := by
  induction l with
  | nil => simp [addrInsert]
  | cons y ys ih =>
    unfold addrInsert
    split
    · simp
    · split
      · exact List.mem_cons_of_mem _ ih
      · have : x = y := hinj x y (by omega)
        simp [this]

theorem addrInsert_keeps {addr : Id → Nat} {x y : Id} {l : List Id} (h : y ∈ l) : y ∈ addrInsert addr x l := by
  induction l with
  | nil => cases h
  | cons z zs ih =>
    unfold addrInsert
    split
    · exact List.mem_cons_of_mem _ h
    · split
      · rcases List.mem_cons.1 h with rfl | h
        · simp
        · exact List.mem_cons_of_mem _ (ih h)
      · exact h

theorem otherFeatures_sorted {m : FModel} {B : Bulk} {vs : List Ref} :
    (m.otherFeatures B vs).Pairwise (fun a b => B.addr a ≤ B.addr b) := by
  have key : ∀ (l acc : List Id), acc.Pairwise (fun a b => B.addr a ≤ B.addr b) →
      (l.foldl (fun s i => addrInsert B.addr i s) acc).Pairwise (fun a b => B.addr a ≤ B.addr b) := by
    intro l
    induction l with
    | nil => intro acc h; exact h
    | cons a as ih => intro acc h; exact ih _ (addrInsert_sorted h)
  exact key _ _ .nil

theorem otherFeatures_has {m : FModel} {B : Bulk} {vs : List Ref} {v : Ref} {x : Id} (hv : v ∈ vs) (hx : m.resolve v = some x) :
    x ∈ m.otherFeatures B vs := by
  have key : ∀ (l acc : List Id), x ∈ l ∨ x ∈ acc → x ∈ l.foldl (fun s i => addrInsert B.addr i s) acc := by
    intro l
    induction l with
    | nil => rintro acc (h | h); cases h; exact h
    | cons a as ih =>
      rintro acc (h | h)
      · rcases List.mem_cons.1 h with rfl | h
        · exact ih _ (.inr (addrInsert_has B.addr_inj))
        · exact ih _ (.inl h)
      · exact ih _ (.inr (addrInsert_keeps h))
  exact key _ _ (.inl (List.mem_filterMap.2 ⟨v, hv, hx⟩))

/-! ### The children -/

/-- All children are the direct ones. -/
theorem children_all {m : FModel} (w : WF m) (E : Env) {i : Id} (ho : Owned m i) :
    m.children E (fun _ => true) i = some (E.setOrder (edg m i)) := by
  obtain ⟨d, hd⟩ := w.owned_data ho
  obtain ⟨n, hn, hne⟩ := data_edges hd
  have key : ∀ f : List Id → Id → Option (List Id), (∀ fs c, Owned m c → f fs c = some (insertSet fs c)) →
      ∀ (l acc : List Id), (∀ c ∈ l, Owned m c) → (acc ++ l).Nodup → l.foldlM f acc = some (acc ++ l) := by
    intro f hf l
    induction l with
    | nil => intro acc _ _; simp
    | cons c cs ih =>
      intro acc hk hnd
      have hc : c ∉ acc := by
        intro h
        rw [List.nodup_append] at hnd
        exact hnd.2.2 c h c (by simp) rfl
      have hi : insertSet acc c = acc ++ [c] := by simp [insertSet, hc]
      simp only [List.foldlM_cons, hf acc c (hk c (by simp)), hi]
      have := ih (acc ++ [c]) (fun x hx => hk x (by simp [hx])) (by simpa using hnd)
      simpa using this
  simp only [FModel.children, childrenImpl, hn, hne]
  rw [if_neg (by omega), key _ ?_ (edg m i) [] (fun c hc => (w.edge_par i c ho hc).1) (by simpa using w.edges_nodup i ho)]
  · simp
  · intro fs c hc
    obtain ⟨d', hd'⟩ := w.owned_data hc
    obtain ⟨n', hn', _⟩ := data_edges hd'
    simp [hn']

/-! ### Listed children -/

/-- No child of the feature is listed. -/
def lowest (m : FModel) (us : List Ref) (u : Ref) : Bool :=
  match m.resolve u with
  | none => false
  | some i => (edg m i).all (fun c => us.all (fun v => decide (m.resolve v ≠ some c)))

theorem lowest_some {m : FModel} {us : List Ref} {u : Ref} {i : Id} (h : m.resolve u = some i) :
    lowest m us u = true ↔ ∀ v ∈ us, ∀ c ∈ edg m i, m.resolve v ≠ some c := by
  simp only [lowest, h, List.all_eq_true, decide_eq_true_eq]
  exact ⟨fun g v hv c hc => g c hc v hv, fun g c hc v hv => g v hv c hc⟩

theorem lowest_resolves {m : FModel} {us : List Ref} {u : Ref} (h : lowest m us u = true) : ∃ i, m.resolve u = some i := by
  unfold lowest at h
  split at h
  · cases h
  · rename_i i hi; exact ⟨i, hi⟩

/-- A listed feature with a listed one below it has a listed child. -/
theorem listed_child {m : FModel} (w : WF m) {us : List Ref} (hc : Chained m us) {u : Ref} {i : Id} (hu : u ∈ us)
    (hi : m.resolve u = some i) {j : Id} (hb : Below m i j) :
    ∀ v ∈ us, m.resolve v = some j → Owned m j → j ≠ i → ∃ t ∈ us, ∃ c ∈ edg m i, m.resolve t = some c := by
  induction hb with
  | refl => intro _ _ _ _ h; exact absurd rfl h
  | @step j p hp hb ih =>
    intro v hv hj ho hne
    by_cases hpi : p = i
    · subst hpi
      exact ⟨v, hv, j, (w.par_edge j p ho hp).2, hj⟩
    · obtain ⟨t, ht, q, hq, hq'⟩ := hc u hu v hv i j hi hj (fun h => hne h.symm) (.step hp hb)
      rw [hp] at hq'; cases hq'
      exact ih t ht hq (w.par_edge j p ho hp).1 hpi

/-- If something is found, something has no listed child. -/
theorem lowest_exists {m : FModel} (w : WF m) {us : List Ref} (n : Nat) :
    ∀ u ∈ us, ∀ i, m.resolve u = some i → Owned m i → m.next ≤ n + lvlOf m i → ∃ v ∈ us, lowest m us v = true := by
  induction n with
  | zero => intro u _ i _ ho h; have := w.level_lt ho; omega
  | succ n ih =>
    intro u hu i hi ho h
    by_cases hl : lowest m us u = true
    · exact ⟨u, hu, hl⟩
    · rw [lowest_some hi] at hl
      simp only [Classical.not_forall, ne_eq, Classical.not_not] at hl
      obtain ⟨v, hv, c, hc, hvc⟩ := hl
      have := w.level_edge ho hc
      exact ih v hv c hvc (w.edge_par i c ho hc).1 (by omega)

/-- In recursive mode all listed features that are found go with everything below them, the lowest first;
    what is missing is returned. (Everything between two listed features must be listed, and the children
    visited in the order of addresses.) -/
theorem C31_chains_partial (E : Env) (B : Bulk) (fuel : Nat) : ∀ (m : FModel) (vs : List Ref), vs.length < fuel → WF m →
    NoNestedRel m → Apart m vs → Chained m vs → InOrder E B m vs →
    ∃ m' rest, removeFeatures E B true fuel m vs = .done m' rest ∧ WF m' ∧
      (∀ v, v ∈ rest ↔ v ∈ vs ∧ m.resolve v = none) ∧
      Without m m' (fun j => Owned m j ∧ ∃ v ∈ vs, ∃ i, m.resolve v = some i ∧ Below m i j) := by
  induction fuel with
  | zero => intro m vs h; omega
  | succ fuel ih =>
    intro m vs hlen w hflat ha hch hord
    cases vs with
    | nil => exact ⟨m, [], rfl, w, by simp, without_congr (without_refl m) (by simp)⟩
    | cons v vs =>
      generalize hvs : v :: vs = us at *
      have hdel : ∀ u ∈ us, (m.deletable E B true (m.otherFeatures B us) u).map (fun b => (u, b)) =
          some (u, lowest m us u) := by
        intro u hu
        unfold deletable
        cases hr : m.resolve u with
        | none => simp [lowest, hr]
        | some i =>
          have ki := (ha.known u hu i hr).1
          obtain ⟨d, hd⟩ := w.owned_data (.inl ki)
          obtain ⟨n, hn, hne⟩ := data_edges hd
          simp only [hn, hne]
          by_cases he : edg m i = []
          · have : lowest m us u = true := by rw [lowest_some hr]; simp [he]
            simp [he, this]
          · rw [if_neg he, children_all w E (.inl ki)]
            have : decide (setIntersection B.addr (E.setOrder (edg m i)) (m.otherFeatures B us) = []) = lowest m us u := by
              rw [Bool.eq_iff_iff, decide_eq_true_eq, lowest_some hr]
              constructor
              · intro h v hv c hc hvc
                refine setIntersection_sorted (x := c) _ _ (hord u hu v hv i c hr hvc hc _ (List.Sublist.refl _))
                  otherFeatures_sorted ?_ (otherFeatures_has hv hvc) h
                exact (E.setOrder_perm _).mem_iff.2 hc
              · intro h
                cases hs : setIntersection B.addr (E.setOrder (edg m i)) (m.otherFeatures B us) with
                | nil => rfl
                | cons x xs =>
                  exfalso
                  obtain ⟨hx1, hx2⟩ := setIntersection_sub B.addr_inj _ _ x (by rw [hs]; exact List.mem_cons_self ..)
                  obtain ⟨v, hv, hvx⟩ := otherFeatures_mem hx2
                  exact h v hv x ((E.setOrder_perm _).mem_iff.1 hx1) hvx
            simp [this]
      have hmap := mapM_some hdel
      obtain ⟨t1, t2⟩ := tagged_filter (l := us) (lowest m us)
      have hstep : removeFeatures E B true (fuel + 1) m us =
          if B.first (us.filter (lowest m us)) = [] then .done m (B.second (us.filter (fun u => !lowest m us u)))
          else if E.asserts && m.consistent E ≠ some true then .ub
          else
            match m.commitOps E ((B.first (us.filter (lowest m us))).map (fun u => .removeFeature u true)) with
            | .ok m' => removeFeatures E B true fuel m' (B.second (us.filter (fun u => !lowest m us u)))
            | .err _ m' => removeFeatures E B true fuel m' (B.second (us.filter (fun u => !lowest m us u)))
            | .ub => .ub := by
        clear hdel
        subst hvs
        simp only [removeFeatures, hmap]
        rw [t1, t2]
        rfl
      have hp1 := B.first_perm (us.filter (lowest m us))
      have hp2 := B.second_perm (us.filter (fun u => !lowest m us u))
      have hsplit : (us.filter (lowest m us) ++ us.filter (fun u => !lowest m us u)).Perm us := List.filter_append_perm _ us
      generalize hyes : B.first (us.filter (lowest m us)) = yes at *
      generalize hno : B.second (us.filter (fun u => !lowest m us u)) = no at *
      have myes : ∀ u, u ∈ yes ↔ u ∈ us ∧ lowest m us u = true := fun u => by rw [hp1.mem_iff, List.mem_filter]
      have mno : ∀ u, u ∈ no ↔ u ∈ us ∧ lowest m us u = false := fun u => by
        rw [hp2.mem_iff, List.mem_filter]; simp
      by_cases hy : yes = []
      · rw [if_pos hy] at hstep
        have hnone : ∀ u ∈ us, m.resolve u = none := by
          intro u hu
          cases hr : m.resolve u with
          | none => rfl
          | some i =>
            obtain ⟨v, hv, hl⟩ := lowest_exists w m.next u hu i hr (.inl (ha.known u hu i hr).1) (by omega)
            have := (myes v).2 ⟨hv, hl⟩
            rw [hy] at this; cases this
        refine ⟨m, _, hstep, w, ?_, without_congr (without_refl m) ?_⟩
        · intro u
          rw [mno]
          refine ⟨fun h => ⟨h.1, hnone u h.1⟩, fun h => ⟨h.1, by simp [lowest, h.2]⟩⟩
        · intro j
          simp only [iff_false]
          rintro ⟨_, u, hu, i, hi, _⟩
          rw [hnone u hu] at hi; cases hi
      · rw [if_neg hy, if_neg (by rw [consistent_of_WF w]; simp)] at hstep
        have hind : Independent m (us.filter (lowest m us)) := by
          refine List.Pairwise.imp_of_mem ?_ (ha.sub (List.filter_sublist (p := lowest m us))).distinct
          intro a b hma hmb hd i j hi hj
          obtain ⟨mb1, mb2⟩ := List.mem_filter.1 hmb
          obtain ⟨ma1, ma2⟩ := List.mem_filter.1 hma
          have hij : j ≠ i := by rintro rfl; exact hd j hi hj
          rw [lowest_some hi] at ma2
          rw [lowest_some hj] at mb2
          constructor
          · intro h
            obtain ⟨t, ht, c, hc, htc⟩ := listed_child w hch ma1 hi h b mb1 hj (.inl (ha.known b mb1 j hj).1) hij
            exact ma2 t ht c hc htc
          · intro h
            obtain ⟨t, ht, c, hc, htc⟩ := listed_child w hch mb1 hj h a ma1 hi (.inl (ha.known a ma1 i hi).1) (Ne.symm hij)
            exact mb2 t ht c hc htc
        obtain ⟨m1, g1, w1, g3⟩ := removeTrees_ok E yes m w hflat
          ((ha.sub List.filter_sublist).perm hp1)
          ((hp1.pairwise_iff (fun {a b} h i j hi hj => (h j i hj hi).symm)).2 hind) (by
            intro u hu
            exact lowest_resolves ((myes u).1 hu).2)
        rw [commitOps_ok g1 w1] at hstep
        simp only at hstep
        have ha2 : Apart m (us.filter (lowest m us) ++ us.filter (fun u => !lowest m us u)) := ha.perm hsplit
        have ha3 : Apart m no := (ha.sub List.filter_sublist).perm hp2
        have hS : ∀ u ∈ no, ∀ j, m.resolve u = some j →
            ¬ (Owned m j ∧ ∃ v ∈ yes, ∃ i, m.resolve v = some i ∧ Below m i j) := by
          rintro u hu j hj ⟨ho, x, hx, i, hi, hb⟩
          have hne : j ≠ i := by
            rintro rfl
            exact (List.pairwise_append.1 ha2.distinct).2.2 x (hp1.mem_iff.1 hx) u (hp2.mem_iff.1 hu) j hi hj
          obtain ⟨x1, x2⟩ := (myes x).1 hx
          obtain ⟨t, ht, c, hc, htc⟩ := listed_child w hch x1 hi hb u ((mno u).1 hu).1 hj ho hne
          rw [lowest_some hi] at x2
          exact x2 t ht c hc htc
        have hr : ∀ u ∈ no, m1.resolve u = m.resolve u := fun u hu =>
          resolve_without w w1 g3 (fun j hj => ⟨(ha3.known u hu j hj).1, hS u hu j hj⟩)
        have hclosed : ∀ j c, Owned m j → (Owned m j ∧ ∃ v ∈ yes, ∃ i, m.resolve v = some i ∧ Below m i j) → c ∈ edg m j →
            (Owned m c ∧ ∃ v ∈ yes, ∃ i, m.resolve v = some i ∧ Below m i c) := by
          rintro j c ho ⟨_, v, hv, i, hi, hb⟩ hc
          exact ⟨(w.edge_par j c ho hc).1, v, hv, i, hi, .step (w.edge_par j c ho hc).2 hb⟩
        have hbel : ∀ {a j}, Owned m1 j → (Below m1 a j ↔ Below m a j) := fun ho => without_below w g3 hclosed ho
        have kn1 : ∀ u ∈ no, ∀ j, m.resolve u = some j → Owned m1 j := fun u hu j hj =>
          (g3.owned j).2 ⟨.inl (ha3.known u hu j hj).1, hS u hu j hj⟩
        have hlen2 : no.length < fuel := by
          have e1 := hp1.length_eq
          have e2 := hp2.length_eq
          have e3 := hsplit.length_eq
          have e4 : 0 < yes.length := List.length_pos_iff.2 hy
          rw [List.length_append] at e3
          omega
        obtain ⟨m', rest, i1, i2, i3, i4⟩ := ih m1 no hlen2 w1
          (by
            intro j ho hj c hc
            obtain ⟨ho', hs⟩ := (g3.owned j).1 ho
            have hcm := ((g3.edges j ho' hs).2 c).1 hc
            obtain ⟨k, hk⟩ := hj
            obtain ⟨f, hf⟩ := hflat j ho' ⟨k, by rw [← g3.data j hs]; exact hk⟩ c hcm.1
            exact ⟨f, by rw [g3.data c hcm.2]; exact hf⟩)
          (ha3.without w w1 g3 hS)
          (by
            intro u hu v hv i j hi hj hij hb
            rw [hr u hu] at hi; rw [hr v hv] at hj
            rw [hbel (kn1 v hv j hj)] at hb
            obtain ⟨t, ht, p, hp, hpp⟩ := hch u ((mno u).1 hu).1 v ((mno v).1 hv).1 i j hi hj hij hb
            have htno : t ∈ no := by
              refine (mno t).2 ⟨ht, ?_⟩
              cases hl : lowest m us t with
              | false => rfl
              | true =>
                rw [lowest_some hp] at hl
                exact absurd hj (hl v ((mno v).1 hv).1 j (w.par_edge j p (.inl (ha3.known v hv j hj).1) hpp).2)
            exact ⟨t, htno, p, by rw [hr t htno]; exact hp, by rw [g3.par j (hS v hv j hj)]; exact hpp⟩)
          (by
            intro u hu v hv i c hi hc hce l hl
            rw [hr u hu] at hi; rw [hr v hv] at hc
            have he := g3.edges i (.inl (ha3.known u hu i hi).1) (hS u hu i hi)
            exact hord u ((mno u).1 hu).1 v ((mno v).1 hv).1 i c hi hc ((he.2 c).1 hce).1 l (hl.trans he.1))
        refine ⟨m', rest, by rw [hstep]; exact i1, i2, ?_, without_congr (without_trans g3 i4) ?_⟩
        · intro u
          rw [i3]
          constructor
          · rintro ⟨h1, h2⟩
            exact ⟨((mno u).1 h1).1, by rw [← hr u h1]; exact h2⟩
          · rintro ⟨h1, h2⟩
            have : u ∈ no := (mno u).2 ⟨h1, by simp [lowest, h2]⟩
            exact ⟨this, by rw [hr u this]; exact h2⟩
        · intro j
          constructor
          · rintro ⟨ho, u, hu, i, hi, hb⟩
            by_cases hs : Owned m j ∧ ∃ v ∈ yes, ∃ i, m.resolve v = some i ∧ Below m i j
            · exact .inl hs
            · right
              have ho1 : Owned m1 j := (g3.owned j).2 ⟨ho, hs⟩
              have huno : u ∈ no := by
                refine (mno u).2 ⟨hu, ?_⟩
                cases hl : lowest m us u with
                | false => rfl
                | true => exact absurd ⟨ho, u, (myes u).2 ⟨hu, hl⟩, i, hi, hb⟩ hs
              exact ⟨ho1, u, huno, i, by rw [hr u huno]; exact hi, (hbel ho1).2 hb⟩
          · rintro (⟨ho, u, hu, i, hi, hb⟩ | ⟨ho, u, hu, i, hi, hb⟩)
            · exact ⟨ho, u, ((myes u).1 hu).1, i, hi, hb⟩
            · exact ⟨((g3.owned j).1 ho).1, u, ((mno u).1 hu).1, i, by rw [← hr u hu]; exact hi, (hbel ho).1 hb⟩

/-- A, a name that is missing and the child of A: the conditions of `C31_chains_partial` hold. -/
example (asserts : Bool) : WF chain ∧ NoNestedRel chain ∧ Apart chain [.name c!"A", .name c!"none", .ptr (some 2)] ∧
    Chained chain [.name c!"A", .name c!"none", .ptr (some 2)] ∧
    InOrder (stdEnv asserts) plain chain [.name c!"A", .name c!"none", .ptr (some 2)] ∧
    ¬ Independent chain [.name c!"A", .name c!"none", .ptr (some 2)] := by
  have h1 : chain.resolve (.name c!"A") = some 1 := by decide
  have h2 : chain.resolve (.name c!"none") = none := by decide
  have h3 : chain.resolve (.ptr (some 2)) = some 2 := by decide
  have hm : ∀ u ∈ [(.name c!"A" : Ref), .name c!"none", .ptr (some 2)], ∀ i, chain.resolve u = some i →
      (u = .name c!"A" ∧ i = 1) ∨ (u = .ptr (some 2) ∧ i = 2) := by
    intro u hu i hi
    simp only [List.mem_cons, List.not_mem_nil, or_false] at hu
    rcases hu with rfl | rfl | rfl
    · rw [h1] at hi; cases hi; exact .inl ⟨rfl, rfl⟩
    · rw [h2] at hi; cases hi
    · rw [h3] at hi; cases hi; exact .inr ⟨rfl, rfl⟩
  have hp1 : par chain 1 = some 0 := by decide
  have hp2 : par chain 2 = some 1 := by decide
  have e1 : edg chain 1 = [2] := by decide
  refine ⟨wf_of_check (fun i => i) (ofNodes_fresh _ _ _ _ _) (by decide), ?_, apart_chain, ?_, ?_, ?_⟩
  · rintro j ho ⟨k, hk⟩
    have hr := chain_wf.owned_rel ho ⟨k, hk⟩
    simp [chain, ofNodes] at hr
  · intro u hu v hv i j hi hj hij hb
    rcases hm u hu i hi with ⟨rfl, rfl⟩ | ⟨rfl, rfl⟩ <;> rcases hm v hv j hj with ⟨rfl, rfl⟩ | ⟨rfl, rfl⟩
    · exact absurd rfl hij
    · exact ⟨_, hu, 1, h1, hp2⟩
    · exfalso
      have hlv : ∀ {x}, Below chain 2 x → x = 1 → False := by
        intro x hb
        induction hb with
        | refl => intro h; cases h
        | @step y p hp hb ih =>
          rintro rfl
          rw [hp1] at hp; cases hp
          cases hb with
          | step hp _ =>
            have : par chain 0 = none := by decide
            rw [this] at hp; cases hp
      exact hlv hb rfl
    · exact absurd rfl hij
  · intro u hu v hv i c hi hc hce l hl
    have hi1 : i = 1 := by
      rcases hm u hu i hi with ⟨_, rfl⟩ | ⟨_, rfl⟩
      · rfl
      · have : edg chain 2 = [] := by decide
        rw [this] at hce; cases hce
    subst hi1
    rw [e1] at hl
    have hlen := hl.length_le
    have hp := (stdEnv asserts).setOrder_perm l
    have : ((stdEnv asserts).setOrder l).length ≤ 1 := by rw [hp.length_eq]; simpa using hlen
    match (stdEnv asserts).setOrder l, this with
    | [], _ => exact .nil
    | [x], _ => exact List.pairwise_singleton ..
  · intro h
    exact ((List.pairwise_cons.1 h).1 _ (by simp) 1 2 h1 h3).1 (.step hp2 .refl)

end Verif.Props

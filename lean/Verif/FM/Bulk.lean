import Verif.FM.Buildable
/-!
# Removing several features

Models `removeFeatures` and its helpers (/repo/lib/Feature/FeatureModelTransaction.cpp:41-139).
-/

namespace Verif

/-- What the language leaves open here: the addresses of objects, and the order of the two parts that
    `std::partition` makes. -/
structure Bulk where
  addr : Id → Nat
  addr_inj : ∀ a b, addr a = addr b → a = b
  first : List Ref → List Ref
  first_perm : ∀ l, (first l).Perm l
  second : List Ref → List Ref
  second_perm : ∀ l, (second l).Perm l

/-- One element `a` of the first range against the second one; `f` goes on with the rest of the
    first. -/
def interStep (addr : Id → Nat) (a : Id) (f : List Id → List Id) : List Id → List Id
  | [] => []
  | b :: bs =>
    if addr a < addr b then f (b :: bs)
    else if addr b < addr a then interStep addr a f bs
    else a :: f bs

/-- `std::set_intersection` as a merge of two ranges by address.  The standard demands sorted ranges;
    the first one here is a pointer set in hash order, on which the usual implementation is run. -/
def setIntersection (addr : Id → Nat) : List Id → List Id → List Id
  | [], _ => []
  | a :: as, l => interStep addr a (setIntersection addr as) l

/-- How `removeFeatures` ends. -/
inductive BulkRes
  | done (m : FModel) (rest : List Ref)
  | ub
  | endless

namespace FModel

/-- Insertion into a `std::set` of pointers. -/
def addrInsert (addr : Id → Nat) (x : Id) : List Id → List Id
  | [] => [x]
  | y :: ys => if addr x < addr y then x :: y :: ys else if addr y < addr x then y :: addrInsert addr x ys else y :: ys

/-- `OtherFeatures` (FeatureModelTransaction.cpp:97-103). -/
def otherFeatures (m : FModel) (B : Bulk) (vs : List Ref) : List Id :=
  (vs.filterMap m.resolve).foldl (fun s i => addrInsert B.addr i s) []

/-- The predicate of the partition (FeatureModelTransaction.cpp:110-120) with `fvIsLeaf` (51-59) and
    `canBeDeletedRecursively` (68-86).  `none` = undefined. -/
def deletable (m : FModel) (E : Env) (B : Bulk) (recursive : Bool) (other : List Id) (v : Ref) : Option Bool :=
  match m.resolve v with
  | none => some false
  | some i =>
    match m.heap i with
    | none => none
    | some n =>
      if n.edges = [] then some true
      else if !recursive then some false
      else
        match m.children E (fun _ => true) i with
        | none => none
        | some cs => some (decide (setIntersection B.addr cs other = []))

/-- `removeFeatures` (FeatureModelTransaction.cpp:88-139); `fuel` bounds the recursion. -/
def removeFeatures (E : Env) (B : Bulk) (recursive : Bool) : Nat → FModel → List Ref → BulkRes
  | 0, _, _ => .endless
  | _ + 1, m, [] => .done m []
  | fuel + 1, m, v :: vs =>
    match (v :: vs).mapM (fun u => (m.deletable E B recursive (m.otherFeatures B (v :: vs)) u).map (fun b => (u, b))) with
    | none => .ub
    | some tagged =>
      let yes := B.first ((tagged.filter (fun t => t.2)).map Prod.fst)
      let no := B.second ((tagged.filter (fun t => !t.2)).map Prod.fst)
      if yes = [] then .done m no
      else if E.asserts && m.consistent E ≠ some true then .ub
      else
        match m.commitOps E (yes.map (fun u => .removeFeature u recursive)) with
        | .ok m' => removeFeatures E B recursive fuel m' no
        | .err _ m' => removeFeatures E B recursive fuel m' no
        | .ub => .ub

end FModel

open Verif.Spec Verif.FModel

/-! ### Lists -/

theorem mapM_some {α β} {f : α → Option β} {g : α → β} {l : List α} (h : ∀ x ∈ l, f x = some (g x)) :
    l.mapM f = some (l.map g) := by
  induction l with
  | nil => rfl
  | cons x xs ih =>
    simp only [List.mapM_cons, h x (List.mem_cons_self ..), ih (fun y hy => h y (List.mem_cons_of_mem _ hy))]
    rfl

theorem mapM_fst {α β} {f : α → Option β} {l : List α} {t : List (α × β)}
    (h : l.mapM (fun u => (f u).map (fun b => (u, b))) = some t) : t.map Prod.fst = l := by
  induction l generalizing t with
  | nil => simp at h; subst h; rfl
  | cons x xs ih =>
    rw [List.mapM_cons] at h
    cases hx : f x with
    | none => rw [hx] at h; cases h
    | some b =>
      cases hr : xs.mapM (fun u => (f u).map (fun b => (u, b))) with
      | none => rw [hx, hr] at h; cases h
      | some t' =>
        rw [hx, hr] at h
        cases h
        simp [ih hr]

theorem tagged_filter {l : List Ref} (b : Ref → Bool) :
    ((l.map (fun u => (u, b u))).filter (fun t => t.2)).map Prod.fst = l.filter b ∧
    ((l.map (fun u => (u, b u))).filter (fun t => !t.2)).map Prod.fst = l.filter (fun u => !b u) := by
  induction l with
  | nil => exact ⟨rfl, rfl⟩
  | cons x xs ih =>
    obtain ⟨h1, h2⟩ := ih
    cases hb : b x <;> simp [hb, h1, h2]

/-- A merge gives only common elements. -/
theorem setIntersection_sub {addr : Id → Nat} (hinj : ∀ a b, addr a = addr b → a = b) (l1 : List Id) :
    ∀ l2, ∀ x ∈ setIntersection addr l1 l2, x ∈ l1 ∧ x ∈ l2 := by
  induction l1 with
  | nil => intro l2 x hx; simp [setIntersection] at hx
  | cons a as ih =>
    intro l2
    unfold setIntersection
    induction l2 with
    | nil => intro x hx; simp [interStep] at hx
    | cons b bs ih2 =>
      intro x hx
      unfold interStep at hx
      split at hx
      · exact ⟨List.mem_cons_of_mem _ (ih _ x hx).1, (ih _ x hx).2⟩
      · split at hx
        · exact ⟨(ih2 x hx).1, List.mem_cons_of_mem _ (ih2 x hx).2⟩
        · have hab : a = b := hinj a b (by omega)
          subst hab
          rcases List.mem_cons.1 hx with rfl | hx
          · exact ⟨List.mem_cons_self .., List.mem_cons_self ..⟩
          · exact ⟨List.mem_cons_of_mem _ (ih _ x hx).1, List.mem_cons_of_mem _ (ih _ x hx).2⟩

theorem addrInsert_mem {addr : Id → Nat} {x y : Id} {l : List Id} (h : y ∈ addrInsert addr x l) : y = x ∨ y ∈ l := by
  induction l with
  | nil => simp [addrInsert] at h; exact .inl h
  | cons z zs ih =>
    unfold addrInsert at h
    split at h
    · rcases List.mem_cons.1 h with h | h
      · exact .inl h
      · exact .inr h
    · split at h
      · rcases List.mem_cons.1 h with rfl | h
        · exact .inr (List.mem_cons_self ..)
        · rcases ih h with h | h
          · exact .inl h
          · exact .inr (List.mem_cons_of_mem _ h)
      · exact .inr h

theorem otherFeatures_mem {m : FModel} {B : Bulk} {vs : List Ref} {x : Id} (h : x ∈ m.otherFeatures B vs) :
    ∃ v ∈ vs, m.resolve v = some x := by
  have key : ∀ (l acc : List Id), x ∈ l.foldl (fun s i => addrInsert B.addr i s) acc → x ∈ l ∨ x ∈ acc := by
    intro l
    induction l with
    | nil => intro acc h; exact .inr h
    | cons a as ih =>
      intro acc h
      rcases ih _ h with h | h
      · exact .inl (List.mem_cons_of_mem _ h)
      · rcases addrInsert_mem h with rfl | h
        · exact .inl (List.mem_cons_self ..)
        · exact .inr h
  rcases key _ _ h with h | h
  · obtain ⟨v, hv, hx⟩ := List.mem_filterMap.1 h
    exact ⟨v, hv, hx⟩
  · cases h

/-! ### Termination -/

theorem removeFeatures_ends (E : Env) (B : Bulk) (recursive : Bool) (fuel : Nat) :
    ∀ m vs, vs.length < fuel → removeFeatures E B recursive fuel m vs ≠ .endless := by
  induction fuel with
  | zero => intro m vs h; omega
  | succ fuel ih =>
    intro m vs h
    cases vs with
    | nil => simp [removeFeatures]
    | cons v vs =>
      simp only [removeFeatures]
      split
      · simp
      · rename_i tagged ht
        have hlen := congrArg List.length (mapM_fst ht)
        simp only [List.length_map, List.length_cons] at hlen
        split
        · simp
        · rename_i hy
          have h1 := (B.first_perm ((tagged.filter (fun t => t.2)).map Prod.fst)).length_eq
          have h2 := (B.second_perm ((tagged.filter (fun t => !t.2)).map Prod.fst)).length_eq
          have h3 : tagged.length = (tagged.filter (fun t => t.2)).length + (tagged.filter (fun t => !t.2)).length := by
            clear ht hlen hy h1 h2
            induction tagged with
            | nil => rfl
            | cons t ts ih => cases hb : t.2 <;> simp [hb, ih] <;> omega
          have h4 : 0 < (B.first ((tagged.filter (fun t => t.2)).map Prod.fst)).length := by
            cases h : B.first ((tagged.filter (fun t => t.2)).map Prod.fst) with
            | nil => exact absurd h hy
            | cons => simp
          rw [h1, List.length_map] at h4
          rw [List.length_map] at h2
          simp only [List.length_cons] at h
          split
          · simp
          · split
            · exact ih _ _ (by omega)
            · exact ih _ _ (by omega)
            · simp

/-! ### References to different features -/

/-- The references that name something name different features of the model, not the root. -/
structure Apart (m : FModel) (vs : List Ref) : Prop where
  known : ∀ v ∈ vs, ∀ i, m.resolve v = some i → Known m i ∧ m.root ≠ some i
  distinct : vs.Pairwise (fun a b => ∀ i, m.resolve a = some i → m.resolve b ≠ some i)

theorem Apart.sub {m : FModel} {vs us : List Ref} (h : Apart m vs) (hs : us.Sublist vs) : Apart m us :=
  ⟨fun v hv => h.known v (hs.subset hv), h.distinct.sublist hs⟩

theorem Apart.perm {m : FModel} {vs us : List Ref} (h : Apart m vs) (hs : us.Perm vs) : Apart m us :=
  ⟨fun v hv => h.known v (hs.subset hv), (hs.pairwise_iff (fun {a b} h i hb ha => h i ha hb)).2 h.distinct⟩

theorem resolve_without {m m' : FModel} {S : Id → Prop} (w : WF m) (w' : WF m') (h : Without m m' S) {v : Ref}
    (hk : ∀ i, m.resolve v = some i → Known m i ∧ ¬ S i) : m'.resolve v = m.resolve v := by
  cases v with
  | ptr i => rfl
  | name n =>
    show m'.getFeature n = m.getFeature n
    cases hg : m.getFeature n with
    | none =>
      rw [getFeature_none] at hg ⊢
      intro hm
      obtain ⟨e, he, rfl⟩ := List.mem_map.1 hm
      exact hg (List.mem_map_of_mem ((h.features.2 e).1 he).1)
    | some i =>
      obtain ⟨_, hs⟩ := hk i hg
      exact getFeature_mem w'.names ((h.features.2 (n, i)).2 ⟨getFeature_some hg, hs⟩)

theorem Apart.without {m m' : FModel} {S : Id → Prop} (w : WF m) (w' : WF m') (h : Without m m' S) {vs : List Ref}
    (ha : Apart m vs) (hS : ∀ v ∈ vs, ∀ i, m.resolve v = some i → ¬ S i) : Apart m' vs := by
  have hr : ∀ v ∈ vs, m'.resolve v = m.resolve v := fun v hv =>
    resolve_without w w' h (fun i hi => ⟨(ha.known v hv i hi).1, hS v hv i hi⟩)
  constructor
  · intro v hv i hi
    rw [hr v hv] at hi
    exact ⟨(h.known i).2 ⟨(ha.known v hv i hi).1, hS v hv i hi⟩, by rw [h.root]; exact (ha.known v hv i hi).2⟩
  · refine List.Pairwise.imp_of_mem ?_ ha.distinct
    intro a b ha hb h i
    rw [hr a ha, hr b hb]
    exact h i

/-! ### One transaction -/

theorem removeLeaves_ok (E : Env) (us : List Ref) :
    ∀ m, WF m → Apart m us → (∀ u ∈ us, ∃ i, m.resolve u = some i ∧ edg m i = []) →
      ∃ m', outFold (exec E) m (us.map (fun u => .removeFeature u false)) = .ok m' ∧ WF m' ∧
        Without m m' (fun j => ∃ u ∈ us, m.resolve u = some j) := by
  induction us with
  | nil =>
    intro m w _ _
    exact ⟨m, rfl, w, without_congr (without_refl m) (by simp)⟩
  | cons u us ih =>
    intro m w ha hl
    obtain ⟨i, hi, he⟩ := hl u (List.mem_cons_self ..)
    obtain ⟨ki, ri⟩ := ha.known u (List.mem_cons_self ..) i hi
    obtain ⟨m1, h1, h2⟩ := removeRec_leaf w E m.next ki ri he
    have w1 : WF m1 := wf_of_without w h2 (closed_leaf he) (fun r hr h => ri (h ▸ hr))
    have hne : ∀ v ∈ us, m.resolve v ≠ some i := fun v hv => (List.pairwise_cons.1 ha.distinct).1 v hv i hi
    have hS : ∀ v ∈ us, ∀ j, m.resolve v = some j → ¬ j = i := by
      rintro v hv j hj rfl
      exact hne v hv hj
    have ha' : Apart m us := ha.sub (List.sublist_cons_self ..)
    have hr : ∀ v ∈ us, m1.resolve v = m.resolve v := fun v hv =>
      resolve_without w w1 h2 (fun j hj => ⟨(ha'.known v hv j hj).1, hS v hv j hj⟩)
    obtain ⟨m', g1, g2, g3⟩ := ih m1 w1 (ha'.without w w1 h2 hS) (by
      intro v hv
      obtain ⟨j, hj, hej⟩ := hl v (List.mem_cons_of_mem _ hv)
      refine ⟨j, by rw [hr v hv]; exact hj, ?_⟩
      have := (h2.edges j (.inl (ha'.known v hv j hj).1) (hS v hv j hj)).1
      rw [hej] at this
      exact List.sublist_nil.1 this)
    refine ⟨m', ?_, g2, without_congr (without_trans h2 g3) ?_⟩
    · rw [List.map_cons, outFold_cons (m1 := m1)]
      · exact g1
      · simp only [exec, execRemoveFeature, hi]; exact h1
    · intro j
      constructor
      · rintro ⟨v, hv, hj⟩
        rcases List.mem_cons.1 hv with rfl | hv
        · rw [hi] at hj; cases hj; exact .inl rfl
        · exact .inr ⟨v, hv, by rw [hr v hv]; exact hj⟩
      · rintro (rfl | ⟨v, hv, hj⟩)
        · exact ⟨u, List.mem_cons_self .., hi⟩
        · exact ⟨v, List.mem_cons_of_mem _ hv, by rw [← hr v hv]; exact hj⟩

/-- Not one below the other. -/
def Independent (m : FModel) (us : List Ref) : Prop :=
  us.Pairwise (fun a b => ∀ i j, m.resolve a = some i → m.resolve b = some j → ¬ Below m i j ∧ ¬ Below m j i)

/-- No relationship directly below a relationship. -/
def NoNestedRel (m : FModel) : Prop := ∀ j, Owned m j → IsRel m j → ∀ c ∈ edg m j, IsFeat m c

theorem removeTrees_ok (E : Env) (us : List Ref) :
    ∀ m, WF m → NoNestedRel m → Apart m us → Independent m us → (∀ u ∈ us, ∃ i, m.resolve u = some i) →
      ∃ m', outFold (exec E) m (us.map (fun u => .removeFeature u true)) = .ok m' ∧ WF m' ∧
        Without m m' (fun j => Owned m j ∧ ∃ u ∈ us, ∃ i, m.resolve u = some i ∧ Below m i j) := by
  induction us with
  | nil =>
    intro m w _ _ _ _
    exact ⟨m, rfl, w, without_congr (without_refl m) (by simp)⟩
  | cons u us ih =>
    intro m w hflat ha hin hl
    obtain ⟨i, hi⟩ := hl u (List.mem_cons_self ..)
    obtain ⟨ki, ri⟩ := ha.known u (List.mem_cons_self ..) i hi
    obtain ⟨m1, h1, h2⟩ := removeRec_ok E (m.next + 1) m i w ki ri
      (fun j ho _ hj c hc => hflat j ho hj c hc) (by omega)
    have hclosed : ∀ j c, Owned m j → (Owned m j ∧ Below m i j) → c ∈ edg m j → (Owned m c ∧ Below m i c) := by
      intro j c ho hb hc
      exact ⟨(w.edge_par j c ho hc).1, .step (w.edge_par j c ho hc).2 hb.2⟩
    have w1 : WF m1 := by
      refine wf_of_without w h2 hclosed ?_
      intro r hr hb
      cases hb.2 with
      | refl => exact ri hr
      | step hp _ => rw [w.root_par hr] at hp; cases hp
    have hS : ∀ v ∈ us, ∀ j, m.resolve v = some j → ¬ (Owned m j ∧ Below m i j) := by
      intro v hv j hj hb
      exact ((List.pairwise_cons.1 hin).1 v hv i j hi hj).1 hb.2
    have ha' : Apart m us := ha.sub (List.sublist_cons_self ..)
    have hr : ∀ v ∈ us, m1.resolve v = m.resolve v := fun v hv =>
      resolve_without w w1 h2 (fun j hj => ⟨(ha'.known v hv j hj).1, hS v hv j hj⟩)
    have hbel : ∀ {a j}, Owned m1 j → (Below m1 a j ↔ Below m a j) := fun ho => without_below w h2 hclosed ho
    have kn1 : ∀ v ∈ us, ∀ j, m.resolve v = some j → Owned m1 j := fun v hv j hj =>
      (h2.owned j).2 ⟨.inl (ha'.known v hv j hj).1, hS v hv j hj⟩
    obtain ⟨m', g1, g2, g3⟩ := ih m1 w1 (by
        intro j ho hj c hc
        obtain ⟨ho', hs⟩ := (h2.owned j).1 ho
        have hcm := ((h2.edges j ho' hs).2 c).1 hc
        obtain ⟨k, hk⟩ := hj
        obtain ⟨f, hf⟩ := hflat j ho' ⟨k, by rw [← h2.data j hs]; exact hk⟩ c hcm.1
        exact ⟨f, by rw [h2.data c hcm.2]; exact hf⟩)
      (ha'.without w w1 h2 hS)
      (by
        refine List.Pairwise.imp_of_mem ?_ (List.pairwise_cons.1 hin).2
        intro a b ma mb h x y hx hy
        rw [hr a ma] at hx; rw [hr b mb] at hy
        rw [hbel (kn1 b mb y hy), hbel (kn1 a ma x hx)]
        exact h x y hx hy)
      (by
        intro v hv
        obtain ⟨j, hj⟩ := hl v (List.mem_cons_of_mem _ hv)
        exact ⟨j, by rw [hr v hv]; exact hj⟩)
    refine ⟨m', ?_, g2, without_congr (without_trans h2 g3) ?_⟩
    · rw [List.map_cons, outFold_cons (m1 := m1)]
      · exact g1
      · simp only [exec, execRemoveFeature, hi]; exact h1
    · intro j
      constructor
      · rintro ⟨ho, v, hv, x, hx, hb⟩
        rcases List.mem_cons.1 hv with rfl | hv
        · rw [hi] at hx; cases hx; exact .inl ⟨ho, hb⟩
        · by_cases hij : Below m i j
          · exact .inl ⟨ho, hij⟩
          · have ho1 : Owned m1 j := (h2.owned j).2 ⟨ho, fun h => hij h.2⟩
            exact .inr ⟨ho1, v, hv, x, by rw [hr v hv]; exact hx, (hbel ho1).2 hb⟩
      · rintro (⟨ho, hb⟩ | ⟨ho, v, hv, x, hx, hb⟩)
        · exact ⟨ho, u, List.mem_cons_self .., i, hi, hb⟩
        · exact ⟨((h2.owned j).1 ho).1, v, List.mem_cons_of_mem _ hv, x, by rw [← hr v hv]; exact hx, (hbel ho).1 hb⟩

/-! ### Both modes -/

theorem data_edges {m : FModel} {i : Id} {d : NodeData} (h : data m i = some d) :
    ∃ n, m.heap i = some n ∧ n.edges = edg m i := by
  have := heap_of_data h
  exact ⟨_, this, by rw [edg, this]⟩

/-- Leaves are removed, round by round; the rest is returned. -/
theorem removeFeatures_leaves (E : Env) (B : Bulk) (fuel : Nat) :
    ∀ m vs, vs.length < fuel → WF m → Apart m vs →
      ∃ m' rest, removeFeatures E B false fuel m vs = .done m' rest ∧ WF m' ∧
        (∃ gone, (gone ++ rest).Perm vs ∧ (∀ v ∈ gone, ∃ i, m.resolve v = some i) ∧
          Without m m' (fun j => ∃ v ∈ gone, m.resolve v = some j)) ∧
        ∀ v ∈ rest, ∀ i, m'.resolve v = some i → edg m' i ≠ [] := by
  induction fuel with
  | zero => intro m vs h; omega
  | succ fuel ih =>
    intro m vs hlen w ha
    cases vs with
    | nil =>
      exact ⟨m, [], rfl, w, ⟨[], .refl _, by simp, without_congr (without_refl m) (by simp)⟩, by simp⟩
    | cons v vs =>
      generalize hvs : v :: vs = us at *
      let b : Ref → Bool := fun u => match m.resolve u with | none => false | some i => decide (edg m i = [])
      have hdel : ∀ u ∈ us, (m.deletable E B false (m.otherFeatures B us) u).map (fun b => (u, b)) = some (u, b u) := by
        intro u hu
        unfold deletable
        cases hr : m.resolve u with
        | none => simp [b, hr]
        | some i =>
          obtain ⟨d, hd⟩ := w.owned_data (.inl (ha.known u hu i hr).1)
          obtain ⟨n, hn, hne⟩ := data_edges hd
          simp only [hn, hne]
          by_cases he : edg m i = []
          · simp [b, hr, he]
          · simp [b, hr, he]
      have hmap := mapM_some hdel
      obtain ⟨t1, t2⟩ := tagged_filter (l := us) b
      have hstep : removeFeatures E B false (fuel + 1) m us =
          if B.first (us.filter b) = [] then .done m (B.second (us.filter (fun u => !b u)))
          else if E.asserts && m.consistent E ≠ some true then .ub
          else
            match m.commitOps E ((B.first (us.filter b)).map (fun u => .removeFeature u false)) with
            | .ok m' => removeFeatures E B false fuel m' (B.second (us.filter (fun u => !b u)))
            | .err _ m' => removeFeatures E B false fuel m' (B.second (us.filter (fun u => !b u)))
            | .ub => .ub := by
        subst hvs
        simp only [removeFeatures, hmap, t1, t2]
      have hp1 := B.first_perm (us.filter b)
      have hp2 := B.second_perm (us.filter (fun u => !b u))
      have hsplit : (us.filter b ++ us.filter (fun u => !b u)).Perm us := List.filter_append_perm b us
      by_cases hy : B.first (us.filter b) = []
      · rw [if_pos hy] at hstep
        rw [hy] at hp1
        have hnil : us.filter b = [] := List.nil_perm.1 hp1
        refine ⟨m, _, hstep, w, ⟨[], ?_, by simp, without_congr (without_refl m) (by simp)⟩, ?_⟩
        · rw [hnil] at hsplit
          simpa using hp2.trans hsplit
        · intro u hu i hi he
          have hm := List.mem_filter.1 (hp2.mem_iff.1 hu)
          have : b u = true := by simp [b, hi, he]
          rw [this] at hm
          exact absurd hm.2 (by simp)
      · rw [if_neg hy, if_neg (by rw [consistent_of_WF w]; simp)] at hstep
        obtain ⟨m1, g1, w1, g3⟩ := removeLeaves_ok E (B.first (us.filter b)) m w
          ((ha.sub List.filter_sublist).perm hp1) (by
            intro u hu
            have hm := (List.mem_filter.1 (hp1.mem_iff.1 hu)).2
            cases hr : m.resolve u with
            | none => simp [b, hr] at hm
            | some i => exact ⟨i, rfl, by simpa [b, hr] using hm⟩)
        rw [commitOps_ok g1 w1] at hstep
        simp only at hstep
        have ha2 : Apart m (us.filter b ++ us.filter (fun u => !b u)) := ha.perm hsplit
        have hS : ∀ u ∈ B.second (us.filter (fun u => !b u)), ∀ j, m.resolve u = some j →
            ¬ ∃ v ∈ B.first (us.filter b), m.resolve v = some j := by
          rintro u hu j hj ⟨x, hx, hxj⟩
          exact (List.pairwise_append.1 ha2.distinct).2.2 x (hp1.mem_iff.1 hx) u (hp2.mem_iff.1 hu) j hxj hj
        have ha3 : Apart m (B.second (us.filter (fun u => !b u))) := (ha.sub List.filter_sublist).perm hp2
        have hr : ∀ u ∈ B.second (us.filter (fun u => !b u)), m1.resolve u = m.resolve u := fun u hu =>
          resolve_without w w1 g3 (fun j hj => ⟨(ha3.known u hu j hj).1, hS u hu j hj⟩)
        have hlen2 : (B.second (us.filter (fun u => !b u))).length < fuel := by
          have e1 := hp1.length_eq
          have e2 := hp2.length_eq
          have e3 := hsplit.length_eq
          have e4 : 0 < (B.first (us.filter b)).length := List.length_pos_iff.2 hy
          rw [List.length_append] at e3
          omega
        obtain ⟨m', rest, i1, i2, ⟨gone, i3, i4, i5⟩, i6⟩ := ih m1 _ hlen2 w1 (ha3.without w w1 g3 hS)
        have hsub : ∀ u ∈ gone, u ∈ B.second (us.filter (fun u => !b u)) := fun u hu =>
          i3.mem_iff.1 (List.mem_append_left _ hu)
        refine ⟨m', rest, by rw [hstep]; exact i1, i2, ⟨B.first (us.filter b) ++ gone, ?_, ?_, ?_⟩, i6⟩
        · rw [List.append_assoc]
          exact ((hp1.append i3).trans (List.Perm.append_left _ hp2)).trans hsplit
        · intro u hu
          rcases List.mem_append.1 hu with hu | hu
          · have hm := (List.mem_filter.1 (hp1.mem_iff.1 hu)).2
            cases hr : m.resolve u with
            | none => simp [b, hr] at hm
            | some i => exact ⟨i, rfl⟩
          · obtain ⟨i, hi⟩ := i4 u hu
            exact ⟨i, by rw [← hr u (hsub u hu)]; exact hi⟩
        · refine without_congr (without_trans g3 i5) ?_
          intro j
          constructor
          · rintro ⟨u, hu, hj⟩
            rcases List.mem_append.1 hu with hu | hu
            · exact .inl ⟨u, hu, hj⟩
            · exact .inr ⟨u, hu, by rw [hr u (hsub u hu)]; exact hj⟩
          · rintro (⟨u, hu, hj⟩ | ⟨u, hu, hj⟩)
            · exact ⟨u, List.mem_append_left _ hu, hj⟩
            · exact ⟨u, List.mem_append_right _ hu, by rw [← hr u (hsub u hu)]; exact hj⟩

/-- Independent subtrees are removed at once; what is missing is returned. -/
theorem removeFeatures_trees (E : Env) (B : Bulk) {m : FModel} {vs : List Ref} (w : WF m) (hflat : NoNestedRel m)
    (ha : Apart m vs) (hin : Independent m vs) :
    ∃ m' rest, (∀ fuel, vs.length + 1 < fuel → removeFeatures E B true fuel m vs = .done m' rest) ∧ WF m' ∧
      (∀ v, v ∈ rest ↔ v ∈ vs ∧ m.resolve v = none) ∧
      Without m m' (fun j => Owned m j ∧ ∃ v ∈ vs, ∃ i, m.resolve v = some i ∧ Below m i j) := by
  -- the predicate of the partition
  have hdel : ∀ m1, WF m1 → ∀ us, Apart m1 us → Independent m1 us → ∀ u ∈ us,
      (m1.deletable E B true (m1.otherFeatures B us) u).map (fun b => (u, b)) = some (u, (m1.resolve u).isSome) := by
    intro m1 w1 us ha hin u hu
    unfold deletable
    cases hr : m1.resolve u with
    | none => simp
    | some i =>
      have ki := (ha.known u hu i hr).1
      obtain ⟨d, hd⟩ := w1.owned_data (.inl ki)
      obtain ⟨n, hn, hne⟩ := data_edges hd
      simp only [hn, hne]
      by_cases he : edg m1 i = []
      · simp [he]
      · rw [if_neg he]
        obtain ⟨cs, h1, _, h3⟩ := children_spec w1 E (isT := fun _ => true) (T := fun _ => true) (fun _ => rfl) (-1) (.inl ki)
        have hcs : ∀ c ∈ cs, Below m1 i c ∧ c ≠ i := by
          intro c hc
          have hv : Via m1 (fun _ => true) i c := by simpa [Reached] using (h3 c).1 hc
          cases hv with
          | here hce _ _ =>
            refine ⟨.step (w1.edge_par i c (.inl ki) hce).2 .refl, ?_⟩
            rintro rfl
            have := w1.level_edge (.inl ki) hce; omega
          | skip _ _ hf _ => simp at hf
        have hemp : setIntersection B.addr cs (m1.otherFeatures B us) = [] := by
          cases hs : setIntersection B.addr cs (m1.otherFeatures B us) with
          | nil => rfl
          | cons x xs =>
            exfalso
            obtain ⟨hx1, hx2⟩ := setIntersection_sub B.addr_inj cs (m1.otherFeatures B us) x (by rw [hs]; simp)
            obtain ⟨v, hv, hvx⟩ := otherFeatures_mem hx2
            obtain ⟨hb, hxi⟩ := hcs x hx1
            obtain ⟨p, hp, rfl⟩ := List.mem_iff_getElem.1 hu
            obtain ⟨q, hq, rfl⟩ := List.mem_iff_getElem.1 hv
            rcases Nat.lt_trichotomy p q with hpq | hpq | hpq
            · exact (List.pairwise_iff_getElem.1 hin p q hp hq hpq i x hr hvx).1 hb
            · subst hpq; rw [hr] at hvx; cases hvx; exact hxi rfl
            · exact (List.pairwise_iff_getElem.1 hin q p hq hp hpq x i hvx hr).2 hb
        simp [h1, hemp]
  cases hvs : vs with
  | nil =>
    refine ⟨m, [], ?_, w, by simp, without_congr (without_refl m) (by simp)⟩
    intro fuel hf
    obtain ⟨k, rfl⟩ : ∃ k, fuel = k + 1 := ⟨fuel - 1, by omega⟩
    rfl
  | cons v0 vs0 =>
  rw [← hvs]
  let b : Ref → Bool := fun u => (m.resolve u).isSome
  obtain ⟨t1, t2⟩ := tagged_filter (l := vs) b
  have hp1 := B.first_perm (vs.filter b)
  have hp2 := B.second_perm (vs.filter (fun u => !b u))
  have hmap := mapM_some (hdel m w vs ha hin)
  have hstep : ∀ fuel, removeFeatures E B true (fuel + 1) m vs =
      if B.first (vs.filter b) = [] then .done m (B.second (vs.filter (fun u => !b u)))
      else if E.asserts && m.consistent E ≠ some true then .ub
      else
        match m.commitOps E ((B.first (vs.filter b)).map (fun u => .removeFeature u true)) with
        | .ok m' => removeFeatures E B true fuel m' (B.second (vs.filter (fun u => !b u)))
        | .err _ m' => removeFeatures E B true fuel m' (B.second (vs.filter (fun u => !b u)))
        | .ub => .ub := by
    intro fuel
    rw [hvs] at hmap t1 t2 ⊢
    simp only [removeFeatures, hmap]
    rw [t1, t2]
  have hmiss : ∀ u ∈ B.second (vs.filter (fun u => !b u)), u ∈ vs ∧ m.resolve u = none := by
    intro u hu
    have hm := List.mem_filter.1 (hp2.mem_iff.1 hu)
    refine ⟨hm.1, ?_⟩
    cases hr : m.resolve u with
    | none => rfl
    | some i => simp [b, hr] at hm
  have hmem : ∀ u, u ∈ B.second (vs.filter (fun u => !b u)) ↔ u ∈ vs ∧ m.resolve u = none := by
    intro u
    refine ⟨hmiss u, ?_⟩
    rintro ⟨h1, h2⟩
    exact hp2.mem_iff.2 (List.mem_filter.2 ⟨h1, by simp [b, h2]⟩)
  by_cases hy : B.first (vs.filter b) = []
  · refine ⟨m, _, ?_, w, hmem, without_congr (without_refl m) ?_⟩
    · intro fuel hf
      obtain ⟨k, rfl⟩ : ∃ k, fuel = k + 1 := ⟨fuel - 1, by omega⟩
      rw [hstep k, if_pos hy]
    · intro j
      simp only [iff_false]
      rintro ⟨_, u, hu, i, hi, _⟩
      rw [hy] at hp1
      have hnil : vs.filter b = [] := List.nil_perm.1 hp1
      have : u ∈ vs.filter b := List.mem_filter.2 ⟨hu, by simp [b, hi]⟩
      rw [hnil] at this; cases this
  · have hpair : ∀ {l : List Ref}, l.Sublist vs → Independent m l := fun hs => hin.sublist hs
    obtain ⟨m1, g1, w1, g3⟩ := removeTrees_ok E (B.first (vs.filter b)) m w hflat
      ((ha.sub List.filter_sublist).perm hp1)
      ((hp1.pairwise_iff (fun {a b} h i j hi hj => (h j i hj hi).symm)).2 (hpair List.filter_sublist)) (by
        intro u hu
        have hm := (List.mem_filter.1 (hp1.mem_iff.1 hu)).2
        cases hr : m.resolve u with
        | none => simp [b, hr] at hm
        | some i => exact ⟨i, rfl⟩)
    have hr1 : ∀ u ∈ B.second (vs.filter (fun u => !b u)), m1.resolve u = none := by
      intro u hu
      rw [resolve_without w w1 g3 (fun j hj => by rw [(hmiss u hu).2] at hj; cases hj)]
      exact (hmiss u hu).2
    -- the second round removes nothing
    have hend : ∀ k, 0 < k → ∃ rest, removeFeatures E B true k m1 (B.second (vs.filter (fun u => !b u))) = .done m1 rest ∧
        rest = (match B.second (vs.filter (fun u => !b u)) with
          | [] => []
          | us => B.second us) := by
      intro k hk
      obtain ⟨k, rfl⟩ : ∃ j, k = j + 1 := ⟨k - 1, by omega⟩
      cases hl : B.second (vs.filter (fun u => !b u)) with
      | nil => exact ⟨[], rfl, rfl⟩
      | cons x xs =>
        have hd2 : ∀ u ∈ x :: xs, (m1.deletable E B true (m1.otherFeatures B (x :: xs)) u).map (fun b => (u, b)) =
            some (u, false) := by
          intro u hu
          rw [← hl] at hu
          simp [deletable, hr1 u hu]
        have hm2 := mapM_some (g := fun u => (u, false)) hd2
        obtain ⟨s1, s2⟩ := tagged_filter (l := x :: xs) (fun _ => false)
        refine ⟨B.second (x :: xs), ?_, rfl⟩
        simp only [removeFeatures, hm2, s1, s2]
        have : B.first ((x :: xs).filter (fun _ => false)) = [] := by
          have := B.first_perm ((x :: xs).filter (fun _ => false))
          rw [List.filter_eq_nil_iff.2 (by simp)] at this ⊢
          exact List.perm_nil.1 this
        rw [if_pos this, List.filter_eq_self.2 (by simp)]
    obtain ⟨rest, _, hrest⟩ := hend 1 (by omega)
    refine ⟨m1, rest, ?_, w1, ?_, without_congr g3 ?_⟩
    · intro fuel hf
      obtain ⟨k, rfl⟩ : ∃ k, fuel = k + 1 := ⟨fuel - 1, by omega⟩
      rw [hstep k, if_neg hy, if_neg (by rw [consistent_of_WF w]; simp), commitOps_ok g1 w1]
      obtain ⟨rest', q1, q2⟩ := hend k (by omega)
      simp only [q1, q2, hrest]
    · intro u
      rw [← hmem u, hrest]
      generalize B.second (vs.filter (fun u => !b u)) = l
      cases l with
      | nil => exact Iff.rfl
      | cons x xs => exact (B.second_perm (x :: xs)).mem_iff
    · intro j
      constructor
      · rintro ⟨ho, u, hu, i, hi, hb⟩
        exact ⟨ho, u, hp1.mem_iff.2 (List.mem_filter.2 ⟨hu, by simp [b, hi]⟩), i, hi, hb⟩
      · rintro ⟨ho, u, hu, i, hi, hb⟩
        exact ⟨ho, u, (List.mem_filter.1 (hp1.mem_iff.1 hu)).1, i, hi, hb⟩

end Verif

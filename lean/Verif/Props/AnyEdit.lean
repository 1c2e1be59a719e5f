import Verif.Props.MoveWhileIterating
/-!
# C89: adding, moving and removing features while iterating over a model

One condition for all bodies, with those of `Keeps` and `Roams` as special cases.
-/

namespace Verif
open Spec FModel

namespace Spec

/-- As long as the caller's `P` holds the body leaves a tree and keeps `P`.  It may move any feature for which `S` does
    not hold, and remove those visited before for which `S` holds.  A feature for which `S` holds is not visited
    twice, which the body may rely on. -/
def Edits (S : Id → Prop) (P : List Id → FModel → Prop) (body : List Id → FModel → Id → Option FModel) : Prop :=
  ∀ vis m f, P vis m → WF m → Known m f → (S f → f ∉ vis) →
    ∃ m', body vis m f = some m' ∧ WF m' ∧
      (∀ x, Known m x → (S x → x ∉ vis) → Known m' x) ∧
      (∀ x p, S x → Known m x → Known m' x → (FParent m' x p ↔ FParent m x p)) ∧
      P (f :: vis) m'

end Spec

variable {m m' : FModel} {body : List Id → FModel → Id → Option FModel} {S : Id → Prop}

/-- Between two rounds: a feature for which `S` holds waits once and is not visited yet, and its parent was visited and
    does not come first. -/
structure Waiting (S : Id → Prop) (m : FModel) (vis fr : List Id) : Prop where
  known : ∀ y ∈ fr, Known m y
  once : ∀ a x b, fr = a ++ x :: b → S x → x ∉ vis ∧ x ∉ b ∧ ∀ p, FParent m x p → p ∈ vis ∧ p ∉ a

theorem waiting_start (w : WF m) {r : Id} (hr : m.root = some r) : Waiting S m [] [r] where
  known := by
    intro y hy
    cases List.mem_singleton.1 hy
    exact w.root_known hr
  once := by
    intro a x b e _
    cases a with
    | nil =>
      cases e
      refine ⟨by simp, by simp, fun p hp => ?_⟩
      have := w.root_par hr
      cases hp with
      | direct h _ => rw [this] at h; cases h
      | skip h _ _ => rw [this] at h; cases h
    | cons y a => simp at e

theorem editLoop_edits {P : List Id → FModel → Prop} (hb : Edits S P body) (E : Env) {stop : DFS} (hstop : stop.frontier = []) :
    ∀ fuel m vis fr, P vis m → WF m → Waiting S m vis fr →
      (editLoop E body stop fuel m ⟨fr, vis⟩ = .endless ∧
        ∀ N, (∀ vis m, P vis m → m.next ≤ N) → fuel ≤ leftOver N vis fr) ∨
      ∃ t, editLoop E body stop fuel m ⟨fr, vis⟩ = .done t ∧ Rounds body vis m t ∧ fr.Sublist (t.map Prod.fst) ∧
        (∀ x, S x → (x ∈ vis → x ∉ t.map Prod.fst) ∧ (t.map Prod.fst).count x ≤ 1) ∧
        ∀ x, x ∈ vis ∨ x ∈ t.map Prod.fst ↔ x ∈ vis ∨ x ∈ fr ∨ ∃ e ∈ t, Known e.2 x ∧ FParent e.2 x e.1 := by
  intro fuel
  induction fuel with
  | zero =>
    intro m vis fr hP w hk
    exact .inl ⟨rfl, fun N hN => Nat.zero_le _⟩
  | succ fuel ih =>
    intro m vis fr hP w hk
    cases fr with
    | nil =>
      refine .inr ⟨[], ?_, .nil, by simp, by simp, by simp⟩
      simp [editLoop, DFS.eq, hstop]
    | cons f rest =>
      have hf := hk.known f (List.mem_cons_self ..)
      have hfo : S f → f ∉ vis := fun hs => (hk.once [] f rest rfl hs).1
      obtain ⟨m', hm, w', hkeep, hpar, hP'⟩ := hb vis m f hP w hf hfo
      have hf' := hkeep f hf hfo
      obtain ⟨cs, hn, hnd, hcs⟩ := roaming_step w' E hf' rest vis
      obtain ⟨d, hd⟩ := w.known_data hf
      have hne : DFS.eq m ⟨f :: rest, vis⟩ stop = false := by simp [DFS.eq, hstop]
      have he : editLoop E body stop (fuel + 1) m ⟨f :: rest, vis⟩ =
          (editLoop E body stop fuel m' ⟨cs ++ rest, f :: vis⟩).cons (f, m') := by
        simp only [editLoop, hne, Bool.false_eq_true, if_false, heap_of_data hd, hm, hn]
      have hrest : ∀ y ∈ rest, Known m' y := by
        intro y hy
        refine hkeep y (hk.known y (List.mem_cons_of_mem _ hy)) (fun hs => ?_)
        obtain ⟨a, b, e⟩ := List.append_of_mem hy
        exact (hk.once (f :: a) y b (by rw [e]; rfl) hs).1
      have hk' : Waiting S m' (f :: vis) (cs ++ rest) := by
        constructor
        · intro y hy
          rcases List.mem_append.1 hy with hy | hy
          · exact ((hcs y).1 hy).1.1
          · exact hrest y hy
        · intro a x b e hs
          rcases List.append_eq_append_iff.1 e with ⟨a1, e1, e2⟩ | ⟨c, e1, e2⟩
          · -- it waited before
            have old := hk.once (f :: a1) x b (by rw [e2]; rfl) hs
            have hxr : x ∈ rest := by rw [e2]; simp
            refine ⟨?_, old.2.1, fun p hp => ?_⟩
            · rw [List.mem_cons, not_or]
              refine ⟨?_, old.1⟩
              rintro rfl
              exact (hk.once [] x rest rfl hs).2.1 hxr
            · have hp0 := (hpar x p hs (hk.known x (List.mem_cons_of_mem _ hxr)) (hrest x hxr)).1 hp
              obtain ⟨h1, h2⟩ := old.2.2 p hp0
              refine ⟨List.mem_cons_of_mem _ h1, ?_⟩
              rw [e1, List.mem_append, not_or]
              refine ⟨fun hpc => ((hcs p).1 hpc).2 (List.mem_cons_of_mem _ h1), ?_⟩
              exact fun h => h2 (List.mem_cons_of_mem _ h)
          · cases c with
            | nil =>
              -- it waited before, first of those
              rw [List.append_nil] at e1
              rw [List.nil_append] at e2
              have old := hk.once [f] x b (by rw [← e2]; rfl) hs
              have hxr : x ∈ rest := by rw [← e2]; simp
              refine ⟨?_, old.2.1, fun p hp => ?_⟩
              · rw [List.mem_cons, not_or]
                refine ⟨?_, old.1⟩
                rintro rfl
                exact (hk.once [] x rest rfl hs).2.1 hxr
              · have hp0 := (hpar x p hs (hk.known x (List.mem_cons_of_mem _ hxr)) (hrest x hxr)).1 hp
                obtain ⟨h1, h2⟩ := old.2.2 p hp0
                refine ⟨List.mem_cons_of_mem _ h1, ?_⟩
                rw [← e1]
                exact fun hpc => ((hcs p).1 hpc).2 (List.mem_cons_of_mem _ h1)
            | cons y c =>
              -- it is new
              simp only [List.cons_append, List.cons.injEq] at e2
              obtain ⟨rfl, e2⟩ := e2
              have hxc : x ∈ cs := by rw [e1]; simp
              obtain ⟨⟨kx, px⟩, hxv⟩ := (hcs x).1 hxc
              refine ⟨hxv, ?_, fun p hp => ?_⟩
              · rw [e2, List.mem_append, not_or]
                constructor
                · rw [e1] at hnd
                  exact (List.nodup_cons.1 (List.nodup_append.1 hnd).2.1).1
                · intro hxr
                  obtain ⟨a1, b1, e3⟩ := List.append_of_mem hxr
                  have hp0 := (hpar x f hs (hk.known x (List.mem_cons_of_mem _ hxr)) kx).1 px
                  exact ((hk.once (f :: a1) x b1 (by rw [e3]; rfl) hs).2.2 f hp0).2 (List.mem_cons_self ..)
              · have hpf := hp.functional px
                subst hpf
                refine ⟨List.mem_cons_self .., fun ha => ?_⟩
                have : p ∈ cs := by rw [e1]; exact List.mem_append_left _ ha
                exact ((hcs p).1 this).2 (List.mem_cons_self ..)
      rcases ih m' (f :: vis) (cs ++ rest) hP' w' hk' with ⟨h1, h2⟩ | ⟨t, h1, h2, h3, h4, h5⟩
      · refine .inl ⟨by rw [he, h1]; rfl, fun N hN => ?_⟩
        have a := h2 N hN
        have hlt : ∀ x, Known m' x → x < N := fun x hx => Nat.lt_of_lt_of_le (w'.owned_lt (.inl hx)) (hN _ _ hP')
        have hlen : cs.length ≤ N := by
          have := hnd.length_le_of_subset (fun x hx => List.mem_range.2 (hlt x ((hcs x).1 hx).1.1) : cs ⊆ List.range N)
          simpa using this
        have b := leftOver_step (rest := rest) (hlt f hf') hlen (fun x hx => ((hcs x).1 hx).2)
        omega
      · refine .inr ⟨(f, m') :: t, by rw [he, h1]; rfl, .cons hf hm h2, ?_, ?_, ?_⟩
        · simp only [List.map_cons]
          exact ((List.sublist_append_right cs rest).trans h3).cons_cons f
        · intro x hs
          obtain ⟨g1, g2⟩ := h4 x hs
          constructor
          · intro hxv
            simp only [List.map_cons, List.mem_cons, not_or]
            refine ⟨?_, g1 (List.mem_cons_of_mem _ hxv)⟩
            rintro rfl
            exact hfo hs hxv
          · rw [List.map_cons, List.count_cons]
            by_cases hx : f = x
            · subst hx
              have := List.count_eq_zero.2 (g1 (List.mem_cons_self ..))
              simp [this]
            · have : (f == x) = false := by simpa using hx
              rw [this]
              simpa using g2
        · intro x
          have h := h5 x
          simp only [List.map_cons, List.mem_cons, List.mem_append, hcs x] at h ⊢
          constructor
          · intro hx
            have hx' : (x = f ∨ x ∈ vis) ∨ x ∈ t.map Prod.fst := by
              rcases hx with a | a | a
              · exact .inl (.inr a)
              · exact .inl (.inl a)
              · exact .inr a
            rcases h.1 hx' with (a | a) | (⟨a, _⟩ | a) | ⟨e, a, b⟩
            · exact .inr (.inl (.inl a))
            · exact .inl a
            · exact .inr (.inr ⟨(f, m'), .inl rfl, a⟩)
            · exact .inr (.inl (.inr a))
            · exact .inr (.inr ⟨e, .inr a, b⟩)
          · intro hx
            have hx' : (x = f ∨ x ∈ vis) ∨ x ∈ t.map Prod.fst := by
              by_cases hv : x = f ∨ x ∈ vis
              · exact .inl hv
              · apply h.2
                rcases hx with a | (a | a) | ⟨e, rfl | a, b⟩
                · exact .inl (.inr a)
                · exact .inl (.inl a)
                · exact .inr (.inl (.inr a))
                · exact .inr (.inl (.inl ⟨b, hv⟩))
                · exact .inr (.inr ⟨e, a, b⟩)
            rcases hx' with (a | a) | a
            · exact .inr (.inl a)
            · exact .inl a
            · exact .inr (.inr a)

namespace Props

variable {P : List Id → FModel → Prop}

/-- A loop whose body adds features, moves some (those without `S`) and removes others (with `S`) after they were
    visited is defined.  Besides the root it visits exactly the features that are children of a visited feature when the
    body is through with that one, those with `S` once. -/
theorem C89_any_edit (hb : Edits S P body) (w : WF m) (hP : P [] m) (E : Env) (fuel : Nat) :
    m.editing E body fuel = .endless ∨
    ∃ t, m.editing E body fuel = .done t ∧ Rounds body [] m t ∧ (∀ x, S x → (t.map Prod.fst).count x ≤ 1) ∧
      ∀ x, x ∈ t.map Prod.fst ↔ m.root = some x ∨ ∃ e ∈ t, Known e.2 x ∧ FParent e.2 x e.1 := by
  obtain ⟨r, _, hr, _⟩ := w.root_ok
  rw [editing_eq w E hr]
  rcases editLoop_edits hb E (stop := ⟨[], []⟩) rfl fuel m [] [r] hP w (waiting_start w hr) with h | ⟨t, h1, h2, _, h4, h5⟩
  · exact .inl h.1
  · refine .inr ⟨t, h1, h2, fun x hs => (h4 x hs).2, fun x => ?_⟩
    have := h5 x
    rw [hr]
    simpa [eq_comm] using this

/-- It ends if there is a bound on the objects the model ever has. -/
theorem C89_any_edit_ends (hb : Edits S P body) (w : WF m) (hP : P [] m) (E : Env) {N fuel : Nat} (hN : ∀ vis m, P vis m → m.next ≤ N)
    (hf : 1 + 2 * (N + 1) * N < fuel) : ∃ t, m.editing E body fuel = .done t := by
  obtain ⟨r, _, hr, _⟩ := w.root_ok
  rw [editing_eq w E hr]
  rcases editLoop_edits hb E (stop := ⟨[], []⟩) rfl fuel m [] [r] hP w (waiting_start w hr) with ⟨_, h⟩ | ⟨t, h1, _⟩
  · have := h N hN
    have hu : (unseen N []).length = N := by
      unfold unseen
      rw [List.filter_eq_self.2 (by simp)]; simp
    rw [leftOver_cons, hu] at this
    simp at this
    omega
  · exact ⟨t, h1⟩

/-- Bodies that remove nothing are a special case. -/
theorem edits_of_roams (h : Roams P body) : Edits (fun _ => False) P body := by
  intro vis m f hP w hf _
  obtain ⟨m', h1, h2, h3, h4⟩ := h vis m f hP w hf
  exact ⟨m', h1, h2, fun x hx _ => h3 x hx, fun x p hs => hs.elim, h4⟩

/-! ### A move and a removal -/

/-- In the (first) round of `q`, `c` is moved below `p`, and `v` is removed if it was visited before. -/
def moveRemoveIn (E : Env) (q p c v : Id) : List Id → FModel → Id → Option FModel :=
  fun vis m f =>
    if f = q ∧ q ∉ vis then
      (m.oneCall E (.addChild (.ptr (some p)) (.ptr (some c)))).bind fun m =>
        if v ∈ vis then m.oneCall E (.removeFeature (.ptr (some v)) false) else some m
    else some m

theorem moveRemoveIn_edits (w : WF m) (E : Env) {q p c v : Id} (hp : Known m p) (hc : Known m c) (hroot : m.root ≠ some c)
    (hb : ¬ Below m c p) (hv : Known m v) (hr : m.root ≠ some v) (hl : edg m v = []) (hvp : v ≠ p) (hvc : v ≠ c) :
    Edits (fun x => x = v) (fun vis m1 => m1.next ≤ m.next ∧ (q ∉ vis → m1 = m)) (moveRemoveIn E q p c v) := by
  rintro vis m1 f ⟨hn, h1⟩ w1 hf _
  by_cases hq : f = q ∧ q ∉ vis
  · obtain ⟨rfl, hqv⟩ := hq
    obtain rfl := h1 hqv
    obtain ⟨m2, a1, w2, a2⟩ := oneCall_moved w E hp hc hroot hb
    have k2 : ∀ x, Known m2 x ↔ Known m1 x := fun x => by unfold Known; rw [a2.rest.features]
    have hl2 : edg m2 v = [] := by rw [a2.edge v (.inl hv) hvp, hl]; rfl
    have hr2 : m2.root ≠ some v := by rw [a2.rest.root]; exact hr
    by_cases hvis : v ∈ vis
    · have hnv : ∀ d, ¬ Via m2 isF v d := by
        intro d hd
        cases hd with
        | here h _ _ => rw [hl2] at h; cases h
        | skip h _ _ _ => rw [hl2] at h; cases h
      obtain ⟨m3, b1, b2⟩ := C21_remove_leaf_partial w2 E (f := .ptr (some v)) (i := v) (by simp [FModel.resolve]) ((k2 v).2 hv)
        hr2 hnv (.inl hl2)
      have cut := cut_below w2 ((k2 v).2 hv) hr2
      have w3 := without_wf w2 b2 cut
      have honly : ∀ x, Owned m2 x ∧ Below m2 v x → x = v := by
        rintro x ⟨ho, hb⟩
        rcases w2.below_down hb ho with h | ⟨d, hd, _⟩
        · exact h.symm
        · rw [hl2] at hd; cases hd
      refine ⟨m3, ?_, w3, ?_, ?_, ?_, ?_⟩
      · simp only [moveRemoveIn, hqv, not_false_eq_true, and_self, if_true, a1, Option.bind_some, hvis]
        exact oneCall_ok w2 w3 b1
      · intro x hx hs
        exact (b2.known x).2 ⟨(k2 x).2 hx, fun h => hs (honly x h) (by rw [honly x h]; exact hvis)⟩
      · rintro x p' rfl _ hk
        exact absurd ⟨.inl ((k2 x).2 hv), .refl⟩ ((b2.known x).1 hk).2
      · show m3.next ≤ m1.next
        rw [b2.next, a2.rest.next]
        exact Nat.le_refl _
      · intro h; exact absurd (List.mem_cons_self ..) h
    · refine ⟨m2, ?_, w2, fun x hx _ => (k2 x).2 hx, ?_, ?_, ?_⟩
      · simp only [moveRemoveIn, hqv, not_false_eq_true, and_self, if_true, a1, Option.bind_some, hvis, if_false]
      · rintro x p' rfl _ _
        rw [moved_fparent a2 (w.known_data hp) (w.known_data hc), if_neg hvc]
      · show m2.next ≤ m1.next
        rw [a2.rest.next]
        exact Nat.le_refl _
      · intro h; exact absurd (List.mem_cons_self ..) h
  · refine ⟨m1, by simp only [moveRemoveIn, hq, if_false], w1, fun x hx _ => hx, fun _ _ _ _ _ => Iff.rfl, hn, ?_⟩
    intro h
    exact h1 (fun h' => h (List.mem_cons_of_mem _ h'))

/-- Moving a feature and removing another, a leaf that was visited before, in one round: the loop is defined and ends, the
    removed one was visited once, and besides the root exactly the features are visited that are children of a visited
    feature at the end of its round. -/
theorem C89_move_and_remove (w : WF m) (E : Env) {q p c v : Id} (hp : Known m p) (hc : Known m c) (hroot : m.root ≠ some c)
    (hb : ¬ Below m c p) (hv : Known m v) (hr : m.root ≠ some v) (hl : edg m v = []) (hvp : v ≠ p) (hvc : v ≠ c)
    {fuel : Nat} (hf : 1 + 2 * (m.next + 1) * m.next < fuel) :
    ∃ t, m.editing E (moveRemoveIn E q p c v) fuel = .done t ∧ Rounds (moveRemoveIn E q p c v) [] m t ∧
      (t.map Prod.fst).count v ≤ 1 ∧
      ∀ x, x ∈ t.map Prod.fst ↔ m.root = some x ∨ ∃ e ∈ t, Known e.2 x ∧ FParent e.2 x e.1 := by
  have h := moveRemoveIn_edits w E (q := q) hp hc hroot hb hv hr hl hvp hvc
  have hP : (fun vis (m1 : FModel) => m1.next ≤ m.next ∧ (q ∉ vis → m1 = m)) [] m := ⟨Nat.le_refl _, fun _ => rfl⟩
  obtain ⟨t, ht⟩ := C89_any_edit_ends h w hP E (N := m.next) (fun _ _ h => h.1) hf
  rcases C89_any_edit h w hP E fuel with g0 | ⟨t', g1, g2, g3, g4⟩
  · rw [g0] at ht; cases ht
  rw [g1] at ht; cases ht
  exact ⟨t, g1, g2, g3 v rfl, g4⟩

/-- root with children A, B, C, D. -/
def fourKids : FModel :=
  ofNodes [featNode "root" none [1, 2, 3, 4] .root, featNode "A" (some 0) [], featNode "B" (some 0) [], featNode "C" (some 0) [],
           featNode "D" (some 0) []]
    (some 0) [(c!"root", 0), (c!"A", 1), (c!"B", 2), (c!"C", 3), (c!"D", 4)] []

theorem fourKids_wf : WF fourKids := wf_of_check (fun i => i) (ofNodes_fresh _ _ _ _ _) (by decide)

/-- While visiting B: D is moved below B and A is removed; D still waits and is visited again. -/
example : (fourKids.editing (stdEnv true) (moveRemoveIn (stdEnv true) 2 2 4 1) 62).visited = some [0, 1, 2, 4, 3, 4] := by decide

/-- `C89_move_and_remove` applies to it. -/
example : WF fourKids ∧ Known fourKids 2 ∧ Known fourKids 4 ∧ ¬ Below fourKids 4 2 ∧ edg fourKids 1 = [] := by
  refine ⟨fourKids_wf, by decide, by decide, ?_, rfl⟩
  intro h
  cases h with
  | step hp hb =>
    have h0 : par fourKids 2 = some 0 := rfl
    rw [h0] at hp; cases hp
    cases hb with
    | step hp _ => cases hp

/-- In the round of `s`, `v` is removed after the move in the round of `q`. -/
def moveThenRemove (E : Env) (q p c s v : Id) : List Id → FModel → Id → Option FModel :=
  fun vis m f => (moveIn E q p c vis m f).bind fun m => removeIn E s v vis m f

/-- The condition that a feature that is removed was not moved is needed: C is moved below A while that is visited, so that
    it waits twice, and is removed between its two turns. -/
theorem C89_moved_then_removed : WF fourKids ∧
    fourKids.editing (stdEnv true) (moveThenRemove (stdEnv true) 1 1 3 2 3) 62 = .ub := by
  refine ⟨fourKids_wf, ?_⟩
  have h : (match fourKids.editing (stdEnv true) (moveThenRemove (stdEnv true) 1 1 3 2 3) 62 with | .ub => true | _ => false) = true := by
    decide
  revert h
  cases fourKids.editing (stdEnv true) (moveThenRemove (stdEnv true) 1 1 3 2 3) 62 <;> simp

end Props
end Verif

import Verif.FM.MoveLoop
import Verif.Props.EditWhileIterating
/-!
# C89: moving features while iterating over a model
-/

namespace Verif.Props
open Verif Verif.Spec FModel

variable {m : FModel} {body : List Id → FModel → Id → Option FModel} {P : List Id → FModel → Prop}

/-- A loop whose body moves and adds features but removes none is defined.  Besides the root it visits exactly the features
    that are children of a visited feature when the body is through with that one. -/
theorem C89_moving (hb : Roams P body) (w : WF m) (hP : P [] m) (E : Env) (fuel : Nat) :
    m.editing E body fuel = .endless ∨
    ∃ t, m.editing E body fuel = .done t ∧ Rounds body [] m t ∧
      ∀ x, x ∈ t.map Prod.fst ↔ m.root = some x ∨ ∃ e ∈ t, Known e.2 x ∧ FParent e.2 x e.1 := by
  obtain ⟨r, _, hr, _⟩ := w.root_ok
  rw [editing_eq w E hr]
  have hk : ∀ y ∈ [r], Known m y := by
    intro y hy; simp at hy; subst hy; exact w.root_known hr
  rcases editLoop_roams hb E (stop := ⟨[], []⟩) rfl fuel m [] [r] hP w hk with h | ⟨t, h1, h2, _, h5⟩
  · exact .inl h.1
  · refine .inr ⟨t, h1, h2, fun x => ?_⟩
    have := h5 x
    rw [hr]
    simpa [eq_comm] using this

/-- It ends, although features can be visited again, if there is a bound on the objects the model ever has. -/
theorem C89_moving_ends (hb : Roams P body) (w : WF m) (hP : P [] m) (E : Env) {N fuel : Nat} (hN : ∀ vis m, P vis m → m.next ≤ N)
    (hf : 1 + 2 * (N + 1) * N < fuel) : ∃ t, m.editing E body fuel = .done t := by
  obtain ⟨r, _, hr, _⟩ := w.root_ok
  rw [editing_eq w E hr]
  have hk : ∀ y ∈ [r], Known m y := by
    intro y hy; simp at hy; subst hy; exact w.root_known hr
  rcases editLoop_roams hb E (stop := ⟨[], []⟩) rfl fuel m [] [r] hP w hk with ⟨_, h⟩ | ⟨t, h1, _⟩
  · have := h N hN
    have hu : (unseen N []).length = N := by
      unfold unseen
      rw [List.filter_eq_self.2 (by simp)]; simp
    rw [leftOver_cons, hu] at this
    simp at this
    omega
  · exact ⟨t, h1⟩

/-! ### One move -/

/-- `for (F : FM) if (F == q) { …; FT.addChild(p, c); FT.commit(); }`: in the (first) round of `q`, `c` is moved below `p`. -/
def moveIn (E : Env) (q p c : Id) : List Id → FModel → Id → Option FModel :=
  fun vis m f => if f = q ∧ q ∉ vis then m.oneCall E (.addChild (.ptr (some p)) (.ptr (some c))) else some m

theorem oneCall_moved (w : WF m) (E : Env) {p c : Id} (hp : Known m p) (hc : Known m c) (hroot : m.root ≠ some c) (hb : ¬ Below m c p) :
    ∃ m', m.oneCall E (.addChild (.ptr (some p)) (.ptr (some c))) = some m' ∧ WF m' ∧ Moved m m' p c := by
  have hne : c ≠ p := by rintro rfl; exact hb .refl
  obtain ⟨m', h1, h2⟩ := execAddChild_ok w (pr := .ptr (some p)) (cr := .ptr (some c)) rfl rfl (.inl hp) (.inl hc) hroot hne
  have w' := wf_of_moved w h2 (.inl hp) (.inl hc) hroot hb
  exact ⟨m', oneCall_ok w w' h1, w', h2⟩

theorem moveIn_roams (w : WF m) (E : Env) {q p c : Id} (hp : Known m p) (hc : Known m c) (hroot : m.root ≠ some c) (hb : ¬ Below m c p) :
    Roams (fun vis m1 => if q ∈ vis then Moved m m1 p c else m1 = m) (moveIn E q p c) := by
  intro vis m1 f hP w1 hf
  by_cases hq : q ∈ vis
  · simp only [if_pos hq] at hP
    refine ⟨m1, by simp [moveIn, hq], w1, fun _ h => h, ?_⟩
    simpa [hq] using hP
  · simp only [if_neg hq] at hP
    subst hP
    by_cases hfq : f = q
    · subst hfq
      obtain ⟨m', a1, a2, a3⟩ := oneCall_moved w E hp hc hroot hb
      refine ⟨m', by simp only [moveIn, hq]; simpa using a1, a2, ?_, by simpa using a3⟩
      intro x hx
      unfold Known
      rw [a3.rest.features]; exact hx
    · refine ⟨m1, by simp [moveIn, hfq], w1, fun _ h => h, ?_⟩
      have : q ≠ f := fun h => hfq h.symm
      simp [hq, this]

/-- Moving one feature `c`, while visiting `q`, below a feature `p`: the loop is defined and ends, every feature that is not
    in the subtree of `c` is visited, and `c` is visited exactly if its parent was passed before the move or its new parent
    is passed from then on. -/
theorem C89_move_one (w : WF m) (E : Env) {q p c o : Id} (hp : Known m p) (hc : Known m c) (hroot : m.root ≠ some c)
    (hb : ¬ Below m c p) (ho : FParent m c o) {fuel : Nat} (hf : 1 + 2 * (m.next + 1) * m.next < fuel) :
    ∃ t, m.editing E (moveIn E q p c) fuel = .done t ∧ Rounds (moveIn E q p c) [] m t ∧
      (∀ x, Known m x → ¬ Below m c x → x ∈ t.map Prod.fst) ∧
      (c ∈ t.map Prod.fst ↔ ∃ t1 e t2, t = t1 ++ e :: t2 ∧
        ((e.1 = o ∧ q ∉ (t1 ++ [e]).map Prod.fst) ∨ (e.1 = p ∧ q ∈ (t1 ++ [e]).map Prod.fst))) := by
  have hr := moveIn_roams w E (q := q) hp hc hroot hb
  have hP : (fun vis m1 => if q ∈ vis then Moved m m1 p c else m1 = m) [] m := by simp
  obtain ⟨t, ht⟩ := C89_moving_ends hr w hP E (N := m.next) (fuel := fuel) (by
    intro vis m1 h
    by_cases hv : q ∈ vis
    · simp only [if_pos hv] at h; exact Nat.le_of_eq h.rest.next
    · simp only [if_neg hv] at h; rw [h]; exact Nat.le_refl _) hf
  rcases C89_moving hr w hP E fuel with g0 | ⟨t', g1, g2, g3⟩
  · rw [g0] at ht; cases ht
  rw [g1] at ht; cases ht
  have fp := w.known_data hp
  have fc := w.known_data hc
  have model : ∀ t1 e t2, t = t1 ++ e :: t2 →
      (q ∈ (t1 ++ [e]).map Prod.fst ∧ Moved m e.2 p c) ∨ (q ∉ (t1 ++ [e]).map Prod.fst ∧ e.2 = m) := by
    rintro t1 e t2 rfl
    obtain ⟨vis', a1, _, a3⟩ := rounds_holds hr g2 hP w
    have hiff : q ∈ e.1 :: vis' ↔ q ∈ (t1 ++ [e]).map Prod.fst := by
      simp only [List.mem_cons, a3, List.map_append, List.mem_append, List.map_cons, List.map_nil]
      simp [or_comm]
    by_cases hq : q ∈ e.1 :: vis'
    · simp only [if_pos hq] at a1
      exact .inl ⟨hiff.1 hq, a1⟩
    · simp only [if_neg hq] at a1
      exact .inr ⟨fun h => hq (hiff.2 h), a1⟩
  have known : ∀ e ∈ t, ∀ x, Known e.2 x ↔ Known m x := by
    intro e he x
    obtain ⟨t1, t2, h⟩ := List.append_of_mem he
    rcases model t1 e t2 h with ⟨_, hm⟩ | ⟨_, hm⟩
    · unfold Known; rw [hm.rest.features]
    · rw [hm]
  refine ⟨t, g1, g2, ?_, ?_⟩
  · -- by induction on the level
    suffices h : ∀ n x, lvlOf m x = n → Known m x → ¬ Below m c x → x ∈ t.map Prod.fst from fun x => h _ x rfl
    intro n
    induction n using Nat.strongRecOn with
    | _ n ih =>
      intro x hn hx hbx
      rw [g3 x]
      by_cases hrx : m.root = some x
      · exact .inl hrx
      · obtain ⟨p', hp', kp'⟩ := w.has_fparent (.inl hx) hrx
        have hl := fparent_level w (.inl hx) hp'
        have hin := ih (lvlOf m p') (by omega) p' rfl kp' (fun h => hbx (h.trans (fparent_isBelow hp')))
        obtain ⟨e, he, he1⟩ := List.mem_map.1 hin
        refine .inr ⟨e, he, (known e he x).2 hx, ?_⟩
        obtain ⟨t1, t2, h⟩ := List.append_of_mem he
        rw [he1]
        rcases model t1 e t2 h with ⟨_, hm⟩ | ⟨_, hm⟩
        · have hxc : x ≠ c := fun h => hbx (h ▸ .refl)
          rw [moved_fparent hm fp fc, if_neg hxc]; exact hp'
        · rw [hm]; exact hp'
  · rw [g3 c]
    constructor
    · rintro (h | ⟨e, he, _, h⟩)
      · exact absurd h hroot
      · obtain ⟨t1, t2, ht⟩ := List.append_of_mem he
        refine ⟨t1, e, t2, ht, ?_⟩
        rcases model t1 e t2 ht with ⟨hq, hm⟩ | ⟨hq, hm⟩
        · rw [moved_fparent hm fp fc, if_pos rfl] at h
          exact .inr ⟨h, hq⟩
        · rw [hm] at h
          exact .inl ⟨h.functional ho, hq⟩
    · rintro ⟨t1, e, t2, ht, h⟩
      have he : e ∈ t := by rw [ht]; simp
      refine .inr ⟨e, he, (known e he c).2 hc, ?_⟩
      rcases model t1 e t2 ht with ⟨hq, hm⟩ | ⟨hq, hm⟩
      · rcases h with ⟨_, h⟩ | ⟨h, _⟩
        · exact absurd hq h
        · rw [moved_fparent hm fp fc, if_pos rfl]; exact h
      · rcases h with ⟨h, _⟩ | ⟨_, h⟩
        · rw [hm, h]; exact ho
        · exact absurd h hq

/-- Not vacuous: in root(A(B), C), `C` is moved below `A` while `A` is visited. -/
example (asserts : Bool) : ∃ t, chain.editing (stdEnv asserts) (moveIn (stdEnv asserts) 1 1 3) 42 = .done t := by
  obtain ⟨t, h, _⟩ := C89_move_one chain_wf (stdEnv asserts) (q := 1) (p := 1) (c := 3) (o := 0) (fuel := 42)
    (by simp [Known, chain, ofNodes]) (by simp [Known, chain, ofNodes]) (by simp [chain, ofNodes])
    (by
      have hp1 : par chain 1 = some 0 := by decide
      have hp0 : par chain 0 = none := by decide
      intro h
      cases h with
      | step h1 h2 =>
        rw [hp1] at h1; cases h1
        cases h2 with
        | step h3 _ => rw [hp0] at h3; cases h3) (.direct (by decide) ⟨_, rfl⟩) (by decide)
  exact ⟨t, h⟩

theorem sublist_pair_cons {f c x : Id} {l : List Id} (h : [f, c].Sublist (x :: l)) : x = f ∧ c ∈ l ∨ [f, c].Sublist l := by
  cases h with
  | cons _ h => exact .inr h
  | cons_cons _ h => exact .inl ⟨rfl, List.singleton_sublist.1 h⟩

/-- `[c, c]` waits: it is visited twice. -/
theorem twice_of_waiting (hb : Roams P body) (E : Env) {n : Nat} {vis fr : List Id} {c : Id} {t : List (Id × FModel)} (hP : P vis m)
    (w : WF m) (hk : ∀ y ∈ fr, Known m y) (h2 : [c, c].Sublist fr) (h : editLoop E body ⟨[], []⟩ n m ⟨fr, vis⟩ = .done t) :
    [c, c].Sublist (t.map Prod.fst) := by
  rcases editLoop_roams hb E (stop := ⟨[], []⟩) rfl n m vis fr hP w hk with ⟨h', _⟩ | ⟨t', h', _, hs, _⟩
  · rw [h'] at h; cases h
  · rw [h'] at h; cases h; exact h2.trans hs

theorem move_back_loop (E : Env) {f c o : Id} (hc : Known m c) (hroot : m.root ≠ some c) (hbl : ¬ Below m c f)
    (hof : FParent m f o) (hord : ∀ l, Kids m o l → [f, c].Sublist l) (hfk : Known m f) :
    ∀ n vis fr t, Walking m vis fr → f ∉ vis → (o ∉ vis ∧ o ∈ t.map Prod.fst ∨ [f, c].Sublist fr) →
      editLoop E (moveIn E f f c) ⟨[], []⟩ n m ⟨fr, vis⟩ = .done t → [c, c].Sublist (t.map Prod.fst) := by
  intro n
  induction n with
  | zero => intro vis fr t _ _ _ h; cases h
  | succ n ih =>
    intro vis fr t I hfv hst h
    have w := I.wf
    have hr := moveIn_roams w E (q := f) hfk hc hroot hbl
    cases fr with
    | nil =>
      simp [editLoop, DFS.eq] at h
      subst h
      rcases hst with ⟨_, h⟩ | h
      · cases h
      · cases h
    | cons x rest =>
      have hx := I.known x (List.mem_cons_self ..)
      obtain ⟨d, hd⟩ := w.known_data hx
      have hne : DFS.eq m ⟨x :: rest, vis⟩ ⟨[], []⟩ = false := by simp [DFS.eq]
      by_cases hxf : x = f
      · subst hxf
        have hrest : c ∈ rest := by
          rcases hst with ⟨ho, _⟩ | hst
          · exact absurd (I.up x (List.mem_cons_self ..) o hof) ho
          · rcases sublist_pair_cons hst with ⟨_, h⟩ | h
            · exact h
            · exact absurd (h.subset (List.mem_cons_self ..)) (List.nodup_cons.1 I.nodup).1
        obtain ⟨m', a1, w', a3⟩ := oneCall_moved w E hfk hc hroot hbl
        obtain ⟨cs, hn, hnd, hcs⟩ := roaming_step w' E (f := x) (by unfold Known; rw [a3.rest.features]; exact hx) rest vis
        have hm : moveIn E x x c vis m x = some m' := by simp only [moveIn, hfv]; simpa using a1
        simp only [editLoop, hne, Bool.false_eq_true, if_false, heap_of_data hd, hm, hn] at h
        cases hrec : editLoop E (moveIn E x x c) ⟨[], []⟩ n m' ⟨cs ++ rest, x :: vis⟩ with
        | ub => rw [hrec] at h; cases h
        | endless => rw [hrec] at h; cases h
        | done t' =>
          rw [hrec] at h; cases h
          simp only [List.map_cons]
          apply List.Sublist.cons
          have hcc : c ∈ cs := by
            rw [hcs]
            refine ⟨⟨by unfold Known; rw [a3.rest.features]; exact hc, ?_⟩, ?_⟩
            · rw [moved_fparent a3 (w.known_data hfk) (w.known_data hc), if_pos rfl]
            · intro hin
              rcases List.mem_cons.1 hin with rfl | hin
              · exact hbl .refl
              · exact I.apart c (List.mem_cons_of_mem _ hrest) hin
          refine twice_of_waiting hr E (vis := x :: vis) (by simpa using a3) w' ?_ ?_ hrec
          · intro y hy
            rcases List.mem_append.1 hy with hy | hy
            · exact ((hcs y).1 hy).1.1
            · unfold Known; rw [a3.rest.features]; exact I.known y (List.mem_cons_of_mem _ hy)
          · exact (List.singleton_sublist.2 hcc).append (List.singleton_sublist.2 hrest)
      · have hm : moveIn E f f c vis m x = some m := by simp [moveIn, hxf]
        obtain ⟨cs, hn, I', hcs⟩ := walking_step E I (gentle_refl w vis)
        have hcs' : x = o → [f, c].Sublist cs := by
          rintro rfl
          obtain ⟨ks, hk1, hk2⟩ := sortedChildren_spec w E hx
          have e1 := hn
          simp only [DFS.next, hk1, Option.some.injEq, DFS.mk.injEq, and_true] at e1
          have e2 := List.append_cancel_right e1
          have hall : ks.filter (fun c => !decide (c ∈ x :: vis)) = ks := by
            rw [List.filter_eq_self]
            intro a ha
            have : a ∈ cs := by
              rw [hcs]
              exact (via_iff_fparent w (.inl hx) (w.known_data hx)).1 ((hk2.mem a).1 (List.mem_reverse.2 ha))
            have := I'.apart a (List.mem_append_left _ this)
            simpa using this
          rw [hall] at e2
          rw [← e2]
          exact hord _ hk2
        simp only [editLoop, hne, Bool.false_eq_true, if_false, heap_of_data hd, hm, hn] at h
        cases hrec : editLoop E (moveIn E f f c) ⟨[], []⟩ n m ⟨cs ++ rest, x :: vis⟩ with
        | ub => rw [hrec] at h; cases h
        | endless => rw [hrec] at h; cases h
        | done t' =>
          rw [hrec] at h; cases h
          simp only [List.map_cons]
          apply List.Sublist.cons
          refine ih (x :: vis) (cs ++ rest) t' I' ?_ ?_ hrec
          · intro hin
            rcases List.mem_cons.1 hin with rfl | hin
            · exact hxf rfl
            · exact hfv hin
          · rcases hst with ⟨h1, h2⟩ | hst
            · by_cases hxo : x = o
              · exact .inr ((hcs' hxo).trans (List.sublist_append_left _ _))
              · refine .inl ⟨?_, ?_⟩
                · intro hin
                  rcases List.mem_cons.1 hin with rfl | hin
                  · exact hxo rfl
                  · exact h1 hin
                · simp only [List.map_cons] at h2
                  rcases List.mem_cons.1 h2 with rfl | h2
                  · exact absurd rfl hxo
                  · exact h2
            · rcases sublist_pair_cons hst with ⟨h, _⟩ | h
              · exact absurd h hxf
              · exact .inr (h.trans (List.sublist_append_right _ _))

theorem pair_sublist {f c : Id} {l : List Id} (hf : f ∈ l) (hc : c ∈ l) (hne : f ≠ c) : [f, c].Sublist l ∨ [c, f].Sublist l := by
  induction l with
  | nil => cases hf
  | cons x l ih =>
    rcases List.mem_cons.1 hf with rfl | hf'
    · rcases List.mem_cons.1 hc with rfl | hc
      · exact absurd rfl hne
      · exact .inl ((List.singleton_sublist.2 hc).cons_cons _)
    · rcases List.mem_cons.1 hc with rfl | hc
      · exact .inr ((List.singleton_sublist.2 hf').cons_cons _)
      · rcases ih hf' hc with h | h
        · exact .inl (h.cons _)
        · exact .inr (h.cons _)

/-- So the claim is false for moves: a feature moved, while a sibling earlier in the alphabet is visited, below that sibling
    is visited twice — in every model with such features. -/
theorem C89_move_twice (w : WF m) (E : Env) {f c o : Id} (hf : Known m f) (hc : Known m c) (hof : FParent m f o) (hoc : FParent m c o)
    (hord : strLt (m.low f) (m.low c) = true) {fuel : Nat} (hfuel : 1 + 2 * (m.next + 1) * m.next < fuel) :
    ∃ t, m.editing E (moveIn E f f c) fuel = .done t ∧ [c, c].Sublist (t.map Prod.fst) := by
  have hne : f ≠ c := by rintro rfl; rw [strLt_irrefl] at hord; cases hord
  have hroot : m.root ≠ some c := by
    intro h
    have := w.root_par h
    cases hoc with
    | direct h1 _ => rw [this] at h1; cases h1
    | skip h1 _ _ => rw [this] at h1; cases h1
  have ko := fparent_fst w (.inl hc) hoc
  have hbl : ¬ Below m c f := by
    intro hb
    have h1 := fparent_above hof hb hne.symm (w.known_data hc)
    have h2 := w.below_level (.inl ko) h1
    have h3 := fparent_level w (.inl hc) hoc
    omega
  have hkids : ∀ l, Kids m o l → [f, c].Sublist l := by
    intro l hl
    have via : ∀ x, Known m x → FParent m x o → x ∈ l := fun x kx hx =>
      (hl.mem x).2 ((via_iff_fparent w (.inl ko) (w.known_data ko)).2 ⟨kx, hx⟩)
    rcases pair_sublist (via f hf hof) (via c hc hoc) hne with h | h
    · exact h
    · have := hl.sorted.sublist h
      simp only [List.pairwise_cons, List.mem_singleton, forall_eq] at this
      rw [this.1] at hord; cases hord
  obtain ⟨t, h1, _, h2, _⟩ := C89_move_one w E (q := f) hf hc hroot hbl hoc hfuel
  refine ⟨t, h1, ?_⟩
  obtain ⟨r, _, hr, _⟩ := w.root_ok
  rw [editing_eq w E hr] at h1
  refine move_back_loop E hc hroot hbl hof hkids hf fuel [] [r] t (walking_start w hr) (by simp) (.inl ⟨by simp, ?_⟩) h1
  refine h2 o ko (fun hb => ?_)
  have h2 := w.below_level (.inl ko) hb
  have h3 := fparent_level w (.inl hc) hoc
  omega

/-- Not vacuous: `A` and `C` of root(A(B), C). -/
example (asserts : Bool) : ∃ t, chain.editing (stdEnv asserts) (moveIn (stdEnv asserts) 1 1 3) 42 = .done t ∧
    [3, 3].Sublist (t.map Prod.fst) :=
  C89_move_twice chain_wf (stdEnv asserts) (o := 0) (by simp [Known, chain, ofNodes]) (by simp [Known, chain, ofNodes])
    (.direct (by decide) ⟨_, rfl⟩) (.direct (by decide) ⟨_, rfl⟩) (by decide) (by decide)

/-- And one that waits for its parent, moved below a feature already passed, is not visited at all: in root(A(B), C), `B`
    is moved below the root while `A` is visited. -/
theorem C89_move_lost (asserts : Bool) :
    WF chain ∧ Known chain 2 ∧ (chain.editing (stdEnv asserts) (moveIn (stdEnv asserts) 1 0 2) 9).visited = some [0, 1, 3] :=
  ⟨chain_wf, by simp [Known, chain, ofNodes], by cases asserts <;> decide⟩

/-- Moved below `C`, which is still to come, it is visited. -/
example (asserts : Bool) : (chain.editing (stdEnv asserts) (moveIn (stdEnv asserts) 1 3 2) 9).visited = some [0, 1, 3, 2] ∧
    (chain.editing (stdEnv asserts) (moveIn (stdEnv asserts) 1 1 3) 9).visited = some [0, 1, 2, 3, 3] := by
  cases asserts <;> decide

end Verif.Props

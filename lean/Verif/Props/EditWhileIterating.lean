import Verif.FM.EditLoop
import Verif.FM.SessionLemmas
import Verif.FM.Examples
import Verif.Props.FeatureTree
/-!
# C89: editing a model while iterating over it
-/

namespace Verif.Props
open Verif Verif.Spec FModel

variable {m : FModel} {body : List Id → FModel → Id → Option FModel} {P : List Id → FModel → Prop}

theorem editing_eq (w : WF m) (E : Env) {r : Id} (hr : m.root = some r) (fuel : Nat) :
    m.editing E body fuel = editLoop E body ⟨[], []⟩ fuel m ⟨[r], []⟩ := by
  simp [editing, end_empty w, begin, hr, DFS.mk']

/-- A loop whose body adds features, or removes ones it has already passed, is defined.  It visits no feature twice.
    Besides the root it visits exactly the features that are children of a visited feature when the body is through with
    that one. -/
theorem C89_visits (hb : Keeps P body) (w : WF m) (hP : P [] m) (E : Env) (fuel : Nat) :
    m.editing E body fuel = .endless ∨
    ∃ t, m.editing E body fuel = .done t ∧ Ran body [] m t ∧ (t.map Prod.fst).Nodup ∧
      ∀ x, x ∈ t.map Prod.fst ↔ m.root = some x ∨ ∃ e ∈ t, Known e.2 x ∧ FParent e.2 x e.1 := by
  obtain ⟨r, _, hr, _⟩ := w.root_ok
  rw [editing_eq w E hr]
  rcases editLoop_spec hb E (stop := ⟨[], []⟩) rfl fuel m [] [r] hP (walking_start w hr) with h | ⟨t, h1, h2, h3, _, h5⟩
  · exact .inl h.1
  · refine .inr ⟨t, h1, h2, h3, fun x => ?_⟩
    rw [h5 x, hr]
    simp [eq_comm]

/-- It ends if there is a bound on the objects the model ever has, after at most that many rounds. -/
theorem C89_ends (hb : Keeps P body) (w : WF m) (hP : P [] m) (E : Env) {N fuel : Nat} (hN : ∀ vis m, P vis m → m.next ≤ N)
    (hf : N < fuel) : ∃ t, m.editing E body fuel = .done t ∧ t.length ≤ N := by
  obtain ⟨r, _, hr, _⟩ := w.root_ok
  rw [editing_eq w E hr]
  have short : ∀ n t, editLoop E body ⟨[], []⟩ n m ⟨[r], []⟩ = .done t → t.length < n := by
    suffices h : ∀ n m it t, editLoop E body ⟨[], []⟩ n m it = .done t → t.length < n from fun n t => h n m _ t
    intro n
    induction n with
    | zero => intro m it t h; cases h
    | succ n ih =>
      intro m it t h
      unfold editLoop at h
      by_cases he : it.eq m ⟨[], []⟩ = true
      · rw [if_pos he] at h; cases h; simp
      · rw [if_neg he] at h
        cases hfr : it.frontier with
        | nil => simp [hfr] at h
        | cons f rest =>
          simp only [hfr] at h
          cases hh : m.heap f with
          | none => simp [hh] at h
          | some nd =>
            simp only [hh] at h
            cases hbd : body it.visited m f with
            | none => simp [hbd] at h
            | some m' =>
              simp only [hbd] at h
              cases hnx : it.next m' E with
              | none => simp [hnx] at h
              | some it' =>
                simp only [hnx] at h
                cases hrec : editLoop E body ⟨[], []⟩ n m' it' with
                | done t' =>
                  rw [hrec] at h
                  cases h
                  have := ih _ _ _ hrec
                  simp; omega
                | ub => rw [hrec] at h; cases h
                | endless => rw [hrec] at h; cases h
  have more : ∀ n k m it t, editLoop E body ⟨[], []⟩ n m it = .done t → editLoop E body ⟨[], []⟩ (n + k) m it = .done t := by
    intro n k
    induction n with
    | zero => intro m it t h; cases h
    | succ n ih =>
      intro m it t h
      have e : n + 1 + k = (n + k) + 1 := by omega
      rw [e]
      unfold editLoop at h ⊢
      by_cases he : it.eq m ⟨[], []⟩ = true
      · rw [if_pos he] at h ⊢; exact h
      · rw [if_neg he] at h ⊢
        cases hfr : it.frontier with
        | nil => simp [hfr] at h
        | cons f rest =>
          simp only [hfr] at h ⊢
          cases hh : m.heap f with
          | none => simp [hh] at h
          | some nd =>
            simp only [hh] at h ⊢
            cases hbd : body it.visited m f with
            | none => simp [hbd] at h
            | some m' =>
              simp only [hbd] at h ⊢
              cases hnx : it.next m' E with
              | none => simp [hnx] at h
              | some it' =>
                simp only [hnx] at h ⊢
                cases hrec : editLoop E body ⟨[], []⟩ n m' it' with
                | done t' =>
                  rw [hrec] at h
                  rw [ih _ _ _ hrec]
                  exact h
                | ub => rw [hrec] at h; cases h
                | endless => rw [hrec] at h; cases h
  rcases editLoop_spec hb E (stop := ⟨[], []⟩) rfl (N + 1) m [] [r] hP (walking_start w hr) with h | ⟨t, h1, _⟩
  · have := h.2 N hN; simp at this; omega
  · obtain ⟨k, rfl⟩ := Nat.exists_eq_add_of_le (show N + 1 ≤ fuel by omega)
    exact ⟨t, more _ k _ _ _ h1, Nat.le_of_lt_succ (short _ _ h1)⟩

/-- Every feature of the model that is not removed meanwhile is visited. -/
theorem C89_all_old (hb : Keeps P body) (w : WF m) (hP : P [] m) (E : Env) {fuel : Nat} {t : List (Id × FModel)}
    (h : m.editing E body fuel = .done t) {x : Id} (hx : Known m x) (hs : ∀ e ∈ t, Known e.2 x) : x ∈ t.map Prod.fst := by
  rcases C89_visits hb w hP E fuel with h0 | ⟨t', h1, h2, _, h4⟩
  · rw [h0] at h; cases h
  rw [h1] at h; cases h
  suffices H : ∀ n x, lvlOf m x = n → Known m x → (∀ e ∈ t, Known e.2 x) → x ∈ t.map Prod.fst from H _ x rfl hx hs
  intro n
  induction n using Nat.strongRecOn with
  | _ n ih =>
    intro x hn hx hs
    by_cases hr : m.root = some x
    · exact (h4 x).2 (.inl hr)
    · obtain ⟨p, hp, kp⟩ := w.has_fparent (.inl hx) hr
      have hpar := ran_parent hb (p := p) h2 hP w hx hs
      have hpk : ∀ e ∈ t, Known e.2 p := fun e he =>
        fparent_fst (hpar e he).1 (.inl (hs e he)) ((hpar e he).2.2 hp)
      have hl := fparent_level w (.inl hx) hp
      obtain ⟨e, he, rfl⟩ := List.mem_map.1 (ih _ (by omega) p rfl kp hpk)
      exact (h4 x).2 (.inr ⟨e, he, hs e he, (hpar e he).2.2 hp⟩)

/-- A feature added in some round, which then stays, is visited exactly if its parent is visited in the same round or
    later. -/
theorem C89_new (hb : Keeps P body) (w : WF m) (hP : P [] m) (E : Env) {fuel : Nat} {t1 t2 : List (Id × FModel)} {e : Id × FModel}
    (h : m.editing E body fuel = .done (t1 ++ e :: t2)) {x p : Id} (h0 : ¬ Known m x) (h1 : ∀ d ∈ t1, ¬ Known d.2 x)
    (h2 : Known e.2 x) (h3 : ∀ d ∈ t2, Known d.2 x) (hp : FParent e.2 x p) :
    x ∈ (t1 ++ e :: t2).map Prod.fst ↔ p ∈ e.1 :: t2.map Prod.fst := by
  rcases C89_visits hb w hP E fuel with g0 | ⟨t', g1, g2, _, g4⟩
  · rw [g0] at h; cases h
  rw [g1] at h; cases h
  obtain ⟨vis', k1, k2, k3⟩ := ran_split hb g2 hP w
  have hpar : ∀ q, ∀ d ∈ t2, (FParent d.2 x q ↔ FParent e.2 x q) := fun q d hd => (ran_parent hb k3 k1 k2 h2 h3 d hd).2
  rw [g4 x]
  constructor
  · rintro (hr | ⟨d, hd, kd, pd⟩)
    · exact absurd (w.root_known hr) h0
    · rcases List.mem_append.1 hd with hd | hd
      · exact absurd kd (h1 d hd)
      · rcases List.mem_cons.1 hd with rfl | hd
        · rw [hp.functional pd]; exact List.mem_cons_self ..
        · rw [hp.functional ((hpar _ d hd).1 pd)]
          exact List.mem_cons_of_mem _ (List.mem_map_of_mem hd)
  · intro hin
    rcases List.mem_cons.1 hin with rfl | hin
    · exact .inr ⟨e, by simp, h2, hp⟩
    · obtain ⟨d, hd, rfl⟩ := List.mem_map.1 hin
      exact .inr ⟨d, by simp [hd], h3 d hd, (hpar _ d hd).2 hp⟩

/-! ## Programs -/

/-- `for f in fm: pass`. -/
def idle : List Id → FModel → Id → Option FModel := fun _ m _ => some m

/-- A loop that changes nothing visits what plain iteration (C25) visits, in that order. -/
theorem C89_idle {E : Env} {l : List Id} (w : WF m) (h : m.iterate E = some l) :
    m.editing E idle (m.next + 1) = .done (l.map (·, m)) := by
  obtain ⟨r, _, hr, _⟩ := w.root_ok
  have key : ∀ fuel fr vis l, Walking m vis fr → m.collect E ⟨[], []⟩ fuel ⟨fr, vis⟩ = some l →
      editLoop E idle ⟨[], []⟩ fuel m ⟨fr, vis⟩ = .done (l.map (·, m)) := by
    intro fuel
    induction fuel with
    | zero => intro fr vis l _ h; cases h
    | succ fuel ih =>
      intro fr vis l I h
      cases fr with
      | nil =>
        have hc : m.collect E ⟨[], []⟩ (fuel + 1) ⟨[], vis⟩ = some [] := by simp [collect, DFS.eq]
        rw [hc] at h; cases h
        simp [editLoop, DFS.eq]
      | cons f rest =>
        obtain ⟨cs, hn, I', _⟩ := walking_step E I (gentle_refl w vis)
        obtain ⟨d, hd⟩ := w.known_data (I.known f (List.mem_cons_self ..))
        have hne : DFS.eq m ⟨f :: rest, vis⟩ ⟨[], []⟩ = false := by simp [DFS.eq]
        simp only [collect, hne, Bool.false_eq_true, if_false, hn] at h
        cases hc : m.collect E ⟨[], []⟩ fuel ⟨cs ++ rest, f :: vis⟩ with
        | none => rw [hc] at h; cases h
        | some l' =>
          rw [hc] at h; cases h
          simp only [editLoop, hne, Bool.false_eq_true, if_false, heap_of_data hd, idle, hn]
          rw [ih _ _ _ I' hc]
          rfl
  rw [editing_eq w E hr]
  refine key _ _ _ _ (walking_start w hr) ?_
  simpa [iterate, end_empty w, begin, hr, DFS.mk'] using h

/-- `for f in fm: if f is q: fm.add_…(p, …)`: one feature is added, in the round of `q`, below `p`. -/
def addIn (E : Env) (q : Id) (a : Attr) (p : Id) : List Id → FModel → Id → Option FModel :=
  fun _ m f => if f = q then m.oneCall E (.addFeature a (some p)) else some m

theorem oneCall_added (w : WF m) (E : Env) {a : Attr} {p : Id} (hn : a.name ∉ m.features.map Prod.fst) (hk : a.kind ≠ .root)
    (hp : Known m p) :
    ∃ m', m.oneCall E (.addFeature a (some p)) = some m' ∧ WF m' ∧ Added m m' m.next a p ∧ m'.next = m.next + 1 := by
  obtain ⟨m', p', h1, h2, h3, h4, h5⟩ := execAddFeature_ok w (parent := some p) hn (fun i hi => by cases hi; exact .inl hp)
  have hpp : p' = p := by
    rcases h5 with h | ⟨h, _⟩
    · cases h; rfl
    · cases h
  subst hpp
  have w' := wf_of_added w h2 (by rw [h3]; exact Nat.lt_succ_self _) (by rw [h3]; exact Nat.le_succ _) hn h4 hk
  exact ⟨m', oneCall_ok w w' h1, w', h2, h3⟩

theorem addIn_keeps (m : FModel) (E : Env) {q p : Id} {a : Attr} (hn : a.name ∉ m.features.map Prod.fst) (hk : a.kind ≠ .root)
    (hp : Known m p) :
    Keeps (fun vis m1 => (∀ z ∈ vis, z < m1.next) ∧ (q ∉ vis → m1 = m) ∧ (q ∈ vis → m1.next = m.next + 1)) (addIn E q a p) := by
  rintro vis m1 f ⟨hv, h1, h2⟩ w1 hf hfv
  by_cases hq : f = q
  · subst hq
    obtain rfl := h1 hfv
    obtain ⟨m', a1, a2, a3, a4⟩ := oneCall_added w1 E hn hk hp
    refine ⟨m', by simp only [addIn, if_true]; exact a1, gentle_added w1 a2 a3 (Nat.le_refl _) ?_, ?_, ?_, ?_⟩
    · intro h; exact Nat.lt_irrefl _ (hv _ h)
    · intro z hz
      rcases List.mem_cons.1 hz with rfl | hz
      · rw [a4]; exact Nat.lt_succ_of_lt (w1.owned_lt (.inl hf))
      · rw [a4]; exact Nat.lt_succ_of_lt (hv z hz)
    · intro h; exact absurd (List.mem_cons_self ..) h
    · intro _; exact a4
  · refine ⟨m1, by simp [addIn, hq], gentle_refl w1 vis, ?_, ?_, ?_⟩
    · intro z hz
      rcases List.mem_cons.1 hz with rfl | hz
      · exact w1.owned_lt (.inl hf)
      · exact hv z hz
    · intro h; exact h1 (fun h' => h (List.mem_cons_of_mem _ h'))
    · intro h
      rcases List.mem_cons.1 h with rfl | h
      · exact absurd rfl hq
      · exact h2 h

/-- Before `q` nothing happens, in its round the feature is added, and then nothing. -/
theorem addIn_rounds {E : Env} {q p : Id} {a : Attr} {vis : List Id} {t : List (Id × FModel)}
    (r : Ran (addIn E q a p) vis m t) :
    (q ∉ t.map Prod.fst → ∀ e ∈ t, e.2 = m) ∧
    ((t.map Prod.fst).Nodup → q ∈ t.map Prod.fst → ∃ t1 m' t2, t = t1 ++ (q, m') :: t2 ∧
      m.oneCall E (.addFeature a (some p)) = some m' ∧ (∀ e ∈ t1, e.2 = m) ∧ ∀ e ∈ t2, e.2 = m') := by
  induction r with
  | nil => exact ⟨fun _ e he => (by cases he), fun _ h => (by cases h)⟩
  | @cons vis m f m' t kf hfv hm r ih =>
    by_cases hq : f = q
    · subst hq
      simp only [addIn, if_true] at hm
      refine ⟨fun h => absurd (by simp) h, fun hnd _ => ⟨[], m', t, rfl, hm, by simp, ?_⟩⟩
      simp only [List.map_cons] at hnd
      exact ih.1 (List.nodup_cons.1 hnd).1
    · simp only [addIn, hq, if_false, Option.some.injEq] at hm
      subst hm
      constructor
      · intro h e he
        simp only [List.map_cons, List.mem_cons, not_or] at h
        rcases List.mem_cons.1 he with rfl | he
        · rfl
        · exact ih.1 h.2 e he
      · intro hnd h
        simp only [List.map_cons] at hnd h
        rcases List.mem_cons.1 h with h | h
        · exact absurd h.symm hq
        · obtain ⟨t1, m', t2, e1, e2, e3, e4⟩ := ih.2 (List.nodup_cons.1 hnd).2 h
          refine ⟨(f, m) :: t1, m', t2, by rw [e1]; rfl, e2, ?_, e4⟩
          intro e he
          rcases List.mem_cons.1 he with rfl | he
          · rfl
          · exact e3 e he

/-- Adding one feature below `p` while visiting `q` is fine: all features there were are visited, each once, and the new
    one too exactly if `p` is `q` or comes later. -/
theorem C89_add_one (w : WF m) (E : Env) {q p : Id} {a : Attr} (hq : Known m q) (hp : Known m p)
    (hn : ∀ i, (a.name, i) ∉ m.features) (hk : a.kind ≠ .root) :
    ∃ t1 m' t2, m.editing E (addIn E q a p) (m.next + 2) = .done (t1 ++ (q, m') :: t2) ∧
      ((t1 ++ (q, m') :: t2).map Prod.fst).Nodup ∧
      (∀ e ∈ t1, e.2 = m) ∧ (∀ e ∈ t2, e.2 = m') ∧
      ∃ i, Added m m' i a p ∧
        (∀ x, Known m x → x ∈ (t1 ++ (q, m') :: t2).map Prod.fst) ∧
        (i ∈ (t1 ++ (q, m') :: t2).map Prod.fst ↔ p = q ∨ p ∈ t2.map Prod.fst) := by
  have hn' : a.name ∉ m.features.map Prod.fst := by
    intro h
    obtain ⟨e, he, h1⟩ := List.mem_map.1 h
    exact hn e.2 (by rw [← h1]; exact he)
  have hb := addIn_keeps m E (q := q) hn' hk hp
  have hP : (fun vis (m1 : FModel) => (∀ z ∈ vis, z < m1.next) ∧ (q ∉ vis → m1 = m) ∧ (q ∈ vis → m1.next = m.next + 1)) [] m :=
    ⟨by intro z hz; simp at hz, fun _ => rfl, by intro h; simp at h⟩
  obtain ⟨t, ht, _⟩ := C89_ends hb w hP E (N := m.next + 1) (fuel := m.next + 2) (by
    rintro vis m1 ⟨_, h1, h2⟩
    by_cases hv : q ∈ vis
    · have := h2 hv; omega
    · rw [h1 hv]; omega) (by omega)
  rcases C89_visits hb w hP E (m.next + 2) with g0 | ⟨t', g1, g2, g3, g4⟩
  · rw [g0] at ht; cases ht
  rw [g1] at ht; cases ht
  -- the model the call gives keeps all features
  obtain ⟨m', a1, a2, a3, a4⟩ := oneCall_added w E hn' hk hp
  have keep : ∀ x, Known m x → ∀ e ∈ t, Known e.2 x := by
    intro x hx e he
    by_cases hqt : q ∈ t.map Prod.fst
    · obtain ⟨t1, m2, t2, rfl, e2, e3, e4⟩ := (addIn_rounds g2).2 g3 hqt
      rw [a1] at e2; cases e2
      have kx : Known m' x := (a3.known x).2 (.inl hx)
      rcases List.mem_append.1 he with he | he
      · rw [e3 e he]; exact hx
      · rcases List.mem_cons.1 he with rfl | he
        · exact kx
        · rw [e4 e he]; exact kx
    · rw [(addIn_rounds g2).1 hqt e he]; exact hx
  have hall := fun x hx => C89_all_old hb w hP E g1 (x := x) hx (keep x hx)
  obtain ⟨t1, m2, t2, rfl, e2, e3, e4⟩ := (addIn_rounds g2).2 g3 (hall q hq)
  rw [a1] at e2; cases e2
  refine ⟨t1, m', t2, g1, g3, e3, e4, m.next, a3, hall, ?_⟩
  have hnk : ¬ Known m m.next := fun h => Nat.lt_irrefl _ (w.owned_lt (.inl h))
  have hk' : Known m' m.next := (a3.known _).2 (.inr rfl)
  have hfp : FParent m' m.next p := by
    refine .direct (by rw [a3.par]; simp) ?_
    obtain ⟨f, hf⟩ := w.known_data hp
    exact ⟨f, by rw [a3.data, upd_ne _ _ (added_ne w a3 p (.inl hp))]; exact hf⟩
  rw [C89_new hb w hP E g1 hnk (fun d hd => by rw [e3 d hd]; exact hnk) hk' (fun d hd => by rw [e4 d hd]; exact hk') hfp]
  simp

/-- Not vacuous: in root(A(B), C), a feature added below the root while visiting `C`, or while visiting `A`. -/
example : WF chain ∧ Known chain 3 ∧ Known chain 0 ∧ (∀ i, (c!"D", i) ∉ chain.features) :=
  ⟨chain_wf, by simp [Known, chain, ofNodes], by simp [Known, chain, ofNodes], by intro i; simp [chain, ofNodes]⟩

/-- What was visited, if the loop ended. -/
def _root_.Verif.WalkRes.visited : WalkRes → Option (List Id)
  | .done t => some (t.map Prod.fst)
  | _ => none

/-- Below `C` in the round of `A` it is visited, below the root in the round of `A` it is not. -/
example : (chain.editing (stdEnv true) (addIn (stdEnv true) 1 { name := c!"D", kind := .binary } 3) 6).visited = some [0, 1, 2, 3, 4] ∧
    (chain.editing (stdEnv true) (addIn (stdEnv true) 1 { name := c!"D", kind := .binary } 0) 6).visited = some [0, 1, 2, 3] := by
  decide

/-- `for f in fm: if f is q: fm.remove_feature(v)`, if `v` has been visited. -/
def removeIn (E : Env) (q v : Id) : List Id → FModel → Id → Option FModel :=
  fun vis m f => if f = q ∧ v ∈ vis then m.oneCall E (.removeFeature (.ptr (some v)) false) else some m

theorem removeIn_keeps (m : FModel) (E : Env) {q v : Id} (w : WF m) (hv : Known m v) (hr : m.root ≠ some v) (hl : edg m v = []) :
    Keeps (fun vis m1 => m1.next ≤ m.next ∧ (q ∉ vis → m1 = m) ∧ ∀ x, Known m x → x ≠ v → Known m1 x) (removeIn E q v) := by
  rintro vis m1 f ⟨h0, h1, h2⟩ w1 hf hfv
  by_cases hq : f = q ∧ v ∈ vis
  · obtain ⟨rfl, hvis⟩ := hq
    obtain rfl := h1 hfv
    have hnv : ∀ c, ¬ Via m1 isF v c := by
      intro c hc
      cases hc with
      | here h _ _ => rw [hl] at h; cases h
      | skip h _ _ _ => rw [hl] at h; cases h
    obtain ⟨m', a1, a2⟩ := C21_remove_leaf_partial w E (f := .ptr (some v)) (i := v) (by simp [FModel.resolve]) hv hr hnv (.inl hl)
    have cut := cut_below w hv hr
    have w' := without_wf w a2 cut
    have honly : ∀ x, Owned m1 x ∧ Below m1 v x → x = v := by
      rintro x ⟨ho, hb⟩
      rcases w.below_down hb ho with h | ⟨c, hc, _⟩
      · exact h.symm
      · rw [hl] at hc; cases hc
    refine ⟨m', by simp only [removeIn, hvis, and_self, if_true]; exact oneCall_ok w w' a1, gentle_without w a2 cut ?_, ?_, ?_, ?_⟩
    · intro x _ hx; rw [honly x hx]; exact hvis
    · exact Nat.le_of_eq a2.next
    · intro h; exact absurd (List.mem_cons_self ..) h
    · intro x hx hne
      exact (a2.known x).2 ⟨hx, fun hs => hne (honly x hs)⟩
  · refine ⟨m1, by simp only [removeIn, hq, if_false], gentle_refl w1 vis, h0, ?_, h2⟩
    intro h; exact h1 (fun h' => h (List.mem_cons_of_mem _ h'))

/-- Removing a leaf the loop has passed is fine: the loop ends and all other features are visited. -/
theorem C89_remove_passed (w : WF m) (E : Env) {q v : Id} (hv : Known m v) (hr : m.root ≠ some v) (hl : edg m v = []) :
    ∃ t, m.editing E (removeIn E q v) (m.next + 1) = .done t ∧ (t.map Prod.fst).Nodup ∧
      ∀ x, Known m x → x ≠ v → x ∈ t.map Prod.fst := by
  have hb := removeIn_keeps m E (q := q) w hv hr hl
  have hP : (fun vis (m1 : FModel) => m1.next ≤ m.next ∧ (q ∉ vis → m1 = m) ∧ ∀ x, Known m x → x ≠ v → Known m1 x) [] m :=
    ⟨Nat.le_refl _, fun _ => rfl, fun _ h _ => h⟩
  obtain ⟨t, ht, _⟩ := C89_ends hb w hP E (N := m.next) (fuel := m.next + 1) (fun _ _ h => h.1) (by omega)
  rcases C89_visits hb w hP E (m.next + 1) with g0 | ⟨t', g1, g2, g3, g4⟩
  · rw [g0] at ht; cases ht
  rw [g1] at ht; cases ht
  refine ⟨t, g1, g3, fun x hx hne => C89_all_old hb w hP E g1 hx ?_⟩
  -- the caller's invariant holds in every round
  suffices H : ∀ vis m1 t, Ran (removeIn E q v) vis m1 t → WF m1 →
      (m1.next ≤ m.next ∧ (q ∉ vis → m1 = m) ∧ ∀ x, Known m x → x ≠ v → Known m1 x) → ∀ e ∈ t, Known e.2 x from H [] m t g2 w hP
  intro vis m1 t r
  induction r with
  | nil => intro _ _ e he; cases he
  | @cons vis m1 f m' t kf hfv hm r ih =>
    intro w1 hp e he
    obtain ⟨m2, b1, b2, b3⟩ := hb vis m1 f hp w1 kf hfv
    rw [hm] at b1; cases b1
    rcases List.mem_cons.1 he with rfl | he
    · exact b3.2.2 x hx hne
    · exact ih b2.wf b3 e he

/-! ## Where it goes wrong -/

/-- A loop that adds a child to every feature it visits never ends, in any model. -/
theorem C89_never_ends (w : WF m) (E : Env)
    (hb : ∀ vis m f, WF m → Known m f → f ∉ vis → (∀ z ∈ vis, z < m.next) →
      ∃ m', body vis m f = some m' ∧ Gentle vis m m' ∧ ∃ c, Known m' c ∧ FParent m' c f) (fuel : Nat) :
    m.editing E body fuel = .endless := by
  obtain ⟨r, _, hr, _⟩ := w.root_ok
  rw [editing_eq w E hr]
  suffices H : ∀ fuel m vis f rest, Walking m vis (f :: rest) → editLoop E body ⟨[], []⟩ fuel m ⟨f :: rest, vis⟩ = .endless from
    H fuel m [] r [] (walking_start w hr)
  intro fuel
  induction fuel with
  | zero => intro m vis f rest _; rfl
  | succ fuel ih =>
    intro m vis f rest I
    have hf := I.known f (List.mem_cons_self ..)
    obtain ⟨m', hm, g, c, kc, pc⟩ := hb vis m f I.wf hf (I.apart f (List.mem_cons_self ..)) I.old
    obtain ⟨cs, hn, I', hcs⟩ := walking_step E I g
    obtain ⟨d, hd⟩ := I.wf.known_data hf
    have hne : DFS.eq m ⟨f :: rest, vis⟩ ⟨[], []⟩ = false := by simp [DFS.eq]
    simp only [editLoop, hne, Bool.false_eq_true, if_false, heap_of_data hd, hm, hn]
    have hc := (hcs c).2 ⟨kc, pc⟩
    cases hl : cs with
    | nil => rw [hl] at hc; cases hc
    | cons c' cs' =>
      rw [hl] at I'
      have := ih m' (f :: vis) c' (cs' ++ rest) I'
      rw [List.cons_append, this]; rfl

/-- A name longer than all in the model. -/
def longName (m : FModel) : Str := List.replicate ((m.features.map (fun e => e.1.length)).sum + 1) 'x'

theorem longName_new (m : FModel) : longName m ∉ m.features.map Prod.fst := by
  intro h
  obtain ⟨e, he, h1⟩ := List.mem_map.1 h
  have h2 : ∀ l : List (Str × Id), e ∈ l → e.1.length ≤ (l.map (fun e => e.1.length)).sum := by
    intro l
    induction l with
    | nil => intro h; cases h
    | cons a l ih =>
      intro h
      simp only [List.map_cons, List.sum_cons]
      rcases List.mem_cons.1 h with rfl | h
      · omega
      · have := ih h; omega
  have := h2 _ he
  rw [h1, longName, List.length_replicate] at this
  omega

/-- `for f in fm: fm.add_binary_feature(f, <some name not in use>, True)`. -/
def addToEach (E : Env) : List Id → FModel → Id → Option FModel :=
  fun _ m f => m.oneCall E (.addFeature { name := longName m, kind := .binary, opt := true } (some f))

/-- So giving every feature a new child in such a loop runs forever, whatever the model. -/
theorem C89_add_to_each (w : WF m) (E : Env) (fuel : Nat) : m.editing E (addToEach E) fuel = .endless := by
  refine C89_never_ends w E ?_ fuel
  intro vis m f w hf _ hv
  obtain ⟨m', a1, a2, a3, a4⟩ := oneCall_added w E (longName_new m) (a := { name := longName m, kind := .binary, opt := true })
    (by intro h; cases h) hf
  refine ⟨m', a1, gentle_added w a2 a3 (Nat.le_refl _) (fun h => Nat.lt_irrefl _ (hv _ h)), m.next, (a3.known _).2 (.inr rfl), ?_⟩
  refine .direct (by rw [a3.par]; simp) ?_
  obtain ⟨d, hd⟩ := w.known_data hf
  exact ⟨d, by rw [a3.data, upd_ne _ _ (added_ne w a3 f (.inl hf))]; exact hd⟩

theorem next_freed {m : FModel} {E : Env} {f : Id} {rest vis : List Id} (h : m.heap f = none) : DFS.next m E ⟨f :: rest, vis⟩ = none := by
  have : m.children E Node.isFeat f = none := by
    simp [children, childrenImpl, h]
  simp [DFS.next, sortedChildren, this]

/-- A body that differs in the round of one feature, which it frees. -/
theorem editLoop_freed {body' : List Id → FModel → Id → Option FModel} {E : Env} {stop : DFS} {i : Id}
    {Q : FModel → Prop} (hQ : ∀ vis m f m', Q m → body vis m f = some m' → Q m')
    (h1 : ∀ vis m f, f ≠ i → body' vis m f = body vis m f)
    (h2 : ∀ vis m m', Q m → body' vis m i = some m' → m'.heap i = none) :
    ∀ fuel m it t, Q m → editLoop E body stop fuel m it = .done t → i ∈ t.map Prod.fst → editLoop E body' stop fuel m it = .ub := by
  intro fuel
  induction fuel with
  | zero => intro m it t _ h; cases h
  | succ n ih =>
    intro m it t hq h hi
    unfold editLoop at h ⊢
    by_cases he : it.eq m stop = true
    · rw [if_pos he] at h; cases h; simp at hi
    · rw [if_neg he] at h ⊢
      cases hfr : it.frontier with
      | nil => simp only
      | cons f rest =>
        simp only [hfr] at h ⊢
        cases hh : m.heap f with
        | none => simp only
        | some nd =>
          simp only [hh] at h ⊢
          by_cases hf : f = i
          · subst hf
            cases hbd : body' it.visited m f with
            | none => simp only
            | some m' =>
              simp only
              obtain ⟨fr, vis⟩ := it
              simp only at hfr; subst hfr
              rw [next_freed (h2 _ _ _ hq hbd)]
          · rw [h1 _ _ _ hf]
            cases hbd : body it.visited m f with
            | none => simp only
            | some m' =>
              simp only [hbd] at h ⊢
              cases hnx : it.next m' E with
              | none => simp only
              | some it' =>
                simp only [hnx] at h ⊢
                cases hrec : editLoop E body stop n m' it' with
                | done t' =>
                  rw [hrec] at h
                  cases h
                  rw [ih _ _ _ (hQ _ _ _ _ hq hbd) hrec (by
                    simp only [List.map_cons] at hi
                    rcases List.mem_cons.1 hi with rfl | hi
                    · exact absurd rfl hf
                    · exact hi)]
                  rfl
                | ub => rw [hrec] at h; cases h
                | endless => rw [hrec] at h; cases h

/-- `for f in fm: if f is v: fm.remove_feature(f)`. -/
def removeSelf (E : Env) (v : Id) (recursive : Bool) : List Id → FModel → Id → Option FModel :=
  fun _ m f => if f = v then m.oneCall E (.removeFeature (.ptr (some v)) recursive) else some m

theorem idle_keeps (N : Nat) : Keeps (fun _ m => m.next ≤ N) idle := fun vis m _ h w _ _ => ⟨m, rfl, gentle_refl w vis, h⟩

theorem idle_visits (w : WF m) (E : Env) : ∃ t, m.editing E idle (m.next + 1) = .done t ∧ ∀ x, Known m x → x ∈ t.map Prod.fst := by
  obtain ⟨t, ht, _⟩ := C89_ends (idle_keeps m.next) w (Nat.le_refl _) E (N := m.next) (fuel := m.next + 1) (fun _ _ h => h) (by omega)
  refine ⟨t, ht, fun x hx => C89_all_old (idle_keeps m.next) w (Nat.le_refl _) E ht hx ?_⟩
  rcases C89_visits (idle_keeps m.next) w (Nat.le_refl _) E (m.next + 1) with g0 | ⟨t', g1, g2, _⟩
  · rw [g0] at ht; cases ht
  rw [g1] at ht; cases ht
  have H : ∀ vis m1 t, Ran idle vis m1 t → ∀ e ∈ t, e.2 = m1 := by
    intro vis m1 t r
    induction r with
    | nil => intro e he; cases he
    | cons _ _ hm _ ih =>
      intro e he
      cases hm
      rcases List.mem_cons.1 he with rfl | he
      · rfl
      · exact ih e he
  intro e he
  rw [H _ _ _ g2 e he]; exact hx

/-- Removing the feature the loop is at, the natural way of filtering a model, is undefined for every leaf of every
    model: `operator++` then asks the freed feature for its children. -/
theorem C89_remove_current (w : WF m) (E : Env) {v : Id} (hv : Known m v) (hr : m.root ≠ some v) (hl : edg m v = []) :
    m.editing E (removeSelf E v false) (m.next + 1) = .ub := by
  obtain ⟨t, ht, hall⟩ := idle_visits w E
  obtain ⟨r, _, hroot, _⟩ := w.root_ok
  rw [editing_eq w E hroot] at ht ⊢
  refine editLoop_freed (body := idle) (Q := (· = m)) (i := v) ?_ ?_ ?_ _ _ _ t rfl ht (hall v hv)
  · rintro vis m1 f m' rfl h; cases h; rfl
  · intro vis m1 f hf; simp [removeSelf, idle, hf]
  · rintro vis m1 m' rfl h
    have hnv : ∀ c, ¬ Via m1 isF v c := by
      intro c hc
      cases hc with
      | here h _ _ => rw [hl] at h; cases h
      | skip h _ _ _ => rw [hl] at h; cases h
    obtain ⟨m2, a1, a2⟩ := C21_remove_leaf_partial w E (f := .ptr (some v)) (i := v) (by simp [FModel.resolve]) hv hr hnv (.inl hl)
    have := oneCall_ok w (without_wf w a2 (cut_below w hv hr)) a1
    simp only [removeSelf, if_true] at h
    rw [this] at h; cases h
    exact a2.gone v ⟨.inl hv, .refl⟩

/-- Nor may the loop remove a subtree it is in. -/
theorem C89_remove_current_recursive (w : WF m) (E : Env) {v : Id} (hv : Known m v) (hr : m.root ≠ some v)
    (hflat : ∀ j, Below m v j → IsRel m j → ∀ c ∈ edg m j, IsFeat m c) :
    m.editing E (removeSelf E v true) (m.next + 1) = .ub := by
  obtain ⟨t, ht, hall⟩ := idle_visits w E
  obtain ⟨r, _, hroot, _⟩ := w.root_ok
  rw [editing_eq w E hroot] at ht ⊢
  refine editLoop_freed (body := idle) (Q := (· = m)) (i := v) ?_ ?_ ?_ _ _ _ t rfl ht (hall v hv)
  · rintro vis m1 f m' rfl h; cases h; rfl
  · intro vis m1 f hf; simp [removeSelf, idle, hf]
  · rintro vis m1 m' rfl h
    obtain ⟨m2, a1, a2⟩ := C21_remove_recursive_partial w E (f := .ptr (some v)) (i := v) (by simp [FModel.resolve]) hv hr hflat
    have := oneCall_ok w (without_wf w a2 (cut_below w hv hr)) a1
    simp only [removeSelf, if_true] at h
    rw [this] at h; cases h
    exact a2.gone v ⟨.inl hv, .refl⟩

theorem next_keeps {E : Env} {f v : Id} {rest vis : List Id} {it : DFS} (h : DFS.next m E ⟨f :: rest, vis⟩ = some it)
    (hv : v ∈ rest) : v ∈ it.frontier := by
  simp only [DFS.next] at h
  cases hs : m.sortedChildren E f with
  | none => simp [hs] at h
  | some cs => simp only [hs, Option.some.injEq] at h; subst h; simp [hv]

/-- A feature that waits in the iterator and is gone, for good, is nevertheless handed out: such a loop never ends well. -/
theorem C89_remove_pending {E : Env} {v : Id} (hb : ∀ vis m f m', m.heap v = none → body vis m f = some m' → m'.heap v = none) :
    ∀ fuel (m : FModel) it t, m.heap v = none → v ∈ it.frontier → editLoop E body ⟨[], []⟩ fuel m it ≠ .done t := by
  intro fuel
  induction fuel with
  | zero => intro m it t _ _ h; cases h
  | succ n ih =>
    rintro m ⟨fr, vis⟩ t hv hin h
    cases fr with
    | nil => cases hin
    | cons f rest =>
      have hne : DFS.eq m ⟨f :: rest, vis⟩ ⟨[], []⟩ = false := by simp [DFS.eq]
      simp only [editLoop, hne, Bool.false_eq_true, if_false] at h
      cases hh : m.heap f with
      | none => simp [hh] at h
      | some nd =>
        simp only [hh] at h
        have hfv : v ≠ f := by rintro rfl; rw [hv] at hh; cases hh
        have hvr : v ∈ rest := by
          rcases List.mem_cons.1 hin with h | h
          · exact absurd h hfv
          · exact h
        cases hbd : body vis m f with
        | none => simp [hbd] at h
        | some m' =>
          simp only [hbd] at h
          cases hnx : DFS.next m' E ⟨f :: rest, vis⟩ with
          | none => simp [hnx] at h
          | some it' =>
            simp only [hnx] at h
            cases hrec : editLoop E body ⟨[], []⟩ n m' it' with
            | done t' => exact ih _ _ _ (hb _ _ _ _ hv hbd) (next_keeps hnx hvr) hrec
            | ub => rw [hrec] at h; cases h
            | endless => rw [hrec] at h; cases h

/-- Not vacuous, for the removals: `C` is such a leaf of root(A(B), C). -/
example : Known chain 3 ∧ chain.root ≠ some 3 ∧ edg chain 3 = [] :=
  ⟨by simp [Known, chain, ofNodes], by simp [chain, ofNodes], by decide⟩

/-- So removing, in the round of `A`, its sibling `C`, which waits, is undefined in root(A(B), C). -/
theorem C89_remove_sibling (asserts : Bool) :
    WF chain ∧ (match chain.editing (stdEnv asserts)
      (fun _ m f => if f = 1 then m.oneCall (stdEnv asserts) (.removeFeature (.name c!"C") false) else some m) 9 with
      | .ub => true | _ => false) = true :=
  ⟨chain_wf, by cases asserts <;> decide⟩

end Verif.Props

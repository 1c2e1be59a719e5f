import Verif.Solver.EditsRemove
import Verif.FM.Traverse
/-!
# Editing a model while iterating over it

`for (Feature *F : FM) Body(F)` in C++ and `for f in fm: body(f)` in Python
(/repo/bindings/python/vara-feature/pybind_FeatureModel.cpp:137-142) with a body that edits the
model.  `end()` is computed once, before the first round; `operator++` runs after the body
(/repo/include/vara/Feature/FeatureModel.h:112-137).
-/

namespace Verif

/-- How a loop ends: with what was visited, each with the model its round left; in undefined
    behaviour; or not within the given number of rounds. -/
inductive WalkRes
  | done (t : List (Id × FModel))
  | ub
  | endless

namespace WalkRes

/-- One round before the others. -/
def cons (e : Id × FModel) : WalkRes → WalkRes
  | .done t => .done (e :: t)
  | .ub => .ub
  | .endless => .endless

end WalkRes

namespace FModel

/-- The loop (FeatureModel.h:98-150 for `*It`, `++It` and `It != End`).  The body is given what was
    visited before and the feature of the round; `none` is undefined behaviour of the body.  Being
    handed a feature that was freed counts as undefined, as a body uses it (pybind11 alone asks for
    its dynamic type).  Freed addresses are not used again, here as in all of the model. -/
def editLoop (E : Env) (body : List Id → FModel → Id → Option FModel) (stop : DFS) : Nat → FModel → DFS → WalkRes
  | 0, _, _ => .endless
  | fuel + 1, m, it =>
    if it.eq m stop then .done []
    else
      match it.frontier with
      | [] => .ub
      | f :: _ =>
        match m.heap f with
        | none => .ub
        | some _ =>
          match body it.visited m f with
          | none => .ub
          | some m' =>
            match it.next m' E with
            | none => .ub
            | some it' => (editLoop E body stop fuel m' it').cons (f, m')

/-- The whole statement. -/
def editing (m : FModel) (E : Env) (body : List Id → FModel → Id → Option FModel) (fuel : Nat) : WalkRes :=
  match m.end? with
  | none => .ub
  | some stop => editLoop E body stop fuel m m.begin

end FModel

/-! ## What is expected -/

namespace Spec
open Verif

/-- The rounds are calls of the body, each on the model the one before left and with a feature of
    that model not visited before. -/
inductive Ran (body : List Id → FModel → Id → Option FModel) : List Id → FModel → List (Id × FModel) → Prop
  | nil {vis m} : Ran body vis m []
  | cons {vis m f m' t} : Known m f → f ∉ vis → body vis m f = some m' → Ran body (f :: vis) m' t → Ran body vis m ((f, m') :: t)

/-- An edit that leaves a tree, removes at most features that were visited before and changes the
    parent feature of none that stays. -/
structure Gentle (vis : List Id) (m m' : FModel) : Prop where
  wf : WF m'
  next : m.next ≤ m'.next
  kept : ∀ x, Known m x → x ∉ vis → Known m' x
  new : ∀ x, Known m' x → x ∈ vis → Known m x
  parent : ∀ x p, Known m x → Known m' x → (FParent m' x p ↔ FParent m x p)

end Spec

open Spec FModel

variable {m m' : FModel} {body : List Id → FModel → Id → Option FModel}

/-! ## Proofs -/

theorem gentle_below {vis : List Id} (w : WF m) (g : Gentle vis m m') {y : Id} (hy : IsFeat m' y) :
    ∀ n z, lvlOf m' z = n → Known m z → Known m' z → Below m' y z → Below m y z := by
  intro n
  induction n using Nat.strongRecOn with
  | _ n ih =>
    intro z hn hz hz' hb
    by_cases he : y = z
    · subst he; exact .refl
    · have hr : m'.root ≠ some z := by
        intro hr
        have hp := g.wf.root_par hr
        cases hb with
        | refl => exact he rfl
        | step h _ => rw [hp] at h; cases h
      obtain ⟨p, hp, kp⟩ := g.wf.has_fparent (.inl hz') hr
      have hp0 := (g.parent z p hz hz').1 hp
      have hl := fparent_level g.wf (.inl hz') hp
      have := ih (lvlOf m' p) (by omega) p rfl (fparent_fst w (.inl hz) hp0) kp (fparent_above hp hb he hy)
      exact this.trans (fparent_isBelow hp0)

/-- Between two rounds. -/
structure Walking (m : FModel) (vis fr : List Id) : Prop where
  wf : WF m
  nodup : fr.Nodup
  seen : vis.Nodup
  old : ∀ z ∈ vis, z < m.next
  known : ∀ y ∈ fr, Known m y
  apart : ∀ y ∈ fr, y ∉ vis
  up : ∀ y ∈ fr, ∀ p, FParent m y p → p ∈ vis
  low : ∀ y ∈ fr, ∀ z ∈ vis, Known m z → ¬ Below m y z

theorem walking_start (w : WF m) {r : Id} (hr : m.root = some r) : Walking m [] [r] where
  wf := w
  nodup := by simp
  seen := .nil
  old := by intro z hz; cases hz
  known := by intro y hy; simp at hy; subst hy; exact w.root_known hr
  apart := by intro y _ h; cases h
  up := by
    intro y hy p hp
    simp at hy; subst hy
    have := w.root_par hr
    cases hp with
    | direct h _ => rw [this] at h; cases h
    | skip h _ _ => rw [this] at h; cases h
  low := by intro y _ z hz; cases hz

theorem walking_step {vis rest : List Id} {f : Id} (E : Env) (I : Walking m vis (f :: rest)) (g : Gentle vis m m') :
    ∃ cs, DFS.next m' E ⟨f :: rest, vis⟩ = some ⟨cs ++ rest, f :: vis⟩ ∧ Walking m' (f :: vis) (cs ++ rest) ∧
      ∀ x, x ∈ cs ↔ Known m' x ∧ FParent m' x f := by
  have w := I.wf
  have w' := g.wf
  have hf := I.known f (List.mem_cons_self ..)
  have hfv := I.apart f (List.mem_cons_self ..)
  have hf' := g.kept f hf hfv
  obtain ⟨hfr, hrd⟩ := List.nodup_cons.1 I.nodup
  obtain ⟨cs, hc, hk⟩ := sortedChildren_spec w' E hf'
  have hmem : ∀ x, x ∈ cs.reverse ↔ Known m' x ∧ FParent m' x f := fun x => by
    rw [hk.mem]; exact via_iff_fparent w' (.inl hf') (w'.known_data hf')
  have hbel : ∀ z, z ∈ vis → Known m' z → ¬ Below m' f z := by
    intro z hz kz hb
    have kz0 := g.new z kz hz
    exact I.low f (List.mem_cons_self ..) z hz kz0 (gentle_below w g (w'.known_data hf') _ z rfl kz0 kz hb)
  have hcv : ∀ c ∈ cs.reverse, c ∉ f :: vis := by
    intro c hcs hin
    obtain ⟨kc, pc⟩ := (hmem c).1 hcs
    rcases List.mem_cons.1 hin with rfl | hin
    · have := fparent_level w' (.inl kc) pc; omega
    · exact hbel c hin kc (fparent_isBelow pc)
  have hrest : ∀ y ∈ rest, Known m y ∧ Known m' y ∧ y ∉ vis := by
    intro y hy
    have k := I.known y (List.mem_cons_of_mem _ hy)
    have a := I.apart y (List.mem_cons_of_mem _ hy)
    exact ⟨k, g.kept y k a, a⟩
  refine ⟨cs.reverse, ?_, ?_, hmem⟩
  · simp only [DFS.next, hc]
    congr 3
    rw [List.filter_eq_self.2]
    intro c hcs
    have := hcv c (List.mem_reverse.2 hcs)
    simp only [Bool.not_eq_true', decide_eq_false_iff_not]
    exact this
  · refine ⟨w', ?_, ?_, ?_, ?_, ?_, ?_, ?_⟩
    · refine List.nodup_append.2 ⟨hk.nodup, hrd, ?_⟩
      rintro c hcs _ hcr rfl
      obtain ⟨kc, pc⟩ := (hmem c).1 hcs
      obtain ⟨k0, k1, _⟩ := hrest c hcr
      exact hfv (I.up c (List.mem_cons_of_mem _ hcr) f ((g.parent c f k0 k1).1 pc))
    · exact List.nodup_cons.2 ⟨hfv, I.seen⟩
    · intro z hz
      rcases List.mem_cons.1 hz with rfl | hz
      · obtain ⟨d, hd⟩ := w'.known_data hf'
        exact w'.fresh z (by rw [heap_of_data hd]; simp)
      · exact Nat.lt_of_lt_of_le (I.old z hz) g.next
    · intro y hy
      rcases List.mem_append.1 hy with hy | hy
      · exact ((hmem y).1 hy).1
      · exact (hrest y hy).2.1
    · intro y hy
      rcases List.mem_append.1 hy with hy | hy
      · exact hcv y hy
      · intro hin
        rcases List.mem_cons.1 hin with rfl | hin
        · exact hfr hy
        · exact (hrest y hy).2.2 hin
    · intro y hy p hp
      rcases List.mem_append.1 hy with hy | hy
      · obtain ⟨_, pc⟩ := (hmem y).1 hy
        rw [hp.functional pc]; exact List.mem_cons_self ..
      · obtain ⟨k0, k1, _⟩ := hrest y hy
        exact List.mem_cons_of_mem _ (I.up y (List.mem_cons_of_mem _ hy) p ((g.parent y p k0 k1).1 hp))
    · intro y hy z hz kz hb
      rcases List.mem_append.1 hy with hy | hy
      · obtain ⟨ky, pc⟩ := (hmem y).1 hy
        rcases List.mem_cons.1 hz with rfl | hz
        · have h1 := fparent_level w' (.inl ky) pc
          have h2 := w'.below_level (.inl kz) hb
          omega
        · exact hbel z hz kz ((fparent_isBelow pc).trans hb)
      · obtain ⟨k0, k1, _⟩ := hrest y hy
        have iy := List.mem_cons_of_mem f hy
        rcases List.mem_cons.1 hz with rfl | hz
        · have hb0 := gentle_below w g (w'.known_data k1) _ z rfl hf kz hb
          have hne : y ≠ z := fun h => hfr (h ▸ hy)
          have hr : m.root ≠ some z := by
            intro hr
            have hp := w.root_par hr
            cases hb0 with
            | refl => exact hne rfl
            | step h _ => rw [hp] at h; cases h
          obtain ⟨p, hp, kp⟩ := w.has_fparent (.inl hf) hr
          exact I.low y iy p (I.up z (List.mem_cons_self ..) p hp) kp (fparent_above hp hb0 hne (w.known_data k0))
        · have kz0 := g.new z kz hz
          exact I.low y iy z hz kz0 (gentle_below w g (w'.known_data k1) _ z rfl kz0 kz hb)

/-- The body is gentle as long as the caller's `P` holds, and keeps `P`. -/
def Keeps (P : List Id → FModel → Prop) (body : List Id → FModel → Id → Option FModel) : Prop :=
  ∀ vis m f, P vis m → WF m → Known m f → f ∉ vis → ∃ m', body vis m f = some m' ∧ Gentle vis m m' ∧ P (f :: vis) m'

theorem editLoop_spec {P : List Id → FModel → Prop} (hb : Keeps P body) (E : Env) {stop : DFS} (hstop : stop.frontier = []) :
    ∀ fuel m vis fr, P vis m → Walking m vis fr →
      (editLoop E body stop fuel m ⟨fr, vis⟩ = .endless ∧ ∀ N, (∀ vis m, P vis m → m.next ≤ N) → fuel + vis.length ≤ N) ∨
      ∃ t, editLoop E body stop fuel m ⟨fr, vis⟩ = .done t ∧ Ran body vis m t ∧ (t.map Prod.fst).Nodup ∧
        (∀ x ∈ t.map Prod.fst, x ∉ vis) ∧
        ∀ x, x ∈ t.map Prod.fst ↔ x ∈ fr ∨ ∃ e ∈ t, Known e.2 x ∧ FParent e.2 x e.1 := by
  intro fuel
  induction fuel with
  | zero =>
    intro m vis fr hP I
    refine .inl ⟨rfl, fun N hN => ?_⟩
    have hsub : vis ⊆ List.range m.next := fun z hz => List.mem_range.2 (I.old z hz)
    have := I.seen.length_le_of_subset hsub
    simp at this
    have := hN vis m hP
    omega
  | succ fuel ih =>
    intro m vis fr hP I
    cases fr with
    | nil =>
      refine .inr ⟨[], ?_, .nil, by simp, by simp, by simp⟩
      simp [editLoop, DFS.eq, hstop]
    | cons f rest =>
      have hf := I.known f (List.mem_cons_self ..)
      have hfv := I.apart f (List.mem_cons_self ..)
      obtain ⟨m', hm, g, hP'⟩ := hb vis m f hP I.wf hf hfv
      obtain ⟨cs, hn, I', hcs⟩ := walking_step E I g
      obtain ⟨d, hd⟩ := I.wf.known_data hf
      have hne : DFS.eq m ⟨f :: rest, vis⟩ stop = false := by simp [DFS.eq, hstop]
      have he : editLoop E body stop (fuel + 1) m ⟨f :: rest, vis⟩ =
          (editLoop E body stop fuel m' ⟨cs ++ rest, f :: vis⟩).cons (f, m') := by
        simp only [editLoop, hne, Bool.false_eq_true, if_false, heap_of_data hd, hm, hn]
      rcases ih m' (f :: vis) (cs ++ rest) hP' I' with ⟨h1, h2⟩ | ⟨t, h1, h2, h3, h4, h5⟩
      · refine .inl ⟨by rw [he, h1]; rfl, fun N hN => ?_⟩
        have := h2 N hN
        simp at this; omega
      · refine .inr ⟨(f, m') :: t, by rw [he, h1]; rfl, .cons hf hfv hm h2, ?_, ?_, ?_⟩
        · simp only [List.map_cons]
          exact List.nodup_cons.2 ⟨fun h => h4 f h (List.mem_cons_self ..), h3⟩
        · intro x hx
          simp only [List.map_cons] at hx
          rcases List.mem_cons.1 hx with rfl | hx
          · exact hfv
          · exact fun h => h4 x hx (List.mem_cons_of_mem _ h)
        · intro x
          simp only [List.map_cons, List.mem_cons, h5 x, List.mem_append, hcs x]
          constructor
          · rintro (h | (h | h) | ⟨e, h, k⟩)
            · exact .inl (.inl h)
            · exact .inr ⟨(f, m'), .inl rfl, h⟩
            · exact .inl (.inr h)
            · exact .inr ⟨e, .inr h, k⟩
          · rintro ((h | h) | ⟨e, rfl | h, k⟩)
            · exact .inl h
            · exact .inr (.inl (.inr h))
            · exact .inr (.inl (.inl k))
            · exact .inr (.inr ⟨e, h, k⟩)

theorem end_empty (w : WF m) : m.end? = some ⟨[], []⟩ := by
  obtain ⟨r, _, hr, _⟩ := w.root_ok
  have hkr := w.root_known hr
  obtain ⟨q, h1, h2⟩ := parentFeature_spec w (.inl hkr)
  have : q = none := by
    cases q with
    | none => rfl
    | some p =>
      have hf := (h2 p).1 rfl
      have := w.root_par hr
      cases hf with
      | direct hp _ => rw [this] at hp; cases hp
      | skip hp _ _ => rw [this] at hp; cases hp
  subst this
  simp [end?, hr, h1, DFS.mk']

/-- A feature that stays throughout keeps its parent feature. -/
theorem ran_parent {P : List Id → FModel → Prop} (hb : Keeps P body) {x p : Id} {vis : List Id} {t : List (Id × FModel)}
    (r : Ran body vis m t) : P vis m → WF m → Known m x → (∀ e ∈ t, Known e.2 x) →
    ∀ e ∈ t, WF e.2 ∧ (FParent e.2 x p ↔ FParent m x p) := by
  induction r with
  | nil => intro _ _ _ _ e he; cases he
  | @cons vis m f m' t kf hfv hm r ih =>
    intro hP w hk hall e he
    obtain ⟨m1, h1, g, hP'⟩ := hb vis m f hP w kf hfv
    rw [hm] at h1; cases h1
    have kx' : Known m' x := hall (f, m') (List.mem_cons_self ..)
    have hpar := g.parent x p hk kx'
    rcases List.mem_cons.1 he with rfl | he
    · exact ⟨g.wf, hpar⟩
    · obtain ⟨a, b⟩ := ih hP' g.wf kx' (fun e he => hall e (List.mem_cons_of_mem _ he)) e he
      exact ⟨a, b.trans hpar⟩

/-- What ran first and what ran later. -/
theorem ran_split {P : List Id → FModel → Prop} (hb : Keeps P body) {vis : List Id} {t1 t2 : List (Id × FModel)} {e : Id × FModel}
    (r : Ran body vis m (t1 ++ e :: t2)) (hP : P vis m) (w : WF m) :
    ∃ vis', P (e.1 :: vis') e.2 ∧ WF e.2 ∧ Ran body (e.1 :: vis') e.2 t2 := by
  induction t1 generalizing vis m with
  | nil =>
    cases r with
    | @cons _ _ f m' _ kf hfv hm r =>
      obtain ⟨m1, h1, g, hP'⟩ := hb vis m f hP w kf hfv
      rw [hm] at h1; cases h1
      exact ⟨vis, hP', g.wf, r⟩
  | cons a t1 ih =>
    cases r with
    | @cons _ _ f m' _ kf hfv hm r =>
      obtain ⟨m1, h1, g, hP'⟩ := hb vis m f hP w kf hfv
      rw [hm] at h1; cases h1
      exact ih r hP' g.wf

/-! ### Edits that are gentle -/

theorem gentle_refl (w : WF m) (vis : List Id) : Gentle vis m m :=
  ⟨w, Nat.le_refl _, fun _ h _ => h, fun _ h _ => h, fun _ _ _ _ => .rfl⟩

theorem gentle_added {i p : Id} {a : Attr} {vis : List Id} (w : WF m) (w' : WF m') (h : Added m m' i a p) (hi : m.next ≤ i)
    (hv : i ∉ vis) : Gentle vis m m' := by
  have hne := added_ne w h
  refine ⟨w', ?_, fun x hx _ => (h.known x).2 (.inl hx), ?_, ?_⟩
  · have : m'.heap i ≠ none := by
      rw [heap_of_data (d := .feat { attr := a }) (by rw [h.data]; simp)]; simp
    have hlt := w'.fresh i this
    exact Nat.le_of_lt (Nat.lt_of_le_of_lt hi hlt)
  · intro x hx hin
    rcases (h.known x).1 hx with hx | rfl
    · exact hx
    · exact absurd hin hv
  · intro x p hx _
    exact fparent_part w (fun y hy => by rw [h.par, upd_ne _ _ (hne y hy)])
      (fun y hy => by rw [h.data, upd_ne _ _ (hne y hy)]) (.inl hx)

theorem gentle_without {i : Id} {vis : List Id} {S : Id → Prop} (w : WF m) (h : Without m m' S) (c : Cut m S i)
    (hv : ∀ x, Known m x → S x → x ∈ vis) : Gentle vis m m' :=
  ⟨without_wf w h c, Nat.le_of_eq h.next.symm,
    fun x hx hn => (h.known x).2 ⟨hx, fun hs => hn (hv x hx hs)⟩,
    fun x hx _ => ((h.known x).1 hx).1,
    fun x _ hx hx' => without_fparent w h c (.inl hx) ((h.known x).1 hx').2⟩

end Verif

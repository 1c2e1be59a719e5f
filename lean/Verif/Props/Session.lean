import Verif.FM.SessionLemmas
import Verif.Props.FeatureTree
/-!
# Property C82: Python programs that edit a model
-/

namespace Verif.Props
open Verif Verif.Spec Verif.FModel

/-- The model a statement leaves. -/
def left : PyEnd → Option FModel
  | .returns m => some m
  | .raises m => some m
  | .ub => none

theorem oneCall_add {m : FModel} {S : Sheet} (w : WF m) (t : TidyGroups m) (R : SheetOf m S) (E : Env) {pn : Str} {p : Id}
    {a : Attr} (hp : (pn, p) ∈ m.features) (hk : a.kind ≠ .root) :
    ∃ m', m.oneCall E (.addFeature a (some p)) = some m' ∧ WF m' ∧ TidyGroups m' ∧ SheetOf m' (S.add pn a) ∧ SameRest m m' := by
  by_cases hn : a.name ∈ m.features.map Prod.fst
  · have h1 : m.exec E (.addFeature a (some p)) = .err .alreadyPresent m := by
      show m.execAddFeature a (some p) = _
      exact execAddFeature_err hn
    refine ⟨m, oneCall_err w h1, w, t, ?_, sameRest_refl m⟩
    have : S.add pn a = S := by
      unfold Sheet.add
      rw [if_pos (.inr (fun h => (R.none w).1 h hn))]
    rw [this]; exact R
  · have hkp : Known m p := List.mem_map_of_mem (f := Prod.snd) hp
    obtain ⟨m', q, h1, h2, h3, h4, h5⟩ := execAddFeature_ok (parent := some p) w hn (fun i hi => by cases hi; exact .inl hkp)
    have hq : q = p := by
      rcases h5 with h5 | ⟨h5, _⟩
      · exact (Option.some.inj h5).symm
      · cases h5
    subst hq
    have h3 : (m'.next : Nat) = m.next + 1 := h3
    have w' : WF m' := wf_of_added w h2 (show (m.next : Nat) < m'.next by omega) (show (m.next : Nat) ≤ m'.next by omega) hn h4 hk
    exact ⟨m', oneCall_ok w w' h1, w', tidy_added w t h2 hkp, sheetOf_added w R h2 hp hn, sameRest_added h2⟩

theorem oneCall_remove {m : FModel} {S : Sheet} (w : WF m) (t : TidyGroups m) (R : SheetOf m S) (E : Env) {n : Str} {i : Id} {rec : Bool}
    (hi : (n, i) ∈ m.features) (hr : m.root ≠ some i) :
    ∃ m', m.oneCall E (.removeFeature (.ptr (some i)) rec) = some m' ∧ WF m' ∧ TidyGroups m' ∧ SheetOf m' (S.after (.remove n rec)) ∧ SameRest m m' := by
  have hki : Known m i := List.mem_map_of_mem (f := Prod.snd) hi
  have cut := cut_below w hki hr
  have fin : ∀ m' (D : Str → Prop) [DecidablePred D], (∀ x, D x ↔ S.Under n x) → m.exec E (.removeFeature (.ptr (some i)) rec) = .ok m' →
      Without m m' (fun j => Owned m j ∧ Below m i j) → S.after (.remove n rec) = { S with row := fun x => if D x then none else S.row x } →
      ∃ m', m.oneCall E (.removeFeature (.ptr (some i)) rec) = some m' ∧ WF m' ∧ TidyGroups m' ∧ SheetOf m' (S.after (.remove n rec)) ∧ SameRest m m' := by
    intro m' D _ hD h1 h2 h3
    have w' := without_wf w h2 cut
    rw [h3]
    exact ⟨m', oneCall_ok w w' h1, w', tidy_without t h2, sheetOf_without w R hi hr h2 hD, sameRest_without h2 cut.root⟩
  cases rec with
  | true =>
    obtain ⟨m', h1, h2⟩ := removeRec_ok E (m.next + 1) m i w hki hr (fun j ho _ hj c hc => t.flat j (by
      rcases ho with ho | ho
      · obtain ⟨f, hf⟩ := w.known_data ho
        obtain ⟨k, hk⟩ := hj
        rw [hf] at hk; cases hk
      · exact ho) c hc) (by omega)
    have h1' : m.exec E (.removeFeature (.ptr (some i)) true) = .ok m' := h1
    classical
    exact fin m' (fun x => S.Under n x) (fun x => Iff.rfl) h1' h2 (by simp only [Sheet.after])
  | false =>
    by_cases hc : ∃ c, Known m c ∧ FParent m c i
    · obtain ⟨c, hkc, hp⟩ := hc
      have h1 := C21_remove_nonleaf (f := .ptr (some i)) w E rfl hki hkc hp
      refine ⟨m, oneCall_err w h1, w, t, ?_, sameRest_refl m⟩
      have : S.after (.remove n false) = S := by
        simp only [Sheet.after]
        rw [if_pos]
        obtain ⟨⟨x, c⟩, hx, rfl⟩ := List.mem_map.1 hkc
        obtain ⟨f, hf, _⟩ := w.feat_ok _ hx
        exact ⟨x, ⟨some n, f.attr⟩, (R.row x _).2 ⟨c, f, hx, hf, rfl, .inr ⟨i, n, hp, hi, rfl⟩⟩, rfl⟩
      rw [this]; exact R
    · have hleaf : ∀ c, ¬ Via m isF i c := fun c hv => hc ⟨c, (via_iff_fparent w (.inl hki) (w.known_data hki)).1 hv⟩
      obtain ⟨m', h1, h2⟩ := C21_remove_leaf_partial (f := .ptr (some i)) w E rfl hki hr hleaf (tidy_leaf w t hki hleaf)
      have hno : ¬ ∃ x e, S.row x = some e ∧ e.parent = some n := by
        rintro ⟨x, e, h3, h4⟩
        obtain ⟨c, f, g1, _, _, g4⟩ := (R.row x e).1 h3
        rcases g4 with ⟨g4, _⟩ | ⟨q, y, g5, g6, g7⟩
        · rw [h4] at g4; cases g4
        · rw [h4] at g7; cases g7
          have := names_inj w g6 hi
          subst this
          exact hc ⟨c, List.mem_map_of_mem (f := Prod.snd) g1, g5⟩
      refine fin m' (fun x => x = n) ?_ h1 h2 ?_
      · intro x
        constructor
        · rintro rfl; exact .refl
        · intro hu
          cases hu with
          | refl => rfl
          | @step x y e g1 g2 g3 =>
            exfalso
            have : ∀ y, S.Under n y → y = n := by
              intro y hy
              induction hy with
              | refl => rfl
              | step a b _ ih => rw [ih] at b; exact absurd ⟨_, _, a, b⟩ hno
            rw [this y g3] at g2
            exact hno ⟨x, e, g1, g2⟩
      · simp only [Sheet.after]
        rw [if_neg hno]

/-- Every statement leaves a model as the sheet says. -/
theorem C82_statement {m : FModel} {S : Sheet} (w : WF m) (t : TidyGroups m) (R : SheetOf m S) (E : Env) {r : Str} {ri : Id}
    (hr : (r, ri) ∈ m.features) (hroot : m.root = some ri) (e : PyEdit) (hs : Spares r e) :
    ∃ m', left (e.run E m) = some m' ∧ WF m' ∧ TidyGroups m' ∧ SheetOf m' (S.after e) ∧ SameRest m m' := by
  have none_add : ∀ pn a, m.getFeature pn = none → S.add pn a = S := by
    intro pn a h
    unfold Sheet.add
    rw [if_pos (.inl ((R.none w).2 (getFeature_none.1 h)))]
  cases e with
  | addBinary p n o l =>
    simp only [PyEdit.run, Sheet.after]
    cases hg : m.getFeature p with
    | none => rw [none_add _ _ hg]; exact ⟨m, rfl, w, t, R, sameRest_refl m⟩
    | some i =>
      obtain ⟨m', h1, h2⟩ := oneCall_add (a := { name := n, kind := .binary, opt := o, locs := l }) w t R E (getFeature_some hg) (by simp)
      refine ⟨m', ?_, h2⟩
      simp only [h1]; rfl
  | addNumeric p n vs o l =>
    simp only [PyEdit.run, Sheet.after]
    cases hg : m.getFeature p with
    | none => rw [none_add _ _ hg]; exact ⟨m, rfl, w, t, R, sameRest_refl m⟩
    | some i =>
      obtain ⟨m', h1, h2⟩ := oneCall_add (a := { name := n, kind := .numeric vs none, opt := o, locs := l }) w t R E (getFeature_some hg) (by simp)
      refine ⟨m', ?_, h2⟩
      simp only [h1]; rfl
  | remove n rec =>
    simp only [PyEdit.run]
    cases hg : m.getFeature n with
    | none =>
      refine ⟨m, rfl, w, t, ?_, sameRest_refl m⟩
      have hn : S.row n = none := (R.none w).2 (getFeature_none.1 hg)
      have hch : ∀ x e, S.row x = some e → e.parent ≠ some n := by
        intro x e hx hp
        obtain ⟨j, f, _, _, _, g4⟩ := (R.row x e).1 hx
        rcases g4 with ⟨g4, _⟩ | ⟨q, y, _, g6, g7⟩
        · rw [hp] at g4; cases g4
        · rw [hp] at g7; cases g7
          exact (R.known w).2 ⟨q, g6⟩ hn
      have hund : ∀ x, S.Under n x → x = n := by
        intro x hx
        induction hx with
        | refl => rfl
        | step a b _ ih => rw [ih] at b; exact absurd b (hch _ _ a)
      have hrow : S.after (.remove n rec) = S := by
        cases S with
        | mk row commit =>
          cases rec with
          | true =>
            simp only [Sheet.after, Sheet.mk.injEq, and_true]
            funext x
            split
            · next hu => rw [hund x hu]; exact hn.symm
            · rfl
          | false =>
            simp only [Sheet.after]
            rw [if_neg (by rintro ⟨x, e, h1, h2⟩; exact hch x e h1 h2)]
            simp only [Sheet.mk.injEq, and_true]
            funext x
            split
            · next hu => rw [hu]; exact hn.symm
            · rfl
      rw [hrow]; exact R
    | some i =>
      have hi := getFeature_some hg
      have hri : m.root ≠ some i := by
        intro h
        rw [hroot] at h; cases h
        exact hs (ids_inj w hi hr)
      obtain ⟨m', h1, h2⟩ := oneCall_remove (rec := rec) w t R E hi hri
      refine ⟨m', ?_, h2⟩
      simp only [h1]; rfl
  | setCommit c =>
    have h1 : m.exec E (.setCommit c) = .ok { m with commit := c } := rfl
    have w' : WF { m with commit := c } := wf_of_sameTree w ⟨rfl, rfl, rfl, rfl, rfl, rfl, fun _ => .refl _⟩
    refine ⟨{ m with commit := c }, ?_, w', ⟨t.flat, t.one⟩, sheetOf_commit w R rfl rfl rfl, rfl, fun _ h _ => h, rfl, rfl, rfl, rfl, rfl⟩
    simp only [PyEdit.run, oneCall_ok w w' h1]; rfl

/-- A program that looks up features when it needs them and does not remove the root ends with the model its
    statements describe; what cannot be done changes nothing.  Missing for the full claim: removing the root,
    models with groups directly in groups or several groups below one feature, and that the program learns
    of a statement that was not carried out (`C82_silent`). -/
theorem C82_program_partial {m : FModel} {S : Sheet} (w : WF m) (t : TidyGroups m) (R : SheetOf m S) (E : Env) {r : Str} {ri : Id}
    (hr : (r, ri) ∈ m.features) (hroot : m.root = some ri) (es : List PyEdit) (hs : ∀ e ∈ es, Spares r e) :
    ∃ m', pyRun E m es = some m' ∧ WF m' ∧ SheetOf m' (es.foldl Sheet.after S) ∧ SameRest m m' := by
  induction es generalizing m S with
  | nil => exact ⟨m, rfl, w, R, sameRest_refl m⟩
  | cons e es ih =>
    obtain ⟨m1, h1, w1, t1, R1, s1⟩ := C82_statement w t R E hr hroot e (hs e (by simp))
    have hroot1 : m1.root = some ri := s1.root.trans hroot
    have hr1 : (r, ri) ∈ m1.features := s1.root_name _ hr hroot
    obtain ⟨m', h2, w2, R2, s2⟩ := ih w1 t1 R1 hr1 hroot1 (fun e he => hs e (by simp [he]))
    refine ⟨m', ?_, w2, R2, s1.trans s2⟩
    simp only [pyRun]
    cases hh : e.run E m with
    | returns x => rw [hh] at h1; cases h1; exact h2
    | raises x => rw [hh] at h1; cases h1; exact h2
    | ub => rw [hh] at h1; cases h1

/-- A statement raises an exception exactly if a feature it looks up is missing. -/
theorem C82_raises_iff {m : FModel} (E : Env) (e : PyEdit) :
    (∃ m', e.run E m = .raises m') ↔ ∃ n, e.looksUp = some n ∧ ∀ i, (n, i) ∉ m.features := by
  have miss : ∀ n, m.getFeature n = none ↔ ∀ i, (n, i) ∉ m.features := by
    intro n
    rw [getFeature_none]
    constructor
    · exact fun h i hi => h (List.mem_map_of_mem (f := Prod.fst) hi)
    · intro h hx
      obtain ⟨⟨n, i⟩, hi, rfl⟩ := List.mem_map.1 hx
      exact h i hi
  have never : ∀ o m', PyEnd.ofOption o ≠ .raises m' := by
    intro o m'
    cases o <;> simp [PyEnd.ofOption]
  cases e with
  | addBinary p n o l =>
    simp only [PyEdit.looksUp, PyEdit.run, Option.some.injEq, exists_eq_left', ← miss]
    cases m.getFeature p with
    | none => simp
    | some i => simp [never]
  | addNumeric p n vs o l =>
    simp only [PyEdit.looksUp, PyEdit.run, Option.some.injEq, exists_eq_left', ← miss]
    cases m.getFeature p with
    | none => simp
    | some i => simp [never]
  | remove n r =>
    simp only [PyEdit.looksUp, PyEdit.run, Option.some.injEq, exists_eq_left', ← miss]
    cases m.getFeature n with
    | none => simp
    | some i => simp [never]
  | setCommit c => simp [PyEdit.looksUp, PyEdit.run, never]

/-- The claim is false: adding a feature whose name is taken, and removing a feature with children without
    `recursive`, does nothing and returns as if it had been done. -/
theorem C82_silent {m : FModel} (w : WF m) (E : Env) :
    (∀ p n i j o l, (p, i) ∈ m.features → (n, j) ∈ m.features → (PyEdit.addBinary p n o l).run E m = .returns m) ∧
    (∀ n i c, (n, i) ∈ m.features → Known m c → FParent m c i → (PyEdit.remove n false).run E m = .returns m) := by
  constructor
  · intro p n i j o l hp hn
    have h1 : m.exec E (.addFeature { name := n, kind := .binary, opt := o, locs := l } (some i)) = .err .alreadyPresent m := by
      show m.execAddFeature _ (some i) = _
      exact execAddFeature_err (List.mem_map_of_mem (f := Prod.fst) hn)
    simp only [PyEdit.run, getFeature_mem w.names hp, oneCall_err w h1]
    rfl
  · intro n i c hn hc hp
    have h1 := C21_remove_nonleaf (f := .ptr (some i)) w E rfl (List.mem_map_of_mem (f := Prod.snd) hn) hc hp
    simp only [PyEdit.run, getFeature_mem w.names hn, oneCall_err w h1]
    rfl

/-- Removing a root without children is undefined. -/
theorem C82_remove_root {m : FModel} (w : WF m) (E : Env) {n : Str} {i : Id} (hn : (n, i) ∈ m.features) (hr : m.root = some i)
    (hleaf : edg m i = []) : (PyEdit.remove n false).run E m = .ub := by
  have h1 := C21_remove_root (f := .ptr (some i)) w E rfl hr hleaf
  simp only [PyEdit.run, getFeature_mem w.names hn]
  unfold FModel.oneCall
  rw [consistent_of_WF w]
  simp [FModel.commitOps, FModel.outFold, h1, PyEnd.ofOption]

/-- A program that keeps the object of a feature it has removed and adds a feature below it is undefined: the
    Python object still refers to the deleted feature. -/
theorem C82_stale {m m' : FModel} (w : WF m) (w' : WF m') (E : Env) {i : Id} (hi : Known m i)
    (h : Without m m' (fun j => Owned m j ∧ Below m i j)) {a : Attr} (hn : ∀ j, (a.name, j) ∉ m'.features) :
    m'.oneCall E (.addFeature a (some i)) = none := by
  have hg : m'.heap i = none := h.gone i ⟨.inl hi, .refl⟩
  have h1 : m'.exec E (.addFeature a (some i)) = .ub := by
    have hne : i ≠ m'.next := by
      rintro rfl
      obtain ⟨d, hd⟩ := w.owned_data (.inl hi)
      have := w.fresh _ (by rw [heap_of_data hd]; simp)
      rw [h.next] at this
      exact Nat.lt_irrefl _ this
    have hm : m'.getFeature a.name = none := by
      rw [getFeature_none]
      intro hx
      obtain ⟨⟨n, j⟩, hj, e⟩ := List.mem_map.1 hx
      simp only at e
      exact hn j (by rw [← e]; exact hj)
    show m'.execAddFeature a (some i) = _
    simp [FModel.execAddFeature, FModel.insertFeature, hm, FModel.link, FModel.setParent, FModel.addEdge, FModel.put, hne, hg, FModel.outOf]
  unfold FModel.oneCall
  rw [consistent_of_WF w']
  simp [FModel.commitOps, FModel.outFold, h1]

/-- Not vacuous: `C` is removed from `grouped` and used as a parent afterwards. -/
example (E : Env) : ∃ m', grouped.exec E (.removeFeature (.name c!"C") false) = .ok m' ∧
    m'.oneCall E (.addFeature { name := c!"D", kind := .binary } (some 4)) = none := by
  have w := grouped_wf
  have hk : Known grouped 4 := by decide
  have hr : grouped.root ≠ some 4 := by decide
  have he : edg grouped 4 = [] := by decide
  have hleaf : ∀ c, ¬ Via grouped isF 4 c := by
    intro c h
    cases h with
    | here h _ _ => rw [he] at h; cases h
    | skip h _ _ _ => rw [he] at h; cases h
  obtain ⟨m', h1, h2⟩ := C21_remove_leaf_partial (f := .name c!"C") w E (by decide) hk hr hleaf (.inl he)
  refine ⟨m', h1, C82_stale w (without_wf w h2 (cut_below w hk hr)) E hk h2 ?_⟩
  intro j hj
  have : (c!"D", j) ∈ [(c!"root", 0), (c!"A", 2), (c!"B", 3), (c!"C", 4)] := ((h2.features.2 _).1 hj).1
  simp at this

/-- `grouped` with its sheet is a model the theorems speak of. -/
theorem grouped_tidy : TidyGroups grouped := by
  refine ⟨?_, ?_⟩
  · intro r hr c hc
    have : r = 1 := by simpa [grouped, ofNodes] using hr
    subst this
    have : c ∈ [(2 : Id), 3] := hc
    simp at this
    rcases this with rfl | rfl <;> exact ⟨_, rfl⟩
  · intro i hi r s hr hs _ _
    have : i ∈ [(0 : Id), 2, 3, 4] := hi
    simp at this
    rcases this with rfl | rfl | rfl | rfl
    · have h1 : r ∈ [(1 : Id)] := hr
      have h2 : s ∈ [(1 : Id)] := hs
      simp at h1 h2; rw [h1, h2]
    · have h1 : r ∈ [(4 : Id)] := hr
      have h2 : s ∈ [(4 : Id)] := hs
      simp at h1 h2; rw [h1, h2]
    · have h1 : r ∈ ([] : List Id) := hr
      simp at h1
    · have h1 : r ∈ ([] : List Id) := hr
      simp at h1

/-- Not vacuous: a program that adds `D` below `B`, removes `A` with `C`, and fails to add `B` again. -/
example (E : Env) : ∃ S m', SheetOf grouped S ∧
    pyRun E grouped [.addBinary c!"B" c!"D" true [], .remove c!"A" true, .addBinary c!"root" c!"B" false [], .setCommit c!"abc"] = some m' ∧
    WF m' ∧ SheetOf m' ([PyEdit.addBinary c!"B" c!"D" true [], .remove c!"A" true, .addBinary c!"root" c!"B" false [], .setCommit c!"abc"].foldl Sheet.after S) := by
  obtain ⟨S, R⟩ := sheetOf_exists grouped_wf
  obtain ⟨m', h1, h2, h3, _⟩ := C82_program_partial grouped_wf grouped_tidy R E (r := c!"root") (ri := 0) (by decide) rfl
    [.addBinary c!"B" c!"D" true [], .remove c!"A" true, .addBinary c!"root" c!"B" false [], .setCommit c!"abc"]
    (by intro e he; simp at he; rcases he with rfl | rfl | rfl | rfl <;> simp [Spares])
  exact ⟨S, m', R, h1, h2, h3⟩

end Verif.Props

import Verif.Merge.Compare
import Verif.FM.Traverse
/-! Lemmas: what merging does to the copy. -/

namespace Verif
open Verif.Spec

/-- The copy `c`, made as `c0`, after the features in `V` of the second model have been merged. -/
structure MergeInv (m1 m2 c0 c : FModel) (V : Id → Prop) : Prop where
  wf : WF c
  bound : Bound c
  frame : Frame m1.next m1.heap c
  sub : ∀ e ∈ c0.features, e ∈ c.features
  names : ∀ n i, (n, i) ∈ c.features → (n, i) ∈ c0.features ∨ ∃ j, V j ∧ (n, j) ∈ m2.features
  rels : c.rels = c0.rels
  root : c.root = c0.root
  name : c.name = c0.name
  path : c.path = c0.path
  commit : c.commit = c0.commit
  booleans : c.booleans = c0.booleans
  nonBooleans : c.nonBooleans = c0.nonBooleans
  mixeds : c.mixeds = c0.mixeds
  par : ∀ i, Owned c0 i → par c i = par c0 i
  rel : ∀ i ∈ c0.rels, data c i = data c0 i
  old : ∀ n i f, (n, i) ∈ c0.features → data c0 i = some (.feat f) → ∃ ls,
    data c i = some (.feat { f with attr := { f.attr with locs := f.attr.locs ++ ls } }) ∧
    (∀ i1 f1 j g, (n, i1) ∈ m1.features → data m1 i1 = some (.feat f1) → (n, j) ∈ m2.features → V j →
      data m2 j = some (.feat g) → ls = newLocs f1 g) ∧
    ((∀ j, V j → (n, j) ∉ m2.features) → ls = [])
  new : ∀ n j g, V j → (n, j) ∈ m2.features → data m2 j = some (.feat g) → (∀ i, (n, i) ∉ m1.features) →
    ∃ i f, (n, i) ∈ c.features ∧ data c i = some (.feat f) ∧ f = { attr := clonedAttr g.attr } ∧
      (∀ q qn, FParent m2 j q → (qn, q) ∈ m2.features → ∃ p, (qn, p) ∈ c.features ∧ Spec.par c i = some p)

/-! ### One feature -/

theorem addLocs_run (E : Env) {n : Str} {i i1 : Id} : ∀ (ls : List Range) {c : FModel} {f : Feat}, WF c → Bound c →
    (n, i) ∈ c.features → c.nameOf i1 = some n → i1 < c.next → (∀ c' : FModel, c'.heap i1 = c.heap i1 → c'.nameOf i1 = some n) →
    i1 ≠ i → data c i = some (.feat f) →
    ∃ c', FModel.copyRun E c (ls.map fun r => .addLocation (.ptr (some i1)) r) = some c' ∧ WF c' ∧ Bound c' ∧ SameMeta c c' ∧
      par c' = par c ∧ edg c' = edg c ∧
      data c' = upd (data c) i (some (.feat { f with attr := { f.attr with locs := f.attr.locs ++ ls } })) ∧
      c'.heap i1 = c.heap i1
  | [], c, f, w, b, hi, _, _, _, _, hf => by
    refine ⟨c, rfl, w, b, .refl c, rfl, rfl, ?_, rfl⟩
    rw [show ({ f with attr := { f.attr with locs := f.attr.locs ++ [] } } : Feat) = f by simp, ← hf, upd_self]
  | r :: rs, c, f, w, b, hi, hn, hlt, hcn, hne, hf => by
    have hg := getFeature_mem w.names hi
    have hx : c.copyExec E (.addLocation (.ptr (some i1)) r) = c.exec E (.addLocation (.ptr (some i)) r) := by
      simp only [FModel.copyExec, FModel.resolve, FModel.translate, hn, Option.map_some, hg, FModel.exec]
    obtain ⟨c1, h1, h2, h3, h4, h5⟩ := updFeat_ok (fun f => { f with attr := { f.attr with locs := f.attr.locs ++ [r] } }) hf
    have he : c.exec E (.addLocation (.ptr (some i)) r) = .ok c1 := by
      simp only [FModel.exec, FModel.execAddLocation, FModel.resolve, h1, FModel.outOf]
    have hl : Legal c (.addLocation (.ptr (some i)) r) := ⟨i, rfl, known_of_mem hi⟩
    obtain ⟨w1, b1⟩ : WF c1 ∧ Bound c1 := by
      rcases exec_sound w b E hl with ⟨x, hx, a, b⟩ | ⟨e, x, hx, _⟩
      · rw [he] at hx; cases hx; exact ⟨a, b⟩
      · rw [he] at hx; cases hx
    have hh1 : c1.heap i1 = c.heap i1 := by
      unfold FModel.updFeat at h1
      rw [heap_of_data hf] at h1
      simp only [Option.some.injEq] at h1
      rw [← h1]
      simp [FModel.put, hne]
    obtain ⟨c', g1, g2, g3, g4, g5, g6, g7, g8⟩ := addLocs_run E rs (c := c1) w1 b1 (by rw [h2.features]; exact hi)
      (hcn c1 hh1) (by rw [h2.next]; exact hlt) (fun c' h => hcn c' (h.trans hh1)) hne
      (f := { f with attr := { f.attr with locs := f.attr.locs ++ [r] } }) (by rw [h5]; simp)
    refine ⟨c', ?_, g2, g3, h2.trans g4, g5.trans h3, g6.trans h4, ?_, g8.trans hh1⟩
    · simp only [List.map_cons, FModel.copyRun, hx, he]; exact g1
    · rw [g7, h5]
      funext x
      by_cases hxi : x = i
      · subst hxi; simp
      · simp [upd_ne _ _ hxi]

variable {m1 m2 c0 : FModel}

theorem featureCopy_eq (a : Attr) : FModel.featureCopy a = if a.kind = .unknown then none else some (clonedAttr a) := by
  unfold FModel.featureCopy clonedAttr
  cases h : a.kind <;> simp

theorem heap_low (h1 : SameHeap m1 m2) {c : FModel} (hf : Frame m1.next m1.heap c) (w2 : WF m2) {j : Id} (hj : Known m2 j) :
    c.heap j = m2.heap j := by
  rw [hf.low j (h1.next ▸ w2.owned_lt (.inl hj)), h1.heap]

theorem mergeOne_spec (E : Env) (strict : Bool) (w1 : WF m1) (w2 : WF m2) (hh : SameHeap m1 m2)
    (h0 : ∀ n, (∃ i, (n, i) ∈ c0.features) ↔ ∃ i, (n, i) ∈ m1.features) (w0 : WF c0) {c : FModel} {V : Id → Prop}
    (h : MergeInv m1 m2 c0 c V) {j : Id} {n : Str} (hj : (n, j) ∈ m2.features) (hv : ¬ V j)
    (hp : ∀ q, FParent m2 j q → V q) (hr : m2.root = some j → ∃ i, (n, i) ∈ m1.features) :
    ∃ c' b, FModel.mergeOne E strict m1 m2 c j = some (c', b) ∧ (b = true ↔ Mergeable strict m1 m2 j) ∧
      (b = true → MergeInv m1 m2 c0 c' (fun x => V x ∨ x = j)) := by
  obtain ⟨g, hg, gn⟩ := w2.feat_ok _ hj
  simp only at hg gn
  have kj := known_of_mem hj
  have hmerge : Mergeable strict m1 m2 j ↔
      ((∃ i, (n, i) ∈ m1.features ∧ Fits strict m1 m2 i j) ∨ ((∀ i, (n, i) ∉ m1.features) ∧ g.attr.kind ≠ .unknown)) := by
    constructor
    · rintro ⟨n', g', h1, h2, h3⟩
      have := w2.id_unique h1 hj; subst this
      rw [hg] at h2; cases h2
      exact h3
    · intro h; exact ⟨n, g, hj, hg, h⟩
  unfold FModel.mergeOne
  rw [feat?_of_data hg]
  simp only [gn]
  cases hi : m1.getFeature n with
  | some i =>
    have hi := getFeature_some hi
    obtain ⟨f, hf, fn⟩ := w1.feat_ok _ hi
    simp only at hf fn
    obtain ⟨b, hb, hbs⟩ := compareProperties_spec w1 w2 hi hj strict
    have hm : Mergeable strict m1 m2 j ↔ b = true := by
      rw [hmerge, hbs]
      constructor
      · rintro (⟨i', h1, h2⟩ | ⟨h1, _⟩)
        · have := w1.entry_unique h1 hi; subst this; exact h2
        · exact absurd hi (h1 i)
      · intro h; exact .inl ⟨i, hi, h⟩
    simp only [feat?_of_data hf, hb]
    cases b with
    | false => exact ⟨c, false, rfl, hm.symm, by simp⟩
    | true =>
      obtain ⟨ic, hic0⟩ := (h0 n).2 ⟨i, hi⟩
      have hic := h.sub _ hic0
      obtain ⟨f0, hf0, _⟩ := w0.feat_ok _ hic0
      simp only at hf0
      obtain ⟨ls, o1, o2, o3⟩ := h.old n ic f0 hic0 hf0
      have hlt := w1.owned_lt (.inl (known_of_mem hi))
      have hlow := h.frame.low i hlt
      have hne : i ≠ ic := by
        intro e
        have := h.frame.features _ hic
        simp only at this
        exact Nat.not_lt.2 this (e ▸ hlt)
      have hname : ∀ c' : FModel, c'.heap i = c.heap i → c'.nameOf i = some n := by
        intro c' e
        rw [nameOf_heap (e.trans hlow)]; exact nameOf_mem w1 hi
      obtain ⟨c', g1, g2, g3, g4, g5, g6, g7, _⟩ := addLocs_run E (newLocs f g) h.wf h.bound hic (hname c rfl)
        (Nat.lt_of_lt_of_le hlt h.frame.next) hname hne o1
      refine ⟨c', true, ?_, hm.symm, fun _ => ?_⟩
      · show Option.map _ (FModel.copyRun E c ((newLocs f g).map _)) = _
        rw [g1]; rfl
      · have hls : ls = [] := o3 fun j' hv' hm' => hv ((w2.entry_unique hm' hj) ▸ hv')
        have hd : ∀ x, x ≠ ic → data c' x = data c x := fun x hx => by rw [g7, upd_ne _ _ hx]
        have hrel : ∀ x ∈ c0.rels, x ≠ ic := fun x hx e => w0.known_not_rel (known_of_mem hic0) (e ▸ hx)
        exact
          { wf := g2
            bound := g3
            frame := h.frame.copyRun g1
            sub := fun e he => by rw [g4.features]; exact h.sub e he
            names := fun n' i' hm' => by
              rw [g4.features] at hm'
              rcases h.names n' i' hm' with a | ⟨j', a, b⟩
              · exact .inl a
              · exact .inr ⟨j', .inl a, b⟩
            rels := g4.rels.trans h.rels
            root := g4.root.trans h.root
            name := g4.name.trans h.name
            path := g4.path.trans h.path
            commit := g4.commit.trans h.commit
            booleans := g4.booleans.trans h.booleans
            nonBooleans := g4.nonBooleans.trans h.nonBooleans
            mixeds := g4.mixeds.trans h.mixeds
            par := fun x hx => by rw [g5]; exact h.par x hx
            rel := fun x hx => by rw [hd x (hrel x hx)]; exact h.rel x hx
            old := by
              intro n' x f' hx hf'
              by_cases hxi : x = ic
              · subst hxi
                have := w0.id_unique hx hic0; subst this
                rw [hf0] at hf'; cases hf'
                refine ⟨newLocs f g, ?_, ?_, ?_⟩
                · rw [g7, hls]; simp
                · intro i1 f1 j1 g' a1 a2 a3 a4 a5
                  have := w1.entry_unique a1 hi; subst this
                  have := w2.entry_unique a3 hj; subst this
                  rw [hf] at a2; cases a2
                  rw [hg] at a5; cases a5
                  rfl
                · intro a; exact absurd hj (a j (.inr rfl))
              · obtain ⟨ls', p1, p2, p3⟩ := h.old n' x f' hx hf'
                have hnn : n' ≠ n := by
                  rintro rfl
                  exact hxi (w0.entry_unique hx hic0)
                refine ⟨ls', by rw [hd x hxi]; exact p1, ?_, fun a => p3 fun j' b => a j' (.inl b)⟩
                intro i1 f1 j1 g' a1 a2 a3 a4 a5
                rcases a4 with a4 | rfl
                · exact p2 i1 f1 j1 g' a1 a2 a3 a4 a5
                · exact absurd (w2.id_unique a3 hj) hnn
            new := by
              intro n' j' g' hv' hj' hg' hnot
              rcases hv' with hv' | rfl
              · obtain ⟨x, fx, p1, p2, p3, p4⟩ := h.new n' j' g' hv' hj' hg' hnot
                have hx : x ≠ ic := by
                  rintro rfl
                  have := h.wf.id_unique p1 hic; subst this
                  exact hnot i hi
                refine ⟨x, fx, by rw [g4.features]; exact p1, by rw [hd x hx]; exact p2, p3, ?_⟩
                intro q qn a b
                obtain ⟨p, r1, r2⟩ := p4 q qn a b
                exact ⟨p, by rw [g4.features]; exact r1, by rw [g5]; exact r2⟩
              · have := w2.id_unique hj' hj; subst this
                exact absurd hi (hnot i) }
  | none =>
    have hnot : ∀ i, (n, i) ∉ m1.features := fun i hm => getFeature_none.1 hi (List.mem_map_of_mem (f := Prod.fst) hm)
    have hm : Mergeable strict m1 m2 j ↔ g.attr.kind ≠ .unknown := by
      rw [hmerge]
      constructor
      · rintro (⟨i, h1, _⟩ | ⟨_, h1⟩)
        · exact absurd h1 (hnot i)
        · exact h1
      · intro h; exact .inr ⟨hnot, h⟩
    rw [featureCopy_eq]
    by_cases hu : g.attr.kind = .unknown
    · rw [if_pos hu]
      exact ⟨c, false, rfl, by rw [hm]; simp [hu], by simp⟩
    · rw [if_neg hu]
      have hnr : m2.root ≠ some j := fun e => by obtain ⟨i, a⟩ := hr e; exact hnot i a
      obtain ⟨q, hq, kq⟩ := w2.has_fparent (.inl kj) hnr
      obtain ⟨r, e1, s1⟩ := parentFeature_spec w2 (.inl kj)
      rw [(s1 q).2 hq] at e1
      obtain ⟨⟨qn, q'⟩, hqn, rfl⟩ := List.mem_map.1 kq
      simp only at hq kq e1
      -- the parent in the copy
      obtain ⟨p, hpc⟩ : ∃ p, (qn, p) ∈ c.features := by
        by_cases hin : ∃ i, (qn, i) ∈ m1.features
        · obtain ⟨x, hx⟩ := (h0 qn).2 hin
          exact ⟨x, h.sub _ hx⟩
        · obtain ⟨g', hg', _⟩ := w2.feat_ok _ hqn
          obtain ⟨x, _, hx, _⟩ := h.new qn q' g' (hp q' hq) hqn hg' (fun i a => hin ⟨i, a⟩)
          exact ⟨x, hx⟩
      have hnm : c.nameOf q' = some qn := by
        rw [nameOf_heap (heap_low hh h.frame w2 kq)]; exact nameOf_mem w2 hqn
      have hpg := getFeature_mem h.wf.names hpc
      have hfresh : (clonedAttr g.attr).name ∉ c.features.map Prod.fst := by
        rw [clonedAttr_name, gn]
        intro a
        obtain ⟨⟨_, x⟩, hx, rfl⟩ := List.mem_map.1 a
        rcases h.names _ _ hx with a | ⟨j', b1, b2⟩
        · obtain ⟨i, a⟩ := (h0 _).1 ⟨_, a⟩
          exact hnot i a
        · exact hv ((w2.entry_unique b2 hj) ▸ b1)
      obtain ⟨c', p', k1, k2, k3, k4, k5⟩ := execAddFeature_ok h.wf hfresh (parent := some p)
        (fun i e => by cases e; exact .inl (known_of_mem hpc))
      have hpp : p' = p := by
        rcases k5 with e | ⟨e, _⟩
        · cases e; rfl
        · cases e
      subst hpp
      have hkind : (clonedAttr g.attr).kind ≠ .root :=
        clonedAttr_kind fun e => hnr ((root_of_kind w2 kj hg).1 e)
      have hx : c.copyExec E (.addFeature (clonedAttr g.attr) (some q')) = .ok c' := by
        simp only [FModel.copyExec, FModel.translate, hnm, Option.map_some, hpg, k1]
      have hrun : FModel.copyRun E c [.addFeature (clonedAttr g.attr) (some q')] = some c' := by
        simp only [FModel.copyRun, hx]
      have w' : WF c' ∧ Bound c' := by
        rcases exec_sound h.wf h.bound E (op := .addFeature (clonedAttr g.attr) (some p'))
          ⟨hkind, fun i e => by cases e; exact known_of_mem hpc⟩ with ⟨x, hx, a, b⟩ | ⟨e, x, hx, _⟩
        · rw [FModel.exec, k1] at hx; cases hx; exact ⟨a, b⟩
        · rw [FModel.exec, k1] at hx; cases hx
      refine ⟨c', true, ?_, by rw [hm]; simp [hu], fun _ => ?_⟩
      · simp only [e1, hrun]; rfl
      · have hnew : ∀ x, Owned c x → x ≠ c.next := fun x hx e => h.wf.not_owned_next (e ▸ hx)
        have hown : ∀ x, Owned c0 x → Owned c x := by
          rintro x (hx | hx)
          · obtain ⟨e, he, rfl⟩ := List.mem_map.1 hx
            exact .inl (List.mem_map_of_mem (h.sub e he))
          · exact .inr (by rw [h.rels]; exact hx)
        have hd : ∀ x, Owned c x → data c' x = data c x := fun x hx => by rw [k2.data, upd_ne _ _ (hnew x hx)]
        have hpar : ∀ x, Owned c x → par c' x = par c x := fun x hx => by rw [k2.par, upd_ne _ _ (hnew x hx)]
        have hsub : ∀ e ∈ c.features, e ∈ c'.features := fun e he => by rw [k2.features]; exact List.mem_append_left _ he
        have hname : ((clonedAttr g.attr).name, c.next) = (n, c.next) := by rw [clonedAttr_name, gn]
        exact
          { wf := w'.1
            bound := w'.2
            frame := h.frame.copyRun hrun
            sub := fun e he => hsub e (h.sub e he)
            names := fun n' i' hm' => by
              rw [k2.features, hname] at hm'
              rcases List.mem_append.1 hm' with hm' | hm'
              · rcases h.names n' i' hm' with a | ⟨j', a, b⟩
                · exact .inl a
                · exact .inr ⟨j', .inl a, b⟩
              · simp only [List.mem_singleton, Prod.mk.injEq] at hm'
                exact .inr ⟨j, .inr rfl, hm'.1 ▸ hj⟩
            rels := k2.rels.trans h.rels
            root := k2.root.trans h.root
            name := k2.name.trans h.name
            path := k2.path.trans h.path
            commit := k2.commit.trans h.commit
            booleans := k2.booleans.trans h.booleans
            nonBooleans := k2.nonBooleans.trans h.nonBooleans
            mixeds := k2.mixeds.trans h.mixeds
            par := fun x hx => by rw [hpar x (hown x hx)]; exact h.par x hx
            rel := fun x hx => by rw [hd x (hown x (.inr hx))]; exact h.rel x hx
            old := by
              intro n' x f' hx hf'
              obtain ⟨ls', p1, p2, p3⟩ := h.old n' x f' hx hf'
              refine ⟨ls', by rw [hd x (hown x (.inl (known_of_mem hx)))]; exact p1, ?_, fun a => p3 fun j' b => a j' (.inl b)⟩
              intro i1 f1 j1 g' a1 a2 a3 a4 a5
              rcases a4 with a4 | rfl
              · exact p2 i1 f1 j1 g' a1 a2 a3 a4 a5
              · have := w2.id_unique a3 hj; subst this
                exact absurd a1 (hnot i1)
            new := by
              intro n' j' g' hv' hj' hg' hnot'
              rcases hv' with hv' | rfl
              · obtain ⟨x, fx, p1, p2, p3, p4⟩ := h.new n' j' g' hv' hj' hg' hnot'
                have hox : Owned c x := .inl (known_of_mem p1)
                refine ⟨x, fx, hsub _ p1, by rw [hd x hox]; exact p2, p3, ?_⟩
                intro q qn a b
                obtain ⟨p, r1, r2⟩ := p4 q qn a b
                exact ⟨p, hsub _ r1, by rw [hpar x hox]; exact r2⟩
              · have := w2.id_unique hj' hj; subst this
                rw [hg] at hg'; cases hg'
                refine ⟨c.next, { attr := clonedAttr g.attr }, by rw [k2.features, hname]; simp, by rw [k2.data]; simp, rfl, ?_⟩
                intro q2 qn2 a b
                have := a.functional hq; subst this
                have := w2.id_unique b hqn; subst this
                exact ⟨p', hsub _ hpc, by rw [k2.par]; simp⟩ }

/-! ### Subtrees -/

theorem Spec.WF.below_child {m : FModel} (w : WF m) {i x : Id} (hi : Known m i) (hx : Known m x) (hb : Below m i x) (hne : x ≠ i) :
    ∃ c, Via m isF i c ∧ Below m c x := by
  induction hn : lvlOf m x using Nat.strongRecOn generalizing x with
  | _ n ih =>
    have hnr : m.root ≠ some x := by
      intro hr
      have := w.root_par hr
      cases hb with
      | refl => exact hne rfl
      | step hp _ => rw [this] at hp; cases hp
    obtain ⟨p, hp, kp⟩ := w.has_fparent (.inl hx) hnr
    have hv := (via_iff_fparent w (.inl kp) (w.known_data kp)).2 ⟨hx, hp⟩
    by_cases hpi : p = i
    · subst hpi; exact ⟨x, hv, .refl⟩
    · have hl := (w.via_known kp hv).2.2.2
      obtain ⟨c, hc1, hc2⟩ := ih (lvlOf m p) (by omega) kp (fparent_above hp hb (Ne.symm hne) (w.known_data hi)) hpi rfl
      exact ⟨c, hc1, hc2.trans (fparent_isBelow hp)⟩

theorem MergeInv.congr {c : FModel} {V W : Id → Prop} (h : MergeInv m1 m2 c0 c V) (e : ∀ x, V x ↔ W x) : MergeInv m1 m2 c0 c W := by
  have : V = W := funext fun x => propext (e x)
  exact this ▸ h

theorem mergeSubtree_spec (E : Env) (strict : Bool) (w1 : WF m1) (w2 : WF m2) (hh : SameHeap m1 m2)
    (h0 : ∀ n, (∃ i, (n, i) ∈ c0.features) ↔ ∃ i, (n, i) ∈ m1.features) (w0 : WF c0)
    (hr : ∀ n r, m2.root = some r → (n, r) ∈ m2.features → ∃ i, (n, i) ∈ m1.features) :
    ∀ (fuel : Nat) (c : FModel) (j : Id) (V : Id → Prop), MergeInv m1 m2 c0 c V → Known m2 j → m2.next ≤ fuel + lvlOf m2 j →
      (∀ x, Known m2 x → Below m2 j x → ¬ V x) → (∀ q, FParent m2 j q → V q) →
      ∃ c' b, FModel.mergeSubtree E strict m1 m2 fuel c j = some (c', b) ∧
        (b = true ↔ ∀ x, Known m2 x → Below m2 j x → Mergeable strict m1 m2 x) ∧
        (b = true → MergeInv m1 m2 c0 c' (fun x => V x ∨ (Known m2 x ∧ Below m2 j x))) := by
  intro fuel
  induction fuel with
  | zero =>
    intro c j V _ kj hl
    have := w2.level_lt (.inl kj)
    omega
  | succ fuel ih =>
    intro c j V h kj hl hv hp
    obtain ⟨⟨n, j'⟩, hj, rfl⟩ := List.mem_map.1 kj
    simp only at hl hv hp kj ⊢
    obtain ⟨c1, b1, g1, g2, g3⟩ := mergeOne_spec E strict w1 w2 hh h0 w0 h hj (hv j' kj .refl) hp (fun e => hr n j' e hj)
    unfold FModel.mergeSubtree
    rw [g1]
    cases b1 with
    | false =>
      refine ⟨c1, false, rfl, ?_, by simp⟩
      simp only [Bool.false_eq_true, false_iff] at g2 ⊢
      exact fun a => g2 (a j' kj .refl)
    | true =>
      obtain ⟨cs, k1, k2, k3⟩ := childrenF w2 E (.inl kj)
      simp only [k1]
      have key : ∀ (l : List Id) (c : FModel) (V : Id → Prop), MergeInv m1 m2 c0 c V → l.Nodup → (∀ x ∈ l, Via m2 isF j' x) →
          (∀ x ∈ l, ∀ y, Known m2 y → Below m2 x y → ¬ V y) → V j' →
          ∃ c' b, FModel.boolFold (fun c x => FModel.mergeSubtree E strict m1 m2 fuel c x) c l = some (c', b) ∧
            (b = true ↔ ∀ x ∈ l, ∀ y, Known m2 y → Below m2 x y → Mergeable strict m1 m2 y) ∧
            (b = true → MergeInv m1 m2 c0 c' (fun y => V y ∨ (Known m2 y ∧ ∃ x ∈ l, Below m2 x y))) := by
        intro l
        induction l with
        | nil =>
          intro c V h _ _ _ _
          exact ⟨c, true, rfl, by simp, fun _ => h.congr (by simp)⟩
        | cons x xs ihl =>
          intro c V h hnd hvia hnv hvj
          rw [List.nodup_cons] at hnd
          have hvx := hvia x (List.mem_cons_self ..)
          obtain ⟨kx, fx, bx, lx⟩ := w2.via_known kj hvx
          obtain ⟨c2, b2, a1, a2, a3⟩ := ih c x V h kx (by omega) (hnv x (List.mem_cons_self ..))
            (fun q hq => by have := hq.functional fx; subst this; exact hvj)
          unfold FModel.boolFold
          rw [a1]
          cases b2 with
          | false =>
            refine ⟨c2, false, rfl, ?_, by simp⟩
            simp only [Bool.false_eq_true, false_iff] at a2 ⊢
            exact fun a => a2 (a x (List.mem_cons_self ..))
          | true =>
            obtain ⟨c3, b3, d1, d2, d3⟩ := ihl c2 _ (a3 rfl) hnd.2 (fun y hy => hvia y (List.mem_cons_of_mem _ hy))
              (by
                rintro y hy z kz hyz (hz | ⟨_, hz⟩)
                · exact hnv y (List.mem_cons_of_mem _ hy) z kz hyz hz
                · have := w2.via_disjoint kj (hvia y (List.mem_cons_of_mem _ hy)) hvx hyz hz
                  exact hnd.1 (this ▸ hy))
              (.inl hvj)
            refine ⟨c3, b3, d1, ?_, fun hb => (d3 hb).congr ?_⟩
            · rw [d2]
              constructor
              · intro a y hy
                rcases List.mem_cons.1 hy with rfl | hy
                · exact a2.1 rfl
                · exact a y hy
              · intro a y hy; exact a y (List.mem_cons_of_mem _ hy)
            · intro y
              constructor
              · rintro ((a | ⟨a, b⟩) | ⟨a, z, b, e⟩)
                · exact .inl a
                · exact .inr ⟨a, x, List.mem_cons_self .., b⟩
                · exact .inr ⟨a, z, List.mem_cons_of_mem _ b, e⟩
              · rintro (a | ⟨a, z, b, e⟩)
                · exact .inl (.inl a)
                · rcases List.mem_cons.1 b with rfl | b
                  · exact .inl (.inr ⟨a, e⟩)
                  · exact .inr ⟨a, z, b, e⟩
      obtain ⟨c', b, d1, d2, d3⟩ := key cs c1 _ (g3 rfl) k2 (fun x hx => (k3 x).1 hx)
        (by
          rintro x hx y ky hxy (hy | rfl)
          · exact hv y ky ((w2.via_known kj ((k3 x).1 hx)).2.2.1.trans hxy) hy
          · obtain ⟨kx, _, _, lx⟩ := w2.via_known kj ((k3 x).1 hx)
            have := w2.below_level (.inl ky) hxy
            omega)
        (.inr rfl)
      have hbelow : ∀ y, Known m2 y → (Below m2 j' y ↔ y = j' ∨ ∃ x ∈ cs, Below m2 x y) := by
        intro y ky
        constructor
        · intro hb
          by_cases hy : y = j'
          · exact .inl hy
          · obtain ⟨x, h1, h2⟩ := w2.below_child kj ky hb hy
            exact .inr ⟨x, (k3 x).2 h1, h2⟩
        · rintro (rfl | ⟨x, h1, h2⟩)
          · exact .refl
          · exact (w2.via_known kj ((k3 x).1 h1)).2.2.1.trans h2
      refine ⟨c', b, d1, ?_, fun hb => (d3 hb).congr ?_⟩
      · rw [d2]
        constructor
        · intro a y ky hb
          rcases (hbelow y ky).1 hb with rfl | ⟨x, h1, h2⟩
          · exact g2.1 rfl
          · exact a x h1 y ky h2
        · intro a x hx y ky hb
          exact a y ky ((hbelow y ky).2 (.inr ⟨x, hx, hb⟩))
      · intro y
        constructor
        · rintro ((a | rfl) | ⟨a, b⟩)
          · exact .inl a
          · exact .inr ⟨kj, .refl⟩
          · exact .inr ⟨a, (hbelow y a).2 (.inr b)⟩
        · rintro (a | ⟨a, b⟩)
          · exact .inl (.inl a)
          · rcases (hbelow y a).1 b with rfl | b
            · exact .inl (.inr rfl)
            · exact .inr ⟨a, b⟩

end Verif

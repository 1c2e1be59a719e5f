import Verif.FM.SetRoot
import Verif.FM.Consistent
/-! Lemmas: meaningful modifications keep a model well-formed. -/

namespace Verif
open Verif.Spec

theorem bound_keep {m m' : FModel} (b : Bound m) (hs : allStored m' = allStored m)
    (hf : ∀ e ∈ m.features, Mentioned m e.2 → e ∈ m'.features) : Bound m' := by
  constructor
  · rw [hs]; exact b.len
  · intro s hsm k i hk
    rw [hs] at hsm
    obtain ⟨n, h1, h2⟩ := b.bind s hsm k i hk
    exact ⟨n, h1, hf _ h2 ⟨s, hsm, List.mem_of_getElem? hk⟩⟩

theorem allStored_eq {m m' : FModel} (h1 : m'.booleans = m.booleans) (h2 : m'.nonBooleans = m.nonBooleans)
    (h3 : m'.mixeds = m.mixeds) : allStored m' = allStored m := by
  unfold allStored; rw [h1, h2, h3]

theorem resolve_name_known {m : FModel} {n : Str} {i : Id} (h : m.resolve (.name n) = some i) : Known m i :=
  getFeature_known h

theorem eraseLoc_ok {r : Range} : ∀ {ls : List Range}, (∃ l ∈ ls, l.eq r = true) →
    ∃ ls', FModel.eraseLoc r ls = some ls'
  | [], h => by obtain ⟨l, hl, _⟩ := h; cases hl
  | x :: xs, h => by
    unfold FModel.eraseLoc
    by_cases hx : x.eq r = true
    · exact ⟨xs, by rw [if_pos hx]⟩
    · rw [if_neg hx]
      obtain ⟨ls', h'⟩ := eraseLoc_ok (ls := xs) (by
        obtain ⟨l, hl, he⟩ := h
        rcases List.mem_cons.1 hl with rfl | hl
        · exact absurd he hx
        · exact ⟨l, hl, he⟩)
      exact ⟨x :: ls', by rw [h']; rfl⟩

/-- Outcome of a meaningful modification: never undefined, and the model is well-formed afterwards. -/
def SoundOut (o : Out) : Prop :=
  (∃ m', o = .ok m' ∧ WF m' ∧ Bound m') ∨ (∃ e m', o = .err e m' ∧ WF m' ∧ Bound m')

theorem removeFeature_sound {m : FModel} (w : WF m) (b : Bound m) (E : Env) {f : Ref} {recursive : Bool}
    (hl : Legal m (.removeFeature f recursive)) : SoundOut (m.execRemoveFeature E f recursive) := by
  unfold FModel.execRemoveFeature
  cases hres : m.resolve f with
  | none => exact .inr ⟨_, m, rfl, w, b⟩
  | some i =>
    obtain ⟨hi, hr, hl⟩ := hl i hres
    simp only
    cases recursive with
    | true =>
      simp only [if_true] at hl
      obtain ⟨m', h1, h2⟩ := removeRec_ok E (m.next + 1) m i w hi hr
        (fun j _ hb hj c hc => hl.2 j hb hj c hc) (by omega)
      refine .inl ⟨m', h1, wf_of_without w h2 ?_ ?_, bound_of_without b h2 (fun j hj => hl.1 j hj.2)⟩
      · intro j c hj hs hc
        obtain ⟨h3, h4⟩ := w.edge_par j c hj hc
        exact ⟨h3, .step h4 hs.2⟩
      · intro r hroot hs
        have hb := hs.2
        have : i = r := by
          cases hb with
          | refl => rfl
          | step hp _ => rw [w.root_par hroot] at hp; cases hp
        exact hr (this ▸ hroot)
    | false =>
      simp only [Bool.false_eq_true, if_false] at hl
      rcases hl with hl | ⟨hm, hl | ⟨r, he, her⟩⟩
      · exact .inr ⟨_, m, removeRec_nonLeaf w E m.next hi hl, w, b⟩
      · obtain ⟨m', h1, h2⟩ := removeRec_leaf w E m.next hi hr hl
        refine .inl ⟨m', h1, wf_of_without w h2 (closed_leaf hl) ?_, bound_of_without b h2 (by rintro j rfl; exact hm)⟩
        rintro x hx rfl
        exact hr hx
      · obtain ⟨ho, hp⟩ := w.edge_par i r (.inl hi) (by rw [he]; simp)
        by_cases hrel : IsRel m r
        · obtain ⟨m', h1, h2⟩ := removeRec_oneRel w E m.next hi hr he her hrel
          have hrr := w.owned_rel ho hrel
          refine .inl ⟨m', h1, wf_of_without w h2 ?_ ?_, bound_of_without b h2 ?_⟩
          · rintro j c _ (rfl | rfl) hc
            · rw [her] at hc; cases hc
            · rw [he] at hc; simp at hc; exact .inl hc
          · rintro x hx (rfl | rfl)
            · exact w.known_not_rel (w.root_known hx) hrr
            · exact hr hx
          · rintro j (rfl | rfl) hme
            · obtain ⟨s, hs, hb⟩ := hme
              obtain ⟨k, hk⟩ := List.mem_iff_getElem?.1 hb
              obtain ⟨n, _, h4⟩ := b.bind s hs k j hk
              exact w.known_not_rel (List.mem_map_of_mem (f := Prod.snd) h4) hrr
            · exact hm hme
        · have hf : IsFeat m r := by
            obtain ⟨d, hd⟩ := w.owned_data ho
            cases d with
            | feat f => exact ⟨f, hd⟩
            | rel k => exact absurd ⟨k, hd⟩ hrel
          refine .inr ⟨_, m, removeRec_nonLeaf w E m.next hi ?_, w, b⟩
          obtain ⟨f, hf⟩ := hf
          exact ⟨r, .here (by rw [he]; simp) hf rfl⟩

theorem exec_sound {m : FModel} (w : WF m) (b : Bound m) (E : Env) {op : Op} (hl : Legal m op) :
    SoundOut (m.exec E op) := by
  cases op with
  | addFeature a p =>
    show SoundOut (m.execAddFeature a p)
    by_cases hn : a.name ∈ m.features.map Prod.fst
    · exact .inr ⟨_, m, execAddFeature_err hn, w, b⟩
    · obtain ⟨m', q, h1, h2, h3, h4, _⟩ := execAddFeature_ok w hn (fun i hi => .inl (hl.2 i hi))
      refine .inl ⟨m', h1, wf_of_added w h2 ?_ ?_ hn h4 hl.1, bound_keep b (allStored_eq h2.booleans h2.nonBooleans h2.mixeds) ?_⟩
      · rw [h3]; exact Nat.lt_succ_self m.next
      · rw [h3]; exact Nat.le_succ m.next
      · intro e he _; rw [h2.features]; exact List.mem_append_left _ he
  | removeFeature f r => exact removeFeature_sound w b E hl
  | addRelationship k p =>
    obtain ⟨i, h1, h2, h3⟩ := hl
    obtain ⟨m', cs, h4, h5, h6⟩ := execAddRelationship_ok w E (k := k) h1 h2 h3
    exact .inl ⟨m', h4, h6, bound_keep b (allStored_eq h5.booleans h5.nonBooleans h5.mixeds)
      (fun e he _ => by rw [h5.features]; exact he)⟩
  | removeRelationship p =>
    show SoundOut (m.execRemoveRelationship E p)
    cases hres : m.resolve p with
    | none =>
      refine .inr ⟨.missingParent, m, ?_, w, b⟩
      unfold FModel.execRemoveRelationship; rw [hres]
    | some i =>
      obtain ⟨h1, h2, h3⟩ := hl i hres
      obtain ⟨m', r, cs, h4, _, _, h5, h6⟩ := execRemoveRelationship_ok w E hres h1 h2 h3
      exact .inl ⟨m', h4, h6, bound_keep b (allStored_eq h5.booleans h5.nonBooleans h5.mixeds)
        (fun e he _ => by rw [h5.features]; exact he)⟩
  | addLocation f r =>
    obtain ⟨i, h1, h2⟩ := hl
    obtain ⟨ft, hft⟩ := w.known_data h2
    obtain ⟨m', h3, h4, h5, h6, h7⟩ := updFeat_ok (fun f => { f with attr := { f.attr with locs := f.attr.locs ++ [r] } }) hft
    refine .inl ⟨m', ?_, wf_of_sameTree w (sameTree_updFeat hft ?_ ?_ h4 h5 h6 h7),
      bound_keep b (allStored_eq h4.booleans h4.nonBooleans h4.mixeds) (fun e he _ => by rw [h4.features]; exact he)⟩
    · show m.execAddLocation f r = _
      unfold FModel.execAddLocation; rw [h1]; simp only; rw [h3]; rfl
    · rfl
    · rfl
  | removeLocation f r =>
    obtain ⟨i, ft, h1, h2, hft, h0⟩ := hl
    obtain ⟨ls, hls⟩ := eraseLoc_ok h0
    obtain ⟨m', h3, h4, h5, h6, h7⟩ := updFeat_ok (fun f => { f with attr := { f.attr with locs := ls } }) hft
    refine .inl ⟨m', ?_, wf_of_sameTree w (sameTree_updFeat hft ?_ ?_ h4 h5 h6 h7),
      bound_keep b (allStored_eq h4.booleans h4.nonBooleans h4.mixeds) (fun e he _ => by rw [h4.features]; exact he)⟩
    · show m.execRemoveLocation f r = _
      unfold FModel.execRemoveLocation; rw [h1]; simp only
      have : m.feat? i = some ft := by simp [FModel.feat?, heap_of_data hft]
      rw [this]; simp only
      rw [hls]; simp only
      rw [h3]; rfl
    · rfl
    · rfl
  | addConstraint k c =>
    obtain ⟨m', h1, h2⟩ := execAddConstraint_spec w k c
    have w' := wf_of_constraintAdded w h2
    have b' := bound_of_constraintAdded b h2
    show SoundOut (m.execAddConstraint k c)
    rw [h1]
    split
    · exact .inl ⟨m', rfl, w', b'⟩
    · exact .inr ⟨_, m', rfl, w', b'⟩
  | setName n =>
    exact .inl ⟨_, rfl, wf_of_sameTree w ⟨rfl, rfl, rfl, rfl, rfl, rfl, fun _ => .refl _⟩, bound_keep b rfl (fun _ he _ => he)⟩
  | setCommit n =>
    exact .inl ⟨_, rfl, wf_of_sameTree w ⟨rfl, rfl, rfl, rfl, rfl, rfl, fun _ => .refl _⟩, bound_keep b rfl (fun _ he _ => he)⟩
  | setPath n =>
    exact .inl ⟨_, rfl, wf_of_sameTree w ⟨rfl, rfl, rfl, rfl, rfl, rfl, fun _ => .refl _⟩, bound_keep b rfl (fun _ he _ => he)⟩
  | setRoot n =>
    obtain ⟨r, rf, hr, hrk, hrd, _⟩ := w.root_ok
    show SoundOut (m.execSetRoot n)
    by_cases hne : rf.attr.name = n
    · subst hne
      exact .inl ⟨m, execSetRoot_same hr hrd, w, b⟩
    · by_cases hn : n ∈ m.features.map Prod.fst
      · exact .inr ⟨_, m, execSetRoot_taken hr hrd hne hn, w, b⟩
      · obtain ⟨m', h1, h2⟩ := execSetRoot_ok w hr hrd hne hn
        refine .inl ⟨m', h1, wf_of_rerooted w hr h2 rfl, bound_keep b (allStored_eq h2.booleans h2.nonBooleans h2.mixeds) ?_⟩
        intro e he hm
        refine (h2.features e).2 (.inl ⟨he, ?_⟩)
        intro her
        rcases hl r rf hr hrd with h | h
        · exact hne h
        · exact h (her ▸ hm)
  | addChild p c =>
    show SoundOut (m.execAddChild p c)
    cases hc : m.resolve c with
    | none =>
      refine .inr ⟨.missingChild, m, ?_, w, b⟩
      unfold FModel.execAddChild; rw [hc]
    | some ci =>
      cases hp : m.resolve p with
      | none =>
        refine .inr ⟨.missingParent, m, ?_, w, b⟩
        unfold FModel.execAddChild; rw [hc]; simp only; rw [hp]
      | some pi =>
        obtain ⟨h1, h2, h3, h4⟩ := hl ci pi hc hp
        by_cases he : ci = pi
        · refine .inr ⟨.recursiveEdge, m, ?_, w, b⟩
          unfold FModel.execAddChild; rw [hc]; simp only; rw [hp]; simp only; rw [if_pos he]
        · obtain ⟨m', h5, h6⟩ := execAddChild_ok w hp hc h2 h1 h3 he
          exact .inl ⟨m', h5, wf_of_moved w h6 h2 h1 h3 (h4.resolve_left he),
            bound_keep b (allStored_eq h6.rest.booleans h6.rest.nonBooleans h6.rest.mixeds)
              (fun e he _ => by rw [h6.rest.features]; exact he)⟩

theorem outFold_sound (E : Env) : ∀ (ops : List Op) (m : FModel), WF m → Bound m → LegalRun E m ops →
    SoundOut (FModel.outFold (FModel.exec E) m ops)
  | [], m, w, b, _ => .inl ⟨m, rfl, w, b⟩
  | o :: os, m, w, b, hl => by
    rcases exec_sound w b E hl.1 with ⟨m', h1, w', b'⟩ | ⟨e, m', h1, w', b'⟩
    · rw [outFold_cons h1]
      exact outFold_sound E os m' w' b' (hl.2 m' h1)
    · refine .inr ⟨e, m', ?_, w', b'⟩
      simp only [FModel.outFold, h1]

theorem commitOps_sound (E : Env) {ops : List Op} {m : FModel} (w : WF m) (b : Bound m) (hl : LegalRun E m ops) :
    SoundOut (m.commitOps E ops) := by
  unfold FModel.commitOps
  rcases outFold_sound E ops m w b hl with ⟨m', h1, w', b'⟩ | ⟨e, m', h1, w', b'⟩
  · rw [h1]
    simp only
    rw [consistent_of_WF w']
    exact .inl ⟨m', rfl, w', b'⟩
  · rw [h1]
    exact .inr ⟨e, m', rfl, w', b'⟩

/-- The new model made by the constructor is well-formed. -/
theorem wf_fresh (m : FModel) (hf : ∀ i, m.heap i ≠ none → i < m.next) : WF m.fresh := by
  have hd : ∀ j, data m.fresh j = if j = m.next then some (.feat { attr := { name := c!"root", kind := .root } }) else data m j := by
    intro j; simp only [data, FModel.fresh]; split <;> rfl
  have hp : par m.fresh m.next = none := by simp [par, FModel.fresh]
  have he : edg m.fresh m.next = [] := by simp [edg, FModel.fresh]
  have hk : ∀ i, Owned m.fresh i → i = m.next := by
    intro i h
    rcases h with h | h
    · simpa [Known, FModel.fresh] using h
    · cases h
  refine
    { root_ok := ⟨m.next, _, rfl, by simp [Known, FModel.fresh], by rw [hd, if_pos rfl], rfl, hp⟩
      names := by simp [FModel.fresh]
      feat_ok := ?_
      rels_nodup := by simp [FModel.fresh]
      rel_ok := by intro r hr; cases hr
      par_edge := by intro i p ho h; rw [hk i ho, hp] at h; cases h
      edge_par := by intro i p ho h; rw [hk i ho, he] at h; cases h
      edges_nodup := by intro i ho; rw [hk i ho, he]; simp
      orphan := by intro i ho _; rw [hk i ho]; rfl
      one_root := by intro i f ho _ _; rw [hk i (.inl ho)]; rfl
      reach := by
        intro i r ho hr
        rw [hk i ho]
        cases hr
        exact .refl
      fresh := ?_ }
  · intro e he
    have : e = (c!"root", m.next) := by simpa [FModel.fresh] using he
    subst this
    exact ⟨_, by rw [hd, if_pos rfl], rfl⟩
  · intro i hi
    by_cases h : i = m.next
    · rw [h]; exact Nat.lt_succ_self m.next
    · refine Nat.lt_succ_of_lt (hf i ?_)
      intro h0
      apply hi
      simp [FModel.fresh, h, h0]

theorem bound_fresh (m : FModel) : Bound m.fresh := by
  constructor <;> · intro s hs; simp [allStored, FModel.fresh] at hs

end Verif

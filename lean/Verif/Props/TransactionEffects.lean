import Verif.FM.Failure
import Verif.FM.Effects
import Verif.FM.Examples
/-!
# Properties C50, C51, C52: one commit, locations, a new root
-/

namespace Verif.Props
open Spec

/-! ## C50 -/

/-- A transaction takes effect once: after the first commit, successful or not, nothing that is
    called on it changes the model, and every later commit reports `ABORTED`. -/
theorem C50_once {E : Env} {m m' : FModel} {ops : List Op} {r : TxRes}
    (h : (m.commitOps E ops = .ok m' ∧ r = .ok) ∨ ∃ e, m.commitOps E ops = .err e m' ∧ r = .err e)
    (later : List TxCall) :
    ∃ rs, m.txRun E ⟨true, []⟩ (ops.map .op ++ .commit :: later) = some (m', ops.map (fun _ => TxRes.none) ++ r :: rs) ∧
      ∀ k : Nat, later[k]? = some .commit → rs[k]? = some (.err .aborted) := by
  obtain ⟨rs, h1, _, h3⟩ := txRun_closed E later m' { opened := false, ops := [] ++ ops } rfl
  refine ⟨rs, ?_, h3⟩
  rw [txRun_queue]
  simp only [List.nil_append] at h1 ⊢
  rcases h with ⟨h, rfl⟩ | ⟨e, h, rfl⟩ <;>
    simp only [FModel.txRun, FModel.txStep, FModel.txCommit, h, if_true, h1, Option.map_some]

/-- A transaction that is neither committed nor aborted is committed when it is destroyed. -/
theorem C50_destroyed {E : Env} {m m' : FModel} {ops : List Op}
    (h : m.commitOps E ops = .ok m' ∨ ∃ e, m.commitOps E ops = .err e m') :
    m.txRun E ⟨true, []⟩ (ops.map .op ++ [.destroy]) = some (m', ops.map (fun _ => TxRes.none) ++ [.none]) := by
  rw [txRun_queue]
  rcases h with h | ⟨e, h⟩
  · simp only [FModel.txRun, FModel.txStep, FModel.txCommit, List.nil_append, h, if_true, Option.map_some]
  · simp only [FModel.txRun, FModel.txStep, FModel.txCommit, List.nil_append, h, if_true, Option.map_some]

/-- A feature is added once although commit is called twice and the transaction destroyed. -/
example : ∃ m', chain.commitOps (stdEnv true) [.addFeature { name := c!"D", kind := .binary } none] = .ok m' ∧
    m'.features.length = 5 := by
  obtain ⟨m', h1, h2⟩ := Out.of_passes (o := chain.commitOps (stdEnv true) [.addFeature { name := c!"D", kind := .binary } none])
    (p := fun m => decide (m.features.length = 5)) (by decide)
  exact ⟨m', h1, by simpa using h2⟩

/-! ## C51 -/

/-- Only the locations of feature `i` are different, namely `ls`. -/
structure Relocated (m m' : FModel) (i : Id) (ft : Feat) (ls : List Range) : Prop where
  before : data m i = some (.feat ft)
  after : data m' i = some (.feat { ft with attr := { ft.attr with locs := ls } })
  data : ∀ j, j ≠ i → data m' j = data m j
  par : par m' = par m
  edg : edg m' = edg m
  outer : m'.features = m.features ∧ m'.rels = m.rels ∧ m'.root = m.root ∧ m'.name = m.name ∧ m'.path = m.path ∧
    m'.commit = m.commit ∧ (∀ cl, m'.store cl = m.store cl)

theorem relocated_of_upd {m m' : FModel} {i : Id} {ft : Feat} {ls : List Range} (h : data m i = some (.feat ft))
    (h1 : SameMeta m m') (h2 : Spec.par m' = Spec.par m) (h3 : Spec.edg m' = Spec.edg m)
    (h4 : Spec.data m' = upd (Spec.data m) i (some (.feat { ft with attr := { ft.attr with locs := ls } }))) :
    Relocated m m' i ft ls :=
  { before := h
    after := by rw [h4, upd_same]
    data := fun j hj => by rw [h4, upd_ne _ _ hj]
    par := h2
    edg := h3
    outer := ⟨h1.features, h1.rels, h1.root, h1.name, h1.path, h1.commit, fun cl => by
      cases cl
      · exact h1.booleans
      · exact h1.nonBooleans
      · exact h1.mixeds⟩ }

/-- Adding a location appends it; nothing else changes. -/
theorem C51_add {m : FModel} (E : Env) {f : Ref} {i : Id} {ft : Feat} (hf : m.resolve f = some i)
    (hd : data m i = some (.feat ft)) (r : Range) :
    ∃ m', m.exec E (.addLocation f r) = .ok m' ∧ Relocated m m' i ft (ft.attr.locs ++ [r]) := by
  obtain ⟨m', h1, h2, h3, h4, h5⟩ := updFeat_ok (fun f => { f with attr := { f.attr with locs := f.attr.locs ++ [r] } }) hd
  exact ⟨m', by simp only [FModel.exec, FModel.execAddLocation, hf, h1, FModel.outOf], relocated_of_upd hd h2 h3 h4 h5⟩

theorem eraseLoc_split {r x : Range} {pre post : List Range} (hx : x.eq r = true) (hp : ∀ y ∈ pre, y.eq r = false) :
    FModel.eraseLoc r (pre ++ x :: post) = some (pre ++ post) := by
  induction pre with
  | nil => simp [FModel.eraseLoc, hx]
  | cons y ys ih =>
    have h1 := hp y (List.mem_cons_self ..)
    simp [FModel.eraseLoc, h1, ih (fun z hz => hp z (List.mem_cons_of_mem _ hz))]

/-- Removing a location removes the first equal one; nothing else changes. -/
theorem C51_remove_partial {m : FModel} (E : Env) {f : Ref} {i : Id} {ft : Feat} (hf : m.resolve f = some i)
    (hd : data m i = some (.feat ft)) {r x : Range} {pre post : List Range} (hl : ft.attr.locs = pre ++ x :: post)
    (hx : x.eq r = true) (hp : ∀ y ∈ pre, y.eq r = false) :
    ∃ m', m.exec E (.removeLocation f r) = .ok m' ∧ Relocated m m' i ft (pre ++ post) := by
  obtain ⟨m', h1, h2, h3, h4, h5⟩ := updFeat_ok (fun f => { f with attr := { f.attr with locs := pre ++ post } }) hd
  refine ⟨m', ?_, relocated_of_upd hd h2 h3 h4 h5⟩
  have hfe : m.feat? i = some ft := by simp [FModel.feat?, heap_of_data hd]
  simp only [FModel.exec, FModel.execRemoveLocation, hf, hfe, hl, eraseLoc_split hx hp, h1, FModel.outOf]

theorem eraseLoc_missing {r : Range} {l : List Range} (h : ∀ y ∈ l, y.eq r = false) : FModel.eraseLoc r l = none := by
  induction l with
  | nil => rfl
  | cons y ys ih =>
    simp [FModel.eraseLoc, h y (List.mem_cons_self ..), ih (fun z hz => h z (List.mem_cons_of_mem _ hz))]

/-- Removing a location the feature does not have is undefined, in every model. -/
theorem C51_remove_missing {m : FModel} (E : Env) {f : Ref} {i : Id} {ft : Feat} (hf : m.resolve f = some i)
    (hd : data m i = some (.feat ft)) {r : Range} (hl : ∀ y ∈ ft.attr.locs, y.eq r = false) :
    m.exec E (.removeLocation f r) = .ub := by
  have hfe : m.feat? i = some ft := by simp [FModel.feat?, heap_of_data hd]
  simp only [FModel.exec, FModel.execRemoveLocation, hf, hfe, eraseLoc_missing hl]

/-- So is a location for a feature the model does not have. -/
theorem C51_missing_feature {m : FModel} (E : Env) {f : Ref} (hf : m.resolve f = none) (r : Range) :
    m.exec E (.addLocation f r) = .ub ∧ m.exec E (.removeLocation f r) = .ub := by
  simp only [FModel.exec, FModel.execAddLocation, FModel.execRemoveLocation, hf, and_self]

/-- Add then remove gives the locations back. -/
example (r : Range) (hr : r.eq r = true) : ∃ m1 m2 ft, chain.exec (stdEnv true) (.addLocation (.name c!"A") r) = .ok m1 ∧
    m1.exec (stdEnv true) (.removeLocation (.name c!"A") r) = .ok m2 ∧ data m2 1 = some (.feat ft) ∧ ft.attr.locs = [] := by
  obtain ⟨m1, h1, h2⟩ := C51_add (m := chain) (stdEnv true) (f := .name c!"A") (i := 1) (by decide) rfl r
  obtain ⟨m2, h3, h4⟩ := C51_remove_partial (m := m1) (stdEnv true) (f := .name c!"A") (i := 1)
    (by show m1.getFeature _ = _; unfold FModel.getFeature; rw [h2.outer.1]; decide) h2.after (pre := []) (post := []) (x := r)
    rfl hr (by intro y hy; cases hy)
  exact ⟨m1, m2, _, h1, h3, h4.after, rfl⟩

/-! ## C52 -/

/-- A new name: the old root goes, a new root of that name takes over its children in their order;
    nothing else changes (`Rerooted`). -/
theorem C52_set_root {m : FModel} (w : WF m) (E : Env) {r : Id} (hr : m.root = some r) {n : Str}
    (hn : ∀ i, (n, i) ∉ m.features) :
    ∃ m' i, m.exec E (.setRoot n) = .ok m' ∧ Rerooted m m' r i n := by
  obtain ⟨f, hf⟩ := w.known_data (w.root_known hr)
  have hn' : n ∉ m.features.map Prod.fst := by
    intro h
    obtain ⟨e, he, rfl⟩ := List.mem_map.1 h
    exact hn e.2 he
  have hne : f.attr.name ≠ n := by
    rintro rfl
    obtain ⟨e, he, he2⟩ := List.mem_map.1 (w.root_known hr)
    obtain ⟨f', f1, f2⟩ := w.feat_ok e he
    rw [he2, hf] at f1; cases f1
    exact hn e.2 (by rw [f2]; exact he)
  obtain ⟨m', h1, h2⟩ := execSetRoot_ok w hr hf hne hn'
  exact ⟨m', _, h1, h2⟩

/-- The name of the root: nothing happens. -/
theorem C52_same_name {m : FModel} (E : Env) {r : Id} {f : Feat} (hr : m.root = some r) (hf : data m r = some (.feat f)) :
    m.exec E (.setRoot f.attr.name) = .ok m := execSetRoot_same hr hf

/-- The name of another feature: an error, and nothing happens. -/
theorem C52_taken {m : FModel} (w : WF m) (E : Env) {r i : Id} (hr : m.root = some r) {n : Str}
    (hi : (n, i) ∈ m.features) (hne : i ≠ r) : m.exec E (.setRoot n) = .err .alreadyPresent m := by
  obtain ⟨f, hf⟩ := w.known_data (w.root_known hr)
  refine execSetRoot_taken hr hf ?_ (List.mem_map_of_mem (f := Prod.fst) hi)
  rintro rfl
  obtain ⟨e, he, he2⟩ := List.mem_map.1 (w.root_known hr)
  obtain ⟨f', f1, f2⟩ := w.feat_ok e he
  rw [he2, hf] at f1; cases f1
  have h1 := getFeature_mem w.names hi
  have h2 := getFeature_mem (i := e.2) (n := f.attr.name) w.names (by rw [f2]; exact he)
  rw [h1] at h2; cases h2
  exact hne he2

/-- `chain` gets a new root. -/
example : ∃ m' i, chain.exec (stdEnv true) (.setRoot c!"base") = .ok m' ∧ Rerooted chain m' 0 i c!"base" :=
  C52_set_root chain_wf _ rfl (by intro i; simp [chain, ofNodes])

end Verif.Props

import Verif.FM.Life
import Verif.Props.Build
/-!
# Property C68: a builder builds once
-/

namespace Verif.Props
open Verif Verif.Spec

/-- All three transactions of the builder are open. -/
structure LifeOpen (l : Life) : Prop where
  holds : l.holds = true
  feats : l.feats.opened = true
  model : l.model.opened = true
  rels : l.rels.opened = true

theorem Life.call_open {E : Env} {l : Life} (h : LifeOpen l) (c : BCall) :
    ∃ l', l.call E c = some l' ∧ LifeOpen l' ∧ l'.m = l.m ∧
      l'.feats.ops = l.feats.ops ++ c.featOp.toList ∧ l'.model.ops = l.model.ops ++ c.modelOp.toList ∧
      l'.rels.ops = l.rels.ops ++ c.relOp.toList ∧
      l'.parents = (match c with | .addEdge p c => [(c, p)] | _ => []) ++ l.parents := by
  obtain ⟨h0, h1, h2, h3⟩ := h
  cases c <;> simp [Life.call, Life.queue, h1, h2, BCall.featOp, BCall.modelOp, BCall.relOp] <;> constructor <;> simp [h0, h1, h2, h3]

/-- The edges of the calls, the latest first. -/
def edgesBack : List BCall → List (Str × Str)
  | [] => []
  | .addEdge p c :: cs => edgesBack cs ++ [(c, p)]
  | _ :: cs => edgesBack cs

theorem Life.run_calls {E : Env} : ∀ (calls : List BCall) (l : Life), LifeOpen l →
    ∃ l', l.run E (calls.map .call) = some (l', calls.map fun _ => .self) ∧ LifeOpen l' ∧ l'.m = l.m ∧
      l'.feats.ops = l.feats.ops ++ calls.filterMap BCall.featOp ∧ l'.model.ops = l.model.ops ++ calls.filterMap BCall.modelOp ∧
      l'.rels.ops = l.rels.ops ++ calls.filterMap BCall.relOp ∧ l'.parents = edgesBack calls ++ l.parents
  | [], l, h => ⟨l, rfl, h, rfl, by simp, by simp, by simp, by simp [edgesBack]⟩
  | c :: cs, l, h => by
    obtain ⟨l1, e1, o1, m1, f1, g1, r1, p1⟩ := Life.call_open (E := E) h c
    obtain ⟨l2, e2, o2, m2, f2, g2, r2, p2⟩ := Life.run_calls (E := E) cs l1 o1
    refine ⟨l2, ?_, o2, m2.trans m1, ?_, ?_, ?_, ?_⟩
    · simp [Life.run, Life.step, e1, e2]
    · rw [f2, f1]; cases h : c.featOp <;> simp [List.filterMap_cons, h]
    · rw [g2, g1]; cases h : c.modelOp <;> simp [List.filterMap_cons, h]
    · rw [r2, r1]; cases h : c.relOp <;> simp [List.filterMap_cons, h]
    · rw [p2, p1]; cases c <;> simp [edgesBack]

theorem Life.run_append {E : Env} : ∀ (cs cs' : List LCall) (l : Life),
    l.run E (cs ++ cs') = (l.run E cs).bind fun x => (x.1.run E cs').map fun y => (y.1, x.2 ++ y.2)
  | [], cs', l => by simp [Life.run]
  | c :: cs, cs', l => by
    simp only [List.cons_append, Life.run]
    cases l.step E c with
    | none => rfl
    | some x =>
      obtain ⟨l1, r⟩ := x
      simp only [Life.run_append cs cs' l1]
      cases l1.run E cs with
      | none => rfl
      | some y =>
        cases h : y.1.run E cs' <;> simp [h]

/-- Nothing is open any more. -/
structure LifeOver (l : Life) : Prop where
  feats : l.feats.opened = false
  model : l.model.opened = false
  rels : l.rels.opened = false

/-- What `l.build` comes to, given what `FModel.build` returns. -/
def LifeBuilds (E : Env) (l : Life) : BuildRes → Prop
  | .built m => ∃ l', l.build E = some (l', .built m) ∧ LifeOver l' ∧ l'.holds = false ∧ l'.m = m ∧ l'.parents = l.parents
  | .null => ∃ l', l.build E = some (l', .null) ∧ LifeOver l' ∧ l'.holds = true ∧ l'.parents = l.parents
  | .ub => l.build E = none

theorem Life.build_open {E : Env} {world : FModel} {l : Life} (h : LifeOpen l) (hm : l.m = world.fresh) :
    LifeBuilds E l (world.build E ⟨l.feats.ops, l.model.ops, l.rels.ops⟩) := by
  have hroot : l.m.root.isSome = true := by rw [hm]; rfl
  have hg : ¬ ((E.asserts && !(l.holds && l.m.root.isSome)) = true) := by simp [h.holds, hroot]
  have hb := Life.build.eq_def E l
  rw [if_neg hg] at hb
  simp only [FModel.txCommit, h.feats, h.model, h.rels, if_true, hm, h.holds] at hb
  unfold FModel.build
  dsimp only
  cases e1 : world.fresh.commitOps E l.feats.ops with
  | ub => simpa only [e1, LifeBuilds] using hb
  | err e m => simp only [e1] at hb; exact ⟨_, hb, ⟨rfl, rfl, rfl⟩, rfl, rfl⟩
  | ok m1 =>
    dsimp only
    simp only [e1] at hb
    cases e2 : m1.commitOps E l.model.ops with
    | ub => simpa only [e2, LifeBuilds] using hb
    | err e m => simp only [e2] at hb; exact ⟨_, hb, ⟨rfl, rfl, rfl⟩, rfl, rfl⟩
    | ok m2 =>
      dsimp only
      simp only [e2] at hb
      cases e3 : m2.commitOps E l.rels.ops with
      | ub => simpa only [e3, LifeBuilds] using hb
      | err e m => simp only [e3] at hb; exact ⟨_, hb, ⟨rfl, rfl, rfl⟩, rfl, rfl⟩
      | ok m3 => simp only [e3] at hb; exact ⟨_, hb, ⟨rfl, rfl, rfl⟩, rfl, rfl, rfl⟩

theorem start_open (world : FModel) : LifeOpen (Life.start world) := ⟨rfl, rfl, rfl, rfl⟩

/-- After the calls the builder is ready to build what `FModel.build` builds. -/
theorem Life.run_start (E : Env) (world : FModel) (calls : List BCall) :
    ∃ l, (Life.start world).run E (calls.map .call) = some (l, calls.map fun _ => .self) ∧ LifeOpen l ∧
      l.parents = edgesBack calls ∧ LifeBuilds E l (world.build E (builderOf calls)) := by
  obtain ⟨l, h1, h2, h3, h4, h5, h6, h7⟩ := Life.run_calls (E := E) calls _ (start_open world)
  refine ⟨l, h1, h2, by simpa [Life.start] using h7, ?_⟩
  have := Life.build_open (E := E) (world := world) h2 h3
  rw [h4, h5, h6] at this
  simpa [Life.start, builderOf_eq] using this

/-- A use of a builder that is over: without assertions no model is returned or changed. -/
theorem Life.step_over {E : Env} (hE : E.asserts = false) {l : Life} (h : LifeOver l) (c : LCall) :
    ∃ l' r, l.step E c = some (l', r) ∧ LifeOver l' ∧ l'.m = l.m ∧ l'.holds = l.holds ∧ (∀ m, r ≠ .built m) ∧ (c = .build → r = .null) := by
  obtain ⟨h1, h2, h3⟩ := h
  cases c with
  | call c =>
    cases c <;> simp only [Life.step, Life.call, Life.queue, hE, Bool.false_and, Bool.false_eq_true, if_false, Option.map_some] <;>
      exact ⟨_, _, rfl, ⟨h1, h2, h3⟩, rfl, rfl, (fun _ h => nomatch h), (fun h => nomatch h)⟩
  | getParentName n => exact ⟨_, _, rfl, ⟨h1, h2, h3⟩, rfl, rfl, (fun _ h => nomatch h), (fun h => nomatch h)⟩
  | build =>
    refine ⟨{ l with model := { l.model with opened := false }, rels := { l.rels with opened := false } }, .null, ?_, ⟨h1, rfl, rfl⟩, rfl, rfl,
      (fun _ h => nomatch h), fun _ => rfl⟩
    simp [Life.step, Life.build, hE, FModel.txCommit, h1]

theorem Life.run_over {E : Env} (hE : E.asserts = false) : ∀ (cs : List LCall) {l : Life}, LifeOver l →
    ∃ l' rs, l.run E cs = some (l', rs) ∧ l'.m = l.m ∧ (∀ r ∈ rs, ∀ m, r ≠ .built m) ∧ ∀ k : Nat, cs[k]? = some LCall.build → rs[k]? = some .null
  | [], l, _ => ⟨l, [], rfl, rfl, (fun _ h => nomatch h), fun k h => by simp at h⟩
  | c :: cs, l, h => by
    obtain ⟨l1, r, e1, o1, m1, _, b1, n1⟩ := Life.step_over hE h c
    obtain ⟨l2, rs, e2, m2, b2, n2⟩ := Life.run_over hE cs o1
    refine ⟨l2, r :: rs, by simp [Life.run, e1, e2], m2.trans m1, ?_, ?_⟩
    · intro x hx
      rcases List.mem_cons.1 hx with rfl | hx
      · exact b1
      · exact b2 x hx
    · intro k hk
      cases k with
      | zero => simp only [List.getElem?_cons_zero, Option.some.injEq] at hk ⊢; exact n1 hk
      | succ k => simpa using n2 k (by simpa using hk)

/-! ## The property -/

/-- Calls and then `buildFeatureModel`: what the builder object does is what the function of C28 computes
    from the list of calls. -/
theorem C68_first_build (E : Env) (world : FModel) (calls : List BCall) :
    match world.build E (builderOf calls) with
    | .built m => ∃ l, (Life.start world).run E (calls.map .call ++ [.build]) = some (l, calls.map (fun _ => .self) ++ [.built m]) ∧ l.m = m
    | .null => ∃ l, (Life.start world).run E (calls.map .call ++ [.build]) = some (l, calls.map (fun _ => .self) ++ [.null])
    | .ub => (Life.start world).run E (calls.map .call ++ [.build]) = none := by
  obtain ⟨l, h1, h2, _, h3⟩ := Life.run_start E world calls
  cases hb : world.build E (builderOf calls) with
  | built m =>
    rw [hb] at h3
    obtain ⟨l', h4, _, _, h5, _⟩ := h3
    exact ⟨l', by simp [Life.run_append, h1, Life.run, Life.step, h4], h5⟩
  | null =>
    rw [hb] at h3
    obtain ⟨l', h4, _⟩ := h3
    exact ⟨l', by simp [Life.run_append, h1, Life.run, Life.step, h4]⟩
  | ub =>
    rw [hb] at h3
    have h4 : l.build E = none := h3
    simp [Life.run_append, h1, Life.run, Life.step, h4]

/-- Without assertions: after a model was returned, whatever is called returns no other model and does
    not change that one; every later `buildFeatureModel` returns null. -/
theorem C68_once_partial {E : Env} (hE : E.asserts = false) {world m : FModel} {calls : List BCall}
    (hb : world.build E (builderOf calls) = .built m) (later : List LCall) :
    ∃ l rs, (Life.start world).run E (calls.map .call ++ .build :: later) = some (l, calls.map (fun _ => .self) ++ .built m :: rs) ∧
      l.m = m ∧ (∀ r ∈ rs, ∀ m', r ≠ .built m') ∧ ∀ k : Nat, later[k]? = some LCall.build → rs[k]? = some .null := by
  obtain ⟨l, h1, h2, _, h3⟩ := Life.run_start E world calls
  rw [hb] at h3
  obtain ⟨l1, h4, h5, _, h6, _⟩ := h3
  obtain ⟨l2, rs, h7, h8, h9, h10⟩ := Life.run_over hE later h5
  exact ⟨l2, rs, by simp [Life.run_append, h1, Life.run, Life.step, h4, h7], h8.trans h6, h9, h10⟩

/-- Without assertions: a failed `buildFeatureModel` cannot be repaired by further calls. -/
theorem C68_failure_stays_partial {E : Env} (hE : E.asserts = false) {world : FModel} {calls : List BCall}
    (hb : world.build E (builderOf calls) = .null) (later : List LCall) :
    ∃ l rs, (Life.start world).run E (calls.map .call ++ .build :: later) = some (l, calls.map (fun _ => .self) ++ .null :: rs) ∧
      (∀ r ∈ rs, ∀ m', r ≠ .built m') := by
  obtain ⟨l, h1, h2, _, h3⟩ := Life.run_start E world calls
  rw [hb] at h3
  obtain ⟨l1, h4, h5, _⟩ := h3
  obtain ⟨l2, rs, h7, h8, h9, _⟩ := Life.run_over hE later h5
  exact ⟨l2, rs, by simp [Life.run_append, h1, Life.run, Life.step, h4, h7], h9⟩

/-- The claim is false with assertions: after every successful build, to build again is undefined, and so
    is to make a further feature. -/
theorem C68_again_undefined {E : Env} (hE : E.asserts = true) {world m : FModel} {calls : List BCall}
    (hb : world.build E (builderOf calls) = .built m) (a : Attr) (later : List LCall) :
    (Life.start world).run E (calls.map .call ++ .build :: .build :: later) = none ∧
    (Life.start world).run E (calls.map .call ++ .build :: .call (.makeFeature a) :: later) = none := by
  obtain ⟨l, h1, h2, _, h3⟩ := Life.run_start E world calls
  rw [hb] at h3
  obtain ⟨l1, h4, h5, h6, _⟩ := h3
  have e1 : l1.build E = none := by simp [Life.build, hE, h6]
  have e2 : l1.call E (.makeFeature a) = none := by simp [Life.call, Life.queue, hE, h5.feats]
  constructor <;> simp [Life.run_append, h1, Life.run, Life.step, h4, e1, e2]

theorem edgesBack_mem {calls : List BCall} {c p : Str} : (c, p) ∈ edgesBack calls ↔ BCall.addEdge p c ∈ calls := by
  induction calls with
  | nil => simp [edgesBack]
  | cons x xs ih =>
    cases x <;> simp only [edgesBack, List.mem_append, List.mem_cons, List.not_mem_nil, or_false, ih, reduceCtorEq, false_or, Prod.mk.injEq,
      BCall.addEdge.injEq]
    constructor
    · rintro (h | ⟨rfl, rfl⟩)
      · exact .inr h
      · exact .inl ⟨rfl, rfl⟩
    · rintro (⟨rfl, rfl⟩ | h)
      · exact .inr ⟨rfl, rfl⟩
      · exact .inl h

/-- For calls that describe a tree, `getParentName` gives the parent that the feature then has in the model;
    nothing for features without an edge, which get the root as parent. -/
theorem C68_parent_name (E : Env) (world : FModel) {calls : List BCall} {d : Desc} (hb : Buildable calls d) {a : Attr} (ha : a ∈ attrsOf calls) :
    ∃ l r, (Life.start world).run E (calls.map .call ++ [.getParentName a.name]) = some (l, calls.map (fun _ => .self) ++ [.parentName r]) ∧
      (r = some (d.parent a.name) ∨ r = none ∧ d.parent a.name = d.root) := by
  obtain ⟨l, h1, _, h2, _⟩ := Life.run_start E world calls
  refine ⟨l, (edgesBack calls).lookup a.name, by simp [Life.run_append, h1, Life.run, Life.step, h2], ?_⟩
  cases e : (edgesBack calls).lookup a.name with
  | some p =>
    have : (a.name, p) ∈ edgesBack calls := by
      rw [List.lookup_eq_some_iff] at e
      obtain ⟨l1, l2, h, _⟩ := e
      rw [h]
      simp
    rw [(hb.edges p a.name (edgesBack_mem.1 this)).2.2]
    exact .inl rfl
  | none =>
    refine .inr ⟨rfl, hb.no_edge a ha ?_⟩
    intro p hp
    have := edgesBack_mem.2 hp
    rw [List.lookup_eq_none_iff] at e
    simpa using e _ this

/-- The hypotheses are met: a builder that builds, is used further, and builds again. -/
example : ∃ m l rs, nothing.build (stdEnv false) (builderOf someCalls) = .built m ∧
    (Life.start nothing).run (stdEnv false) (someCalls.map .call ++ [.build, .call (.makeRoot c!"S"), .build]) =
      some (l, someCalls.map (fun _ => .self) ++ .built m :: rs) ∧ l.m = m ∧ rs[1]? = some .null := by
  obtain ⟨m, h1, _⟩ := C28_builds_partial nothing_fresh (stdEnv false) someCalls_buildable someDesc_known
  obtain ⟨l, rs, h2, h3, _, h4⟩ := C68_once_partial rfl h1 [.call (.makeRoot c!"S"), .build]
  exact ⟨m, l, rs, h1, h2, h3, h4 1 rfl⟩

end Verif.Props

import Verif.FM.Python
import Verif.FM.AddMany
import Verif.Props.Build
import Verif.Props.Transactions
/-!
# Properties C69 and C70: the Python builder, and adding several features
-/

namespace Verif.Props
open Verif Verif.Spec

/-! ## C69 -/

/-- A call without its optionality. -/
def unoptional : BCall → BCall
  | .makeFeature a => .makeFeature { a with opt := false }
  | c => c

theorem bound_of_says {asserts : Bool} {c : PyCall} {b : BCall} (h : PyCall.says c = some b) : c.bound asserts = some (unoptional b) := by
  cases c with
  | emplaceRelationship p r =>
    simp only [PyCall.says] at h
    simp only [PyCall.bound]
    by_cases h1 : r = c!"OR"
    · rw [if_pos h1] at h ⊢
      cases h
      rfl
    · rw [if_neg h1] at h ⊢
      by_cases h2 : r = c!"XOR"
      · rw [if_pos h2] at h
        cases h
        rw [if_neg (by simp [h2])]
        rfl
      · rw [if_neg h2] at h
        cases h
  | _ => simp only [PyCall.says, Option.some.injEq] at h; subst h; rfl

theorem bound_all {asserts : Bool} : ∀ {calls : List PyCall} {bs : List BCall}, calls.mapM PyCall.says = some bs →
    calls.mapM (PyCall.bound asserts) = some (bs.map unoptional)
  | [], bs, h => by cases h; rfl
  | c :: cs, bs, h => by
    rw [List.mapM_cons] at h ⊢
    cases e1 : PyCall.says c with
    | none => rw [e1] at h; cases h
    | some b =>
      cases e2 : cs.mapM PyCall.says with
      | none => rw [e1, e2] at h; cases h
      | some bs' =>
        rw [e1, e2] at h
        cases h
        rw [bound_of_says e1, bound_all e2]
        rfl

theorem attrsOf_unoptional (bs : List BCall) : attrsOf (bs.map unoptional) = (attrsOf bs).map fun a => { a with opt := false } := by
  induction bs with
  | nil => rfl
  | cons b bs ih => cases b <;> simpa [attrsOf, unoptional, List.filterMap_cons] using ih

theorem mem_unoptional_edge {bs : List BCall} {p c : Str} : BCall.addEdge p c ∈ bs.map unoptional ↔ BCall.addEdge p c ∈ bs := by
  rw [List.mem_map]
  constructor
  · rintro ⟨b, hb, h⟩
    cases b <;> simp only [unoptional, reduceCtorEq] at h
    rw [← h]
    exact hb
  · exact fun h => ⟨_, h, rfl⟩

theorem filterMap_unoptional {β : Type} (f : BCall → Option β) (hf : ∀ b, f (unoptional b) = f b) (bs : List BCall) :
    (bs.map unoptional).filterMap f = bs.filterMap f := by
  rw [List.filterMap_map]
  congr 1
  funext b
  exact hf b

theorem buildable_unoptional {bs : List BCall} {d : Desc} (h : Buildable bs d) : Buildable (bs.map unoptional) d.mandatory := by
  have hn : (attrsOf (bs.map unoptional)).map Attr.name = (attrsOf bs).map Attr.name := by
    rw [attrsOf_unoptional, List.map_map]
    rfl
  have hr : rootsOf (bs.map unoptional) = rootsOf bs := filterMap_unoptional _ (by intro b; cases b <;> rfl) bs
  have hg : groupsOf (bs.map unoptional) = groupsOf bs := filterMap_unoptional _ (by intro b; cases b <;> rfl) bs
  have hc : constraintsOf (bs.map unoptional) = constraintsOf bs := filterMap_unoptional _ (by intro b; cases b <;> rfl) bs
  have h1 : namesOf (bs.map unoptional) = namesOf bs := filterMap_unoptional _ (by intro b; cases b <;> rfl) bs
  have h2 : pathsOf (bs.map unoptional) = pathsOf bs := filterMap_unoptional _ (by intro b; cases b <;> rfl) bs
  have h3 : commitsOf (bs.map unoptional) = commitsOf bs := filterMap_unoptional _ (by intro b; cases b <;> rfl) bs
  refine
    { attrs := by rw [attrsOf_unoptional, ← h.attrs]; rfl
      kinds := ?_
      distinct := by rw [hn]; exact h.distinct
      root := by rw [hr]; exact h.root
      root_new := by rw [hn]; exact h.root_new
      default_root := by rw [hn]; exact h.default_root
      edges := ?_
      no_edge := ?_
      acyclic := ?_
      groups := by rw [hg]; exact h.groups
      one_group := by rw [hg]; exact h.one_group
      groups_known := by rw [hg, hn]; exact h.groups_known
      constraints := by rw [hc]; exact h.constraints
      name := by rw [h1]; exact h.name
      path := by rw [h2]; exact h.path
      commit := by rw [h3]; exact h.commit }
  · intro a ha
    rw [attrsOf_unoptional] at ha
    obtain ⟨b, hb, rfl⟩ := List.mem_map.1 ha
    exact h.kinds b hb
  · intro p c hx
    rw [hn]
    exact h.edges p c (mem_unoptional_edge.1 hx)
  · intro a ha hx
    rw [attrsOf_unoptional] at ha
    obtain ⟨b, hb, rfl⟩ := List.mem_map.1 ha
    exact h.no_edge b hb fun p hp => hx p (mem_unoptional_edge.2 hp)
  · obtain ⟨rk, hrk⟩ := h.acyclic
    refine ⟨rk, ?_⟩
    intro a ha
    rw [attrsOf_unoptional] at ha
    obtain ⟨b, hb, rfl⟩ := List.mem_map.1 ha
    exact hrk b hb

theorem known_mandatory {d : Desc} (h : ConstraintsKnown d) : ConstraintsKnown d.mandatory := by
  intro x hx n hn
  have := h x hx n hn
  have e : d.mandatory.attrs.map Attr.name = d.attrs.map Attr.name := by
    simp only [Desc.mandatory, List.map_map]
    rfl
  rw [e]
  exact this

/-- A Python program that asks for a tree gets that tree with every feature mandatory. -/
theorem C69_builds_mandatory {world : FModel} (hf : ∀ i, world.heap i ≠ none → i < world.next) (E : Env) {calls : List PyCall}
    {d : Desc} (hb : PyDescribes calls d) (hk : ConstraintsKnown d) :
    ∃ m, pyBuild E world calls = .built m ∧ Describes d.mandatory m := by
  obtain ⟨bs, h1, h2⟩ := hb
  obtain ⟨m, h3, h4⟩ := C28_builds_partial hf E (buildable_unoptional h2) (known_mandatory hk)
  exact ⟨m, by rw [pyBuild, bound_all h1]; exact h3, h4⟩

/-- So it gets what it asks for if it asks for no optional feature. -/
theorem C69_builds_partial {world : FModel} (hf : ∀ i, world.heap i ≠ none → i < world.next) (E : Env) {calls : List PyCall}
    {d : Desc} (hb : PyDescribes calls d) (hk : ConstraintsKnown d) (ho : ∀ a ∈ d.attrs, a.opt = false) :
    ∃ m, pyBuild E world calls = .built m ∧ Describes d m := by
  obtain ⟨m, h1, h2⟩ := C69_builds_mandatory hf E hb hk
  have : d.mandatory = d := by
    have e : (d.attrs.map fun a => { a with opt := false }) = d.attrs := by
      rw [List.map_congr_left (g := id)]
      · simp
      · intro a ha
        have := ho a ha
        cases a
        simp_all
    unfold Desc.mandatory
    rw [e]
  rw [this] at h2
  exact ⟨m, h1, h2⟩

/-- The claim is false: a program that asks for an optional feature never gets the model it asks for; the
    feature is mandatory. -/
theorem C69_optional_lost {world : FModel} (hf : ∀ i, world.heap i ≠ none → i < world.next) (E : Env) {calls : List PyCall}
    {d : Desc} (hb : PyDescribes calls d) (hk : ConstraintsKnown d) {a : Attr} (ha : a ∈ d.attrs) (ho : a.opt = true) :
    ∃ m i f, pyBuild E world calls = .built m ∧ (a.name, i) ∈ m.features ∧ data m i = some (.feat f) ∧ f.attr.opt = false ∧ ¬ Describes d m := by
  obtain ⟨m, h1, h2⟩ := C69_builds_mandatory hf E hb hk
  obtain ⟨i, f, p, h3, h4, h5, _⟩ := h2.feat { a with opt := false } (List.mem_map.2 ⟨a, ha, rfl⟩)
  refine ⟨m, i, f, h1, h3, h4, by rw [h5], ?_⟩
  intro h
  obtain ⟨j, g, q, g3, g4, g5, _⟩ := h.feat a ha
  have e1 := getFeature_mem h.wf.names h3
  have e2 := getFeature_mem h.wf.names g3
  have e : i = j := Option.some.inj (e1.symm.trans e2)
  subst e
  rw [h4] at g4
  cases g4
  have : f.attr.opt = false := by rw [h5]
  rw [g5, ho] at this
  cases this

/-- A relation with any other name than `OR` is an alternative without assertions, and aborts with them
    unless it is `XOR`. -/
theorem C69_relation {p r : Str} (h : r ≠ c!"OR") : (PyCall.emplaceRelationship p r).bound false = some (.emplaceRelationship .alternative p) ∧
    (r ≠ c!"XOR" → (PyCall.emplaceRelationship p r).bound true = none) := by
  constructor
  · simp [PyCall.bound, h]
  · intro h2
    simp [PyCall.bound, h, h2]

/-- A program that asks for an optional feature and a group. -/
def pyCalls : List PyCall :=
  [.makeBinaryFeature c!"A" true, .makeBinaryFeature c!"B" false, .makeBinaryFeature c!"C" false, .makeRoot c!"R",
   .addAnEdge c!"A" c!"B", .addAnEdge c!"A" c!"C", .emplaceRelationship c!"A" c!"XOR", .setVmName c!"M"]

def pyDesc : Desc :=
  { name := c!"M", path := [], commit := [], root := c!"R"
    attrs := [{ name := c!"A", kind := .binary, opt := true }, { name := c!"B", kind := .binary }, { name := c!"C", kind := .binary }]
    parent := fun n => if n = c!"A" then c!"R" else c!"A"
    groups := [(c!"A", .alternative)]
    constraints := [] }

theorem pyCalls_describe : PyDescribes pyCalls pyDesc := by
  refine ⟨[.makeFeature { name := c!"A", kind := .binary, opt := true }, .makeFeature { name := c!"B", kind := .binary },
    .makeFeature { name := c!"C", kind := .binary }, .makeRoot c!"R", .addEdge c!"A" c!"B", .addEdge c!"A" c!"C",
    .emplaceRelationship .alternative c!"A", .setVmName c!"M"], by decide, ?_⟩
  refine
    { attrs := by decide
      kinds := by decide
      distinct := by decide
      root := .inr (by decide)
      root_new := by decide
      default_root := by decide
      edges := ?_
      no_edge := ?_
      acyclic := ⟨fun n => if n = c!"R" then 0 else if n = c!"A" then 1 else 2, by decide⟩
      groups := by decide
      one_group := by decide
      groups_known := by decide
      constraints := by decide
      name := .inr (by decide)
      path := .inl (by decide)
      commit := .inl (by decide) }
  · intro p c hx
    simp at hx
    rcases hx with ⟨rfl, rfl⟩ | ⟨rfl, rfl⟩ <;> decide
  · intro a ha hx
    simp [attrsOf] at ha
    rcases ha with rfl | rfl | rfl
    · rfl
    · exact absurd (by simp) (hx c!"A")
    · exact absurd (by simp) (hx c!"A")

/-- The hypotheses are met. -/
example : ∃ m i f, pyBuild (stdEnv true) nothing pyCalls = .built m ∧ (c!"A", i) ∈ m.features ∧ data m i = some (.feat f) ∧
    f.attr.opt = false ∧ ¬ Describes pyDesc m :=
  C69_optional_lost nothing_fresh _ pyCalls_describe (by unfold ConstraintsKnown; decide) (a := { name := c!"A", kind := .binary, opt := true })
    (by decide) rfl

/-! ## C70 -/

theorem addFeatures_opened {E : Env} {m : FModel} (w : WF m) (xs : List (Attr × Option Id)) :
    m.addFeatures E xs = match m.commitOps E (xs.map fun x => .addFeature x.1 x.2) with
      | .ok m => some m
      | .err _ m => some m
      | .ub => none := by
  unfold FModel.addFeatures
  rw [if_neg (by simp [consistent_of_WF w E])]
  rfl

/-- New features are added below their parents, the root for those without, and nothing else changes.  Parents
    are features of the model or new ones that come before. -/
theorem C70_adds {m : FModel} (w : WF m) (E : Env) {r : Id} (hr : m.root = some r) {xs : List (Attr × Option Id)} (h : Addable m xs) :
    ∃ m' ids, m.addFeatures E xs = some m' ∧ WF m' ∧ AddedAll m m' (placed r xs) ids ∧
      ids = (List.range xs.length).map (fun j => (m.next + j : Nat)) := by
  obtain ⟨m', ids, h1, h2, h3, _, h4⟩ := addAll_ok E xs w hr h
  exact ⟨m', ids, by rw [addFeatures_opened w, commitOps_ok h1 h2], h2, h3, h4⟩

/-- If a name is taken, the features before it are added, it and those after it are not, and nobody is told.
    The claim is false whenever there is a feature before it. -/
theorem C70_stops_silently {m : FModel} (w : WF m) (E : Env) {r : Id} (hr : m.root = some r) {pre post : List (Attr × Option Id)}
    {a : Attr} {o : Option Id} (h : Addable m pre) (ht : (∃ i, (a.name, i) ∈ m.features) ∨ ∃ x ∈ pre, x.1.name = a.name) :
    ∃ m' ids, m.addFeatures E (pre ++ (a, o) :: post) = some m' ∧ AddedAll m m' (placed r pre) ids ∧ ids.length = pre.length := by
  obtain ⟨m', ids, h1, h2, h3, _⟩ := addAll_ok E pre w hr h
  refine ⟨m', ids, ?_, h3, by rw [h3.len]; simp [placed]⟩
  have hin : ∃ i, (a.name, i) ∈ m'.features := by
    rw [h3.features]
    rcases ht with ⟨i, hi⟩ | ⟨x, hx, hxn⟩
    · exact ⟨i, by simp [hi]⟩
    · have hlen : ids.length = pre.length := by rw [h3.len]; simp [placed]
      obtain ⟨k, hk, hkx⟩ := List.mem_iff_getElem.1 hx
      refine ⟨ids[k]'(by omega), List.mem_append_right _ (List.mem_map.2 ⟨((x.1, x.2.getD r), ids[k]'(by omega)), ?_, by simp [hxn]⟩)⟩
      rw [List.mem_iff_getElem]
      exact ⟨k, by simp [placed, hlen, hk], by simp [placed, hkx]⟩
  obtain ⟨i, hi⟩ := hin
  have h4 : FModel.outFold (FModel.exec E) m ((pre ++ (a, o) :: post).map fun x => .addFeature x.1 x.2) = .err .alreadyPresent m' := by
    rw [List.map_append, outFold_append h1, List.map_cons]
    have : m'.exec E (.addFeature a o) = .err .alreadyPresent m' := execAddFeature_err (List.mem_map_of_mem (f := Prod.fst) hi)
    simp only [FModel.outFold, this]
  rw [addFeatures_opened w, commitOps_err h4]

/-- Three new features, the first below a known one, the third below the first. -/
def newThree : List (Attr × Option Id) :=
  [({ name := c!"X", kind := .binary }, some 1), ({ name := c!"Y", kind := .binary, opt := true }, none), ({ name := c!"W", kind := .binary }, some 4)]

theorem newThree_addable : Addable chain newThree := by
  refine ⟨by decide, ?_, ?_, by decide⟩
  · have : ∀ x ∈ newThree, ∀ e ∈ chain.features, x.1.name ≠ e.1 := by decide
    exact fun x hx i hi => this x hx _ hi rfl
  · intro k x hx i hi
    match k, hx with
    | 0, hx => cases hx; cases hi; exact .inl (by decide)
    | 1, hx => cases hx; cases hi
    | 2, hx => cases hx; cases hi; exact .inr ⟨0, by omega, rfl⟩
    | k + 3, hx => cases hx

example : ∃ m' ids, chain.addFeatures (stdEnv true) newThree = some m' ∧ WF m' ∧ AddedAll chain m'
    [({ name := c!"X", kind := .binary }, 1), ({ name := c!"Y", kind := .binary, opt := true }, 0), ({ name := c!"W", kind := .binary }, 4)] ids :=
  let ⟨m', ids, h1, h2, h3, _⟩ := C70_adds chain_wf (stdEnv true) (r := 0) rfl newThree_addable
  ⟨m', ids, h1, h2, h3⟩

/-- The hypotheses are met: these, then a name that is taken. -/
example : ∃ m' ids, chain.addFeatures (stdEnv true) (newThree ++ [({ name := c!"A", kind := .binary }, none), ({ name := c!"Z", kind := .binary }, none)]) = some m' ∧
    AddedAll chain m' [({ name := c!"X", kind := .binary }, 1), ({ name := c!"Y", kind := .binary, opt := true }, 0), ({ name := c!"W", kind := .binary }, 4)] ids := by
  obtain ⟨m', ids, h1, h2, _⟩ := C70_stops_silently chain_wf (stdEnv true) (r := 0) rfl (a := { name := c!"A", kind := .binary }) (o := none)
    (post := [({ name := c!"Z", kind := .binary }, none)]) newThree_addable (.inl ⟨1, by decide⟩)
  exact ⟨m', ids, h1, h2⟩

end Verif.Props

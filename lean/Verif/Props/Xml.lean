import Verif.Xml.Dtd
import Verif.Xml.General
import Verif.Xml.Safe
import Verif.Xml.DocDtd
import Verif.Props.ConstraintText
import Verif.Props.Build
/-!
# XML documents

C32, C34 and C57 to C59.
-/

namespace Verif.Props
open Verif Verif.Spec Verif.Xml

/-! ## C32: what is written conforms to the DTD -/

/-- Whatever the writer produces conforms to the project's own declarations. -/
theorem C32_written_valid {E : Env} {m : FModel} {x : Xml} (h : write E m = some x) : Conforms x ∧ x.name = c!"vm" :=
  write_valid h

theorem matches_pair {a b : Str} {l : List Str} (h : Matches (seqOf [.elem a, .elem b]) l) : l = [a, b] := by
  cases h with
  | seq h1 h2 => cases h1; cases h2; rfl

theorem Conforms.content {n : Str} {as : List (Str × Str)} {t : Str} {ks : List Xml} {d : ElemDecl} (h : Conforms (.node n as t ks))
    (hd : dtd.lookup n = some d) : ContentOk d.content t (ks.map Xml.name) := by
  cases h with
  | mk h1 h2 _ _ => rw [hd] at h1; cases h1; exact h2

/-- The declarations do reject documents: without a name, with an unknown element, with elements in
    another order, with text in between. -/
theorem C32_not_vacuous : ¬ Conforms (.node c!"vm" [] [] [group c!"binaryOptions" [], group c!"numericOptions" []]) ∧
    ¬ Conforms (leaf c!"feature" []) ∧
    ¬ Conforms (group c!"start" [leaf c!"column" c!"1", leaf c!"line" c!"1"]) ∧
    ¬ Conforms (.node c!"start" [] c!"1" [leaf c!"line" c!"1", leaf c!"column" c!"1"]) := by
  refine ⟨?_, ?_, ?_, ?_⟩
  · rintro (⟨h1, -, h3, -⟩)
    cases h1
    have := h3.required ⟨c!"name", true, none⟩ (by simp) rfl
    simp at this
  · rintro (⟨h1, -, -, -⟩)
    cases h1
  · intro h
    have h1 := Conforms.content (d := elements [.elem c!"line", .elem c!"column"]) h rfl
    exact absurd (matches_pair h1.2) (by decide)
  · intro h
    have h1 := Conforms.content (d := elements [.elem c!"line", .elem c!"column"]) h rfl
    exact absurd (h1.1 '1' (by simp)) (by decide)

/-- Not vacuous: a model with a group is written. -/
example : ∃ x, write (stdEnv true) grouped = some x ∧ Conforms x := by
  have h : (write (stdEnv true) grouped).isSome = true := by decide
  obtain ⟨x, hx⟩ := Option.isSome_iff_exists.1 h
  exact ⟨x, hx, (C32_written_valid hx).1⟩

/-! ## C34: alternative groups -/

/-- In a model without groups exactly those features get an alternative group for their children that
    have at least two of them, none optional, each excluding each other one.  Everything else stays. -/
theorem C34_detects {d : Desc} {m : FModel} (h : Describes d m) (hg : d.groups = []) (E : Env) :
    ∃ m' gs, detectAlternatives E m = .ok m' ∧ Describes { d with groups := gs } m' ∧
      ∀ n k, (n, k) ∈ gs ↔ k = .alternative ∧ Exclusive d n :=
  detectAlternatives_spec h hg E

/-- The same for any document: what is loaded has a group exactly where the document says so.  `calls`
    are the calls made on the builder while the document is read. -/
theorem C34_loads {sci : Str → Option Str} {world : FModel} (hf : ∀ i, world.heap i ≠ none → i < world.next) (E : Env) {cwd : Str}
    {x : Xml} {calls : List BCall} {d : Desc} (h : parseVm sci cwd x = .ok calls) (hb : Buildable calls d) (hk : ConstraintsKnown d) :
    ∃ m, load sci E world cwd x = .built m ∧ ∀ n i, (n, i) ∈ m.features →
      (Exclusive d n → ∃ r, edg m i = [r] ∧ data m r = some (.rel .alternative) ∧ ∀ c ∈ edg m r, IsFeat m c) ∧
      (¬ Exclusive d n → ∀ c ∈ edg m i, IsFeat m c) := by
  obtain ⟨m, gs, h1, h2, h3⟩ := load_calls hf E h hb hk
  refine ⟨m, h1, fun n i hi => ⟨fun he => ?_, fun he => ?_⟩⟩
  · exact h2.grouped n .alternative i ((h3 n _).2 ⟨rfl, he⟩) hi
  · exact h2.ungrouped n i hi fun k hk => he ((h3 n k).1 hk).2

/-- A document: `A` and `B` exclude each other, `N` is a numeric option below `A`. -/
def altDoc : Spec.Doc where
  name := c!"M"
  commit := some c!"abc"
  binary := [{ name := c!"root", children := [c!"A", c!"B"] },
    { name := c!"A", output := some c!"-a ", parent := some c!"root", excluded := [c!"B"],
      locs := [{ path := c!"src/a.cpp", start := ⟨3, 1⟩, stop := ⟨4, 20⟩, category := some .inessential }] },
    { name := c!"B", excluded := [c!"A"] }]
  numeric := some [{ name := c!"N", parent := some c!"A", optional := some true, values := some (.list [1, -5, 20]) }]
  constraints := fun
    | .boolean => some [⟨(Constraint.bin .or (.feature c!"A") (.feature c!"B")).toStr, .bin .or (.feature c!"A") (.feature c!"B"), .boolean⟩]
    | .nonBoolean => some []
    | .mixed => none

/-- What it says. -/
def altDesc : Desc where
  name := c!"M"
  path := c!"/home"
  commit := c!"abc"
  root := c!"root"
  attrs := altDoc.attrs
  parent := fun n => if n = c!"N" then c!"A" else c!"root"
  groups := []
  constraints := [excludes c!"A" c!"B", excludes c!"B" c!"A", (.boolean, .bin .or (.feature c!"A") (.feature c!"B"))]

theorem solid_of {s : Str} (h : decide (s ≠ []) && (s.head?.all fun c => !Sxfm.isSpaceC c) && (s.getLast?.all fun c => !Sxfm.isSpaceC c)) :
    Solid s := by
  simp only [Bool.and_eq_true, decide_eq_true_eq] at h
  refine ⟨h.1.1, fun c hc => ?_, fun c hc => ?_⟩
  · have := h.1.2; rw [hc] at this; simpa using this
  · have := h.2; rw [hc] at this; simpa using this

theorem altDoc_ok (sci : Str → Option Str) : altDoc.Ok sci where
  name := .inr (solid_of (by decide))
  path := by intro t h; cases h
  commit := by intro t h; cases h; exact .inr (solid_of (by decide))
  binary := by
    intro o ho
    simp only [altDoc, List.mem_cons, List.not_mem_nil, or_false] at ho
    rcases ho with rfl | rfl | rfl
    all_goals
      refine ⟨solid_of (by decide), ?_, ?_, ?_, ?_, ?_, ?_, ?_, ?_⟩ <;> simp
    · exact ⟨solid_of (by decide), solid_of (by decide)⟩
    · decide
    · exact solid_of (by decide)
    · exact solid_of (by decide)
    · exact ⟨nofun, .inr (solid_of (by decide)), ⟨by decide, by decide⟩, ⟨by decide, by decide⟩, nofun⟩
    · exact solid_of (by decide)
  numeric := by
    intro l hl o ho
    cases hl
    simp only [List.mem_cons, List.not_mem_nil, or_false] at ho
    subst ho
    refine ⟨solid_of (by decide), ?_, ?_, ?_, ?_, ?_, ?_, ?_, ?_⟩ <;> simp
    · exact solid_of (by decide)
    · exact ⟨by decide, by simp only [List.mem_cons, List.not_mem_nil, or_false, forall_eq_or_imp, forall_eq]; exact ⟨⟨by decide, by decide⟩, ⟨by decide, by decide⟩, ⟨by decide, by decide⟩⟩⟩
  constraints := by
    intro cl l hl c hc
    cases cl
    · cases hl
      rw [List.mem_singleton] at hc
      subst hc
      exact ⟨C01_print_parse_partial sci (by simp [IdentNames, IsIdent]; decide) (by simp [Readable]) (by simp [FitsInt64]), rfl⟩
    · cases hl; cases hc
    · cases hl

theorem altDoc_says : DocDescribes c!"/home" altDoc altDesc where
  name := rfl
  path := rfl
  commit := rfl
  root := .inr (by decide)
  attrs := rfl
  distinct := by decide
  parent := by decide
  children := by decide
  no_parent := by decide
  acyclic := ⟨fun n => if n = c!"N" then 2 else if n = c!"root" then 0 else 1, by decide⟩
  groups := rfl
  constraints := rfl

/-- Not vacuous: the children of `root` are exclusive, those of `A` are not. -/
theorem C34_example : Exclusive altDesc c!"root" ∧ ¬ Exclusive altDesc c!"A" := by
  refine ⟨⟨by decide, by decide, ?_⟩, fun h => absurd h.many (by decide)⟩
  have hk : altDesc.kids c!"root" = [altDoc.binary[1].attr false, altDoc.binary[2].attr false] := rfl
  rw [hk]
  intro a ha b hb hne
  simp only [List.mem_cons, List.not_mem_nil, or_false] at ha hb
  rcases ha with rfl | rfl <;> rcases hb with rfl | rfl
  · exact absurd rfl hne
  · exact ⟨.boolean, by simp [altDesc, excludes, altDoc, DocOption.attr]⟩
  · exact ⟨.boolean, by simp [altDesc, excludes, altDoc, DocOption.attr]⟩
  · exact absurd rfl hne

theorem altDesc_known : ConstraintsKnown altDesc := by unfold ConstraintsKnown; decide

theorem altDoc_parents : OneParent (docCalls c!"/home" altDoc) :=
  fun _ _ _ h1 h2 => ((buildable_doc altDoc_says).edges _ _ h1).2.2.symm.trans ((buildable_doc altDoc_says).edges _ _ h2).2.2

example (E : Env) (sci : Str → Option Str) : ∃ m, load sci E nothing c!"/home" altDoc.toXml = .built m :=
  (C34_loads nothing_fresh E ((parseVm_doc c!"/home" (altDoc_ok sci)).1 altDoc_parents) (buildable_doc altDoc_says) altDesc_known).imp
    fun _ h => h.1

/-! ## C57: documents are read as what they say -/

/-- A document that describes a tree is loaded as exactly that: its features with their attributes and
    parents, its constraints in order, its name, path and commit.  The document is in the form of
    `Doc.toXml`: texts without surrounding blanks, elements in the declared order. -/
theorem C57_loads_partial {sci : Str → Option Str} {world : FModel} (hf : ∀ i, world.heap i ≠ none → i < world.next) (E : Env)
    {cwd : Str} {x : Spec.Doc} {d : Desc} (h : x.Ok sci) (hd : DocDescribes cwd x d) (hk : ConstraintsKnown d) :
    ∃ m gs, load sci E world cwd x.toXml = .built m ∧ Describes { d with groups := gs } m ∧
      ∀ n k, (n, k) ∈ gs ↔ k = .alternative ∧ Exclusive d n :=
  load_ok hf E h hd hk

example (E : Env) (sci : Str → Option Str) : ∃ m gs, load sci E nothing c!"/home" altDoc.toXml = .built m ∧
    Describes { altDesc with groups := gs } m ∧ ∀ n k, (n, k) ∈ gs ↔ k = .alternative ∧ Exclusive altDesc n :=
  C57_loads_partial nothing_fresh E (altDoc_ok sci) altDoc_says altDesc_known

/-! ## C58: documents that describe no tree are rejected -/

/-- Two parents for one feature, given by `parent` or by `children`. -/
theorem C58_two_parents {sci : Str → Option Str} {x : Spec.Doc} (h : x.Ok sci) (E : Env) (world : FModel) (cwd : Str)
    {p q c : Str} (hp : ∃ o ∈ x.options, (o.2.parent = some p ∧ o.2.name = c) ∨ (o.2.name = p ∧ c ∈ o.2.children))
    (hq : ∃ o ∈ x.options, (o.2.parent = some q ∧ o.2.name = c) ∨ (o.2.name = q ∧ c ∈ o.2.children)) (hne : p ≠ q) :
    load sci E world cwd x.toXml = .null := by
  have ho : ¬ OneParent (docCalls cwd x) := fun ho => hne (ho p q c (docCalls_edges.2 hp) (docCalls_edges.2 hq))
  unfold load
  rw [(parseVm_doc cwd h).2 ho]

/-- Of every document: what is read has no two parents for one feature. -/
theorem C58_one_parent {sci : Str → Option Str} {cwd : Str} {x : Xml} {calls : List BCall} (h : parseVm sci cwd x = .ok calls)
    {p q c : Str} (hp : .addEdge p c ∈ calls) (hq : .addEdge q c ∈ calls) : p = q := (parseVm_sane h).parents p q c hp hq

/-- What reading and building reject, loading rejects. -/
theorem load_null {sci : Str → Option Str} {x : Spec.Doc} (h : x.Ok sci) {E : Env} {world : FModel} {cwd : Str}
    (hb : world.build E (builderOf (docCalls cwd x)) = .null) : load sci E world cwd x.toXml = .null := by
  unfold load
  rcases parseVm_orFail cwd h with h1 | h1
  · rw [h1]; simp only [hb]
  · rw [h1]

theorem docCalls_kinds (cwd : Str) (x : Spec.Doc) : ∀ a ∈ attrsOf (docCalls cwd x), a.kind ≠ .root := by
  rw [docCalls_attrs]
  intro a ha
  unfold Doc.attrs at ha
  simp only [List.mem_map, List.mem_filter] at ha
  obtain ⟨o, _, rfl⟩ := ha
  unfold DocOption.attr
  cases o.1 <;> simp

/-- Two options of one name. -/
theorem C58_duplicate {sci : Str → Option Str} {world : FModel} (hf : ∀ i, world.heap i ≠ none → i < world.next) (E : Env) (cwd : Str)
    {x : Spec.Doc} (h : x.Ok sci) (hd : ¬ (x.attrs.map Attr.name).Nodup) : load sci E world cwd x.toXml = .null :=
  load_null h (build_duplicate hf E (docCalls_kinds cwd x) (by rw [docCalls_attrs]; exact hd))

/-- A parent or a child that is no option, or an option that is its own parent. -/
theorem C58_missing {sci : Str → Option Str} {world : FModel} (hf : ∀ i, world.heap i ≠ none → i < world.next) (E : Env) (cwd : Str)
    {x : Spec.Doc} {r p c : Str} (h : x.Ok sci) (hr : (x.roots = [] ∧ r = c!"root") ∨ x.roots = [r])
    (hp : ∃ o ∈ x.options, (o.2.parent = some p ∧ o.2.name = c) ∨ (o.2.name = p ∧ c ∈ o.2.children))
    (hm : ¬ (p = r ∨ p ∈ x.attrs.map Attr.name) ∨ ¬ (c = r ∨ c ∈ x.attrs.map Attr.name) ∨ p = c) :
    load sci E world cwd x.toXml = .null := by
  refine load_null h (C28_missing hf E (r := r) (docCalls_kinds cwd x) (by rw [docCalls_roots]; exact hr) ⟨p, c, docCalls_edges.2 hp, ?_⟩)
  rw [docCalls_attrs]
  exact hm

/-- A constraint that mentions a feature that is no option. -/
theorem C58_unknown_feature {sci : Str → Option Str} {world : FModel} (hf : ∀ i, world.heap i ≠ none → i < world.next) (E : Env)
    {cwd : Str} {x : Spec.Doc} {d : Desc} (h : x.Ok sci) (hd : DocDescribes cwd x d) (hk : ¬ ConstraintsKnown d) :
    load sci E world cwd x.toXml = .null :=
  load_null h (build_constraint_missing hf E (buildable_doc hd) hk)

/-- Options that are each other's parent. -/
def cycleDoc : Spec.Doc :=
  { name := c!"M", binary := [{ name := c!"A", parent := some c!"B" }, { name := c!"B", parent := some c!"A" }] }

def cycleCalls : List BCall :=
  [.setVmName c!"M", .setPath [], .setCommit [], .addEdge c!"B" c!"A", .makeFeature { name := c!"A", kind := .binary },
    .addEdge c!"A" c!"B", .makeFeature { name := c!"B", kind := .binary }]

/-- Options that are each other's parent are accepted. -/
theorem C58_cycle_accepted (sci : Str → Option Str) :
    ∃ m, load sci (stdEnv true) nothing [] cycleDoc.toXml = .built m ∧ ¬ WF m := by
  have hp : parseVm sci [] cycleDoc.toXml = .ok cycleCalls := rfl
  obtain ⟨m, h1, h2⟩ := BuildRes.of_passes (r := nothing.build (stdEnv true) (builderOf cycleCalls))
    (p := fun m => decide (Known m 1) && decide (par m 1 = some 2) && decide (par m 2 = some 1) &&
      (detectAlternatives (stdEnv true) m).passes fun m =>
        decide (Known m 1) && decide (par m 1 = some 2) && decide (par m 2 = some 1)) (by decide)
  simp only [Bool.and_eq_true, decide_eq_true_eq] at h2
  obtain ⟨m', h3, h4⟩ := Out.of_passes h2.2
  simp only [Bool.and_eq_true, decide_eq_true_eq] at h4
  refine ⟨m', ?_, not_wf_cycle (.inl h4.1.1) h4.1.2 h4.2⟩
  unfold load
  simp only [hp, h1, h3]

/-! ## C59: no document crashes the parser -/

/-- A document that conforms to the DTD is read without a crash, if no constraint is empty, mixed
    constraints have their attributes and positions fit `int`.  The claim has none of these conditions;
    none can be left out. -/
theorem C59_safe_partial {sci : Str → Option Str} {cwd : Str} {x : Xml} (hv : Conforms x) (hh : Harmless x) :
    parseVm sci cwd x ≠ .crash := parseVm_safe hv hh

/-- An empty constraint conforms to the DTD and crashes the parser. -/
theorem C59_empty_constraint (sci : Str → Option Str) (E : Env) (world : FModel) (cwd : Str) :
    let x := Doc.toXml { name := c!"M", binary := [], constraints := fun
      | .boolean => some [{ text := [], tree := .int 0, kind := .boolean }]
      | _ => none }
    Conforms x ∧ load sci E world cwd x = .ub := ⟨doc_valid _, rfl⟩

/-- A line number beyond `int` conforms to the DTD; what reading it does is undefined. -/
theorem C59_large_position (sci : Str → Option Str) (E : Env) (world : FModel) (cwd : Str) :
    let x := Doc.toXml { name := c!"M", binary := [{ name := c!"A", locs := [{ path := c!"f", start := ⟨2147483648, 1⟩, stop := ⟨2147483648, 1⟩ }] }] }
    Conforms x ∧ load sci E world cwd x = .ub := by
  refine ⟨doc_valid _, ?_⟩
  have h : natText 2147483648 = c!"2147483648" := by simp [natText]; decide
  have h1 : natText 1 = c!"1" := by simp [natText]; decide
  simp only [Doc.toXml, DocOption.toXml, DocRange.toXml, pointXml, List.map_cons, h, h1]
  rfl

/-- A mixed constraint without attributes conforms to the DTD and crashes the parser. -/
theorem C59_mixed_without_attributes (sci : Str → Option Str) (E : Env) (world : FModel) (cwd : Str) :
    let x := Doc.toXml { name := c!"M", binary := [], constraints := fun
      | .mixed => some [{ text := c!"A", tree := .feature c!"A", kind := .boolean }]
      | _ => none }
    Conforms x ∧ load sci E world cwd x = .ub := by
  refine ⟨doc_valid _, ?_⟩
  have h : parseText sci c!"A" = .ok (.feature c!"A") :=
    C01_print_parse_partial (c := .feature c!"A") sci (by simp [IdentNames, IsIdent]; decide) (by simp [Readable]) (by simp [FitsInt64])
  have hp : parseConstraints sci .mixed [.setVmName c!"M", .setPath cwd, .setCommit []] [leaf c!"constraint" c!"A"] = .crash := by
    simp only [parseConstraints, content_leaf, h]
    rfl
  have hv : parseVm sci cwd (Doc.toXml { name := c!"M", binary := [], constraints := fun
      | .mixed => some [{ text := c!"A", tree := .feature c!"A", kind := .boolean }]
      | _ => none }) = (parseConstraints sci .mixed [.setVmName c!"M", .setPath cwd, .setCommit []]
        [leaf c!"constraint" c!"A"]).bind fun calls => .ok calls := rfl
  unfold load
  rw [hv, hp]
  rfl

mutual
/-- A test on an element and all inside it. -/
def everywhere (p : Xml → Bool) : Xml → Bool
  | .node n a t ks => p (.node n a t ks) && everywhereIn p ks
def everywhereIn (p : Xml → Bool) : List Xml → Bool
  | [] => true
  | k :: ks => everywhere p k && everywhereIn p ks
end

theorem everywhereIn_mem {p : Xml → Bool} : ∀ {ks : List Xml}, everywhereIn p ks = true → ∀ k ∈ ks, everywhere p k = true
  | [], _ => by simp
  | k :: ks, h => by
    simp only [everywhereIn, Bool.and_eq_true] at h
    intro c hc
    rcases List.mem_cons.1 hc with rfl | hc
    · exact h.1
    · exact everywhereIn_mem h.2 c hc

theorem everywhere_within {p : Xml → Bool} {k x : Xml} (hw : Within k x) : everywhere p x = true → p k = true := by
  induction hw with
  | here => cases k with | node n a t ks => intro h; simp only [everywhere, Bool.and_eq_true] at h; exact h.1
  | @inside c x hc _ ih =>
    cases x with
    | node n a t ks =>
      intro h
      simp only [everywhere, Bool.and_eq_true] at h
      exact ih (everywhereIn_mem h.2 c hc)

/-- A document with a location and a mixed constraint. -/
def plainDoc : Spec.Doc :=
  { name := c!"M", binary := [{ name := c!"A", locs := [{ path := c!"f", start := ⟨1, 1⟩, stop := ⟨1, 1⟩ }] }], constraints := fun
    | .mixed => some [{ text := c!"A", tree := .feature c!"A", kind := .mixed ⟨true, false⟩ }]
    | _ => none }

/-- Not vacuous: a document that meets the conditions. -/
theorem C59_not_vacuous : Conforms plainDoc.toXml ∧ Harmless plainDoc.toXml := by
  refine ⟨doc_valid _, ?_⟩
  have h1 : natText 1 = c!"1" := by simp [natText]; decide
  have e : plainDoc.toXml = .node c!"vm" [(c!"name", c!"M")] [] [
      .node c!"binaryOptions" [] [] [.node c!"configurationOption" [] [] [.node c!"name" [] c!"A" [],
        .node c!"locations" [] [] [.node c!"sourceRange" [] [] [.node c!"path" [] c!"f" [],
          .node c!"start" [] [] [.node c!"line" [] c!"1" [], .node c!"column" [] c!"1" []],
          .node c!"end" [] [] [.node c!"line" [] c!"1" [], .node c!"column" [] c!"1" []]]]]],
      .node c!"mixedConstraints" [] [] [.node c!"constraint" [(c!"req", c!"all"), (c!"exprKind", c!"neg")] c!"A" []]] := by
    simp only [plainDoc, Doc.toXml, DocOption.toXml, DocRange.toXml, pointXml, List.map_cons, h1]
    rfl
  rw [e]
  refine ⟨fun k hk => ?_, fun k hk => ?_, fun k hk => ?_⟩
  · have := everywhere_within (p := fun k => decide (k.name = c!"constraint" → k.content ≠ [])) hk (by decide)
    exact of_decide_eq_true this
  · have := everywhere_within (p := fun k => decide (k.name = c!"mixedConstraints" → ∀ c ∈ k.kids, c.name = c!"constraint" →
      c.prop c!"req" ≠ none ∧ c.prop c!"exprKind" ≠ none)) hk (by decide)
    exact of_decide_eq_true this
  · have := everywhere_within (p := fun k => decide (k.name = c!"line" ∨ k.name = c!"column" → atoi k.content ≠ none)) hk (by decide)
    exact of_decide_eq_true this

/-- A document that conforms to the DTD is loaded without undefined behaviour, if also the root has no
    parent in the document or one from which the parents lead up to the root.  The other features may
    have any parents, even in cycles.  The claim does not have this condition either; it cannot be left
    out. -/
theorem C59_load_safe_partial {sci : Str → Option Str} {E : Env} {world : FModel} {cwd : Str} {x : Xml}
    (hf : ∀ i, world.heap i ≠ none → i < world.next) (hv : Conforms x) (hh : Harmless x) (ht : RootTied x) :
    load sci E world cwd x ≠ .ub := load_safe hf hv hh ht

/-- The root is below options that are each other's parent. -/
def belowCycleDoc : Spec.Doc :=
  { name := c!"M", binary := [{ name := c!"root", parent := some c!"A" }, { name := c!"A", parent := some c!"B" },
    { name := c!"B", parent := some c!"A" }] }

def belowCycleCalls : List BCall :=
  [.setVmName c!"M", .setPath [], .setCommit [], .addEdge c!"A" c!"root", .makeRoot c!"root",
    .addEdge c!"B" c!"A", .makeFeature { name := c!"A", kind := .binary },
    .addEdge c!"A" c!"B", .makeFeature { name := c!"B", kind := .binary }]

/-- The root may have a parent, and there may be a cycle elsewhere. -/
def rootBelowDoc : Spec.Doc :=
  { name := c!"M", binary := [{ name := c!"root", parent := some c!"A" }, { name := c!"A" },
    { name := c!"B", parent := some c!"C" }, { name := c!"C", parent := some c!"B" }] }

/-- A test on all elements for having no trouble with numbers and constraints. -/
def harmlessTest (k : Xml) : Bool :=
  decide (k.name = c!"constraint" → k.content ≠ []) &&
  decide (k.name = c!"mixedConstraints" → ∀ c ∈ k.kids, c.name = c!"constraint" → c.prop c!"req" ≠ none ∧ c.prop c!"exprKind" ≠ none) &&
  decide (k.name = c!"line" ∨ k.name = c!"column" → atoi k.content ≠ none)

theorem harmless_of_test {x : Xml} (h : everywhere harmlessTest x = true) : Harmless x := by
  refine ⟨fun k hk => ?_, fun k hk => ?_, fun k hk => ?_⟩ <;> have := everywhere_within hk h <;>
    simp only [harmlessTest, Bool.and_eq_true, decide_eq_true_eq] at this
  · exact this.1.1
  · exact this.1.2
  · exact this.2

/-- A conforming document without trouble in numbers and constraints whose loading is undefined: the
    search for alternative groups runs past the last feature. -/
theorem C59_root_below_cycle (sci : Str → Option Str) :
    Conforms belowCycleDoc.toXml ∧ Harmless belowCycleDoc.toXml ∧
      load sci (stdEnv true) nothing [] belowCycleDoc.toXml = .ub := by
  refine ⟨doc_valid _, harmless_of_test (by decide), ?_⟩
  have hp : parseVm sci [] belowCycleDoc.toXml = .ok belowCycleCalls := rfl
  obtain ⟨m, h1, h2⟩ := BuildRes.of_passes (r := nothing.build (stdEnv true) (builderOf belowCycleCalls))
    (p := fun m => match detectAlternatives (stdEnv true) m with | .ub => true | _ => false) (by decide)
  unfold load
  simp only [hp, h1]
  split at h2
  · rename_i h; rw [h]
  · cases h2

/-- What a document without `children` says about parents. -/
theorem states_of_test {x : Xml} {l : List (Str × Str)}
    (h : everywhere (fun o => decide (o.name = c!"configurationOption" → ∀ k ∈ o.kids, k.name ≠ c!"children" ∧
      (k.name = c!"parent" → (Sxfm.trimC k.content, optionName o) ∈ l))) x = true) {p c : Str} (hs : States x p c) : (p, c) ∈ l := by
  cases hs with
  | parent ho hn hk hkn _ => exact (of_decide_eq_true (everywhere_within ho h) hn _ hk).2 hkn
  | child ho hn hg hgn _ _ => exact absurd hgn (of_decide_eq_true (everywhere_within ho h) hn _ hg).1

/-- Not vacuous: the root has a parent and there is a cycle, but not above the root. -/
theorem C59_load_not_vacuous : Conforms rootBelowDoc.toXml ∧ Harmless rootBelowDoc.toXml ∧ RootTied rootBelowDoc.toXml ∧
    States rootBelowDoc.toXml c!"A" c!"root" ∧ States rootBelowDoc.toXml c!"B" c!"C" ∧ States rootBelowDoc.toXml c!"C" c!"B" ∧
    ¬ RootTied belowCycleDoc.toXml := by
  have hst : ∀ {p c : Str}, States rootBelowDoc.toXml p c → (p, c) ∈ [(c!"A", c!"root"), (c!"C", c!"B"), (c!"B", c!"C")] :=
    fun h => states_of_test (by decide) h
  have hin : ∀ {d : Spec.Doc} {o : Spec.DocOption}, o ∈ d.binary → Within o.toXml d.toXml := by
    intro d o ho
    exact .inside (List.mem_cons_self ..) (.inside (List.mem_map_of_mem ho) .here)
  have hs : ∀ {d : Spec.Doc} (o : Spec.DocOption) (p c : Str), o ∈ d.binary → optionName o.toXml = c → Sxfm.trimC p = p → p ≠ [] →
      leaf c!"parent" p ∈ o.toXml.kids → States d.toXml p c := by
    intro d o p c ho hc ht hp hk
    have := States.parent (hin ho) rfl hk rfl (by rw [show (leaf c!"parent" p).content = p from content_leaf _ _, ht]; exact hp)
    rw [show (leaf c!"parent" p).content = p from content_leaf _ _, ht, hc] at this
    exact this
  refine ⟨doc_valid _, harmless_of_test (by decide), ?_, ?_, ?_, ?_, ?_⟩
  · intro p r hr h
    refine .up fun q hq => ?_
    have h1 := hst h
    have h2 := hst hq
    simp only [List.mem_cons, Prod.mk.injEq, List.not_mem_nil, or_false] at h1 h2
    rcases h1 with ⟨rfl, rfl⟩ | ⟨rfl, rfl⟩ | ⟨rfl, rfl⟩
    · rcases h2 with ⟨_, h2⟩ | ⟨_, h2⟩ | ⟨_, h2⟩ <;> exact absurd h2 (by decide)
    · rcases hr with hr | hr <;> exact absurd hr (by decide)
    · rcases hr with hr | hr <;> exact absurd hr (by decide)
  · exact hs { name := c!"root", parent := some c!"A" } _ _ (by simp [rootBelowDoc]) (by decide) (by decide) (by decide) (.tail _ (.head _))
  · exact hs { name := c!"C", parent := some c!"B" } _ _ (by simp [rootBelowDoc]) (by decide) (by decide) (by decide) (.tail _ (.head _))
  · exact hs { name := c!"B", parent := some c!"C" } _ _ (by simp [rootBelowDoc]) (by decide) (by decide) (by decide) (.tail _ (.head _))
  · intro h
    have e1 : States belowCycleDoc.toXml c!"A" c!"root" :=
      hs { name := c!"root", parent := some c!"A" } _ _ (by simp [belowCycleDoc]) (by decide) (by decide) (by decide) (.tail _ (.head _))
    have e2 : States belowCycleDoc.toXml c!"B" c!"A" :=
      hs { name := c!"A", parent := some c!"B" } _ _ (by simp [belowCycleDoc]) (by decide) (by decide) (by decide) (.tail _ (.head _))
    have e3 : States belowCycleDoc.toXml c!"A" c!"B" :=
      hs { name := c!"B", parent := some c!"A" } _ _ (by simp [belowCycleDoc]) (by decide) (by decide) (by decide) (.tail _ (.head _))
    have key : ∀ n, LeadsUp belowCycleDoc.toXml n → n ≠ c!"A" ∧ n ≠ c!"B" := by
      intro n hn
      induction hn with
      | root hn => rcases hn with rfl | rfl <;> decide
      | up _ ih =>
        constructor
        · rintro rfl; exact (ih _ e2).2 rfl
        · rintro rfl; exact (ih _ e3).1 rfl
    exact (key _ (h _ _ (.inl rfl) e1)).1 rfl

end Verif.Props

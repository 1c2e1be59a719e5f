import Verif.Xml.Implied
import Verif.Xml.Read
import Verif.Xml.DocDtd
import Verif.Props.ConstraintText
/-!
# The written document

What `write` produces for a described model is a document in the sense of `Spec.Doc`, and what it
stands for is what `WrittenAs` says.
-/

namespace Verif.Xml
open Verif Verif.Spec Verif.Sxfm

variable {d : Desc} {m : FModel}

/-- The option written for a feature. -/
structure OptionOf (d : Desc) (a : Attr) (o : DocOption) : Prop where
  name : o.name = a.name
  output : o.output = none
  step : o.step = none
  parent : o.parent = if a.name = d.root then none else some (d.parent a.name)
  children : ∀ c, c ∈ o.children ↔ ∃ b ∈ d.attrs, b.name = c ∧ d.parent c = a.name
  implied : ∀ b, b ∈ o.implied ↔ Implies d a.name b
  excluded : ∀ b, b ∈ o.excluded ↔ Excludes d a.name b ∨ GroupMates d a.name b
  optional : o.optional = some a.opt
  values : o.values = writtenValues a.kind
  locs : o.locs.map DocRange.read = a.locs.map keptRange
  ok : o.Ok
  implied_count : ∀ b, o.implied.count b = (if a.name = b then 2 else 1) * impliesCount d a.name b
  excluded_once : o.excluded.Nodup

theorem root_solid {n : Str} (h : isRootName n = true) : Solid n := by
  have : n = c!"root" ∨ n = c!"base" := by simpa [isRootName] using h
  rcases this with rfl | rfl
  · exact ⟨by decide, by intro c hc; cases hc; decide, by intro c hc; cases hc; decide⟩
  · exact ⟨by decide, by intro c hc; cases hc; decide, by intro c hc; cases hc; decide⟩

theorem name_solid (hw : Writable d) {n : Str} (h : n = d.root ∨ n ∈ d.attrs.map Attr.name) : Solid n := by
  rcases h with rfl | h
  · exact root_solid hw.root
  · obtain ⟨a, ha, rfl⟩ := List.mem_map.1 h
    exact (hw.names a ha).1

theorem writeFeature_spec (h : Describes d m) (hw : Writable d) (E : Env) {n : Str} {i : Id} {f : Feat} (hi : (n, i) ∈ m.features)
    (hf : data m i = some (.feat f)) : ∃ o : DocOption, writeFeature E m i = some o.toXml ∧ OptionOf d f.attr o := by
  have hs := siblings_differ h hw
  obtain ⟨g, g1, g2⟩ := h.wf.feat_ok _ hi
  simp only at g1 g2
  rw [hf] at g1; cases g1
  have hpar := parentElem_spec h hi
  obtain ⟨cs, c1, c2⟩ := childNames_spec h hs E hi
  obtain ⟨is, i1, i2⟩ := impliedNames_spec h hs hw.known hi hf
  obtain ⟨es, e1, e2⟩ := excludedNames_spec h hs hw.known E hi hf
  have hattr : (f.attr.kind = .root ∨ KindWritable f.attr.kind) ∧ (∀ r ∈ f.attr.locs, RangeWritable r) ∧
      (f.attr.name ≠ d.root → ∃ p, (d.parent f.attr.name, p) ∈ m.features) := by
    rcases entry_cases h hi with ⟨rfl, _, f', hf', ha⟩ | ⟨a, ha, rfl, f', p, hf', rfl, h6, _⟩
    · rw [hf] at hf'; cases hf'
      rw [ha]
      exact ⟨.inl rfl, nofun, fun hne => absurd rfl hne⟩
    · rw [hf] at hf'; cases hf'
      exact ⟨.inr (hw.kinds _ ha), hw.locs _ ha, fun _ => ⟨p, h6⟩⟩
  obtain ⟨n1, n2⟩ := numericElem_spec hattr.1
  obtain ⟨ls, l1, l2, l3⟩ := locationsElem_spec hattr.2.1
  subst g2
  refine ⟨{ name := f.attr.name, parent := if f.attr.name = d.root then none else some (d.parent f.attr.name), children := cs,
            implied := is, excluded := es, optional := some f.attr.opt, values := writtenValues f.attr.kind, locs := ls }, ?_, ?_⟩
  · unfold writeFeature
    simp only [feat?_of_data hf, hpar, c1, i1, e1, n1, l1]
    congr 1
    simp only [DocOption.toXml, optLeaf, Option.map_none, Option.map_some, List.nil_append, List.append_nil, optionList, namesXml,
      List.append_assoc]
  · refine ⟨rfl, rfl, rfl, rfl, c2, i2, e2, rfl, rfl, l3, ?_, impliedNames_count h hs hw.known hi hf i1, excludedNames_nodup h hs hw.known E hi hf e1⟩
    exact {
      name := name_solid hw ((h.names _).1 ⟨i, hi⟩)
      output := nofun
      parent := by
        intro t ht
        dsimp only at ht
        split at ht
        · cases ht
        · rename_i hne
          cases ht
          obtain ⟨p, hp⟩ := hattr.2.2 hne
          exact name_solid hw ((h.names _).1 ⟨p, hp⟩)
      children := by
        intro t ht
        obtain ⟨b, hb, rfl, _⟩ := (c2 t).1 ht
        exact (hw.names b hb).1
      implied := by
        intro t ht
        obtain ⟨k, hk⟩ := (i2 t).1 ht
        exact name_solid hw (hw.known _ hk t (by simp [Constraint.features]))
      excluded := by
        intro t ht
        rcases (e2 t).1 ht with ⟨k, hk⟩ | hg
        · exact name_solid hw (hw.known _ hk t (by simp [Constraint.features]))
        · exact name_solid hw (.inr hg.2.2.1)
      values := n2
      step := nofun
      locs := l2 }

theorem writeFeatures_spec (h : Describes d m) (hw : Writable d) (E : Env) : ∀ {is : List Id}, (∀ i ∈ is, Known m i) →
    ∃ os : List (Id × DocOption), writeFeatures E m is = some (os.map fun o => o.2.toXml) ∧ os.map Prod.fst = is ∧
      ∀ o ∈ os, ∃ f, data m o.1 = some (.feat f) ∧ OptionOf d f.attr o.2
  | [], _ => ⟨[], rfl, rfl, by simp⟩
  | i :: is, hk => by
    obtain ⟨os, h1, h2, h3⟩ := writeFeatures_spec h hw E (is := is) fun j hj => hk j (by simp [hj])
    obtain ⟨n, f, h4, h5, h6⟩ := known_entry h.wf (hk i (by simp))
    obtain ⟨o, h7, h8⟩ := writeFeature_spec h hw E h4 h5
    refine ⟨(i, o) :: os, ?_, ?_, ?_⟩
    · simp [writeFeatures, h7, h1]
    · simp [h2]
    · intro x hx
      rcases List.mem_cons.1 hx with rfl | hx
      · exact ⟨f, h5, h8⟩
      · exact h3 x hx

/-! ## Constraints -/

theorem isSimple_eq (c : Constraint) : isSimple c = simple c := by
  unfold isSimple simple
  rfl

/-- The constraint elements written for those of a description. -/
def docConstraints (l : List (CKind × Constraint)) : List DocConstraint :=
  l.map fun x => ⟨x.2.toStr, readBack x.2, x.1⟩

/-- Which constraints of a class are written in its element. -/
def writtenClass (d : Desc) (cl : CClass) : List (CKind × Constraint) :=
  if cl = .boolean then (d.ofClass .boolean).filter fun x => !simple x.2 else d.ofClass cl

theorem constraintElem_spec {k : CKind} {c : Constraint} {s : Stored} (hs : s.info = k.info) :
    constraintElem k.cls s c = some (DocConstraint.toXml ⟨c.toStr, readBack c, k⟩) := by
  cases k with
  | boolean => rfl
  | nonBoolean => rfl
  | mixed i =>
    unfold constraintElem
    simp only [CKind.cls]
    rw [hs]
    rfl

theorem constraintElems_spec (w : WF m) (cl : CClass) : ∀ (l : List (CKind × Constraint)), (∀ x ∈ l, x.1.cls = cl) →
    constraintElems m cl (l.map fun x => ⟨x.2, x.2.features.map m.getFeature, x.1.info⟩) =
      some ((docConstraints (if cl = .boolean then l.filter (fun x => !simple x.2) else l)).map DocConstraint.toXml)
  | [], _ => by cases cl <;> rfl
  | x :: l, h => by
    have ih := constraintElems_spec w cl l fun y hy => h y (by simp [hy])
    have hx := h x (by simp)
    rw [List.map_cons, constraintElems]
    dsimp only
    rw [isSimple_eq]
    by_cases hc : cl = .boolean ∧ simple x.2 = true
    · rw [if_pos hc, ih, if_pos hc.1, if_pos hc.1, List.filter_cons_of_neg (by simp [hc.2])]
    · rw [if_neg hc, cloneStored_known w rfl, ih]
      subst hx
      dsimp only
      rw [constraintElem_spec (k := x.1) rfl]
      dsimp only [Option.map_some]
      by_cases hb : x.1.cls = .boolean
      · have hns : simple x.2 = false := by
          cases hsx : simple x.2 with
          | true => exact absurd ⟨hb, hsx⟩ hc
          | false => rfl
        rw [if_pos hb, if_pos hb, List.filter_cons_of_pos (by simp [hns])]
        rfl
      · rw [if_neg hb, if_neg hb]
        rfl

/-- The element of a class. -/
def classDoc (d : Desc) (cl : CClass) : Option (List DocConstraint) :=
  if d.ofClass cl = [] then none else some (docConstraints (writtenClass d cl))

theorem constraintGroup_spec (h : Describes d m) (n : Str) (cl : CClass) :
    constraintGroup m n cl = some (groupXml n DocConstraint.toXml (classDoc d cl)) := by
  unfold constraintGroup classDoc
  rw [h.store cl]
  by_cases he : d.ofClass cl = []
  · rw [if_pos he, he]; rfl
  · rw [if_neg he, if_neg (by simpa using he), constraintElems_spec h.wf cl _ (by
      intro x hx
      rw [Desc.ofClass, List.mem_filter] at hx
      simpa using hx.2)]
    simp only [Option.map_some, groupXml, writtenClass]
    cases cl <;> rfl

theorem readBack_features : ∀ c : Constraint, (readBack c).features = c.features
  | .bin op l r => by
    have hl := readBack_features l
    have hr := readBack_features r
    cases op <;> simp [readBack, Constraint.features, hl, hr]
  | .un op c => by simp [readBack, Constraint.features, readBack_features c]
  | .int v => rfl
  | .feature n => rfl

/-! ## The document -/

/-- A list without repetition whose only member is `a`. -/
theorem eq_singleton {α} {l : List α} {a : α} (hn : l.Nodup) (h : ∀ x, x ∈ l ↔ x = a) : l = [a] := by
  cases l with
  | nil => exact absurd ((h a).2 rfl) (by simp)
  | cons b l =>
    have hb : b = a := (h b).1 (by simp)
    subst hb
    cases l with
    | nil => rfl
    | cons c l =>
      have hc : c = b := (h c).1 (by simp)
      subst hc
      simp at hn

theorem option_attr {a : Attr} {o : DocOption} {num : Bool} (ho : OptionOf d a o) (hk : KindWritable a.kind)
    (hn : num = true ↔ ∃ v s, a.kind = .numeric v s) : o.attr num = kept a := by
  unfold DocOption.attr kept
  rw [ho.name, ho.output, ho.step, ho.optional, ho.values, ho.locs]
  cases hkind : a.kind with
  | numeric v s =>
    have : num = true := hn.2 ⟨v, s, hkind⟩
    subst this
    rfl
  | binary =>
    have : num = false := by
      cases num with
      | false => rfl
      | true => obtain ⟨v, s, e⟩ := hn.1 rfl; rw [hkind] at e; cases e
    subst this
    rfl
  | root => rw [hkind] at hk; exact hk.elim
  | unknown => rw [hkind] at hk; exact hk.elim

/-- The document written for a model. -/
structure Written (d : Desc) (m : FModel) (x : Spec.Doc) : Prop where
  name : x.name = d.name
  path : x.path = some d.path
  commit : x.commit = if d.commit = [] then none else some d.commit
  constraints : x.constraints = classDoc d
  names : (x.options.map fun o => o.2.name).Nodup
  option : ∀ o ∈ x.options, ∃ n i f, (n, i) ∈ m.features ∧ data m i = some (.feat f) ∧ f.attr.name = n ∧ OptionOf d f.attr o.2 ∧
    (o.1 = true ↔ ∃ v s, f.attr.kind = .numeric v s)
  all : ∀ n i, (n, i) ∈ m.features → ∃ o ∈ x.options, o.2.name = n

def docOf (d : Desc) (bs ns : List (Id × DocOption)) : Spec.Doc where
  name := d.name
  path := some d.path
  commit := if d.commit = [] then none else some d.commit
  binary := bs.map Prod.snd
  numeric := some (ns.map Prod.snd)
  constraints := classDoc d

theorem write_spec (h : Describes d m) (hw : Writable d) (E : Env) : ∃ x : Spec.Doc, write E m = some x.toXml ∧ Written d m x := by
  obtain ⟨r, is, hr, hit, _, hnd, hmem, _⟩ := Props.C25_preorder h.wf E
  obtain ⟨bs, b1, b2, b3⟩ := writeFeatures_spec h hw E (is := is.filter (isBinary m)) (fun i hi => (hmem i).1 (List.mem_filter.1 hi).1)
  obtain ⟨ns, n1, n2, n3⟩ := writeFeatures_spec h hw E (is := is.filter (isNumeric m)) (fun i hi => (hmem i).1 (List.mem_filter.1 hi).1)
  refine ⟨docOf d bs ns, ?_, ?_⟩
  · unfold write
    simp only [hit, b1, n1, constraintGroup_spec h, h.name, h.path, h.commit, docOf, Doc.toXml, groupXml, List.map_map]
    by_cases hc : d.commit = []
    · simp [hc, optAtt, Function.comp_def]
    · simp [hc, optAtt, Function.comp_def]
  · have numIff : ∀ {i f}, data m i = some (.feat f) → (isNumeric m i = true ↔ ∃ v s, f.attr.kind = .numeric v s) := by
      intro i f hf
      unfold isNumeric
      rw [feat?_of_data hf]
      dsimp only
      cases f.attr.kind <;> simp
    have binIff : ∀ {i f}, data m i = some (.feat f) → (isBinary m i = true ↔ f.attr.kind = .root ∨ f.attr.kind = .binary) := by
      intro i f hf
      unfold isBinary
      rw [feat?_of_data hf]
      simp
    have hfst : ((bs ++ ns).map Prod.fst).Nodup := by
      rw [List.map_append, b2, n2, List.nodup_append]
      refine ⟨hnd.filter _, hnd.filter _, ?_⟩
      intro a ha b hb e
      subst e
      obtain ⟨_, f, _, hf, _⟩ := known_entry h.wf ((hmem a).1 (List.mem_filter.1 ha).1)
      obtain ⟨v, s, hk⟩ := (numIff hf).1 (List.mem_filter.1 hb).2
      rcases (binIff hf).1 (List.mem_filter.1 ha).2 with e | e <;> rw [hk] at e <;> cases e
    have hname : ∀ p ∈ bs ++ ns, ∃ n f, (n, p.1) ∈ m.features ∧ data m p.1 = some (.feat f) ∧ f.attr.name = n ∧ OptionOf d f.attr p.2 := by
      intro p hp
      have hk : Known m p.1 := by
        rcases List.mem_append.1 hp with hp | hp
        · have : p.1 ∈ bs.map Prod.fst := List.mem_map_of_mem hp
          rw [b2] at this
          exact (hmem _).1 (List.mem_filter.1 this).1
        · have : p.1 ∈ ns.map Prod.fst := List.mem_map_of_mem hp
          rw [n2] at this
          exact (hmem _).1 (List.mem_filter.1 this).1
      obtain ⟨n, f, k1, k2, k3⟩ := known_entry h.wf hk
      obtain ⟨f', f1, f2⟩ : ∃ f, data m p.1 = some (.feat f) ∧ OptionOf d f.attr p.2 := by
        rcases List.mem_append.1 hp with hp | hp
        · exact b3 p hp
        · exact n3 p hp
      rw [k2] at f1; cases f1
      exact ⟨n, f, k1, k2, k3, f2⟩
    refine ⟨rfl, rfl, rfl, rfl, ?_, ?_, ?_⟩
    · have e : (docOf d bs ns).options.map (fun o => o.2.name) =
          (bs ++ ns).map fun p => p.2.name := by
        simp [docOf, Doc.options, Function.comp_def]
      rw [e]
      refine List.pairwise_map.2 (List.Pairwise.imp_of_mem ?_ (List.pairwise_map.1 hfst))
      intro p q hp hq hne heq
      obtain ⟨n, f, p1, p2, p3, p4⟩ := hname p hp
      obtain ⟨n', f', q1, q2, q3, q4⟩ := hname q hq
      rw [p4.name, q4.name, p3, q3] at heq
      subst heq
      exact hne (h.wf.entry_unique p1 q1)
    · intro o ho
      simp only [docOf, Doc.options, Option.getD_some, List.map_map, List.mem_append, List.mem_map, Function.comp_apply] at ho
      rcases ho with ⟨p, hp, rfl⟩ | ⟨p, hp, rfl⟩
      · obtain ⟨n, f, p1, p2, p3, p4⟩ := hname p (by simp [hp])
        refine ⟨n, p.1, f, p1, p2, p3, p4, nofun, fun hk => ?_⟩
        have : p.1 ∈ bs.map Prod.fst := List.mem_map_of_mem hp
        rw [b2] at this
        obtain ⟨v, s, hk⟩ := hk
        rcases (binIff p2).1 (List.mem_filter.1 this).2 with e | e <;> rw [hk] at e <;> cases e
      · obtain ⟨n, f, p1, p2, p3, p4⟩ := hname p (by simp [hp])
        refine ⟨n, p.1, f, p1, p2, p3, p4, fun _ => ?_, fun _ => rfl⟩
        have : p.1 ∈ ns.map Prod.fst := List.mem_map_of_mem hp
        rw [n2] at this
        exact (numIff p2).1 (List.mem_filter.1 this).2
    · intro n i hi
      have hii := (hmem i).2 (known_of_mem hi)
      have hcase : ∃ f, data m i = some (.feat f) ∧ (isBinary m i = true ∨ isNumeric m i = true) := by
        rcases entry_cases h hi with ⟨_, _, f, hf, ha⟩ | ⟨a, ha, rfl, f, p, hf, rfl, _, _⟩
        · exact ⟨f, hf, .inl ((binIff hf).2 (.inl (by rw [ha])))⟩
        · refine ⟨f, hf, ?_⟩
          have hk := hw.kinds _ ha
          cases hkind : f.attr.kind with
          | binary => exact .inl ((binIff hf).2 (.inr hkind))
          | numeric v s => exact .inr ((numIff hf).2 ⟨v, s, hkind⟩)
          | root => rw [hkind] at hk; exact hk.elim
          | unknown => rw [hkind] at hk; exact hk.elim
      obtain ⟨f, hf, hc⟩ := hcase
      obtain ⟨p, hp, rfl⟩ : ∃ p ∈ bs ++ ns, p.1 = i := by
        rcases hc with hc | hc
        · have : i ∈ bs.map Prod.fst := by rw [b2]; exact List.mem_filter.2 ⟨hii, hc⟩
          obtain ⟨p, hp, rfl⟩ := List.mem_map.1 this
          exact ⟨p, by simp [hp], rfl⟩
        · have : i ∈ ns.map Prod.fst := by rw [n2]; exact List.mem_filter.2 ⟨hii, hc⟩
          obtain ⟨p, hp, rfl⟩ := List.mem_map.1 this
          exact ⟨p, by simp [hp], rfl⟩
      obtain ⟨n', f', p1, p2, p3, p4⟩ := hname p hp
      have e := h.wf.id_unique hi p1
      subst e
      rcases List.mem_append.1 hp with hp | hp
      · exact ⟨(false, p.2), by simp [docOf, Doc.options]; exact ⟨p.1, hp⟩, by rw [p4.name, p3]⟩
      · exact ⟨(true, p.2), by simp [docOf, Doc.options]; exact ⟨p.1, hp⟩, by rw [p4.name, p3]⟩

/-! ## What it stands for -/

section
variable {x : Spec.Doc}

theorem eq_of_name {l : List Attr} {a b : Attr} (hn : (l.map Attr.name).Nodup) (ha : a ∈ l) (hb : b ∈ l)
    (e : a.name = b.name) : a = b := by
  induction l with
  | nil => cases ha
  | cons c l ih =>
    rw [List.map_cons, List.nodup_cons] at hn
    rcases List.mem_cons.1 ha with rfl | ha' <;> rcases List.mem_cons.1 hb with rfl | hb'
    · rfl
    · exact absurd (e ▸ List.mem_map_of_mem hb') hn.1
    · exact absurd (e ▸ List.mem_map_of_mem ha') hn.1
    · exact ih hn.2 ha' hb'

theorem Written.attr_of (h : Describes d m) (W : Written d m x) {o : Bool × DocOption} (ho : o ∈ x.options)
    (hr : isRootName o.2.name = false) (hw : Writable d) : ∃ a ∈ d.attrs, OptionOf d a o.2 ∧ o.2.attr o.1 = kept a := by
  obtain ⟨n, i, f, h1, h2, h3, h4, h5⟩ := W.option o ho
  rcases entry_cases h h1 with ⟨hn, _⟩ | ⟨a, ha, rfl, f', p, hf, hfa, _, _⟩
  · rw [h4.name, h3, hn, hw.root] at hr; cases hr
  · rw [h2] at hf; cases hf
    rw [hfa] at h4 h5
    exact ⟨a, ha, h4, option_attr h4 (hw.kinds a ha) h5⟩

theorem Written.of_attr (h : Describes d m) (W : Written d m x) {a : Attr} (ha : a ∈ d.attrs) (hw : Writable d) :
    ∃ o ∈ x.options, OptionOf d a o.2 ∧ o.2.attr o.1 = kept a ∧ o.2.name = a.name := by
  obtain ⟨i, hi⟩ := (h.names a.name).2 (.inr (List.mem_map_of_mem ha))
  obtain ⟨o, ho, hn⟩ := W.all _ i hi
  obtain ⟨b, hb, h1, h2⟩ := W.attr_of h ho (by rw [hn]; exact (hw.names a ha).2) hw
  have e : b = a := by
    have := h1.name.symm.trans hn
    exact eq_of_name h.distinct hb ha this
  subst e
  exact ⟨o, ho, h1, h2, hn⟩

theorem Written.attr_names (h : Describes d m) (W : Written d m x) (hw : Writable d) (n : Str) :
    n ∈ x.attrs.map Attr.name ↔ n ∈ d.attrs.map Attr.name := by
  simp only [Doc.attrs, List.map_map, List.mem_map, List.mem_filter, Function.comp_apply]
  constructor
  · rintro ⟨o, ⟨ho, hr⟩, rfl⟩
    obtain ⟨a, ha, h1, h2⟩ := W.attr_of h ho (by simpa using hr) hw
    exact ⟨a, ha, by rw [h2]; rfl⟩
  · rintro ⟨a, ha, rfl⟩
    obtain ⟨o, ho, h1, h2, h3⟩ := W.of_attr h ha hw
    exact ⟨o, ⟨ho, by rw [h3, (hw.names a ha).2]; rfl⟩, by rw [h2]; rfl⟩

theorem Written.attrs_distinct (W : Written d m x) : (x.attrs.map Attr.name).Nodup := by
  have e : x.attrs.map Attr.name = (x.options.map fun o => o.2.name).filter fun n => !isRootName n := by
    simp [Doc.attrs, List.filter_map, Function.comp_def, DocOption.attr]
  rw [e]
  exact W.names.filter _

theorem nodup_of_map {α β} {f : α → β} {l : List α} (h : (l.map f).Nodup) : l.Nodup :=
  (List.pairwise_map.1 h).imp fun hab e => hab (by rw [e])

theorem Written.attrs_perm (h : Describes d m) (W : Written d m x) (hw : Writable d) : x.attrs.Perm (d.attrs.map kept) := by
  refine (List.perm_ext_iff_of_nodup (nodup_of_map W.attrs_distinct) (nodup_of_map (f := Attr.name) ?_)).2 ?_
  · rw [List.map_map]; exact h.distinct
  · intro a'
    simp only [Doc.attrs, List.mem_map, List.mem_filter]
    constructor
    · rintro ⟨o, ⟨ho, hr⟩, rfl⟩
      obtain ⟨a, ha, h1, h2⟩ := W.attr_of h ho (by simpa using hr) hw
      exact ⟨a, ha, h2.symm⟩
    · rintro ⟨a, ha, rfl⟩
      obtain ⟨o, ho, h1, h2, h3⟩ := W.of_attr h ha hw
      exact ⟨o, ⟨ho, by rw [h3, (hw.names a ha).2]; rfl⟩, h2⟩

theorem Written.roots (h : Describes d m) (W : Written d m x) (hw : Writable d) : x.roots = [d.root] := by
  refine eq_singleton (W.names.filter _) ?_
  intro n
  unfold Doc.roots
  simp only [List.mem_filter, List.mem_map]
  constructor
  · rintro ⟨⟨o, ho, rfl⟩, hr⟩
    obtain ⟨n, i, f, h1, h2, h3, h4, h5⟩ := W.option o ho
    rcases (h.names n).1 ⟨i, h1⟩ with hn | hn
    · rw [h4.name, h3, hn]
    · obtain ⟨a, ha, hn⟩ := List.mem_map.1 hn
      rw [h4.name, h3, ← hn, (hw.names a ha).2] at hr
      cases hr
  · rintro rfl
    obtain ⟨i, hi⟩ := (h.names d.root).2 (.inl rfl)
    obtain ⟨o, ho, hn⟩ := W.all _ i hi
    exact ⟨⟨o, ho, hn⟩, hw.root⟩

theorem Written.ofClass (W : Written d m x) (cl : CClass) :
    x.ofClass cl = (writtenClass d cl).map fun y => (y.1, readBack y.2) := by
  unfold Doc.ofClass
  rw [W.constraints]
  unfold classDoc
  split
  · next he =>
    unfold writtenClass
    split
    · next hc => subst hc; rw [he]; rfl
    · rw [he]; rfl
  · simp [docConstraints, Function.comp_def]

/-- The constraints that options carry. -/
def optionConstraints (x : Spec.Doc) : List (CKind × Constraint) := x.options.flatMap fun o => o.2.constraints

theorem Written.optionConstraints (h : Describes d m) (W : Written d m x) (hw : Writable d) (y : CKind × Constraint) :
    y ∈ optionConstraints x ↔
      ∃ a b, (y = implies a b ∧ Implies d a b) ∨ (y = excludes a b ∧ (Excludes d a b ∨ GroupMates d a b)) := by
  simp only [Xml.optionConstraints, List.mem_flatMap, DocOption.constraints, List.mem_append, List.mem_map]
  constructor
  · rintro ⟨o, ho, ⟨b, hb, rfl⟩ | ⟨b, hb, rfl⟩⟩
    · obtain ⟨n, i, f, h1, h2, h3, h4, h5⟩ := W.option o ho
      exact ⟨o.2.name, b, .inl ⟨rfl, by rw [h4.name]; exact (h4.implied b).1 hb⟩⟩
    · obtain ⟨n, i, f, h1, h2, h3, h4, h5⟩ := W.option o ho
      exact ⟨o.2.name, b, .inr ⟨rfl, by rw [h4.name]; exact (h4.excluded b).1 hb⟩⟩
  · have hopt : ∀ a, (a = d.root ∨ a ∈ d.attrs.map Attr.name) → ∃ o ∈ x.options, ∃ f : Attr, f.name = a ∧ o.2.name = a ∧ OptionOf d f o.2 := by
      intro a ha
      obtain ⟨i, hi⟩ := (h.names a).2 ha
      obtain ⟨o, ho, hn⟩ := W.all _ i hi
      obtain ⟨n, i, f, h1, h2, h3, h4, h5⟩ := W.option o ho
      exact ⟨o, ho, f.attr, by rw [← h4.name, hn], hn, h4⟩
    rintro ⟨a, b, ⟨rfl, hx⟩ | ⟨rfl, hx⟩⟩
    · obtain ⟨o, ho, f, h1, h2, h3⟩ := hopt a (by
        obtain ⟨k, hk⟩ := hx
        exact hw.known _ hk a (by simp [Constraint.features]))
      exact ⟨o, ho, .inl ⟨b, (h3.implied b).2 (by rw [h1]; exact hx), by rw [h2]⟩⟩
    · obtain ⟨o, ho, f, h1, h2, h3⟩ := hopt a (by
        rcases hx with ⟨k, hk⟩ | hg
        · exact hw.known _ hk a (by simp [Constraint.features])
        · exact .inr hg.2.1)
      exact ⟨o, ho, .inr ⟨b, (h3.excluded b).2 (by rw [h1]; exact hx), by rw [h2]⟩⟩

theorem count_flatMap_once {α β γ} [BEq β] [DecidableEq γ] (key : α → γ) (g : α → List β) (y : β) : ∀ {l : List α}, (l.map key).Nodup →
    ∀ {o : α}, o ∈ l → (∀ x ∈ l, key x ≠ key o → (g x).count y = 0) → (l.flatMap g).count y = (g o).count y
  | [], _, o, ho, _ => by cases ho
  | x :: l, hn, o, ho, hz => by
    rw [List.map_cons, List.nodup_cons] at hn
    rw [List.flatMap_cons, List.count_append]
    rcases List.mem_cons.1 ho with rfl | ho
    · have : ∀ l' : List α, (∀ x ∈ l', (g x).count y = 0) → (l'.flatMap g).count y = 0 := by
        intro l' h'
        induction l' with
        | nil => rfl
        | cons a l' ih =>
          rw [List.flatMap_cons, List.count_append, h' a (by simp), ih fun x hx => h' x (by simp [hx])]
      rw [this l fun x hx => hz x (by simp [hx]) fun e => hn.1 (e ▸ List.mem_map_of_mem hx)]
      rfl
    · rw [hz x (by simp) (fun e => hn.1 (e ▸ List.mem_map_of_mem ho)),
        count_flatMap_once key g y hn.2 ho fun x hx => hz x (by simp [hx]), Nat.zero_add]

theorem count_map_inj {α β} [BEq α] [LawfulBEq α] [BEq β] [LawfulBEq β] {f : α → β} (hf : ∀ x y, f x = f y → x = y) (b : α) : ∀ l : List α,
    (l.map f).count (f b) = l.count b
  | [] => rfl
  | x :: l => by
    rw [List.map_cons]
    by_cases h : x = b
    · subst h; rw [List.count_cons_self, List.count_cons_self, count_map_inj hf]
    · rw [List.count_cons_of_ne h, List.count_cons_of_ne fun e => h (hf _ _ e), count_map_inj hf]

theorem option_implied (o : DocOption) (b : Str) : o.constraints.count (implies o.name b) = o.implied.count b := by
  unfold DocOption.constraints
  rw [List.count_append, count_map_inj (f := implies o.name) (fun x y e => by simpa [implies] using e), List.count_eq_zero (l := o.excluded.map _) |>.2, Nat.add_zero]
  intro h
  obtain ⟨c, _, e⟩ := List.mem_map.1 h
  simp [implies, excludes] at e

theorem option_excluded (o : DocOption) (b : Str) : o.constraints.count (excludes o.name b) = o.excluded.count b := by
  unfold DocOption.constraints
  rw [List.count_append, count_map_inj (f := excludes o.name) (fun x y e => by simpa [excludes] using e), List.count_eq_zero (l := o.implied.map _) |>.2, Nat.zero_add]
  intro h
  obtain ⟨c, _, e⟩ := List.mem_map.1 h
  simp [implies, excludes] at e

theorem option_other {o : DocOption} {a b : Str} (h : o.name ≠ a) : o.constraints.count (implies a b) = 0 ∧ o.constraints.count (excludes a b) = 0 := by
  unfold DocOption.constraints
  rw [List.count_eq_zero, List.count_eq_zero]
  refine ⟨fun hm => ?_, fun hm => ?_⟩ <;> rcases List.mem_append.1 hm with hm | hm <;> obtain ⟨c, _, e⟩ := List.mem_map.1 hm <;>
    simp [implies, excludes] at e <;> exact h e.1

/-- How often implications and exclusions stand in the document. -/
theorem Written.counts (h : Describes d m) (W : Written d m x) (hw : Writable d) (a b : Str) :
    (Xml.optionConstraints x).count (implies a b) = (if a = b then 2 else 1) * impliesCount d a b ∧
      (Xml.optionConstraints x).count (excludes a b) ≤ 1 := by
  by_cases ha : a = d.root ∨ a ∈ d.attrs.map Attr.name
  · obtain ⟨i, hi⟩ := (h.names a).2 ha
    obtain ⟨o, ho, hn⟩ := W.all _ i hi
    obtain ⟨n, i, f, h1, h2, h3, h4, h5⟩ := W.option o ho
    have hk : ∀ y ∈ x.options, y.2.name ≠ o.2.name → (y.2.constraints).count (implies a b) = 0 ∧ (y.2.constraints).count (excludes a b) = 0 :=
      fun y _ hne => option_other (by rw [← hn]; exact hne)
    unfold Xml.optionConstraints
    rw [count_flatMap_once (fun o => o.2.name) _ _ W.names ho fun y hy hne => (hk y hy hne).1,
      count_flatMap_once (fun o => o.2.name) _ _ W.names ho fun y hy hne => (hk y hy hne).2]
    subst hn
    rw [option_implied, option_excluded, h4.implied_count, ← h4.name]
    exact ⟨rfl, List.nodup_iff_count.1 h4.excluded_once b⟩
  · have h0 : impliesCount d a b = 0 := by
      unfold impliesCount
      rw [List.countP_eq_zero]
      intro y hy he
      simp only [decide_eq_true_eq] at he
      exact ha (hw.known y hy a (by rw [he]; simp [Constraint.features]))
    rw [h0, Nat.mul_zero, List.count_eq_zero, List.count_eq_zero.2]
    · refine ⟨fun hm => ?_, Nat.zero_le _⟩
      obtain ⟨a', b', ⟨e, k, hk⟩ | ⟨e, _⟩⟩ := (W.optionConstraints h hw _).1 hm
      · simp only [implies, Prod.mk.injEq, Constraint.bin.injEq, Constraint.feature.injEq, true_and] at e
        obtain ⟨rfl, rfl⟩ := e
        exact ha (hw.known _ hk _ (by simp [Constraint.features]))
      · simp [implies, excludes] at e
    · intro hm
      obtain ⟨a', b', ⟨e, _⟩ | ⟨e, hx⟩⟩ := (W.optionConstraints h hw _).1 hm
      · simp [implies, excludes] at e
      · simp only [excludes, Prod.mk.injEq, Constraint.bin.injEq, Constraint.feature.injEq, true_and] at e
        obtain ⟨rfl, rfl⟩ := e
        rcases hx with ⟨k, hk⟩ | hg
        · exact ha (hw.known _ hk _ (by simp [Constraint.features]))
        · exact ha (.inr hg.2.1)

/-- Other constraints are read back as something else. -/
theorem readBack_simple {c : Constraint} (h : simple c = false) (a b : Str) : readBack c ≠ .bin .implies (.feature a) (.feature b) ∧
    readBack c ≠ .bin .excludes (.feature a) (.feature b) := by
  have hf : ∀ {c : Constraint} {n : Str}, readBack c = .feature n → c = .feature n := by
    intro c n h
    cases c with
    | bin op l r => cases op <;> simp [readBack] at h
    | un op c => simp [readBack] at h
    | int v => simp [readBack] at h
    | feature n => simpa [readBack] using h
  cases c with
  | bin op l r =>
    refine ⟨fun e => ?_, fun e => ?_⟩
    · cases op <;> simp [readBack] at e
      rw [hf e.1, hf e.2] at h
      cases h
    · cases op <;> simp [readBack] at e
  | un op c => exact ⟨by simp [readBack], by simp [readBack]⟩
  | int v => exact ⟨by simp [readBack], by simp [readBack]⟩
  | feature n => exact ⟨by simp [readBack], by simp [readBack]⟩

/-- What the document stands for, without groups. -/
def readDesc (d : Desc) (x : Spec.Doc) : Desc :=
  { d with
    attrs := x.attrs
    groups := []
    constraints := x.options.flatMap (fun o => o.2.constraints) ++ x.ofClass .boolean ++ x.ofClass .nonBoolean ++ x.ofClass .mixed }

theorem Written.describes (h : Describes d m) (W : Written d m x) (hw : Writable d) (cwd : Str) :
    DocDescribes cwd x (readDesc d x) where
  name := W.name.symm
  path := by rw [W.path]; rfl
  commit := by
    rw [W.commit]
    show d.commit = _
    split
    · next hc => rw [hc]; rfl
    · rfl
  root := by
    have := W.roots h hw
    exact .inr this
  attrs := rfl
  distinct := W.attrs_distinct
  parent := by
    intro o ho p hp
    obtain ⟨n, i, f, h1, h2, h3, h4, h5⟩ := W.option o ho
    rw [h4.parent] at hp
    split at hp
    · cases hp
    · next hne =>
      cases hp
      rcases entry_cases h h1 with ⟨hn, _⟩ | ⟨a, ha, rfl, f', p, hf, hfa, hp, _⟩
      · exact absurd (h3.trans hn) hne
      · rw [h4.name, h3]
        refine ⟨(W.attr_names h hw _).2 (List.mem_map_of_mem ha), ?_, rfl⟩
        rcases (h.names _).1 ⟨p, hp⟩ with e | e
        · exact .inl e
        · exact .inr ((W.attr_names h hw _).2 e)
  children := by
    intro o ho c hc
    obtain ⟨n, i, f, h1, h2, h3, h4, h5⟩ := W.option o ho
    obtain ⟨b, hb, rfl, hp⟩ := (h4.children c).1 hc
    exact ⟨(W.attr_names h hw _).2 (List.mem_map_of_mem hb), by rw [h4.name]; exact hp⟩
  no_parent := by
    intro o ho hn hp _
    obtain ⟨n, i, f, h1, h2, h3, h4, h5⟩ := W.option o ho
    rw [h4.parent] at hp
    split at hp
    · next e =>
      rw [h4.name, e, W.attr_names h hw] at hn
      exact absurd hn h.root_new
    · cases hp
  acyclic := by
    refine ⟨nameRank m, ?_⟩
    intro a' ha'
    obtain ⟨a, c1, e⟩ := List.mem_map.1 ((W.attr_names h hw a'.name).1 (List.mem_map_of_mem ha'))
    rw [← e]
    obtain ⟨i, f, p, f1, f2, f3, f4, f5⟩ := h.feat a c1
    show nameRank m (d.parent a.name) < nameRank m a.name
    unfold nameRank
    rw [getFeature_mem h.wf.names f1, getFeature_mem h.wf.names f4]
    exact fparent_level h.wf (.inl (known_of_mem f1)) f5
  groups := rfl
  constraints := rfl

theorem writtenClass_sub {cl : CClass} {y : CKind × Constraint} (hy : y ∈ writtenClass d cl) :
    y ∈ d.constraints ∧ y.1.cls = cl ∧ (cl = .boolean → simple y.2 = false) := by
  unfold writtenClass at hy
  split at hy
  · next hc =>
    subst hc
    obtain ⟨h1, h2⟩ := List.mem_filter.1 hy
    obtain ⟨h3, h4⟩ := List.mem_filter.1 h1
    exact ⟨h3, by simpa using h4, fun _ => by simpa using h2⟩
  · next hc =>
    obtain ⟨h3, h4⟩ := List.mem_filter.1 hy
    exact ⟨h3, by simpa using h4, fun e => absurd e hc⟩

theorem Written.known (h : Describes d m) (W : Written d m x) (hw : Writable d) : ConstraintsKnown (readDesc d x) := by
  intro y hy n hn
  show n = d.root ∨ n ∈ x.attrs.map Attr.name
  rw [W.attr_names h hw]
  have cls : ∀ cl, y ∈ x.ofClass cl → n = d.root ∨ n ∈ d.attrs.map Attr.name := by
    intro cl hy
    rw [W.ofClass] at hy
    obtain ⟨z, hz, rfl⟩ := List.mem_map.1 hy
    rw [readBack_features] at hn
    exact hw.known z (writtenClass_sub hz).1 n hn
  rcases List.mem_append.1 hy with hy | hy
  · rcases List.mem_append.1 hy with hy | hy
    · rcases List.mem_append.1 hy with hy | hy
      · obtain ⟨a, b, ⟨rfl, k, hk⟩ | ⟨rfl, hx⟩⟩ := (W.optionConstraints h hw y).1 hy
        · exact hw.known _ hk n (by simpa [implies, Constraint.features] using hn)
        · rcases hx with ⟨k, hk⟩ | hg
          · exact hw.known _ hk n (by simpa [excludes, Constraint.features] using hn)
          · have : n = a ∨ n = b := by simpa [excludes, Constraint.features] using hn
            rcases this with rfl | rfl
            · exact .inr hg.2.1
            · exact .inr hg.2.2.1
      · exact cls _ hy
    · exact cls _ hy
  · exact cls _ hy

theorem Written.ok (W : Written d m x) (hw : Writable d) (sci : Str → Option Str) : x.Ok sci where
  name := by rw [W.name]; exact hw.name
  path := by intro t ht; rw [W.path] at ht; cases ht; exact hw.path
  commit := by
    intro t ht
    rw [W.commit] at ht
    split at ht
    · cases ht
    · cases ht; exact hw.commit
  binary := by
    intro o ho
    obtain ⟨n, i, f, h1, h2, h3, h4, h5⟩ := W.option (false, o) (by simp [Doc.options, ho])
    exact h4.ok
  numeric := by
    intro l hl o ho
    obtain ⟨n, i, f, h1, h2, h3, h4, h5⟩ := W.option (true, o) (by simp [Doc.options, hl, ho])
    exact h4.ok
  constraints := by
    intro cl l hl c hc
    rw [W.constraints] at hl
    unfold classDoc at hl
    split at hl
    · cases hl
    · cases hl
      obtain ⟨y, hy, rfl⟩ := List.mem_map.1 hc
      obtain ⟨h1, h2, h3⟩ := writtenClass_sub hy
      refine ⟨?_, h2⟩
      rcases hw.constraints y h1 with ⟨c1, c2, c3⟩ | ⟨c1, c2⟩
      · exact Props.C01_print_parse_partial sci c1 c2 c3
      · rw [c1] at h2
        rw [h3 h2.symm] at c2
        cases c2

theorem filter_class {l : List (CKind × Constraint)} {cl cl' : CClass} (h : ∀ y ∈ l, y.1.cls = cl) :
    l.filter (fun y => decide (y.1.cls = cl')) = if cl = cl' then l else [] := by
  split
  · next e => subst e; exact List.filter_eq_self.2 fun y hy => by simpa using h y hy
  · next e => exact List.filter_eq_nil_iff.2 fun y hy => by simpa [h y hy] using e

theorem Written.writtenAs (h : Describes d m) (W : Written d m x) (hw : Writable d) {gs : List (Str × RKind)}
    (hg : ∀ n k, (n, k) ∈ gs ↔ k = .alternative ∧ Exclusive (readDesc d x) n) :
    WrittenAs d { readDesc d x with groups := gs } := by
  have hopt : ∀ y ∈ Xml.optionConstraints x, y.1.cls = .boolean := by
    intro y hy
    obtain ⟨a, b, ⟨rfl, _⟩ | ⟨rfl, _⟩⟩ := (W.optionConstraints h hw y).1 hy <;> rfl
  have hcl : ∀ cl, ∀ y ∈ x.ofClass cl, y.1.cls = cl := by
    intro cl y hy
    rw [W.ofClass] at hy
    obtain ⟨z, hz, rfl⟩ := List.mem_map.1 hy
    exact (writtenClass_sub hz).2.1
  have hof : ∀ cl, Desc.ofClass { readDesc d x with groups := gs } cl =
      (if CClass.boolean = cl then Xml.optionConstraints x else []) ++ (if CClass.boolean = cl then x.ofClass .boolean else []) ++
      (if CClass.nonBoolean = cl then x.ofClass .nonBoolean else []) ++ (if CClass.mixed = cl then x.ofClass .mixed else []) := by
    intro cl
    show (List.filter _ (Xml.optionConstraints x ++ _ ++ _ ++ _)) = _
    rw [List.filter_append, List.filter_append, List.filter_append, filter_class hopt, filter_class (hcl _), filter_class (hcl _),
      filter_class (hcl _)]
  exact
    { name := rfl
      path := rfl
      commit := rfl
      root := rfl
      attrs := W.attrs_perm h hw
      parent := fun _ _ => rfl
      groups := by
        intro n k
        refine (hg n k).trans (and_congr_right fun _ => ?_)
        exact ⟨fun e => ⟨e.1, e.2, e.3⟩, fun e => ⟨e.1, e.2, e.3⟩⟩
      boolean := by
        refine ⟨Xml.optionConstraints x, ?_, W.optionConstraints h hw⟩
        rw [hof, W.ofClass]
        simp [writtenClass]
      implied := by
        intro a b
        rw [hof, W.ofClass, ← (W.counts h hw a b).1]
        simp only [if_true, reduceCtorEq, if_false, List.append_nil, List.count_append]
        rw [List.count_eq_zero (l := List.map _ (writtenClass d .boolean)) |>.2, Nat.add_zero]
        intro hm
        obtain ⟨y, hy, e⟩ := List.mem_map.1 hm
        exact (readBack_simple ((writtenClass_sub hy).2.2 rfl) a b).1 (congrArg Prod.snd e)
      excluded := by
        intro a b
        rw [hof, W.ofClass]
        simp only [if_true, reduceCtorEq, if_false, List.append_nil, List.count_append]
        rw [List.count_eq_zero (l := List.map _ (writtenClass d .boolean)) |>.2, Nat.add_zero]
        · exact (W.counts h hw a b).2
        · intro hm
          obtain ⟨y, hy, e⟩ := List.mem_map.1 hm
          exact (readBack_simple ((writtenClass_sub hy).2.2 rfl) a b).2 (congrArg Prod.snd e)
      nonBoolean := by rw [hof, W.ofClass .nonBoolean]; simp [writtenClass]
      mixed := by rw [hof, W.ofClass .mixed]; simp [writtenClass] }

end

/-- A model that can be written is read again as what `WrittenAs` says. -/
theorem roundTrip (h : Describes d m) (hw : Writable d) (E E' : Env) (sci : Str → Option Str) (cwd : Str) {world : FModel}
    (hf : ∀ i, world.heap i ≠ none → i < world.next) :
    ∃ x m' d', write E m = some x ∧ Conforms x ∧ load sci E' world cwd x = .built m' ∧ Describes d' m' ∧ WrittenAs d d' := by
  obtain ⟨x, hx, W⟩ := write_spec h hw E
  obtain ⟨m', gs, h1, h2, h3⟩ := load_ok hf E' (W.ok hw sci) (W.describes h hw cwd) (W.known h hw)
  exact ⟨x.toXml, m', _, hx, doc_valid x, h1, h2, W.writtenAs h hw h3⟩

end Verif.Xml

import Verif.Xml.Model
/-!
# The document type definition

Independent of the writer: the declarations of /repo/lib/Feature/XmlConstants.h:55-106 as data and what it
means for an element to conform to them (XML 1.0, sections 3.2 and 3.3).
-/

namespace Verif.Spec
open Verif Verif.Xml

/-- A content particle. -/
inductive Particle
  | empty
  | elem (n : Str)
  | seq (p q : Particle)
  | alt (p q : Particle)
  | opt (p : Particle)
  | star (p : Particle)

/-- The names of the child elements follow a content particle. -/
inductive Matches : Particle → List Str → Prop
  | empty : Matches .empty []
  | elem {n} : Matches (.elem n) [n]
  | seq {p q a b} : Matches p a → Matches q b → Matches (.seq p q) (a ++ b)
  | left {p q a} : Matches p a → Matches (.alt p q) a
  | right {p q a} : Matches q a → Matches (.alt p q) a
  | none {p} : Matches (.opt p) []
  | some {p a} : Matches p a → Matches (.opt p) a
  | done {p} : Matches (.star p) []
  | more {p a b} : Matches p a → Matches (.star p) b → Matches (.star p) (a ++ b)

/-- What an element may contain. -/
inductive Content
  | text
  | elements (p : Particle)

/-- A declared attribute: required, or with a default or none; any text, or one of some tokens. -/
structure AttDecl where
  name : Str
  required : Bool
  tokens : Option (List Str)

structure ElemDecl where
  content : Content
  atts : List AttDecl

/-- A sequence of particles. -/
def seqOf : List Particle → Particle
  | [] => .empty
  | [p] => p
  | p :: ps => .seq p (seqOf ps)

def pcdata : ElemDecl := ⟨.text, []⟩
def elements (ps : List Particle) : ElemDecl := ⟨.elements (seqOf ps), []⟩

/-- The declarations (XmlConstants.h:55-106). -/
def dtd : List (Str × ElemDecl) :=
  [(c!"vm", ⟨.elements (seqOf [.elem c!"binaryOptions", .opt (.elem c!"numericOptions"), .opt (.elem c!"booleanConstraints"),
      .opt (.elem c!"nonBooleanConstraints"), .opt (.elem c!"mixedConstraints")]),
      [⟨c!"name", true, none⟩, ⟨c!"root", false, none⟩, ⟨c!"commit", false, none⟩]⟩),
   (c!"binaryOptions", elements [.star (.elem c!"configurationOption")]),
   (c!"numericOptions", elements [.star (.elem c!"configurationOption")]),
   (c!"booleanConstraints", elements [.star (.elem c!"constraint")]),
   (c!"nonBooleanConstraints", elements [.star (.elem c!"constraint")]),
   (c!"mixedConstraints", elements [.star (.elem c!"constraint")]),
   (c!"configurationOption", elements [.elem c!"name", .opt (.elem c!"outputString"),
      .opt (.alt (.elem c!"prefix") (.elem c!"preFix")), .opt (.alt (.elem c!"postfix") (.elem c!"postFix")),
      .opt (.elem c!"parent"), .opt (.elem c!"children"), .opt (.elem c!"impliedOptions"), .opt (.elem c!"excludedOptions"),
      .opt (.elem c!"defaultValue"), .opt (.elem c!"optional"),
      .opt (.alt (.seq (.elem c!"minValue") (.elem c!"maxValue")) (.elem c!"values")),
      .opt (.elem c!"stepFunction"), .opt (.elem c!"locations")]),
   (c!"constraint", ⟨.text, [⟨c!"req", false, none⟩, ⟨c!"exprKind", false, none⟩]⟩),
   (c!"name", pcdata), (c!"outputString", pcdata), (c!"prefix", pcdata), (c!"preFix", pcdata), (c!"postfix", pcdata),
   (c!"postFix", pcdata), (c!"parent", pcdata),
   (c!"children", elements [.star (.elem c!"options")]), (c!"impliedOptions", elements [.star (.elem c!"options")]),
   (c!"excludedOptions", elements [.star (.elem c!"options")]),
   (c!"defaultValue", pcdata), (c!"options", pcdata), (c!"optional", pcdata), (c!"minValue", pcdata),
   (c!"maxValue", pcdata), (c!"values", pcdata), (c!"stepFunction", pcdata),
   (c!"locations", elements [.star (.elem c!"sourceRange")]),
   (c!"sourceRange", ⟨.elements (seqOf [.opt (.elem c!"revisionRange"), .elem c!"path", .elem c!"start", .elem c!"end",
      .opt (.elem c!"memberOffset")]), [⟨c!"category", false, some [c!"necessary", c!"inessential"]⟩]⟩),
   (c!"revisionRange", elements [.elem c!"introduced", .opt (.elem c!"removed")]),
   (c!"introduced", pcdata), (c!"removed", pcdata), (c!"path", pcdata),
   (c!"start", elements [.elem c!"line", .elem c!"column"]), (c!"end", elements [.elem c!"line", .elem c!"column"]),
   (c!"line", pcdata), (c!"column", pcdata), (c!"memberOffset", pcdata)]

/-- White space as XML has it. -/
def blank (s : Str) : Prop := ∀ c ∈ s, c = ' ' ∨ c = '\t' ∨ c = '\n' ∨ c = '\r'

/-- Text elements have no child elements; elements with children have no text between them. -/
def ContentOk : Content → Str → List Str → Prop
  | .text, _, ks => ks = []
  | .elements p, t, ks => blank t ∧ Matches p ks

/-- Attributes are given once, declared, and have an allowed value; the required ones are there. -/
structure AttsOk (ds : List AttDecl) (as : List (Str × Str)) : Prop where
  once : (as.map Prod.fst).Nodup
  declared : ∀ a ∈ as, ∃ d ∈ ds, d.name = a.1 ∧ ∀ ts, d.tokens = some ts → a.2 ∈ ts
  required : ∀ d ∈ ds, d.required = true → d.name ∈ as.map Prod.fst

/-- An element conforms to the declarations, and so do all below it. -/
inductive Conforms : Xml → Prop
  | mk {n as t ks decl} : dtd.lookup n = some decl → ContentOk decl.content t (ks.map Xml.name) → AttsOk decl.atts as →
      (∀ k ∈ ks, Conforms k) → Conforms (.node n as t ks)

end Verif.Spec

namespace Verif.Xml
open Verif Verif.Spec

theorem attsOk_nil {ds : List AttDecl} (h : ∀ d ∈ ds, d.required = false) : AttsOk ds [] where
  once := by simp
  declared := by simp
  required := by intro d hd hr; rw [h d hd] at hr; cases hr

theorem blank_nil : blank [] := by intro c hc; cases hc

theorem valid_text {n t : Str} (h : dtd.lookup n = some pcdata) : Conforms (leaf n t) :=
  .mk h rfl (attsOk_nil (by simp [pcdata])) (by simp)

theorem valid_group {n : Str} {ps : List Particle} {ks : List Xml} (h : dtd.lookup n = some (elements ps))
    (hm : Matches (seqOf ps) (ks.map Xml.name)) (hk : ∀ k ∈ ks, Conforms k) : Conforms (group n ks) :=
  .mk h ⟨blank_nil, hm⟩ (attsOk_nil (by simp [elements])) hk

theorem matches_star {n : Str} : ∀ {l : List Str}, (∀ x ∈ l, x = n) → Matches (.star (.elem n)) l
  | [], _ => .done
  | x :: xs, h => by
    rw [h x (by simp)]
    exact .more (a := [n]) .elem (matches_star fun y hy => h y (by simp [hy]))

theorem valid_list {n c : Str} {ks : List Xml} (h : dtd.lookup n = some (elements [.star (.elem c)]))
    (hn : ∀ k ∈ ks, k.name = c) (hk : ∀ k ∈ ks, Conforms k) : Conforms (group n ks) :=
  valid_group h (matches_star (by
    intro x hx
    obtain ⟨k, hk, rfl⟩ := List.mem_map.1 hx
    exact hn k hk)) hk

/-! ## Parts of an option -/

/-- A part that is left out, or one element. -/
structure Part (n : Str) (xs : List Xml) : Prop where
  valid : ∀ x ∈ xs, Conforms x
  names : xs = [] ∨ xs.map Xml.name = [n]

theorem Part.matches {n : Str} {xs : List Xml} (h : Part n xs) : Matches (.opt (.elem n)) (xs.map Xml.name) := by
  rcases h.names with h | h
  · rw [h]; exact .none
  · rw [h]; exact .some .elem

theorem part_one {n : Str} {x : Xml} (h : Conforms x) (hn : x.name = n) : Part n [x] := ⟨by simpa using h, .inr (by simp [hn])⟩
theorem part_nil {n : Str} : Part n [] := ⟨by simp, .inl rfl⟩

theorem parentElem_part {m : FModel} {i : Id} {p : List Xml} (h : parentElem m i = some p) : Part c!"parent" p := by
  unfold parentElem at h
  split at h
  · cases h
  · cases h; exact part_nil
  · obtain ⟨n, hn, rfl⟩ := Option.map_eq_some_iff.1 h
    exact part_one (valid_text rfl) rfl

theorem optionList_part {n : Str} (hn : dtd.lookup n = some (elements [.star (.elem c!"options")])) (ns : List Str) :
    Part n (optionList n ns) := by
  unfold optionList
  split
  · exact part_nil
  · refine part_one (valid_list hn ?_ ?_) rfl
    · intro k hk
      obtain ⟨x, _, rfl⟩ := List.mem_map.1 hk
      rfl
    · intro k hk
      obtain ⟨x, _, rfl⟩ := List.mem_map.1 hk
      exact valid_text rfl

theorem numericElem_ok {k : FKind} {ns : List Xml} (h : numericElem k = some ns) :
    Matches (.opt (.alt (.seq (.elem c!"minValue") (.elem c!"maxValue")) (.elem c!"values"))) (ns.map Xml.name) ∧
    ∀ x ∈ ns, Conforms x := by
  unfold numericElem at h
  split at h
  · cases h
    refine ⟨.some (.left (.seq (a := [_]) (b := [_]) .elem .elem)), ?_⟩
    intro x hx
    simp only [List.mem_cons, List.not_mem_nil, or_false] at hx
    rcases hx with rfl | rfl <;> exact valid_text rfl
  · obtain ⟨t, _, rfl⟩ := Option.map_eq_some_iff.1 h
    refine ⟨.some (.right .elem), ?_⟩
    intro x hx
    simp only [List.mem_singleton] at hx
    subst hx
    exact valid_text rfl
  · cases h
    exact ⟨.none, by simp⟩

theorem valid_point {n : Str} (hn : dtd.lookup n = some (elements [.elem c!"line", .elem c!"column"])) (a b : Str) :
    Conforms (group n [leaf c!"line" a, leaf c!"column" b]) := by
  refine valid_group hn (.seq (a := [_]) (b := [_]) .elem .elem) ?_
  intro x hx
  simp only [List.mem_cons, List.not_mem_nil, or_false] at hx
  rcases hx with rfl | rfl <;> exact valid_text rfl

theorem writeRange_ok {r : Range} {x : Xml} (h : writeRange r = some x) : Conforms x ∧ x.name = c!"sourceRange" := by
  unfold writeRange at h
  split at h
  · cases h
    refine ⟨.mk rfl ⟨blank_nil, ?_⟩ ?_ ?_, rfl⟩
    · exact .seq (a := []) .none (.seq (a := [_]) .elem (.seq (a := [_]) .elem (.seq (a := [_]) (b := []) .elem .none)))
    · refine ⟨by simp, ?_, by simp⟩
      intro a ha
      simp only [List.mem_singleton] at ha
      subst ha
      refine ⟨_, List.mem_singleton.2 rfl, rfl, ?_⟩
      intro ts hts
      cases hts
      cases r.category <;> simp
    · intro k hk
      simp only [List.mem_cons, List.not_mem_nil, or_false] at hk
      rcases hk with rfl | rfl | rfl
      · exact valid_text rfl
      · exact valid_point rfl _ _
      · exact valid_point rfl _ _
  · cases h

theorem writeRanges_ok : ∀ {rs : List Range} {xs : List Xml}, writeRanges rs = some xs →
    ∀ x ∈ xs, Conforms x ∧ x.name = c!"sourceRange"
  | [], xs, h => by cases h; simp
  | r :: rs, xs, h => by
    unfold writeRanges at h
    split at h
    · cases h
    · rename_i y hy
      obtain ⟨ys, hys, rfl⟩ := Option.map_eq_some_iff.1 h
      intro x hx
      rcases List.mem_cons.1 hx with rfl | hx
      · exact writeRange_ok hy
      · exact writeRanges_ok hys x hx

theorem locationsElem_part {rs : List Range} {ls : List Xml} (h : locationsElem rs = some ls) : Part c!"locations" ls := by
  unfold locationsElem at h
  split at h
  · cases h; exact part_nil
  · obtain ⟨xs, hxs, rfl⟩ := Option.map_eq_some_iff.1 h
    exact part_one (valid_list rfl (fun k hk => (writeRanges_ok hxs k hk).2) (fun k hk => (writeRanges_ok hxs k hk).1)) rfl

theorem writeFeature_ok {E : Env} {m : FModel} {i : Id} {x : Xml} (h : writeFeature E m i = some x) :
    Conforms x ∧ x.name = c!"configurationOption" := by
  unfold writeFeature at h
  split at h
  · cases h
  · split at h
    · rename_i f _ p cs is es ns ls hp hcs his hes hns hls
      cases h
      have p1 := parentElem_part hp
      have p2 := optionList_part (n := c!"children") rfl cs
      have p3 := optionList_part (n := c!"impliedOptions") rfl is
      have p4 := optionList_part (n := c!"excludedOptions") rfl es
      have p5 := numericElem_ok hns
      have p6 := locationsElem_part hls
      refine ⟨valid_group (ps := _) rfl ?_ ?_, rfl⟩
      · simp only [List.map_cons, List.map_append, List.append_assoc]
        refine .seq (a := [_]) .elem (.seq (a := []) .none (.seq (a := []) .none (.seq (a := []) .none
          (.seq p1.matches (.seq p2.matches (.seq p3.matches (.seq p4.matches (.seq (a := []) .none
          (.seq (a := [_]) (.some .elem) (.seq p5.1 (.seq (a := []) .none p6.matches)))))))))))
      · intro k hk
        simp only [List.mem_cons, List.mem_append, List.not_mem_nil, or_false] at hk
        rcases hk with rfl | (((((hk | hk) | hk) | hk) | rfl) | hk) | hk
        · exact valid_text rfl
        · exact p1.valid k hk
        · exact p2.valid k hk
        · exact p3.valid k hk
        · exact p4.valid k hk
        · exact valid_text rfl
        · exact p5.2 k hk
        · exact p6.valid k hk
    · cases h

theorem writeFeatures_ok {E : Env} {m : FModel} : ∀ {is : List Id} {xs : List Xml}, writeFeatures E m is = some xs →
    ∀ x ∈ xs, Conforms x ∧ x.name = c!"configurationOption"
  | [], xs, h => by cases h; simp
  | r :: rs, xs, h => by
    unfold writeFeatures at h
    split at h
    · cases h
    · rename_i y hy
      obtain ⟨ys, hys, rfl⟩ := Option.map_eq_some_iff.1 h
      intro x hx
      rcases List.mem_cons.1 hx with rfl | hx
      · exact writeFeature_ok hy
      · exact writeFeatures_ok hys x hx

theorem constraintElem_ok {cl : CClass} {s : Stored} {c : Constraint} {x : Xml} (h : constraintElem cl s c = some x) :
    Conforms x ∧ x.name = c!"constraint" := by
  unfold constraintElem at h
  split at h
  · split at h
    · cases h
    · cases h
      refine ⟨.mk rfl rfl ⟨by simp, ?_, by simp⟩ (by simp), rfl⟩
      intro a ha
      simp only [List.mem_cons, List.not_mem_nil, or_false] at ha
      rcases ha with rfl | rfl
      · exact ⟨_, List.mem_cons_self, rfl, by intro ts hts; cases hts⟩
      · exact ⟨_, List.mem_cons_of_mem _ List.mem_cons_self, rfl, by intro ts hts; cases hts⟩
  · cases h
    exact ⟨.mk rfl rfl (attsOk_nil (by simp)) (by simp), rfl⟩

theorem constraintElems_ok {m : FModel} {cl : CClass} : ∀ {ss : List Stored} {xs : List Xml},
    constraintElems m cl ss = some xs → ∀ x ∈ xs, Conforms x ∧ x.name = c!"constraint"
  | [], xs, h => by cases h; simp
  | s :: ss, xs, h => by
    unfold constraintElems at h
    split at h
    · exact constraintElems_ok h
    · split at h
      · cases h
      · split at h
        · cases h
        · rename_i y hy
          obtain ⟨ys, hys, rfl⟩ := Option.map_eq_some_iff.1 h
          intro x hx
          rcases List.mem_cons.1 hx with rfl | hx
          · exact constraintElem_ok hy
          · exact constraintElems_ok hys x hx

theorem constraintGroup_part {m : FModel} {n : Str} {cl : CClass} {xs : List Xml}
    (hn : dtd.lookup n = some (elements [.star (.elem c!"constraint")])) (h : constraintGroup m n cl = some xs) : Part n xs := by
  unfold constraintGroup at h
  split at h
  · cases h; exact part_nil
  · obtain ⟨ys, hys, rfl⟩ := Option.map_eq_some_iff.1 h
    exact part_one (valid_list hn (fun k hk => (constraintElems_ok hys k hk).2)
      (fun k hk => (constraintElems_ok hys k hk).1)) rfl

/-- What is written conforms to the declarations. -/
theorem write_valid {E : Env} {m : FModel} {x : Xml} (h : write E m = some x) : Conforms x ∧ x.name = c!"vm" := by
  unfold write at h
  split at h
  · cases h
  · split at h
    · rename_i bs ns a b c hbs hns ha hb hc
      cases h
      have p1 := constraintGroup_part rfl ha
      have p2 := constraintGroup_part rfl hb
      have p3 := constraintGroup_part rfl hc
      refine ⟨.mk rfl ⟨blank_nil, ?_⟩ ?_ ?_, rfl⟩
      · simp only [List.map_cons, List.map_append, List.append_assoc]
        exact .seq (a := [_]) .elem (.seq (a := [_]) (.some .elem) (.seq p1.matches (.seq p2.matches p3.matches)))
      · refine ⟨?_, ?_, ?_⟩
        · split <;> simp
        · intro a ha
          simp only [List.mem_append, List.mem_cons, List.not_mem_nil, or_false] at ha
          rcases ha with (rfl | rfl) | ha
          · exact ⟨_, List.mem_cons_self, rfl, by intro ts hts; cases hts⟩
          · exact ⟨_, List.mem_cons_of_mem _ List.mem_cons_self, rfl, by intro ts hts; cases hts⟩
          · split at ha
            · cases ha
            · simp only [List.mem_singleton] at ha
              subst ha
              exact ⟨_, List.mem_cons_of_mem _ (List.mem_cons_of_mem _ List.mem_cons_self), rfl, by intro ts hts; cases hts⟩
        · intro d hd hr
          simp only [List.mem_cons, List.not_mem_nil, or_false] at hd
          rcases hd with rfl | rfl | rfl
          · simp
          · cases hr
          · cases hr
      · intro k hk
        simp only [List.mem_cons, List.mem_append] at hk
        rcases hk with rfl | rfl | (hk | hk) | hk
        · exact valid_list rfl (fun k hk => (writeFeatures_ok hbs k hk).2) (fun k hk => (writeFeatures_ok hbs k hk).1)
        · exact valid_list rfl (fun k hk => (writeFeatures_ok hns k hk).2) (fun k hk => (writeFeatures_ok hns k hk).1)
        · exact p1.valid k hk
        · exact p2.valid k hk
        · exact p3.valid k hk
    · cases h

end Verif.Xml

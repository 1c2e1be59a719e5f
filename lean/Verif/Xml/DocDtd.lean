import Verif.Xml.Dtd
import Verif.Xml.Doc
/-!
# Documents conform to the declarations
-/

namespace Verif.Xml
open Verif Verif.Spec

theorem optLeaf_part {n : Str} (hn : dtd.lookup n = some pcdata) (t : Option Str) : Part n (optLeaf n t) := by
  cases t with
  | none => exact part_nil
  | some t => exact part_one (valid_text hn) rfl

theorem namesXml_part {n : Str} (hn : dtd.lookup n = some (elements [.star (.elem c!"options")])) (ns : List Str) :
    Part n (namesXml n ns) := by
  unfold namesXml
  split
  · exact part_nil
  · refine part_one (valid_list hn ?_ ?_) rfl
    · intro k hk
      obtain ⟨x, _, rfl⟩ := List.mem_map.1 hk
      rfl
    · intro k hk
      obtain ⟨x, _, rfl⟩ := List.mem_map.1 hk
      exact valid_text rfl

theorem revisionXml_part (r : Option (Str × Option Str)) : Part c!"revisionRange" (revisionXml r) := by
  cases r with
  | none => exact part_nil
  | some x =>
    obtain ⟨i, o⟩ := x
    have p := optLeaf_part (n := c!"removed") rfl o
    refine part_one (valid_group (ps := [.elem c!"introduced", .opt (.elem c!"removed")]) rfl ?_ ?_) rfl
    · exact .seq (a := [_]) .elem p.matches
    · intro k hk
      rcases List.mem_cons.1 hk with rfl | hk
      · exact valid_text rfl
      · exact p.valid k hk

theorem docRange_valid (r : DocRange) : Conforms r.toXml := by
  have p1 := revisionXml_part r.revision
  have p2 := optLeaf_part (n := c!"memberOffset") rfl r.member
  unfold DocRange.toXml
  refine .mk rfl ⟨blank_nil, ?_⟩ ?_ ?_
  · simp only [List.map_cons, List.map_append]
    exact .seq p1.matches (.seq (a := [_]) .elem (.seq (a := [_]) .elem (.seq (a := [_]) .elem p2.matches)))
  · cases r.category with
    | none => exact attsOk_nil (by simp)
    | some c =>
      refine ⟨by simp [categoryAtts], ?_, by simp⟩
      intro a ha
      simp only [categoryAtts, List.mem_singleton] at ha
      subst ha
      refine ⟨_, List.mem_singleton.2 rfl, rfl, ?_⟩
      intro ts hts
      cases hts
      cases c <;> simp [categoryText]
  · intro k hk
    simp only [List.mem_append, List.mem_cons] at hk
    rcases hk with hk | rfl | rfl | rfl | hk
    · exact p1.valid k hk
    · exact valid_text rfl
    · exact valid_point rfl _ _
    · exact valid_point rfl _ _
    · exact p2.valid k hk

theorem valuesXml_ok (v : Option Values) :
    Matches (.opt (.alt (.seq (.elem c!"minValue") (.elem c!"maxValue")) (.elem c!"values"))) ((valuesXml v).map Xml.name) ∧
    ∀ x ∈ valuesXml v, Conforms x := by
  cases v with
  | none => exact ⟨.none, by simp [valuesXml]⟩
  | some v =>
    cases v with
    | range lo hi =>
      refine ⟨.some (.left (.seq (a := [_]) (b := [_]) .elem .elem)), ?_⟩
      intro x hx
      simp only [valuesXml, List.mem_cons, List.not_mem_nil, or_false] at hx
      rcases hx with rfl | rfl <;> exact valid_text rfl
    | list vs =>
      refine ⟨.some (.right .elem), ?_⟩
      intro x hx
      simp only [valuesXml, List.mem_singleton] at hx
      subst hx
      exact valid_text rfl

theorem locs_part (l : List DocRange) :
    Part c!"locations" (if l = [] then [] else [group c!"locations" (l.map DocRange.toXml)]) := by
  split
  · exact part_nil
  · refine part_one (valid_list rfl ?_ ?_) rfl
    · intro k hk
      obtain ⟨x, _, rfl⟩ := List.mem_map.1 hk
      rfl
    · intro k hk
      obtain ⟨x, _, rfl⟩ := List.mem_map.1 hk
      exact docRange_valid x

theorem docOption_valid (o : DocOption) : Conforms o.toXml := by
  have p0 := optLeaf_part (n := c!"outputString") rfl o.output
  have p1 := optLeaf_part (n := c!"parent") rfl o.parent
  have p2 := namesXml_part (n := c!"children") rfl o.children
  have p3 := namesXml_part (n := c!"impliedOptions") rfl o.implied
  have p4 := namesXml_part (n := c!"excludedOptions") rfl o.excluded
  have p5 := optLeaf_part (n := c!"optional") rfl (o.optional.map fun b => if b then c!"True" else c!"False")
  have p6 := valuesXml_ok o.values
  have p7 := optLeaf_part (n := c!"stepFunction") rfl (o.step.map Prod.fst)
  have p8 := locs_part o.locs
  refine valid_group (ps := _) rfl ?_ ?_
  · simp only [List.map_cons, List.map_append, List.append_assoc]
    refine .seq (a := [_]) .elem (.seq p0.matches (.seq (a := []) .none (.seq (a := []) .none
      (.seq p1.matches (.seq p2.matches (.seq p3.matches (.seq p4.matches (.seq (a := []) .none
      (.seq p5.matches (.seq p6.1 (.seq p7.matches p8.matches)))))))))))
  · intro k hk
    simp only [List.mem_cons, List.mem_append] at hk
    rcases hk with rfl | (((((((hk | hk) | hk) | hk) | hk) | hk) | hk) | hk) | hk
    · exact valid_text rfl
    · exact p0.valid k hk
    · exact p1.valid k hk
    · exact p2.valid k hk
    · exact p3.valid k hk
    · exact p4.valid k hk
    · exact p5.valid k hk
    · exact p6.2 k hk
    · exact p7.valid k hk
    · exact p8.valid k hk

theorem docConstraint_valid (c : DocConstraint) : Conforms c.toXml ∧ c.toXml.name = c!"constraint" := by
  unfold DocConstraint.toXml
  split
  · refine ⟨.mk rfl rfl ⟨by simp, ?_, by simp⟩ (by simp), rfl⟩
    intro a ha
    simp only [List.mem_cons, List.not_mem_nil, or_false] at ha
    rcases ha with rfl | rfl
    · exact ⟨_, List.mem_cons_self, rfl, by intro ts hts; cases hts⟩
    · exact ⟨_, List.mem_cons_of_mem _ List.mem_cons_self, rfl, by intro ts hts; cases hts⟩
  · exact ⟨.mk rfl rfl (attsOk_nil (by simp)) (by simp), rfl⟩

theorem options_valid {n : Str} (hn : dtd.lookup n = some (elements [.star (.elem c!"configurationOption")])) (os : List DocOption) :
    Conforms (group n (os.map DocOption.toXml)) := by
  refine valid_list hn ?_ ?_
  · intro k hk
    obtain ⟨x, _, rfl⟩ := List.mem_map.1 hk
    rfl
  · intro k hk
    obtain ⟨x, _, rfl⟩ := List.mem_map.1 hk
    exact docOption_valid x

theorem constraints_part {n : Str} (hn : dtd.lookup n = some (elements [.star (.elem c!"constraint")]))
    (l : Option (List DocConstraint)) : Part n (groupXml n DocConstraint.toXml l) := by
  cases l with
  | none => exact part_nil
  | some l =>
    refine part_one (valid_list hn ?_ ?_) rfl
    · intro k hk
      obtain ⟨x, _, rfl⟩ := List.mem_map.1 hk
      exact (docConstraint_valid x).2
    · intro k hk
      obtain ⟨x, _, rfl⟩ := List.mem_map.1 hk
      exact (docConstraint_valid x).1

/-- Every document in the form of `Doc.toXml` conforms to the declarations. -/
theorem doc_valid (x : Spec.Doc) : Conforms x.toXml := by
  have p0 : Part c!"numericOptions" (groupXml c!"numericOptions" DocOption.toXml x.numeric) := by
    cases x.numeric with
    | none => exact part_nil
    | some l => exact part_one (options_valid rfl l) rfl
  have p1 := constraints_part (n := c!"booleanConstraints") rfl (x.constraints .boolean)
  have p2 := constraints_part (n := c!"nonBooleanConstraints") rfl (x.constraints .nonBoolean)
  have p3 := constraints_part (n := c!"mixedConstraints") rfl (x.constraints .mixed)
  unfold Doc.toXml
  refine .mk rfl ⟨blank_nil, ?_⟩ ?_ ?_
  · simp only [List.map_cons, List.map_append, List.append_assoc]
    exact .seq (a := [_]) .elem (.seq p0.matches (.seq p1.matches (.seq p2.matches p3.matches)))
  · refine ⟨?_, ?_, ?_⟩
    · cases x.path <;> cases x.commit <;> simp [optAtt]
    · intro a ha
      simp only [List.mem_append, List.mem_cons] at ha
      rcases ha with rfl | ha | ha
      · exact ⟨_, List.mem_cons_self, rfl, by intro ts hts; cases hts⟩
      · cases hp : x.path with
        | none => rw [hp] at ha; cases ha
        | some p =>
          rw [hp] at ha
          simp only [optAtt, List.mem_singleton] at ha
          subst ha
          exact ⟨_, List.mem_cons_of_mem _ List.mem_cons_self, rfl, by intro ts hts; cases hts⟩
      · cases hp : x.commit with
        | none => rw [hp] at ha; cases ha
        | some p =>
          rw [hp] at ha
          simp only [optAtt, List.mem_singleton] at ha
          subst ha
          exact ⟨_, List.mem_cons_of_mem _ (List.mem_cons_of_mem _ List.mem_cons_self), rfl, by intro ts hts; cases hts⟩
    · intro d hd hr
      simp only [List.mem_cons, List.not_mem_nil, or_false] at hd
      rcases hd with rfl | rfl | rfl
      · simp
      · cases hr
      · cases hr
  · intro k hk
    simp only [List.mem_cons, List.mem_append] at hk
    rcases hk with rfl | ((hk | hk) | hk) | hk
    · exact options_valid rfl _
    · exact p0.valid k hk
    · exact p1.valid k hk
    · exact p2.valid k hk
    · exact p3.valid k hk

end Verif.Xml

import Verif.Sxfm.Meaning
import Verif.Props.Sxfm
import Verif.Props.Enumeration
/-!
# Configurations of SXFM documents

C71.
-/

namespace Verif.Props
open Verif Verif.Spec Verif.Sxfm Verif.Z3Solver

/-! ## Loops that crash -/

theorem forEach_outcome {α} {f : Z3Solver → α → SRes} : ∀ {l : List α}, (∀ s, ∀ x ∈ l, f s x ≠ .endless) → ∀ s : Z3Solver,
    (∃ s', forEach f s l = .ok s') ∨ forEach f s l = .crash
  | [], _, s => .inl ⟨s, rfl⟩
  | x :: l, h, s => by
    have ih := fun s' => forEach_outcome (l := l) (fun s y hy => h s y (List.mem_cons_of_mem _ hy)) s'
    unfold forEach
    cases hx : f s x with
    | ok s' => exact ih s'
    | err e s' => exact ih s'
    | crash => exact .inr rfl
    | endless => exact absurd hx (h s x (List.mem_cons_self ..))

theorem forEach_crash {α} {f : Z3Solver → α → SRes} : ∀ {l : List α}, (∀ s, ∀ x ∈ l, f s x ≠ .endless) →
    (∃ x ∈ l, ∀ s, f s x = .crash) → ∀ s : Z3Solver, forEach f s l = .crash
  | x :: l, h, ⟨y, hy, hc⟩, s => by
    have ih := fun (hy : y ∈ l) s' => forEach_crash (l := l) (fun s y hy => h s y (List.mem_cons_of_mem _ hy)) ⟨y, hy, hc⟩ s'
    unfold forEach
    rcases List.mem_cons.1 hy with rfl | hy
    · rw [hc s]
    · cases hx : f s x with
      | ok s' => exact ih hy s'
      | err e s' => exact ih hy s'
      | crash => rfl
      | endless => exact absurd hx (h s x (List.mem_cons_self ..))

theorem addConstraint_not_endless {m : FModel} (s : Z3Solver) (c : Stored) : addConstraint m s c ≠ .endless := by
  unfold addConstraint addVisited
  intro h
  split at h
  · cases h
  · split at h
    · cases h
    · split at h
      · cases h
      · split at h <;> cases h

theorem addBool_not_endless (s : Z3Solver) (n : Str) : s.addBool n ≠ .endless := by
  unfold addBool
  intro h
  split at h <;> cases h

theorem linkParent_not_endless (s : Z3Solver) (n p : Str) (b : Bool) : s.linkParent n p b ≠ .endless := by
  unfold linkParent
  intro h
  repeat' split at h
  all_goals cases h

theorem addFeature_not_endless {F : IntFloats} {fuel : Nat} {m : FModel} {i : Id}
    (h : ∀ f, m.feat? i = some f → ∀ vs st, f.attr.kind ≠ .numeric vs st) (s : Z3Solver) (g : Bool) :
    addFeature F fuel m s i g ≠ .endless := by
  unfold addFeature
  intro hx
  split at hx
  · rename_i f p hf hp
    split at hx
    · cases hx
    · cases hx
    · split at hx
      · cases hx
      · split at hx
        · rename_i hk; exact h f hf _ _ hk
        · rename_i hk; exact h f hf _ _ hk
        · split at hx
          · split at hx
            · cases hx
            · exact linkParent_not_endless _ _ _ _ hx
          · rename_i r _
            exact addBool_not_endless _ _ hx
        · split at hx
          · split at hx
            · cases hx
            · split at hx <;> cases hx
          · exact addBool_not_endless _ _ hx
        · cases hx
  · cases hx

/-! ## C71 -/

variable {world : FModel} {mn ind root : Str} {o : Option Str} {f : Forest} {cs : List ClauseLine}

/-- The documents for which loading is proved (C36): written line by line, with names and identifiers that
    the format can carry, clauses over known features. -/
structure SxfmOk (mn ind root : Str) (o : Option Str) (f : Forest) (cs : List ClauseLine) : Prop where
  indent : PlainIndent ind
  rootName : PlainName root
  rootId : ∀ i, o = some i → PlainId root i
  plain : f.Plain
  distinct : DistinctNames root f
  ids : IdTable (treeTable root o f)
  or_free : (treeTable root o f).lookup c!"or" = none
  or_good : GoodWord (treeTable root o f) c!"or"
  good : ∀ c ∈ cs, c.Good (treeTable root o f)
  known : ConstraintsKnown (treeDesc mn root f (clauseCons (treeTable root o f) cs))

theorem SxfmOk.loads (h : SxfmOk mn ind root o f cs) (hf : ∀ i, world.heap i ≠ none → i < world.next) (S : SEnv) (E : Env) :
    ∃ n, ∀ fuel, n ≤ fuel → ∃ m, Sxfm.load S E world fuel (sxfmDoc mn ind root o f cs) = some (.built m) ∧
      Describes (treeDesc mn root f (clauseCons (treeTable root o f) cs)) m :=
  C36_loads_partial hf S E h.indent h.rootName h.rootId h.plain h.distinct h.ids h.or_free h.or_good h.good h.known

/-- Without negated literals the configurations of the loaded model are exactly the permitted selections,
    each once; if there are none, `UNSAT` is reported. -/
theorem C71_lists_all_partial (h : SxfmOk mn ind root o f cs) (hf : ∀ i, world.heap i ≠ none → i < world.next)
    (S : SEnv) (E : Env) (F : IntFloats) (O : Oracle) (hO : ∀ k ts, O.check k ts ≠ .unknown)
    (hw : f.WellPlaced false) (hz : ∀ n ∈ docNames root f, Char.ofNat 0 ∉ n) (hp : ∀ c ∈ cs, ∀ l ∈ c.lits, l.1 = false) :
    ∃ n, ∀ fuel, n ≤ fuel → ∃ m, Sxfm.load S E world fuel (sxfmDoc mn ind root o f cs) = some (.built m) ∧
      ∃ k, ∀ fuel, k ≤ fuel →
        ((¬ ∃ sel, Permits root o f cs sel) ∧ getAllConfigs E F O fuel m = .err .unsat) ∨
        ((∃ sel, Permits root o f cs sel) ∧ ∃ l, getAllConfigs E F O fuel m = .ok l ∧ ListsAll root o f cs l) := by
  obtain ⟨n, h1⟩ := h.loads hf S E
  refine ⟨n, fun fuel hn => ?_⟩
  obtain ⟨m, h2, hm⟩ := h1 fuel hn
  refine ⟨m, h2, ?_⟩
  obtain ⟨k, h3⟩ := C40_as_coded hm.wf (clear_desc hm (clear_tree F h.distinct hw hz hp h.known)) E O hO
  refine ⟨k, fun fuel hk => ?_⟩
  have hval : (∃ b, Valid F (notBothIn m) b) ↔ ∃ sel, Permits root o f cs sel := by
    constructor
    · rintro ⟨b, hb⟩
      have := (valid_notBoth_desc hm).1 hb
      rw [notBothDesc_id noXor_doc] at this
      exact ⟨b.bool, (permits_iff h.distinct hw hp).1 this⟩
    · rintro ⟨sel, hs⟩
      refine ⟨assignOf sel, (valid_notBoth_desc hm).2 ?_⟩
      rw [notBothDesc_id noXor_doc]
      exact (permits_iff (a := assignOf sel) h.distinct hw hp).2 hs
  rcases h3 fuel hk with ⟨hn, e⟩ | ⟨hb, l, e, he⟩
  · exact .inl ⟨fun hs => hn (hval.2 hs), e⟩
  · refine .inr ⟨hval.1 hb, l, e, ?_⟩
    have he := (enumerates_desc hm).1 he
    rw [notBothDesc_id noXor_doc] at he
    exact listsAll_iff h.distinct hw hp he

/-- A negated literal `~x` is read as the arithmetic negation of `x`.  So for every document with a clause
    that contains one, setting up the solver fails with an exception of Z3, whatever is asked of it. -/
theorem C71_negation_crashes (h : SxfmOk mn ind root o f cs) (hf : ∀ i, world.heap i ≠ none → i < world.next)
    (S : SEnv) (E : Env) (F : IntFloats) (O : Oracle) {c : ClauseLine} (hc : c ∈ cs) {l : Lit} (hl : l ∈ c.lits) (hneg : l.1 = true) :
    ∃ n, ∀ fuel, n ≤ fuel → ∃ m, Sxfm.load S E world fuel (sxfmDoc mn ind root o f cs) = some (.built m) ∧
      ∀ fuel, initSolver E F fuel m = .crash ∧ getAllConfigs E F O fuel m = .crash ∧ isValid E F O fuel m = none := by
  obtain ⟨n, h1⟩ := h.loads hf S E
  refine ⟨n, fun fuel hn => ?_⟩
  obtain ⟨m, h2, hm⟩ := h1 fuel hn
  refine ⟨m, h2, fun fuel => ?_⟩
  have hnum : ∀ i, Known m i → ∀ g, m.feat? i = some g → ∀ vs st, g.attr.kind ≠ .numeric vs st := by
    intro i hi g hg vs st hk
    obtain ⟨e, he, rfl⟩ := List.mem_map.1 hi
    obtain ⟨g', hg', hn'⟩ := hm.wf.feat_ok e he
    rw [feat?_of_data hg'] at hg
    cases hg
    exact no_num (mn := mn) (root := root) (f := f) (cons := clauseCons (treeTable root o f) cs) e.1
      ((isNum_desc hm e.1).1 ⟨e.2, _, vs, st, he, hg', hk⟩)
  have hnot : ¬ Positive c := fun hp => by
    have := hp l hl
    rw [hneg] at this; cases this
  have hst : (⟨c.constraint (treeTable root o f), (c.constraint (treeTable root o f)).features.map m.getFeature, none⟩ : Stored) ∈ m.booleans := by
    show _ ∈ m.store .boolean
    rw [hm.store]
    refine List.mem_map.2 ⟨(.boolean, c.constraint (treeTable root o f)), ?_, rfl⟩
    exact List.mem_filter.2 ⟨List.mem_map.2 ⟨c, hc, rfl⟩, rfl⟩
  have hcr : ∀ s : Z3Solver, addConstraint m s ⟨c.constraint (treeTable root o f), (c.constraint (treeTable root o f)).features.map m.getFeature, none⟩ = .crash := by
    intro s
    unfold addConstraint addVisited
    rw [visit_negated ?_ hnot]
    intro i hi g hg
    obtain ⟨w, _, hw⟩ := List.mem_map.1 hi
    exact hnum i (getFeature_known hw) g hg
  obtain ⟨r, l, _, hit, _, _, hmem, _⟩ := C25_preorder hm.wf E
  have hinit : initSolver E F fuel m = .crash := by
    unfold initSolver applyModel
    cases hg : groupNames m with
    | none => rfl
    | some V =>
      rw [hit]
      dsimp only
      rcases forEach_outcome (f := fun s i => addFeature F fuel m s i (inNames m V i)) (l := l)
        (fun s x hx => addFeature_not_endless (hnum x ((hmem x).1 hx)) s _) {} with ⟨s', e⟩ | e
      · rw [e]
        unfold SRes.andThen
        dsimp only
        rw [forEach_crash (fun s x _ => addConstraint_not_endless s x) ⟨_, hst, hcr⟩]
      · rw [e]
        rfl
  exact ⟨hinit, by unfold getAllConfigs; rw [hinit], by unfold isValid; rw [hinit]⟩

def positiveClauses : List ClauseLine :=
  [{ label := c!"c1", first := (false, c!"_r_1"), rest := [(false, c!"_r_2_3")] },
   { label := c!"c2", pre := c!" ", first := (false, c!"M"), rest := [] }]

theorem positiveClauses_good : ∀ c ∈ positiveClauses, c.Good (treeTable c!"R" (some c!"_r") someForest) := by
  have lits : ∀ c ∈ positiveClauses, ∀ l ∈ c.lits, l.2 = c!"_r_1" ∨ l.2 = c!"_r_2_3" ∨ l.2 = c!"M" := by decide
  intro c hc
  refine ⟨?_, ?_, ?_, ?_, ?_, ?_⟩
  · have : ∀ c ∈ positiveClauses, ∀ x ∈ c.label, x ≠ ':' ∧ x ≠ '\n' := by decide
    exact this c hc
  · have : ∀ c ∈ positiveClauses, ∀ x ∈ c.pre, isSpaceC x = true ∧ x ≠ '\n' := by decide
    exact this c hc
  · have : ∀ c ∈ positiveClauses, ∀ x ∈ c.post, isSpaceC x = true ∧ x ≠ '\n' := by decide
    exact this c hc
  · intro l hl
    unfold IsWord
    rcases lits c hc l hl with h | h | h <;> rw [h] <;> exact ⟨by decide, by decide⟩
  · intro l hl
    rcases lits c hc l hl with h | h | h <;> rw [h] <;> exact goodWord_of (by decide)
  · intro l hl
    unfold LitOk
    have : (Lit.rename (treeTable c!"R" (some c!"_r") someForest) l).2 = ((treeTable c!"R" (some c!"_r") someForest).lookup l.2).getD l.2 := rfl
    rw [this]
    rcases lits c hc l hl with h | h | h <;> rw [h] <;> exact ⟨⟨by decide, by decide, by decide⟩, by decide⟩

theorem some_readable {cs : List ClauseLine} (h : ∀ c ∈ cs, c.Good (treeTable c!"R" (some c!"_r") someForest))
    (hk : ConstraintsKnown (treeDesc c!"M" c!"R" someForest (clauseCons (treeTable c!"R" (some c!"_r") someForest) cs))) :
    SxfmOk c!"M" c!"\t" c!"R" (some c!"_r") someForest cs where
  indent := tab_plain
  rootName := r_plain
  rootId := fun i hi => by cases hi; exact plainId_of (by decide) (by decide)
  plain := someForest_plain
  distinct := someForest_distinct
  ids := by
    have : ∀ x ∈ treeTable c!"R" (some c!"_r") someForest, x.1 ≠ [] ∧ ∀ c ∈ x.1, isIdChar c = true := by decide
    exact fun k v h => this (k, v) h
  or_free := by decide
  or_good := goodWord_of (by decide)
  good := h
  known := hk

theorem someForest_placed : someForest.WellPlaced false := by
  simp [someForest, Forest.WellPlaced, LineKind.isGroup]

theorem group_one : c!"group_" ++ natText 1 = c!"group_1" := by
  have h : natText 1 = c!"1" := by simp [natText]; decide
  rw [h]; rfl

theorem someForest_names : docNames c!"R" someForest = [c!"R", c!"A", c!"G", c!"X", c!"group_1", c!"Y", c!"M"] := by
  have h := group_one
  simp only [docNames, someForest, Forest.attrs, Label.called, Option.getD_some, Option.getD_none, Forest.unnamed, List.map_cons, List.map_append]
  simp [h]

/-- Every selection that the document of the example permits contains exactly one of `X` and the group. -/
example : ∀ sel, Permits c!"R" (some c!"_r") someForest positiveClauses sel →
    sel c!"M" = true ∧ (sel c!"A" = true ∨ sel c!"X" = true) ∧ (sel c!"X" = true ↔ sel c!"group_1" = false) := by
  have hg := group_one
  intro sel h
  have h1 := h.tree
  have h2 := h.clauses
  have h3 := h.top
  simp [someForest, Forest.Respects, Forest.tops, Forest.unnamed, CardHolds, Label.called, LineKind.isGroup, hg, h3] at h1
  simp [positiveClauses, ClauseLine.Holds, ClauseLine.lits, meantName, treeTable, someForest, Forest.ids, List.lookup] at h2
  cases hx : sel c!"X" <;> cases hy : sel c!"group_1" <;> simp_all
  all_goals (obtain ⟨a, b⟩ := h1; simp [a] at b)

/-- `C71_lists_all_partial` applies, to a document that permits some selections and forbids others. -/
example : SxfmOk c!"M" c!"\t" c!"R" (some c!"_r") someForest positiveClauses ∧ someForest.WellPlaced false ∧
    (∀ n ∈ docNames c!"R" someForest, Char.ofNat 0 ∉ n) ∧ (∀ c ∈ positiveClauses, ∀ l ∈ c.lits, l.1 = false) ∧
    (∀ k ts, idealOracle.check k ts ≠ .unknown) ∧
    Permits c!"R" (some c!"_r") someForest positiveClauses (fun n => decide (n ∈ [c!"R", c!"G", c!"X", c!"M"])) := by
  have hg := group_one
  refine ⟨some_readable positiveClauses_good (by unfold ConstraintsKnown; decide), someForest_placed, ?_, by decide,
    idealOracle_answers, ⟨by decide, ?_, ?_⟩⟩
  · rw [someForest_names]; decide
  · simp [someForest, Forest.Respects, Forest.tops, Forest.unnamed, CardHolds, Label.called, LineKind.isGroup, hg]
  · simp [positiveClauses, ClauseLine.Holds, ClauseLine.lits, meantName, treeTable, someForest, Forest.ids, List.lookup]

/-- A document with negated literals that permits selections: `C71_negation_crashes` applies, so none of
    them can be listed. -/
example : SxfmOk c!"M" c!"\t" c!"R" (some c!"_r") someForest someClauses ∧
    (∃ c ∈ someClauses, ∃ l ∈ c.lits, l.1 = true) ∧
    Permits c!"R" (some c!"_r") someForest someClauses (fun n => decide (n ∈ [c!"R", c!"G", c!"group_1", c!"Y", c!"M"])) := by
  have hg := group_one
  refine ⟨some_readable someClauses_good (by unfold ConstraintsKnown; decide), by decide, ⟨by decide, ?_, ?_⟩⟩
  · simp [someForest, Forest.Respects, Forest.tops, Forest.unnamed, CardHolds, Label.called, LineKind.isGroup, hg]
  · simp [someClauses, ClauseLine.Holds, ClauseLine.lits, meantName, treeTable, someForest, Forest.ids, List.lookup]

end Verif.Props

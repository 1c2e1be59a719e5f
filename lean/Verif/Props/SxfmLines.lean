import Verif.FM.BuildStores
import Verif.Props.SxfmTwice

/-!
# Properties C115 and C28: the constraints of a loaded model
-/

namespace Verif.Props
open Verif Verif.Spec Verif.Sxfm

/-- Whatever calls a builder was given, what it builds has exactly the constraints it was given, each class in the order of the calls. -/
theorem C28_constraints {E : Env} {world m : FModel} {calls : List BCall} (h : world.build E (builderOf calls) = .built m) (cl : CClass) :
    (m.store cl).map Stored.tree = ((constraintsOf calls).filter fun x => decide (x.1.cls = cl)).map Prod.snd := build_stores h cl

/-- The constraint a line is read as: what follows the colon, without spaces around it, with identifiers replaced by names and the
    words for the connectives by their signs, if that text is a constraint. -/
def readAs (E : SEnv) (fuel : Nat) (table : List (Str × Str)) (line : Str) : Option Constraint :=
  match (renameKeys table fuel (keys table) (trimC (after ':' line))).bind (connectives E.orFirst fuel) with
  | none => none
  | some s =>
    match parseText E.sci s with
    | .ok c => some c
    | _ => none

/-- The lines of a text that are not blank. -/
def solidLines (text : Str) : List Str := (splitLines text).filter fun l => !isBlank l

theorem constraintLines_read {E : SEnv} {fuel : Nat} {table : List (Str × Str)} : ∀ {ls : List Str} {calls : List BCall},
    constraintLines E.sci E.orFirst fuel table ls = some (.ok calls) →
    calls = (((ls.filter fun l => !isBlank l).filterMap (readAs E fuel table)).map fun c => BCall.addConstraint .boolean c) ∧
      ∀ l ∈ ls.filter fun l => !isBlank l, ':' ∈ l
  | [], calls, h => by cases h; exact ⟨rfl, by simp⟩
  | l :: ls, calls, h => by
    rw [constraintLines] at h
    cases hl : constraintLine E.sci E.orFirst fuel table l with
    | none => rw [hl] at h; cases h
    | some r =>
      rw [hl] at h
      cases r with
      | fail => cases h
      | crash => cases h
      | ok cs =>
        simp only [Option.map_eq_some_iff] at h
        obtain ⟨x, h1, h2⟩ := h
        obtain ⟨cs', h3, h4⟩ := bind_ok h2
        subst h3
        cases h4
        obtain ⟨ih1, ih2⟩ := constraintLines_read h1
        unfold constraintLine at hl
        by_cases hb : isBlank l = true
        · rw [if_pos hb] at hl
          cases hl
          simp only [List.filter_cons, hb, Bool.not_true]
          exact ⟨ih1, ih2⟩
        · rw [if_neg hb] at hl
          by_cases hc : ':' ∈ l
          · rw [if_neg (not_not_intro hc)] at hl
            have hb' : isBlank l = false := by simpa using hb
            simp only [List.filter_cons, hb', Bool.not_false, if_true, List.filterMap_cons]
            refine ⟨?_, ?_⟩
            · unfold readAs
              cases hr : (renameKeys table fuel (keys table) (trimC (after ':' l))).bind (connectives E.orFirst fuel) with
              | none => rw [hr] at hl; cases hl
              | some s =>
                rw [hr] at hl
                simp only [Option.map_some, Option.some.injEq] at hl
                simp only
                cases hp : parseText E.sci s with
                | ok c => rw [hp] at hl; cases hl; simp only [List.map_cons]; rw [ih1]; rfl
                | null => rw [hp] at hl; cases hl; simp only [List.nil_append]; exact ih1
                | ub => rw [hp] at hl; cases hl
                | diverges => rw [hp] at hl; cases hl
            · intro x hx
              rcases List.mem_cons.1 hx with rfl | hx
              · exact hc
              · exact ih2 x hx
          · rw [if_pos hc] at hl; cases hl

theorem constraintsOf_none : ∀ {calls : List BCall}, (∀ k c, BCall.addConstraint k c ∉ calls) → constraintsOf calls = []
  | [], _ => rfl
  | b :: bs, h => by
    have ih := constraintsOf_none (calls := bs) fun k c hc => h k c (by simp [hc])
    unfold constraintsOf at ih ⊢
    cases b with
    | addConstraint k c => exact absurd (by simp) (h k c)
    | _ => simpa [List.filterMap_cons] using ih

/-- The model loaded from a document has as constraints exactly the lines that can be read, in their order, whatever the tree is: every
    line that is not blank has a colon, the boolean constraints are the lines that can be read, and there are no others. -/
theorem C115_exactly {world : FModel} {E : SEnv} {F : Env} {fuel : Nat} {n i : Option Str} {t text : Str} {m : FModel}
    (h : load E F world fuel ⟨n, [.tree i t, .constraints text]⟩ = some (.built m)) :
    ∃ calls table, parseTree E.order (i.getD c!"\t") [] t = .ok (calls, table) ∧
      (∀ l ∈ solidLines text, ':' ∈ l) ∧
      (m.store .boolean).map Stored.tree = (solidLines text).filterMap (readAs E fuel table) ∧
      m.store .nonBoolean = [] ∧ m.store .mixed = [] := by
  unfold load parseDoc at h
  cases n with
  | none => cases h
  | some n =>
    simp only [parseElems, parseElem] at h
    cases hp : parseTree E.order (i.getD c!"\t") [] t with
    | fail => rw [hp] at h; cases h
    | crash => rw [hp] at h; cases h
    | ok r =>
      obtain ⟨calls, table⟩ := r
      rw [hp] at h
      simp only [SOut.bind] at h
      cases hc : constraintLines E.sci E.orFirst fuel table (splitLines text) with
      | none => rw [hc] at h; cases h
      | some x =>
        rw [hc] at h
        cases x with
        | fail => cases h
        | crash => cases h
        | ok cs =>
          simp only [Option.map_some, Option.some.injEq] at h
          obtain ⟨g1, g2⟩ := constraintLines_read hc
          have hq := (parseTree_calls E.order_perm hp).2.2
          have hbuilt : world.build F (builderOf ([.setVmName n] ++ calls ++ cs)) = .built m := by
            cases hb : world.build F (builderOf ([.setVmName n] ++ calls ++ cs)) with
            | ub => rw [hb] at h; cases h
            | null => rw [hb] at h; cases h
            | built m' => rw [hb] at h; cases h; rfl
          have hs := fun cl => C28_constraints hbuilt cl
          have hcs : constraintsOf ([.setVmName n] ++ calls ++ cs) =
              ((solidLines text).filterMap (readAs E fuel table)).map fun c => (CKind.boolean, c) := by
            have e1 : constraintsOf ([.setVmName n] ++ calls ++ cs) = constraintsOf calls ++ constraintsOf cs := by
              simp [constraintsOf, List.filterMap_append]
            rw [e1, constraintsOf_none hq, g1, List.nil_append]
            unfold constraintsOf solidLines
            rw [List.filterMap_map]
            generalize List.filterMap (readAs E fuel table) _ = l
            induction l with
            | nil => rfl
            | cons x xs ih => simpa [List.filterMap_cons] using ih
          refine ⟨calls, table, rfl, g2, ?_, ?_, ?_⟩
          · rw [hs, hcs, List.filter_eq_self.2, List.map_map]
            · simp [Function.comp_def]
            · intro x hx
              obtain ⟨c, _, rfl⟩ := List.mem_map.1 hx
              rfl
          all_goals
            refine (List.map_eq_nil_iff (f := Stored.tree)).1 ?_
            rw [hs, hcs, List.map_eq_nil_iff]
            refine List.filter_eq_nil_iff.2 fun x hx => ?_
            obtain ⟨c, _, rfl⟩ := List.mem_map.1 hx
            simp [CKind.cls]

/-- So no constraint is lost (C56) if and only if every line that is not blank can be read. -/
theorem C115_none_lost {world : FModel} {E : SEnv} {F : Env} {fuel : Nat} {n i : Option Str} {t text : Str} {m : FModel}
    (h : load E F world fuel ⟨n, [.tree i t, .constraints text]⟩ = some (.built m)) :
    ∃ calls table, parseTree E.order (i.getD c!"\t") [] t = .ok (calls, table) ∧
      ((m.store .boolean).length = (solidLines text).length ↔ ∀ l ∈ solidLines text, ∃ c, readAs E fuel table l = some c) := by
  obtain ⟨calls, table, h1, _, h2, _⟩ := C115_exactly h
  refine ⟨calls, table, h1, ?_⟩
  have hl : (m.store .boolean).length = ((solidLines text).filterMap (readAs E fuel table)).length := by
    rw [← h2, List.length_map]
  rw [hl]
  generalize solidLines text = ls
  clear h2 hl
  induction ls with
  | nil => simp
  | cons l ls ih =>
    rw [List.filterMap_cons]
    have hle := List.length_filterMap_le (readAs E fuel table) ls
    cases hr : readAs E fuel table l with
    | none =>
      simp only [List.length_cons, List.mem_cons, forall_eq_or_imp, hr]
      constructor
      · intro e; omega
      · rintro ⟨⟨c, hc⟩, _⟩; cases hc
    | some c =>
      simp only [List.length_cons, Nat.add_right_cancel_iff, List.mem_cons, forall_eq_or_imp, hr, ih]
      exact ⟨fun e => ⟨⟨c, rfl⟩, e⟩, fun e => e.2⟩

/-- Not vacuous: the document of `C56_dropped`; its line cannot be read. -/
example (E : SEnv) (F : Env) : ∃ m table, load E F nothing 9 ⟨some c!"M", [.tree none c!":r R\n\t:o A\n", .constraints c!"c:A or\n"]⟩ = some (.built m) ∧
    ¬ ∀ l ∈ solidLines c!"c:A or\n", ∃ c, readAs E 9 table l = some c := by
  obtain ⟨m, h1, h2⟩ := C56_dropped E F
  obtain ⟨calls, table, _, h3⟩ := C115_none_lost h1
  refine ⟨m, table, h1, fun h => ?_⟩
  have := h3.2 h
  rw [h2] at this
  revert this
  decide

/-- And a line that can be read. -/
example : readAs stdSEnv 9 [(c!"b", c!"B")] c!"c: A or b" = some (.bin .or (.feature c!"A") (.feature c!"B")) := by rfl

end Verif.Props

import Verif.Xml.Read
import Verif.Xml.Dtd
import Verif.Constraint.Whitespace
import Verif.Step.Lemmas
/-!
# Any document

What holds for every document, not only for those written in the form of `Doc.toXml`.
-/

namespace Verif.Spec
open Verif Verif.Xml

/-- An element is the given one or inside it. -/
inductive Within : Xml → Xml → Prop
  | here {x} : Within x x
  | inside {k c x} : c ∈ x.kids → Within k c → Within k x

/-- Constraints are not empty, mixed ones have their attributes, and positions fit `int`. -/
structure Harmless (x : Xml) : Prop where
  constraint : ∀ k, Within k x → k.name = c!"constraint" → k.content ≠ []
  mixed : ∀ g, Within g x → g.name = c!"mixedConstraints" → ∀ k ∈ g.kids, k.name = c!"constraint" →
    k.prop c!"req" ≠ none ∧ k.prop c!"exprKind" ≠ none
  position : ∀ k, Within k x → k.name = c!"line" ∨ k.name = c!"column" → atoi k.content ≠ none

/-- No feature has edges from two parents. -/
def OneParent (calls : List BCall) : Prop := ∀ p q c, .addEdge p c ∈ calls → .addEdge q c ∈ calls → p = q

end Verif.Spec

namespace Verif.Xml
open Verif Verif.Spec Verif.Sxfm

theorem SOut.bind_ok {α β : Type} {o : SOut α} {f : α → SOut β} {b : β} (h : o.bind f = .ok b) : ∃ a, o = .ok a ∧ f a = .ok b := by
  cases o with
  | ok a => exact ⟨a, rfl, h⟩
  | fail => cases h
  | crash => cases h

/-! ## The calls -/

theorem parentName_none : ∀ {calls : List BCall} {c : Str}, parentName calls c = none → ∀ p, .addEdge p c ∉ calls
  | [], c, _, p, hm => by cases hm
  | x :: xs, c, h, p, hm => by
    unfold parentName at h
    cases hp : parentName xs c with
    | some q => rw [hp] at h; cases h
    | none =>
      rw [hp] at h
      rcases List.mem_cons.1 hm with rfl | hm
      · simp at h
      · exact parentName_none hp p hm

/-- What the calls have in common while a document is read. -/
structure Sane (calls : List BCall) : Prop where
  groups : groupsOf calls = []
  parents : OneParent calls

theorem Sane.push {calls : List BCall} (h : Sane calls) {c : BCall} (hg : ∀ k p, c ≠ .emplaceRelationship k p)
    (he : ∀ p n, c ≠ .addEdge p n) : Sane (calls ++ [c]) where
  groups := by
    have := h.groups
    unfold groupsOf at this ⊢
    rw [List.filterMap_append, this]
    cases c <;> first | rfl | exact absurd rfl (hg _ _)
  parents := by
    intro p q n h1 h2
    have k1 : .addEdge p n ∈ calls := by
      rcases List.mem_append.1 h1 with h1 | h1
      · exact h1
      · exact absurd (List.mem_singleton.1 h1).symm (he _ _)
    have k2 : .addEdge q n ∈ calls := by
      rcases List.mem_append.1 h2 with h2 | h2
      · exact h2
      · exact absurd (List.mem_singleton.1 h2).symm (he _ _)
    exact h.parents p q n k1 k2

theorem tryEdge_sane {calls calls' : List BCall} {p c : Str} (h : Sane calls) (ht : tryEdge calls p c = .ok calls') : Sane calls' := by
  have key : ∀ q, .addEdge q c ∈ calls → q = p := by
    intro q hq
    unfold tryEdge at ht
    cases hp : parentName calls c with
    | none => exact absurd hq (parentName_none hp q)
    | some r =>
      rw [hp] at ht
      by_cases hr : r = p
      · subst hr; exact h.parents q r c hq (parentName_mem hp)
      · simp [hr] at ht
  have he : calls' = calls ++ [.addEdge p c] := by
    unfold tryEdge at ht
    split at ht
    · split at ht
      · cases ht; rfl
      · cases ht
    · cases ht; rfl
  subst he
  refine ⟨?_, ?_⟩
  · have := h.groups
    unfold groupsOf at this ⊢
    rw [List.filterMap_append, this]
    rfl
  · intro a b n h1 h2
    simp only [List.mem_append, List.mem_singleton, BCall.addEdge.injEq] at h1 h2
    rcases h1 with h1 | ⟨ea, en⟩ <;> rcases h2 with h2 | ⟨eb, en2⟩
    · exact h.parents a b n h1 h2
    · subst en2; rw [eb]; exact key a h1
    · subst en; rw [ea]; exact (key b h2).symm
    · rw [ea, eb]

theorem childEdges_sane {name : Str} : ∀ {ks : List Xml} {calls calls' : List BCall}, Sane calls → childEdges name calls ks = .ok calls' →
    Sane calls'
  | [], calls, calls', h, he => by cases he; exact h
  | k :: ks, calls, calls', h, he => by
    unfold childEdges at he
    split at he
    · split at he
      · rename_i h1
        exact childEdges_sane (tryEdge_sane h h1) he
      · cases he
      · cases he
    · exact childEdges_sane h he

theorem pairConstraints_sane {op : BinOp} {name : Str} : ∀ {ks : List Xml} {calls calls' : List BCall}, Sane calls →
    pairConstraints op name calls ks = .ok calls' → Sane calls'
  | [], calls, calls', h, he => by cases he; exact h
  | k :: ks, calls, calls', h, he => by
    unfold pairConstraints at he
    split at he
    · split at he
      · exact pairConstraints_sane (h.push (by simp) (by simp)) he
      · cases he
    · exact pairConstraints_sane h he

section
variable {sci : Str → Option Str} {num : Bool}

theorem numElem_calls {s s' : OptSt} {t n : Str} (h : numElem sci s t n = .ok s') : s'.calls = s.calls := by
  unfold numElem at h
  split at h
  · cases h; rfl
  · split at h
    · cases h; rfl
    · split at h
      · cases h; rfl
      · split at h
        · split at h
          · cases h; rfl
          · cases h; rfl
          · cases h
        · cases h; rfl

theorem optElem_sane {s s' : OptSt} {x : Xml} (h : Sane s.calls) (he : optElem sci num s x = .ok s') : Sane s'.calls := by
  unfold optElem at he
  by_cases h0 : trimC x.content = []
  · rw [if_pos h0] at he; cases he; exact h
  rw [if_neg h0] at he
  by_cases h1 : x.name = c!"name"
  · rw [if_pos h1] at he; cases he; exact h
  rw [if_neg h1] at he
  by_cases h2 : x.name = c!"outputString"
  · rw [if_pos h2] at he; cases he; exact h
  rw [if_neg h2] at he
  by_cases h3 : x.name = c!"optional"
  · rw [if_pos h3] at he; cases he; exact h
  rw [if_neg h3] at he
  by_cases h4 : x.name = c!"parent"
  · rw [if_pos h4] at he
    obtain ⟨cs, e1, e2⟩ := SOut.bind_ok he
    cases e2; exact tryEdge_sane h e1
  rw [if_neg h4] at he
  by_cases h5 : x.name = c!"children"
  · rw [if_pos h5] at he
    obtain ⟨cs, e1, e2⟩ := SOut.bind_ok he
    cases e2; exact childEdges_sane h e1
  rw [if_neg h5] at he
  by_cases h6 : x.name = c!"excludedOptions"
  · rw [if_pos h6] at he
    obtain ⟨cs, e1, e2⟩ := SOut.bind_ok he
    cases e2; exact pairConstraints_sane h e1
  rw [if_neg h6] at he
  by_cases h7 : x.name = c!"impliedOptions"
  · rw [if_pos h7] at he
    obtain ⟨cs, e1, e2⟩ := SOut.bind_ok he
    cases e2; exact pairConstraints_sane h e1
  rw [if_neg h7] at he
  by_cases h8 : x.name = c!"locations"
  · rw [if_pos h8] at he
    split at he
    · cases he; exact h
    · cases he
  rw [if_neg h8] at he
  split at he
  · rw [numElem_calls he]; exact h
  · cases he; exact h

theorem optElems_sane : ∀ {xs : List Xml} {s s' : OptSt}, Sane s.calls → optElems sci num s xs = .ok s' → Sane s'.calls
  | [], s, s', h, he => by cases he; exact h
  | x :: xs, s, s', h, he => by
    obtain ⟨s1, e1, e2⟩ := SOut.bind_ok he
    exact optElems_sane (optElem_sane h e1) e2

theorem parseOptions_sane : ∀ {xs : List Xml} {calls calls' : List BCall}, Sane calls → parseOptions sci num calls xs = .ok calls' →
    Sane calls'
  | [], calls, calls', h, he => by cases he; exact h
  | x :: xs, calls, calls', h, he => by
    unfold parseOptions at he
    split at he
    · obtain ⟨c1, e1, e2⟩ := SOut.bind_ok he
      obtain ⟨s, e3, e4⟩ := SOut.bind_ok e1
      cases e4
      refine parseOptions_sane ((optElems_sane (s := { calls := calls }) h e3).push ?_ ?_) e2
      · intro k p; unfold optCall; split
        · simp
        · split <;> simp
      · intro k p; unfold optCall; split
        · simp
        · split <;> simp
    · exact parseOptions_sane h he

theorem parseConstraints_sane {cl : CClass} : ∀ {xs : List Xml} {calls calls' : List BCall}, Sane calls →
    parseConstraints sci cl calls xs = .ok calls' → Sane calls'
  | [], calls, calls', h, he => by cases he; exact h
  | x :: xs, calls, calls', h, he => by
    unfold parseConstraints at he
    split at he
    · split at he
      · split at he
        · exact parseConstraints_sane (h.push (by simp) (by simp)) he
        · cases he
      · cases he
      · cases he
    · exact parseConstraints_sane h he

theorem vmElems_sane : ∀ {xs : List Xml} {calls calls' : List BCall}, Sane calls → vmElems sci calls xs = .ok calls' → Sane calls'
  | [], calls, calls', h, he => by cases he; exact h
  | x :: xs, calls, calls', h, he => by
    obtain ⟨c1, e1, e2⟩ := SOut.bind_ok he
    refine vmElems_sane ?_ e2
    unfold vmElem at e1
    by_cases h1 : x.name = c!"binaryOptions"
    · rw [if_pos h1] at e1; exact parseOptions_sane h e1
    rw [if_neg h1] at e1
    by_cases h2 : x.name = c!"numericOptions"
    · rw [if_pos h2] at e1; exact parseOptions_sane h e1
    rw [if_neg h2] at e1
    by_cases h3 : x.name = c!"booleanConstraints"
    · rw [if_pos h3] at e1; exact parseConstraints_sane h e1
    rw [if_neg h3] at e1
    by_cases h4 : x.name = c!"nonBooleanConstraints"
    · rw [if_pos h4] at e1; exact parseConstraints_sane h e1
    rw [if_neg h4] at e1
    by_cases h5 : x.name = c!"mixedConstraints"
    · rw [if_pos h5] at e1; exact parseConstraints_sane h e1
    rw [if_neg h5] at e1
    cases e1; exact h

/-- Reading a document makes no group and never gives a feature two parents. -/
theorem parseVm_sane {cwd : Str} {x : Xml} {calls : List BCall} (h : parseVm sci cwd x = .ok calls) : Sane calls := by
  refine vmElems_sane ⟨rfl, ?_⟩ h
  intro p q c h1
  simp at h1

/-- Loading any document whose calls describe a tree. -/
theorem load_calls {world : FModel} (hf : ∀ i, world.heap i ≠ none → i < world.next) (E : Env) {cwd : Str} {x : Xml}
    {calls : List BCall} {d : Desc} (h : parseVm sci cwd x = .ok calls) (hb : Buildable calls d) (hk : ConstraintsKnown d) :
    ∃ m gs, load sci E world cwd x = .built m ∧ Describes { d with groups := gs } m ∧
      ∀ n k, (n, k) ∈ gs ↔ k = .alternative ∧ Exclusive d n := by
  obtain ⟨m, h1, h2⟩ := build_ok hf E hb hk
  have hg : d.groups = [] := by rw [hb.groups, (parseVm_sane h).groups]
  obtain ⟨m', gs, h3, h4, h5⟩ := detectAlternatives_spec h2 hg E
  refine ⟨m', gs, ?_, h4, h5⟩
  unfold load
  rw [h]
  simp only [h1, h3]

/-! ## Crashes -/

theorem SOut.bind_crash {α β : Type} {o : SOut α} {f : α → SOut β} (h : o.bind f = .crash) :
    o = .crash ∨ ∃ a, o = .ok a ∧ f a = .crash := by
  cases o with
  | ok a => exact .inr ⟨a, rfl, h⟩
  | fail => cases h
  | crash => exact .inl rfl

theorem tryEdge_safe (calls : List BCall) (p c : Str) : tryEdge calls p c ≠ .crash := by
  unfold tryEdge
  split
  · split <;> simp
  · simp

theorem childEdges_safe {name : Str} : ∀ {ks : List Xml} {calls : List BCall}, childEdges name calls ks ≠ .crash
  | [], calls => by simp [childEdges]
  | k :: ks, calls => by
    unfold childEdges
    split
    · split
      · exact childEdges_safe
      · simp
      · rename_i h; exact absurd h (tryEdge_safe _ _ _)
    · exact childEdges_safe

theorem pairConstraints_safe {op : BinOp} (hop : op = .implies ∨ op = .excludes) {name : Str} :
    ∀ {ks : List Xml} {calls : List BCall}, pairConstraints op name calls ks ≠ .crash
  | [], calls => by simp [pairConstraints]
  | k :: ks, calls => by
    have hb : buildCalls [.feature name, .bin op, .feature (trimC k.content)] = .ok (.bin op (.feature name) (.feature (trimC k.content))) := by
      rcases hop with rfl | rfl <;> rfl
    unfold pairConstraints
    rw [hb]
    split
    · exact pairConstraints_safe hop
    · exact pairConstraints_safe hop

theorem sourceLocation_safe : ∀ {ks : List Xml} {l : Loc},
    (∀ k ∈ ks, k.name = c!"line" ∨ k.name = c!"column" → atoi k.content ≠ none) → sourceLocation l ks ≠ none
  | [], l, _ => by simp [sourceLocation]
  | k :: ks, l, h => by
    have ih : ∀ l, sourceLocation l ks ≠ none := fun l => sourceLocation_safe fun k hk => h k (by simp [hk])
    unfold sourceLocation
    split
    · rename_i hn
      split
      · exact ih _
      · rename_i h1; exact absurd h1 (h k (by simp) (.inl hn))
    · split
      · rename_i hn
        split
        · exact ih _
        · rename_i h1; exact absurd h1 (h k (by simp) (.inr hn))
      · exact ih _

theorem rangeElems_safe : ∀ {ks : List Xml} {r : Range},
    (∀ k ∈ ks, ∀ l ∈ k.kids, l.name = c!"line" ∨ l.name = c!"column" → atoi l.content ≠ none) → rangeElems r ks ≠ none
  | [], r, _ => by simp [rangeElems]
  | k :: ks, r, h => by
    have ih : ∀ r, rangeElems r ks ≠ none := fun r => rangeElems_safe fun k hk => h k (by simp [hk])
    have hl : ∀ l, sourceLocation l k.kids ≠ none := fun l => sourceLocation_safe (h k (by simp))
    unfold rangeElems
    by_cases h1 : k.name = c!"revisionRange"
    · rw [if_pos h1]; exact ih _
    rw [if_neg h1]
    by_cases h2 : k.name = c!"path"
    · rw [if_pos h2]; exact ih _
    rw [if_neg h2]
    by_cases h3 : k.name = c!"start"
    · rw [if_pos h3]
      split
      · exact ih _
      · rename_i h; exact absurd h (hl _)
    rw [if_neg h3]
    by_cases h4 : k.name = c!"end"
    · rw [if_pos h4]
      split
      · exact ih _
      · rename_i h; exact absurd h (hl _)
    rw [if_neg h4]
    split
    · exact ih _
    · exact ih _

theorem valid_kids {x : Xml} (h : Conforms x) : ∀ k ∈ x.kids, Conforms k := by
  cases h with
  | mk _ _ _ h4 => exact h4

theorem valid_within {x k : Xml} (hw : Within k x) : Conforms x → Conforms k := by
  induction hw with
  | here => exact id
  | inside hc _ ih => exact fun hv => ih (valid_kids hv _ hc)

theorem category_safe {x : Xml} (hv : Conforms x) (hn : x.name = c!"sourceRange") : category x ≠ none := by
  cases hv with
  | @mk n as t ks decl h1 h2 h3 h4 =>
    have hn : n = c!"sourceRange" := hn
    subst hn
    cases h1
    unfold category
    have : (Xml.node c!"sourceRange" as t ks).prop c!"category" = as.lookup c!"category" := rfl
    rw [this]
    cases hl : as.lookup c!"category" with
    | none => simp
    | some v =>
      have hm : (c!"category", v) ∈ as := by
        clear h3 this hn
        induction as with
        | nil => cases hl
        | cons a as ih =>
          rw [List.lookup_cons] at hl
          by_cases hb : (c!"category" == a.1) = true
          · rw [hb] at hl
            cases hl
            have := eq_of_beq hb
            rw [this]; simp
          · simp only [Bool.not_eq_true] at hb
            rw [hb] at hl
            exact List.mem_cons_of_mem _ (ih hl)
      obtain ⟨d, hd, h5, h6⟩ := h3.declared _ hm
      simp only [List.mem_singleton] at hd
      subst hd
      have := h6 _ rfl
      simp only [List.mem_cons, List.not_mem_nil, or_false] at this
      rcases this with rfl | rfl <;> simp

theorem within_kid {x k c : Xml} (hw : Within k x) (hc : c ∈ k.kids) : Within c x := by
  induction hw with
  | here => exact .inside hc .here
  | inside h _ ih => exact .inside h ih

theorem sourceRanges_safe {x : Xml} (hv : Conforms x) (hh : Harmless x) : ∀ {ks : List Xml} {rs : List Range},
    (∀ k ∈ ks, Within k x) → sourceRanges rs ks ≠ none
  | [], rs, _ => by simp [sourceRanges]
  | k :: ks, rs, h => by
    have ih : ∀ rs, sourceRanges rs ks ≠ none := fun rs => sourceRanges_safe hv hh fun k hk => h k (by simp [hk])
    have hw := h k (by simp)
    unfold sourceRanges
    split
    · rename_i hn
      split
      · exact ih _
      · rename_i h1
        exfalso
        unfold sourceRange at h1
        split at h1
        · rename_i h2; exact category_safe (valid_within hw hv) hn h2
        · refine rangeElems_safe ?_ h1
          intro c hc l hl hname
          exact hh.position l (within_kid (within_kid hw hc) hl) hname
    · exact ih _

theorem numElem_safe {s : OptSt} {t n : Str} (ht : t ≠ []) : numElem sci s t n ≠ .crash := by
  unfold numElem
  split
  · simp
  · split
    · simp
    · split
      · simp
      · split
        · obtain ⟨ts, e, _⟩ := stepTokenize_spec ht
          simp only [parseStepText, e]
          cases stepParse ts <;> simp
        · simp

theorem optElem_safe {x : Xml} (hv : Conforms x) (hh : Harmless x) {s : OptSt} {k : Xml} (hw : Within k x) :
    optElem sci num s k ≠ .crash := by
  intro he
  unfold optElem at he
  by_cases h0 : trimC k.content = []
  · rw [if_pos h0] at he; cases he
  rw [if_neg h0] at he
  by_cases h1 : k.name = c!"name"
  · rw [if_pos h1] at he; cases he
  rw [if_neg h1] at he
  by_cases h2 : k.name = c!"outputString"
  · rw [if_pos h2] at he; cases he
  rw [if_neg h2] at he
  by_cases h3 : k.name = c!"optional"
  · rw [if_pos h3] at he; cases he
  rw [if_neg h3] at he
  by_cases h4 : k.name = c!"parent"
  · rw [if_pos h4] at he
    rcases SOut.bind_crash he with e | ⟨_, _, e⟩
    · exact tryEdge_safe _ _ _ e
    · cases e
  rw [if_neg h4] at he
  by_cases h5 : k.name = c!"children"
  · rw [if_pos h5] at he
    rcases SOut.bind_crash he with e | ⟨_, _, e⟩
    · exact childEdges_safe e
    · cases e
  rw [if_neg h5] at he
  by_cases h6 : k.name = c!"excludedOptions"
  · rw [if_pos h6] at he
    rcases SOut.bind_crash he with e | ⟨_, _, e⟩
    · exact pairConstraints_safe (.inr rfl) e
    · cases e
  rw [if_neg h6] at he
  by_cases h7 : k.name = c!"impliedOptions"
  · rw [if_pos h7] at he
    rcases SOut.bind_crash he with e | ⟨_, _, e⟩
    · exact pairConstraints_safe (.inl rfl) e
    · cases e
  rw [if_neg h7] at he
  by_cases h8 : k.name = c!"locations"
  · rw [if_pos h8] at he
    split at he
    · cases he
    · rename_i h; exact sourceRanges_safe hv hh (fun c hc => within_kid hw hc) h
  rw [if_neg h8] at he
  split at he
  · exact numElem_safe h0 he
  · cases he

theorem optElems_safe {x : Xml} (hv : Conforms x) (hh : Harmless x) : ∀ {ks : List Xml} {s : OptSt}, (∀ k ∈ ks, Within k x) →
    optElems sci num s ks ≠ .crash
  | [], s, _ => by simp [optElems]
  | k :: ks, s, h => by
    intro he
    rcases SOut.bind_crash he with e | ⟨s1, _, e⟩
    · exact optElem_safe hv hh (h k (by simp)) e
    · exact optElems_safe hv hh (fun k hk => h k (by simp [hk])) e

theorem parseOptions_safe {x : Xml} (hv : Conforms x) (hh : Harmless x) : ∀ {ks : List Xml} {calls : List BCall}, (∀ k ∈ ks, Within k x) →
    parseOptions sci num calls ks ≠ .crash
  | [], calls, _ => by simp [parseOptions]
  | k :: ks, calls, h => by
    intro he
    unfold parseOptions at he
    split at he
    · rcases SOut.bind_crash he with e | ⟨c1, _, e⟩
      · rcases SOut.bind_crash e with e | ⟨s, _, e⟩
        · exact optElems_safe hv hh (fun c hc => within_kid (h k (by simp)) hc) e
        · cases e
      · exact parseOptions_safe hv hh (fun k hk => h k (by simp [hk])) e
    · exact parseOptions_safe hv hh (fun k hk => h k (by simp [hk])) he

theorem constraintKind_safe {cl : CClass} {k : Xml}
    (h : cl = .mixed → k.prop c!"req" ≠ none ∧ k.prop c!"exprKind" ≠ none) : constraintKind cl k ≠ none := by
  unfold constraintKind
  cases cl with
  | boolean => simp
  | nonBoolean => simp
  | mixed =>
    obtain ⟨h1, h2⟩ := h rfl
    obtain ⟨a, ha⟩ := Option.ne_none_iff_exists'.1 h1
    obtain ⟨b, hb⟩ := Option.ne_none_iff_exists'.1 h2
    simp [ha, hb]

theorem parseConstraints_safe {cl : CClass} : ∀ {ks : List Xml} {calls : List BCall},
    (∀ k ∈ ks, k.name = c!"constraint" → k.content ≠ [] ∧ (cl = .mixed → k.prop c!"req" ≠ none ∧ k.prop c!"exprKind" ≠ none)) →
    parseConstraints sci cl calls ks ≠ .crash
  | [], calls, _ => by simp [parseConstraints]
  | k :: ks, calls, h => by
    have ih : ∀ calls, parseConstraints sci cl calls ks ≠ .crash := fun calls => parseConstraints_safe fun k hk => h k (by simp [hk])
    unfold parseConstraints
    split
    · rename_i hn
      obtain ⟨h1, h2⟩ := h k (by simp) hn
      rcases parseText_total sci h1 with e | ⟨c, e⟩
      · rw [e]; simp
      · rw [e]
        dsimp only
        split
        · exact ih _
        · rename_i h3; exact absurd h3 (constraintKind_safe h2)
    · exact ih _

/-- A document that conforms to the declarations, without the three defects, is read without a crash. -/
theorem parseVm_safe {cwd : Str} {x : Xml} (hv : Conforms x) (hh : Harmless x) : parseVm sci cwd x ≠ .crash := by
  have key : ∀ {ks : List Xml} {calls : List BCall}, (∀ k ∈ ks, Within k x) → vmElems sci calls ks ≠ .crash := by
    intro ks
    induction ks with
    | nil => intro calls _; simp [vmElems]
    | cons k ks ih =>
      intro calls h he
      have hw := h k (by simp)
      have hk : ∀ c ∈ k.kids, Within c x := fun c hc => within_kid hw hc
      have hcon : ∀ c ∈ k.kids, c.name = c!"constraint" → c.content ≠ [] := fun c hc hn => hh.constraint c (hk c hc) hn
      rcases SOut.bind_crash he with e1 | ⟨c1, _, e1⟩
      · unfold vmElem at e1
        by_cases h1 : k.name = c!"binaryOptions"
        · rw [if_pos h1] at e1; exact parseOptions_safe hv hh hk e1
        rw [if_neg h1] at e1
        by_cases h2 : k.name = c!"numericOptions"
        · rw [if_pos h2] at e1; exact parseOptions_safe hv hh hk e1
        rw [if_neg h2] at e1
        by_cases h3 : k.name = c!"booleanConstraints"
        · rw [if_pos h3] at e1; exact parseConstraints_safe (cl := .boolean) (fun c hc hn => ⟨hcon c hc hn, fun h => by cases h⟩) e1
        rw [if_neg h3] at e1
        by_cases h4 : k.name = c!"nonBooleanConstraints"
        · rw [if_pos h4] at e1; exact parseConstraints_safe (cl := .nonBoolean) (fun c hc hn => ⟨hcon c hc hn, fun h => by cases h⟩) e1
        rw [if_neg h4] at e1
        by_cases h5 : k.name = c!"mixedConstraints"
        · rw [if_pos h5] at e1
          exact parseConstraints_safe (fun c hc hn => ⟨hcon c hc hn, fun _ => hh.mixed k hw h5 c hc hn⟩) e1
        rw [if_neg h5] at e1
        cases e1
      · exact ih (fun k hk => h k (by simp [hk])) e1
  exact key fun k hk => within_kid .here hk

end

/-! ## Contradicting parents -/

/-- The result is the given one unless reading fails. -/
def OrFail {α : Type} (o : SOut α) (a : α) : Prop := o = .ok a ∨ o = .fail

theorem OrFail.bind {α β : Type} {o : SOut α} {f : α → SOut β} {a : α} {b : β} (h : OrFail o a) (hf : OrFail (f a) b) :
    OrFail (o.bind f) b := by
  rcases h with rfl | rfl
  · exact hf
  · exact .inr rfl

theorem tryEdge_orFail (calls : List BCall) (p c : Str) : OrFail (tryEdge calls p c) (calls ++ [.addEdge p c]) := by
  unfold tryEdge
  split
  · split
    · exact .inl rfl
    · exact .inr rfl
  · exact .inl rfl

theorem childEdges_orFail (n : Str) : ∀ (cs : List Str) (calls : List BCall),
    OrFail (childEdges n calls (cs.map (leaf c!"options"))) (calls ++ cs.map (.addEdge n))
  | [], calls => by simp [childEdges, OrFail]
  | c :: cs, calls => by
    have e : (leaf c!"options" c).name = c!"options" := rfl
    simp only [List.map_cons, childEdges, e, if_true, content_leaf]
    rcases tryEdge_orFail calls n c with h | h
    · rw [h]
      have := childEdges_orFail n cs (calls ++ [.addEdge n c])
      simpa [List.append_assoc] using this
    · rw [h]; exact .inr rfl

section
variable (sci : Str → Option Str) (num : Bool)

theorem OrFail.ok {α : Type} {o : SOut α} {a : α} (h : o = .ok a) : OrFail o a := .inl h

theorem parseOption_orFail {o : DocOption} (calls : List BCall) (h : o.Ok) :
    OrFail (parseOption sci num calls o.toXml) (calls ++ optCalls num o) := by
  rw [parseOption_split sci num calls h]
  refine OrFail.bind (a := { name := o.name, output := o.output.getD [], calls := calls ++ optEdges o }) ?_
    (.inl (parseOption_rest sci num calls h))
  rw [optElems_append]
  refine OrFail.bind (a := OptSt.mk o.name (o.output.getD []) false 0 0 [] [] none
    (calls ++ o.parent.toList.map (fun p => .addEdge p o.name))) ?_ ?_
  · cases ho : o.parent with
    | none => simp [optLeaf, optElems, OrFail]
    | some p =>
      have hs := h.parent p ho
      have e : (leaf c!"parent" p).name = c!"parent" := rfl
      simp only [optLeaf, optElems, optElem, content_leaf, e, trimC_solid hs]
      rw [if_neg hs.nonempty, if_neg (by decide), if_neg (by decide), if_neg (by decide), if_pos trivial]
      refine OrFail.bind (OrFail.bind (tryEdge_orFail calls p o.name) (.inl rfl)) (.inl rfl)
  · unfold namesXml
    by_cases hc : o.children = []
    · rw [if_pos hc]; simp [optElems, OrFail, optEdges, hc]
    · rw [if_neg hc]
      have e : (group c!"children" (o.children.map (leaf c!"options"))).name = c!"children" := rfl
      have e2 : (group c!"children" (o.children.map (leaf c!"options"))).kids = o.children.map (leaf c!"options") := rfl
      simp only [optElems, optElem, content_group, contents_leaves, e, e2]
      rw [if_neg (trimC_ne_nil (flatten_visible hc h.children)), if_neg (by decide), if_neg (by decide), if_neg (by decide),
        if_neg (by decide), if_pos trivial]
      refine OrFail.bind (OrFail.bind (childEdges_orFail o.name o.children _) (.inl rfl)) (.inl ?_)
      simp [optEdges, List.append_assoc]

theorem parseOptions_orFail : ∀ (os : List DocOption) (calls : List BCall), (∀ o ∈ os, o.Ok) →
    OrFail (parseOptions sci num calls (os.map DocOption.toXml)) (calls ++ os.flatMap (optCalls num))
  | [], calls, _ => by simp [parseOptions, OrFail]
  | o :: os, calls, h => by
    have e : o.toXml.name = c!"configurationOption" := rfl
    simp only [List.map_cons, parseOptions, e, if_true, List.flatMap_cons]
    rw [← List.append_assoc]
    exact (parseOption_orFail sci num calls (h o (by simp))).bind (parseOptions_orFail os _ (fun x hx => h x (by simp [hx])))

end

/-- A document is read as the calls it stands for, or rejected. -/
theorem parseVm_orFail {sci : Str → Option Str} (cwd : Str) {x : Spec.Doc} (h : x.Ok sci) :
    OrFail (parseVm sci cwd x.toXml) (docCalls cwd x) := by
  have hk : x.toXml.kids = [group c!"binaryOptions" (x.binary.map DocOption.toXml)] ++
      groupXml c!"numericOptions" DocOption.toXml x.numeric ++
      groupXml c!"booleanConstraints" DocConstraint.toXml (x.constraints .boolean) ++
      groupXml c!"nonBooleanConstraints" DocConstraint.toXml (x.constraints .nonBoolean) ++
      groupXml c!"mixedConstraints" DocConstraint.toXml (x.constraints .mixed) := rfl
  have one : ∀ {s s' : List BCall} {k : Xml}, OrFail (vmElem sci s k) s' → OrFail (vmElems sci s [k]) s' := by
    intro s s' k hs
    exact hs.bind (.inl rfl)
  unfold parseVm
  rw [vm_head cwd h, hk, vmElems_append, vmElems_append, vmElems_append, vmElems_append]
  have e : docCalls cwd x = ((([.setVmName x.name, .setPath (x.path.getD cwd), .setCommit (x.commit.getD [])] ++
      x.binary.flatMap (optCalls false)) ++ (x.numeric.getD []).flatMap (optCalls true)) ++
      ((x.constraints .boolean).getD []).map fun c => .addConstraint c.kind c.tree) ++
      (((x.constraints .nonBoolean).getD []).map fun c => .addConstraint c.kind c.tree) ++
      (((x.constraints .mixed).getD []).map fun c => .addConstraint c.kind c.tree) := by
    simp [docCalls, Doc.options, Doc.ofClass, List.flatMap_map, List.flatMap_append, List.map_map, Function.comp_def]
  rw [e]
  refine OrFail.bind (OrFail.bind (OrFail.bind (OrFail.bind
    (a := [.setVmName x.name, .setPath (x.path.getD cwd), .setCommit (x.commit.getD [])] ++ x.binary.flatMap (optCalls false))
    ?_ ?_) (.inl (vm_constraints (by simp) (h.constraints .boolean) _)))
    (.inl (vm_constraints (by simp) (h.constraints .nonBoolean) _))) (.inl (vm_constraints (by simp) (h.constraints .mixed) _))
  · refine one ?_
    unfold vmElem
    rw [if_pos (show (group c!"binaryOptions" (x.binary.map DocOption.toXml)).name = c!"binaryOptions" from rfl)]
    exact parseOptions_orFail sci false x.binary _ h.binary
  · cases hn : x.numeric with
    | none => simp [groupXml, vmElems, OrFail]
    | some l =>
      refine one ?_
      have e : (group c!"numericOptions" (l.map DocOption.toXml)).name = c!"numericOptions" := rfl
      unfold vmElem
      rw [e, if_neg (by decide), if_pos rfl]
      exact parseOptions_orFail sci true l _ (h.numeric l hn)

/-- Reading fails exactly when the document gives some feature two parents. -/
theorem parseVm_doc {sci : Str → Option Str} (cwd : Str) {x : Spec.Doc} (h : x.Ok sci) :
    (OneParent (docCalls cwd x) → parseVm sci cwd x.toXml = .ok (docCalls cwd x)) ∧
    (¬ OneParent (docCalls cwd x) → parseVm sci cwd x.toXml = .fail) := by
  constructor
  · intro ho
    have hpar : ∀ p c, .addEdge p c ∈ docCalls cwd x → (parentName (docCalls cwd x) c).getD [] = p := by
      intro p c hm
      cases hn : parentName (docCalls cwd x) c with
      | none => exact absurd hm (parentName_none hn p)
      | some q => exact ho q p c (parentName_mem hn) hm
    exact parseVm_read cwd h (par := fun c => (parentName (docCalls cwd x) c).getD [])
      (fun o ho p hp => hpar _ _ (docCalls_edges.2 ⟨o, ho, .inl ⟨hp, rfl⟩⟩))
      (fun o ho c hc => hpar _ _ (docCalls_edges.2 ⟨o, ho, .inr ⟨rfl, hc⟩⟩))
  · intro ho
    rcases parseVm_orFail cwd h with h1 | h1
    · exact absurd (parseVm_sane h1).parents ho
    · exact h1

end Verif.Xml

import Verif.Xml.General
import Verif.Xml.Alternatives
import Verif.FM.LooseGroups
/-!
# Loading without a crash

What building and the search for alternative groups need so as not to go wrong, whatever the parents in the
document are.
-/

namespace Verif.Spec
open Verif Verif.Xml Verif.Sxfm

/-- The names that make an option the root. -/
def RootName (n : Str) : Prop := n = c!"root" ∨ n = c!"base"

/-- The name of an option: the text of its first element without blanks around it; without a name it is the root. -/
def optionName (o : Xml) : Str :=
  match o.kids with
  | [] => c!"root"
  | k :: _ => if trimC k.content = [] then c!"root" else trimC k.content

/-- The document says that the parent of `c` is `p`: in the option of `c` or among the children of `p`. -/
inductive States (x : Xml) : Str → Str → Prop
  | parent {o k} : Within o x → o.name = c!"configurationOption" → k ∈ o.kids → k.name = c!"parent" →
      trimC k.content ≠ [] → States x (trimC k.content) (optionName o)
  | child {o g k} : Within o x → o.name = c!"configurationOption" → g ∈ o.kids → g.name = c!"children" →
      k ∈ g.kids → k.name = c!"options" → States x (optionName o) k.content

/-- Going from parent to parent ends at the root or at a feature without a parent in the document. -/
inductive LeadsUp (x : Xml) : Str → Prop
  | root {n} : RootName n → LeadsUp x n
  | up {n} : (∀ p, States x p n → LeadsUp x p) → LeadsUp x n

/-- If the root has a parent, going up from there does not end in a cycle away from the root. -/
def RootTied (x : Xml) : Prop := ∀ p r, RootName r → States x p r → LeadsUp x p

end Verif.Spec

namespace Verif.Xml
open Verif Verif.Spec Verif.Sxfm

/-! ## The calls -/

/-- What a document says about a call. -/
def Good (x : Xml) : BCall → Prop
  | .addEdge p c => States x p c
  | .makeFeature a => a.kind ≠ .root ∧ ¬ RootName a.name
  | .makeRoot n => RootName n
  | .emplaceRelationship _ _ => False
  | _ => True

def AllGood (x : Xml) (calls : List BCall) : Prop := ∀ c ∈ calls, Good x c

theorem AllGood.push {x : Xml} {calls : List BCall} (h : AllGood x calls) {c : BCall} (hc : Good x c) : AllGood x (calls ++ [c]) := by
  intro b hb
  rcases List.mem_append.1 hb with hb | hb
  · exact h b hb
  · rw [List.mem_singleton.1 hb]; exact hc

theorem tryEdge_calls {calls calls' : List BCall} {p c : Str} (ht : tryEdge calls p c = .ok calls') : calls' = calls ++ [.addEdge p c] := by
  unfold tryEdge at ht
  split at ht
  · split at ht
    · cases ht; rfl
    · cases ht
  · cases ht; rfl

/-- The names in a content particle. -/
def Particle.names : Particle → List Str
  | .empty => []
  | .elem n => [n]
  | .seq p q => names p ++ names q
  | .alt p q => names p ++ names q
  | .opt p => names p
  | .star p => names p

theorem matches_names {p : Particle} {l : List Str} (h : Matches p l) : ∀ n ∈ l, n ∈ Particle.names p := by
  induction h with
  | empty => simp
  | elem => simp [Particle.names]
  | seq _ _ ih1 ih2 =>
    intro n hn
    rcases List.mem_append.1 hn with hn | hn
    · exact List.mem_append_left _ (ih1 n hn)
    · exact List.mem_append_right _ (ih2 n hn)
  | left _ ih => intro n hn; exact List.mem_append_left _ (ih n hn)
  | right _ ih => intro n hn; exact List.mem_append_right _ (ih n hn)
  | none => simp
  | some _ ih => exact ih
  | done => simp
  | more _ _ ih1 ih2 =>
    intro n hn
    rcases List.mem_append.1 hn with hn | hn
    · exact ih1 n hn
    · exact ih2 n hn

/-- An option starts with its name and has no other. -/
theorem option_kids {o : Xml} (hv : Conforms o) (hn : o.name = c!"configurationOption") :
    ∃ k ks, o.kids = k :: ks ∧ k.name = c!"name" ∧ ∀ e ∈ ks, e.name ≠ c!"name" := by
  cases hv with
  | @mk n as t ks decl h1 h2 h3 h4 =>
    have hn : n = c!"configurationOption" := hn
    subst hn
    cases h1
    obtain ⟨_, hm⟩ := h2
    generalize hl : ks.map Xml.name = l at hm
    cases hm with
    | @seq _ _ a b ha hb =>
      cases ha
      cases ks with
      | nil => cases hl
      | cons k ks =>
        simp only [List.map_cons, List.cons_append, List.nil_append, List.cons.injEq] at hl
        refine ⟨k, ks, rfl, hl.1, ?_⟩
        intro e he hen
        have hmem : c!"name" ∈ b := by rw [← hl.2, ← hen]; exact List.mem_map_of_mem he
        have := matches_names hb _ hmem
        revert this
        decide

section
variable {sci : Str → Option Str} {num : Bool} {x o : Xml}

theorem childEdges_good (ho : Within o x) (hn : o.name = c!"configurationOption") {g : Xml} (hg : g ∈ o.kids)
    (hgn : g.name = c!"children") : ∀ {ks : List Xml} {calls calls' : List BCall}, (∀ k ∈ ks, k ∈ g.kids) → AllGood x calls →
    childEdges (optionName o) calls ks = .ok calls' → AllGood x calls'
  | [], calls, calls', _, h, he => by cases he; exact h
  | k :: ks, calls, calls', hk, h, he => by
    unfold childEdges at he
    split at he
    · split at he
      · rename_i hko _ _ h1
        rw [tryEdge_calls h1] at he
        exact childEdges_good ho hn hg hgn (fun k hk' => hk k (by simp [hk'])) (h.push (c := .addEdge (optionName o) k.content)
          (States.child ho hn hg hgn (hk k (by simp)) hko)) he
      · cases he
      · cases he
    · exact childEdges_good ho hn hg hgn (fun k hk' => hk k (by simp [hk'])) h he

theorem pairConstraints_good {op : BinOp} {name : Str} : ∀ {ks : List Xml} {calls calls' : List BCall}, AllGood x calls →
    pairConstraints op name calls ks = .ok calls' → AllGood x calls'
  | [], calls, calls', h, he => by cases he; exact h
  | k :: ks, calls, calls', h, he => by
    unfold pairConstraints at he
    split at he
    · split at he
      · exact pairConstraints_good (h.push (c := .addConstraint _ _) trivial) he
      · cases he
    · exact pairConstraints_good h he

theorem numElem_name {s s' : OptSt} {t n : Str} (h : numElem sci s t n = .ok s') : s'.name = s.name := by
  unfold numElem at h
  split at h
  · cases h; rfl
  · split at h
    · cases h; rfl
    · split at h
      · cases h; rfl
      · split at h
        · split at h
          · cases h; rfl
          · cases h; rfl
          · cases h
        · cases h; rfl

theorem optElem_good (ho : Within o x) (hn : o.name = c!"configurationOption") {s s' : OptSt} {k : Xml} (hk : k ∈ o.kids)
    (hkn : k.name ≠ c!"name") (hs : s.name = optionName o) (h : AllGood x s.calls) (he : optElem sci num s k = .ok s') :
    s'.name = optionName o ∧ AllGood x s'.calls := by
  unfold optElem at he
  by_cases h0 : trimC k.content = []
  · rw [if_pos h0] at he; cases he; exact ⟨hs, h⟩
  rw [if_neg h0, if_neg hkn] at he
  by_cases h2 : k.name = c!"outputString"
  · rw [if_pos h2] at he; cases he; exact ⟨hs, h⟩
  rw [if_neg h2] at he
  by_cases h3 : k.name = c!"optional"
  · rw [if_pos h3] at he; cases he; exact ⟨hs, h⟩
  rw [if_neg h3] at he
  by_cases h4 : k.name = c!"parent"
  · rw [if_pos h4] at he
    obtain ⟨cs, e1, e2⟩ := SOut.bind_ok he
    cases e2
    refine ⟨hs, ?_⟩
    simp only
    rw [tryEdge_calls e1, hs]
    exact h.push (c := .addEdge (trimC k.content) (optionName o)) (States.parent ho hn hk h4 h0)
  rw [if_neg h4] at he
  by_cases h5 : k.name = c!"children"
  · rw [if_pos h5] at he
    obtain ⟨cs, e1, e2⟩ := SOut.bind_ok he
    cases e2
    rw [hs] at e1
    exact ⟨hs, childEdges_good ho hn hk h5 (fun _ h => h) h e1⟩
  rw [if_neg h5] at he
  by_cases h6 : k.name = c!"excludedOptions"
  · rw [if_pos h6] at he
    obtain ⟨cs, e1, e2⟩ := SOut.bind_ok he
    cases e2; exact ⟨hs, pairConstraints_good h e1⟩
  rw [if_neg h6] at he
  by_cases h7 : k.name = c!"impliedOptions"
  · rw [if_pos h7] at he
    obtain ⟨cs, e1, e2⟩ := SOut.bind_ok he
    cases e2; exact ⟨hs, pairConstraints_good h e1⟩
  rw [if_neg h7] at he
  by_cases h8 : k.name = c!"locations"
  · rw [if_pos h8] at he
    split at he
    · cases he; exact ⟨hs, h⟩
    · cases he
  rw [if_neg h8] at he
  split at he
  · rw [numElem_calls he, numElem_name he]; exact ⟨hs, h⟩
  · cases he; exact ⟨hs, h⟩

theorem optElems_good (ho : Within o x) (hn : o.name = c!"configurationOption") : ∀ {ks : List Xml} {s s' : OptSt},
    (∀ k ∈ ks, k ∈ o.kids ∧ k.name ≠ c!"name") → s.name = optionName o → AllGood x s.calls → optElems sci num s ks = .ok s' →
    s'.name = optionName o ∧ AllGood x s'.calls
  | [], s, s', _, hs, h, he => by cases he; exact ⟨hs, h⟩
  | k :: ks, s, s', hk, hs, h, he => by
    obtain ⟨s1, e1, e2⟩ := SOut.bind_ok he
    obtain ⟨g1, g2⟩ := optElem_good ho hn (hk k (by simp)).1 (hk k (by simp)).2 hs h e1
    exact optElems_good ho hn (fun k' h' => hk k' (by simp [h'])) g1 g2 e2

theorem optCall_good {s : OptSt} : Good x (optCall num s) := by
  unfold optCall
  by_cases h : s.name = c!"root" ∨ s.name = c!"base"
  · rw [if_pos h]; exact h
  · rw [if_neg h]
    split
    · exact ⟨by simp, h⟩
    · exact ⟨by simp, h⟩

theorem parseOption_good (hv : Conforms x) (ho : Within o x) (hn : o.name = c!"configurationOption") {calls calls' : List BCall}
    (h : AllGood x calls) (he : parseOption sci num calls o = .ok calls') : AllGood x calls' := by
  obtain ⟨s, e1, e2⟩ := SOut.bind_ok he
  cases e2
  obtain ⟨k, ks, hks, hkn, hrest⟩ := option_kids (valid_within ho hv) hn
  rw [hks] at e1
  obtain ⟨s1, e3, e4⟩ := SOut.bind_ok e1
  have h1 : s1.name = optionName o ∧ s1.calls = calls := by
    unfold optElem at e3
    unfold optionName
    rw [hks]
    simp only
    by_cases h0 : trimC k.content = []
    · rw [if_pos h0] at e3 ⊢; cases e3; exact ⟨rfl, rfl⟩
    · rw [if_neg h0, if_pos hkn] at e3
      rw [if_neg h0]
      cases e3; exact ⟨rfl, rfl⟩
  have := (optElems_good ho hn (ks := ks) (s := s1) (fun e he => ⟨by rw [hks]; simp [he], hrest e he⟩) h1.1
    (by rw [h1.2]; exact h) e4).2
  exact this.push optCall_good

theorem parseOptions_good (hv : Conforms x) : ∀ {ks : List Xml} {calls calls' : List BCall}, (∀ k ∈ ks, Within k x) → AllGood x calls →
    parseOptions sci num calls ks = .ok calls' → AllGood x calls'
  | [], calls, calls', _, h, he => by cases he; exact h
  | k :: ks, calls, calls', hw, h, he => by
    unfold parseOptions at he
    split at he
    · obtain ⟨c1, e1, e2⟩ := SOut.bind_ok he
      rename_i hn
      exact parseOptions_good hv (fun k' h' => hw k' (by simp [h'])) (parseOption_good hv (hw k (by simp)) hn h e1) e2
    · exact parseOptions_good hv (fun k' h' => hw k' (by simp [h'])) h he

theorem parseConstraints_good {cl : CClass} : ∀ {ks : List Xml} {calls calls' : List BCall}, AllGood x calls →
    parseConstraints sci cl calls ks = .ok calls' → AllGood x calls'
  | [], calls, calls', h, he => by cases he; exact h
  | k :: ks, calls, calls', h, he => by
    unfold parseConstraints at he
    split at he
    · split at he
      · split at he
        · exact parseConstraints_good (h.push (c := .addConstraint _ _) trivial) he
        · cases he
      · cases he
      · cases he
    · exact parseConstraints_good h he

theorem vmElems_good (hv : Conforms x) : ∀ {ks : List Xml} {calls calls' : List BCall}, (∀ k ∈ ks, Within k x) → AllGood x calls →
    vmElems sci calls ks = .ok calls' → AllGood x calls'
  | [], calls, calls', _, h, he => by cases he; exact h
  | k :: ks, calls, calls', hw, h, he => by
    obtain ⟨c1, e1, e2⟩ := SOut.bind_ok he
    refine vmElems_good hv (fun k' h' => hw k' (by simp [h'])) ?_ e2
    have hin : ∀ e ∈ k.kids, Within e x := fun e he => within_kid (hw k (by simp)) he
    unfold vmElem at e1
    by_cases h1 : k.name = c!"binaryOptions"
    · rw [if_pos h1] at e1; exact parseOptions_good hv hin h e1
    rw [if_neg h1] at e1
    by_cases h2 : k.name = c!"numericOptions"
    · rw [if_pos h2] at e1; exact parseOptions_good hv hin h e1
    rw [if_neg h2] at e1
    by_cases h3 : k.name = c!"booleanConstraints"
    · rw [if_pos h3] at e1; exact parseConstraints_good h e1
    rw [if_neg h3] at e1
    by_cases h4 : k.name = c!"nonBooleanConstraints"
    · rw [if_pos h4] at e1; exact parseConstraints_good h e1
    rw [if_neg h4] at e1
    by_cases h5 : k.name = c!"mixedConstraints"
    · rw [if_pos h5] at e1; exact parseConstraints_good h e1
    rw [if_neg h5] at e1
    cases e1; exact h

theorem parseVm_good (hv : Conforms x) {cwd : Str} {calls : List BCall} (h : parseVm sci cwd x = .ok calls) : AllGood x calls := by
  refine vmElems_good hv (fun k hk => .inside hk .here) ?_ h
  intro c hc
  simp only [List.mem_cons, List.not_mem_nil, or_false] at hc
  rcases hc with rfl | rfl | rfl <;> trivial

end

/-! ## Building -/

/-- The model while the calls are carried out. -/
structure Built (calls : List BCall) (m : FModel) : Prop where
  loose : Loose m
  bound : Bound m
  /-- what is listed as an exclusion exists -/
  excl : ∀ i f, Known m i → data m i = some (.feat f) → ∀ r ∈ f.excludes, ∃ s, (m.store r.cls)[r.idx]? = some s
  /-- a parent is the root or was asked for -/
  parents : ∀ n i p, (n, i) ∈ m.features → par m i = some p →
    m.root = some p ∨ ∃ q, (q, p) ∈ m.features ∧ .addEdge q n ∈ calls
  rootName : ∀ r, m.root = some r → ∃ n, (n, r) ∈ m.features ∧ RootName n
  onlyRoot : ∀ n i, (n, i) ∈ m.features → RootName n → m.root = some i

theorem mem_attrsOf {calls : List BCall} {a : Attr} : a ∈ attrsOf calls ↔ .makeFeature a ∈ calls := by
  unfold attrsOf
  rw [List.mem_filterMap]
  constructor
  · rintro ⟨c, h1, h2⟩
    cases c <;> simp at h2
    subst h2; exact h1
  · intro h; exact ⟨_, h, rfl⟩

theorem mem_rootsOf {calls : List BCall} {n : Str} : n ∈ rootsOf calls ↔ .makeRoot n ∈ calls := by
  unfold rootsOf
  rw [List.mem_filterMap]
  constructor
  · rintro ⟨c, h1, h2⟩
    cases c <;> simp at h2
    subst h2; exact h1
  · intro h; exact ⟨_, h, rfl⟩

theorem lastOr_mem : ∀ (l : List Str) (d : Str), lastOr d l = d ∨ lastOr d l ∈ l
  | [], _ => .inl rfl
  | x :: xs, d => by
    rcases lastOr_mem xs x with h | h
    · exact .inr (by rw [show lastOr d (x :: xs) = lastOr x xs from rfl, h]; simp)
    · exact .inr (by rw [show lastOr d (x :: xs) = lastOr x xs from rfl]; simp [h])

/-- After the first phase. -/
theorem built_phase1 {calls : List BCall} {m : FModel} (hk : ∀ a, .makeFeature a ∈ calls → ¬ RootName a.name)
    (hr : ∀ n, .makeRoot n ∈ calls → RootName n)
    (h : Describes { freshDesc with attrs := freshDesc.attrs ++ attrsOf calls, root := lastOr freshDesc.root (rootsOf calls),
                                    parent := fun _ => lastOr freshDesc.root (rootsOf calls) } m) : Built calls m := by
  have hrels := h.no_rels rfl
  have hst := h.store_nil rfl
  have hrn : RootName (lastOr freshDesc.root (rootsOf calls)) := by
    rcases lastOr_mem (rootsOf calls) freshDesc.root with e | e
    · rw [e]; exact .inl rfl
    · exact hr _ (mem_rootsOf.1 e)
  obtain ⟨r, rf, r1, r2, r3, r4⟩ := h.root
  refine ⟨loose_of_WF h.wf hrels, h.bound, ?_, ?_, ?_, ?_⟩
  · intro i f hi hf r hr
    rw [((registered_nil hst).1 h.registered i f hi hf).2.2] at hr
    cases hr
  · intro n i p hi hp
    left
    rcases (h.names n).1 ⟨i, hi⟩ with hn | hn
    · subst hn
      have := h.wf.entry_unique hi r2
      subst this
      exact absurd ((flat_par h.wf hrels (.inl (known_of_mem hi))).2 hp) (root_no_fparent h.wf r1)
    · obtain ⟨a, ha, rfl⟩ := List.mem_map.1 hn
      obtain ⟨i', f, p', f1, f2, f3, f4, f5⟩ := h.feat a ha
      have := h.wf.entry_unique f1 hi
      subst this
      rw [flat_par h.wf hrels (.inl (known_of_mem f1)), hp] at f5
      cases f5
      rw [h.wf.entry_unique f4 r2]; exact r1
  · intro r' hr'
    rw [r1] at hr'; cases hr'
    exact ⟨_, r2, hrn⟩
  · intro n i hi hn
    rcases (h.names n).1 ⟨i, hi⟩ with e | e
    · subst e; rw [h.wf.entry_unique hi r2]; exact r1
    · obtain ⟨a, ha, rfl⟩ := List.mem_map.1 e
      exact absurd hn (hk a (mem_attrsOf.1 (by simpa [freshDesc] using ha)))

theorem regs_excludes {tree : Constraint} {root r : CRoot} {ks : List Nat} {f : Feat} (h : r ∈ (regs tree root ks f).excludes) :
    r ∈ f.excludes ∨ r = root := by
  unfold regs at h
  induction ks generalizing f with
  | nil => exact .inl h
  | cons k ks ih =>
    rw [List.foldl_cons] at h
    rcases ih h with h | h
    · unfold Feat.register at h
      split at h
      · exact .inl h
      · simp only [List.mem_append, List.mem_singleton] at h
        exact h
      · exact .inl h
    · exact .inr h

/-- The modifications the builder makes of the calls without features and groups. -/
inductive ByName (calls : List BCall) : Op → Prop
  | addChild {p c} : .addEdge p c ∈ calls → ByName calls (.addChild (.name p) (.name c))
  | addConstraint {k c} : ByName calls (.addConstraint k c)
  | setName {n} : ByName calls (.setName n)
  | setPath {n} : ByName calls (.setPath n)
  | setCommit {n} : ByName calls (.setCommit n)

theorem built_rename {calls : List BCall} {m : FModel} (h : Built calls m) (n p c : Str) : Built calls { m with name := n, path := p, commit := c } where
  loose := loose_of_sameTree h.loose ⟨rfl, rfl, rfl, rfl, rfl, rfl, fun _ => .refl _⟩
  bound := bound_keep h.bound rfl (fun _ he _ => he)
  excl := by
    intro i f hi hf r hr
    obtain ⟨s, hs⟩ := h.excl i f hi hf r hr
    exact ⟨s, by cases hc : r.cls <;> rw [hc] at hs <;> exact hs⟩
  parents := h.parents
  rootName := h.rootName
  onlyRoot := h.onlyRoot

theorem exec_built {calls : List BCall} {m : FModel} (E : Env) (h : Built calls m) {o : Op} (ho : ByName calls o) :
    (∃ e m', FModel.exec E m o = .err e m') ∨ ∃ m', FModel.exec E m o = .ok m' ∧ Built calls m' := by
  cases ho with
  | setName => exact .inr ⟨_, rfl, built_rename h _ m.path m.commit⟩
  | setPath => exact .inr ⟨_, rfl, built_rename h m.name _ m.commit⟩
  | setCommit => exact .inr ⟨_, rfl, built_rename h m.name m.path _⟩
  | @addConstraint k c =>
    obtain ⟨m', h1, h2⟩ := execAddConstraint_named h.loose.named k c
    simp only [FModel.exec]
    rw [h1]
    split
    · refine .inr ⟨m', rfl, ?_⟩
      have hst : ∀ (r : CRoot) s, (m.store r.cls)[r.idx]? = some s → ∃ s, (m'.store r.cls)[r.idx]? = some s := by
        intro r s hs
        rw [h2.store]
        split
        · exact ⟨s, by rw [List.getElem?_append_left (List.getElem?_eq_some_iff.1 hs).1]; exact hs⟩
        · exact ⟨s, hs⟩
      have t := sameTree_of_constraintAdded h.loose.named h2
      refine ⟨loose_of_sameTree h.loose t, bound_of_constraintAdded h.bound h2, ?_, ?_, ?_, ?_⟩
      · intro i f hi hf r hr
        have hi' : Known m i := by unfold Known at hi ⊢; rw [t.features] at hi; exact hi
        obtain ⟨g, hg⟩ := h.loose.known_data hi'
        rw [h2.known i g hi' hg] at hf
        cases hf
        rcases regs_excludes hr with hr | hr
        · obtain ⟨s, hs⟩ := h.excl i g hi' hg r hr
          exact hst r s hs
        · subst hr
          rw [h2.store]
          simp
      · intro n i p hi hp
        rw [t.features] at hi ⊢
        rw [t.par] at hp
        rw [t.root]
        exact h.parents n i p hi hp
      · intro r hr
        rw [t.root] at hr
        rw [t.features]; exact h.rootName r hr
      · intro n i hi hn
        rw [t.features] at hi
        rw [t.root]; exact h.onlyRoot n i hi hn
    · exact .inl ⟨_, _, rfl⟩
  | @addChild p c hpc =>
    simp only [FModel.exec]
    cases hc : m.getFeature c with
    | none => exact .inl ⟨.missingChild, m, by simp only [FModel.execAddChild, FModel.resolve, hc]⟩
    | some ci =>
      cases hp : m.getFeature p with
      | none => exact .inl ⟨.missingParent, m, by simp only [FModel.execAddChild, FModel.resolve, hc, hp]⟩
      | some pi =>
        by_cases hne : ci = pi
        · exact .inl ⟨.recursiveEdge, m, by simp only [FModel.execAddChild, FModel.resolve, hc, hp, if_pos hne]⟩
        · have hkp := getFeature_known hp
          have hkc := getFeature_known hc
          obtain ⟨m', h1, h2⟩ := addChild_loose h.loose (pr := .name p) (cr := .name c) (by simp [FModel.resolve, hp])
            (by simp [FModel.resolve, hc]) hkp hkc hne
          refine .inr ⟨m', h1, loose_of_moved h.loose h2 hkp hkc, ?_, ?_, ?_, ?_, ?_⟩
          · exact bound_keep h.bound (allStored_eq h2.rest.booleans h2.rest.nonBooleans h2.rest.mixeds)
              (fun e he _ => by rw [h2.rest.features]; exact he)
          · intro i f hi hf r hr
            rw [h2.data] at hf
            have hi' : Known m i := by unfold Known at hi ⊢; rw [h2.rest.features] at hi; exact hi
            obtain ⟨s, hs⟩ := h.excl i f hi' hf r hr
            exact ⟨s, by rw [store_eq h2.rest.booleans h2.rest.nonBooleans h2.rest.mixeds]; exact hs⟩
          · intro n i q hi hq
            rw [h2.rest.features] at hi ⊢
            rw [h2.rest.root]
            rw [h2.par] at hq
            by_cases hic : i = ci
            · subst hic
              rw [upd_same] at hq; cases hq
              refine .inr ⟨p, getFeature_some hp, ?_⟩
              obtain ⟨f, hf, e1⟩ := h.loose.feat_ok _ hi
              have e2 := h.loose.named.name_unique (getFeature_some hc) hf
              simp only at e1
              rw [← e1, e2]; exact hpc
            · rw [upd_ne _ _ hic] at hq
              exact h.parents n i q hi hq
          · intro r hr
            rw [h2.rest.root] at hr
            rw [h2.rest.features]; exact h.rootName r hr
          · intro n i hi hn
            rw [h2.rest.features] at hi
            rw [h2.rest.root]; exact h.onlyRoot n i hi hn

theorem execs_built {calls : List BCall} (E : Env) : ∀ {ops : List Op} {m : FModel}, Built calls m → (∀ o ∈ ops, ByName calls o) →
    (∃ e m', FModel.outFold (FModel.exec E) m ops = .err e m') ∨
      ∃ m', FModel.outFold (FModel.exec E) m ops = .ok m' ∧ Built calls m'
  | [], m, h, _ => .inr ⟨m, rfl, h⟩
  | o :: os, m, h, ho => by
    unfold FModel.outFold
    rcases exec_built E h (ho o (by simp)) with ⟨e, m', h1⟩ | ⟨m', h1, h2⟩
    · exact .inl ⟨e, m', by rw [h1]⟩
    · rw [h1]
      exact execs_built E h2 (fun o' h' => ho o' (by simp [h']))

theorem commit_built {calls : List BCall} (E : Env) {ops : List Op} {m : FModel} (h : Built calls m) (ho : ∀ o ∈ ops, ByName calls o) :
    (∃ e m', m.commitOps E ops = .err e m') ∨ ∃ m', m.commitOps E ops = .ok m' ∧ Built calls m' := by
  rcases execs_built E h ho with ⟨e, m', h1⟩ | ⟨m', h1, h2⟩
  · exact .inl ⟨e, m', by simp only [FModel.commitOps, h1]⟩
  · exact .inr ⟨m', commitOps_loose h1 (checked_of_loose h2.loose), h2⟩

/-- Building from calls without groups is never undefined, whatever the parents. -/
theorem build_built {calls : List BCall} {world : FModel} (E : Env) (hf : ∀ i, world.heap i ≠ none → i < world.next)
    (hk : ∀ a, .makeFeature a ∈ calls → a.kind ≠ .root ∧ ¬ RootName a.name) (hr : ∀ n, .makeRoot n ∈ calls → RootName n)
    (hg : ∀ k p, .emplaceRelationship k p ∉ calls) :
    world.build E (builderOf calls) = .null ∨ ∃ m, world.build E (builderOf calls) = .built m ∧ Built calls m := by
  have hb : builderOf calls = ⟨calls.filterMap BCall.featOp, calls.filterMap BCall.modelOp, calls.filterMap BCall.relOp⟩ := by
    unfold builderOf; rw [builder_queues]; simp
  rw [hb]
  unfold FModel.build
  simp only
  rcases phase1 E calls world.fresh freshDesc (describes_fresh hf) rfl rfl rfl (fun a ha => (hk a (mem_attrsOf.1 ha)).1) with
    ⟨e, m', h1, _⟩ | ⟨m1, h1, h2⟩
  · left; simp only [FModel.commitOps, h1]
  have b1 := built_phase1 (fun a ha => (hk a ha).2) hr h2
  rw [commitOps_loose h1 (checked_of_loose b1.loose)]
  simp only
  rcases commit_built E b1 (ops := calls.filterMap BCall.modelOp) (by
    intro o ho
    obtain ⟨c, hc, e⟩ := List.mem_filterMap.1 ho
    cases c <;> simp only [BCall.modelOp, Option.some.injEq, reduceCtorEq] at e <;> subst e
    · exact .addChild hc
    · exact .setName
    · exact .setPath
    · exact .setCommit) with ⟨e, m', h3⟩ | ⟨m2, h3, b2⟩
  · left; rw [h3]
  rw [h3]
  simp only
  rcases commit_built E b2 (ops := calls.filterMap BCall.relOp) (by
    intro o ho
    obtain ⟨c, hc, e⟩ := List.mem_filterMap.1 ho
    cases c <;> simp only [BCall.relOp, Option.some.injEq, reduceCtorEq] at e <;> subst e
    · exact absurd hc (hg _ _)
    · exact .addConstraint) with ⟨e, m', h4⟩ | ⟨m3, h4, b3⟩
  · left; rw [h4]
  · right; exact ⟨m3, by rw [h4], b3⟩

/-! ## Alternatives -/

theorem leafName_def {m : FModel} (w : Named m) (b : Bound m) {cl : CClass} {j : Nat} {s : Stored} (hs : (m.store cl)[j]? = some s)
    {k : Nat} (hk : k < s.tree.features.length) : ∃ n, leafName m s k = some n := by
  have hmem : s ∈ allStored m := mem_allStored.2 ⟨cl, List.mem_of_getElem? hs⟩
  unfold leafName
  split
  · rename_i i hi
    obtain ⟨n, _, hn⟩ := b.bind s hmem k i hi
    obtain ⟨f, hf, _⟩ := w.feat_ok _ hn
    exact ⟨_, nameOf_of_data hf⟩
  · exact ⟨_, List.getElem?_eq_getElem hk⟩

theorem anyM_def {α} {p : α → Option Bool} : ∀ {l : List α}, (∀ x ∈ l, ∃ b, p x = some b) → ∃ b, anyM p l = some b
  | [], _ => ⟨false, rfl⟩
  | x :: xs, h => by
    obtain ⟨b, h1⟩ := h x (by simp)
    obtain ⟨c, h2⟩ := anyM_def (l := xs) fun y hy => h y (by simp [hy])
    unfold anyM
    rw [h1]
    cases b
    · exact ⟨c, h2⟩
    · exact ⟨true, rfl⟩

theorem allM_def {α} {p : α → Option Bool} : ∀ {l : List α}, (∀ x ∈ l, ∃ b, p x = some b) → ∃ b, FModel.allM p l = some b
  | [], _ => ⟨true, rfl⟩
  | x :: xs, h => by
    obtain ⟨b, h1⟩ := h x (by simp)
    obtain ⟨c, h2⟩ := allM_def (l := xs) fun y hy => h y (by simp [hy])
    unfold FModel.allM
    rw [h1]
    cases b
    · exact ⟨false, rfl⟩
    · exact ⟨c, h2⟩

theorem detectExclude_def {calls : List BCall} {m : FModel} (h : Built calls m) {i j : Id} (hi : Known m i) (hj : Known m j) :
    ∃ b, detectExclude m i j = some b := by
  obtain ⟨f, hf⟩ := h.loose.known_data hi
  obtain ⟨g, hg⟩ := h.loose.known_data hj
  unfold detectExclude
  rw [feat?_of_data hf, nameOf_of_data hg]
  refine anyM_def fun r hr => ?_
  obtain ⟨s, hs⟩ := h.excl i f hi hf r hr
  unfold excludesPair
  rw [hs]
  simp only
  split
  · rename_i _ a b ht
    obtain ⟨x, hx⟩ := leafName_def h.loose.named h.bound hs (k := 0) (by rw [ht]; simp [Constraint.features])
    obtain ⟨y, hy⟩ := leafName_def h.loose.named h.bound hs (k := 1) (by rw [ht]; simp [Constraint.features])
    simp only [hx, hy]
    exact ⟨_, rfl⟩
  · exact ⟨_, rfl⟩

theorem mutually_def {calls : List BCall} {m : FModel} (h : Built calls m) {i j : Id} (hi : Known m i) (hj : Known m j) :
    ∃ b, mutually m i j = some b := by
  unfold mutually
  split
  · exact ⟨_, rfl⟩
  · obtain ⟨b, hb⟩ := detectExclude_def h hi hj
    rw [hb]
    cases b
    · exact ⟨_, rfl⟩
    · exact detectExclude_def h hj hi

theorem altParent_def {calls : List BCall} {m : FModel} (h : Built calls m) (E : Env) {i : Id} (hi : Known m i) :
    ∃ b, altParent E m i = some b := by
  unfold altParent
  rw [children_loose h.loose E hi]
  simp only
  have hk : ∀ c ∈ E.setOrder (edg m i), Known m c := fun c hc =>
    (h.loose.edge_par i c hi ((E.setOrder_perm _).mem_iff.1 hc)).1
  split
  · refine allM_def fun c hc => ?_
    unfold altChild
    obtain ⟨f, hf⟩ := h.loose.known_data (hk c hc)
    rw [feat?_of_data hf]
    simp only
    split
    · exact ⟨_, rfl⟩
    · exact allM_def fun d hd => mutually_def h (hk _ hc) (hk _ hd)
  · exact ⟨_, rfl⟩

theorem altOps_def {calls : List BCall} {m : FModel} (h : Built calls m) (E : Env) : ∀ {is : List Id}, (∀ i ∈ is, Known m i) → is.Nodup →
    ∃ ps : List Id, altOps E m is = some (ps.map fun p => .addRelationship .alternative (.ptr (some p))) ∧ ps.Nodup ∧ ∀ p ∈ ps, p ∈ is
  | [], _, _ => ⟨[], rfl, .nil, by simp⟩
  | i :: is, hk, hn => by
    rw [List.nodup_cons] at hn
    obtain ⟨b, hb⟩ := altParent_def h E (hk i (by simp))
    obtain ⟨ps, h1, h2, h3⟩ := altOps_def h E (is := is) (fun j hj => hk j (by simp [hj])) hn.2
    unfold altOps
    rw [hb]
    simp only [h1, Option.map_some]
    cases b
    · exact ⟨ps, rfl, h2, fun p hp => by simp [h3 p hp]⟩
    · refine ⟨i :: ps, rfl, List.nodup_cons.2 ⟨fun hi => hn.1 (h3 i hi), h2⟩, ?_⟩
      intro p hp
      rcases List.mem_cons.1 hp with rfl | hp
      · simp
      · simp [h3 p hp]

theorem detectAlternatives_built {calls : List BCall} {m : FModel} (h : Built calls m) (E : Env)
    (ht : ∀ r a, m.root = some r → par m r = some a → Below m r a) : ∃ m', detectAlternatives E m = .ok m' := by
  obtain ⟨r, _, hr, _⟩ := h.loose.root_ok
  obtain ⟨is, h1, h2, h3⟩ := iterate_loose h.loose E hr (fun a ha => ht r a hr ha)
  obtain ⟨ps, h4, h5, h6⟩ := altOps_def h E h3 h2
  obtain ⟨m', D, h7, h8⟩ := addRelationships_grouping h.loose E (k := .alternative) ps m [] (grouping_refl h.loose) h5
    (fun p hp => ⟨h3 p (h6 p hp), by simp⟩)
  refine ⟨m', ?_⟩
  unfold detectAlternatives
  rw [h1]
  simp only [h4]
  exact commitOps_loose h7 (checked_of_grouping h.loose h8)

/-- From a name that leads up to the root, so does its feature. -/
theorem below_of_leadsUp {x : Xml} {calls : List BCall} (hg : AllGood x calls) {m : FModel} (h : Built calls m) {r : Id}
    (hr : m.root = some r) {n : Str} (hn : LeadsUp x n) : ∀ {i : Id}, (n, i) ∈ m.features → Below m r i := by
  induction hn with
  | root hn =>
    intro i hi
    have := h.onlyRoot _ i hi hn
    rw [hr] at this; cases this
    exact .refl
  | @up n _ ih =>
    intro i hi
    cases hp : par m i with
    | none =>
      have := h.loose.orphan i (known_of_mem hi) hp
      rw [hr] at this; cases this
      exact .refl
    | some p =>
      rcases h.parents n i p hi hp with e | ⟨q, q1, q2⟩
      · rw [hr] at e; cases e
        exact .step hp .refl
      · exact .step hp (ih q (hg _ q2) q1)

/-- Loading a conforming, harmless document whose root is not below a cycle is never undefined. -/
theorem load_safe {sci : Str → Option Str} {E : Env} {world : FModel} {cwd : Str} {x : Xml}
    (hf : ∀ i, world.heap i ≠ none → i < world.next) (hv : Conforms x) (hh : Harmless x) (ht : RootTied x) :
    load sci E world cwd x ≠ .ub := by
  unfold load
  cases hp : parseVm sci cwd x with
  | crash => exact absurd hp (parseVm_safe hv hh)
  | fail => simp
  | ok calls =>
    have hg := parseVm_good hv hp
    simp only
    rcases build_built E hf (calls := calls) (fun a ha => hg _ ha) (fun n hn => hg _ hn) (fun k p hk => hg _ hk) with hb | ⟨m, hb, h⟩
    · rw [hb]; simp
    · rw [hb]
      simp only
      obtain ⟨m', hm⟩ := detectAlternatives_built h E (by
        intro r a hr ha
        obtain ⟨n, n1, n2⟩ := h.rootName r hr
        rcases h.parents n r a n1 ha with e | ⟨q, q1, q2⟩
        · rw [hr] at e; cases e; exact .refl
        · exact below_of_leadsUp hg h hr (ht q n n2 (hg _ q2)) q1)
      rw [hm]; simp

end Verif.Xml

import Verif.FM.BuildStores
import Verif.Props.Xml

/-!
# Property C116: the constraints of an XML document
-/

namespace Verif.Props
open Verif Verif.Spec Verif.Xml

/-- The element for the constraints of a class. -/
def constraintsElement : CClass → Str
  | .boolean => c!"booleanConstraints"
  | .nonBoolean => c!"nonBooleanConstraints"
  | .mixed => c!"mixedConstraints"

/-- The texts of the constraints of a class in some elements, in the order of the document. -/
def textsIn (cl : CClass) (hs : List Xml) : List Str :=
  (hs.filter fun h => decide (h.name = constraintsElement cl)).flatMap fun h =>
    (h.kids.filter fun k => decide (k.name = c!"constraint")).map Xml.content

/-- The constraints of a class asked for by some calls. -/
def askedFor (cl : CClass) (calls : List BCall) : List Constraint :=
  ((constraintsOf calls).filter fun x => decide (x.1.cls = cl)).map Prod.snd

theorem askedFor_append (cl : CClass) (a b : List BCall) : askedFor cl (a ++ b) = askedFor cl a ++ askedFor cl b := by
  simp [askedFor, constraintsOf, List.filterMap_append]

/-- Calls that ask for no other than boolean constraints. -/
def OnlyBoolean (l : List BCall) : Prop := ∀ k c, BCall.addConstraint k c ∈ l → k = .boolean

theorem onlyBoolean_append {a b : List BCall} (ha : OnlyBoolean a) (hb : OnlyBoolean b) : OnlyBoolean (a ++ b) := by
  intro k c h
  rcases List.mem_append.1 h with h | h
  · exact ha k c h
  · exact hb k c h

theorem onlyBoolean_asked {cl : CClass} (hcl : cl ≠ .boolean) {l : List BCall} (h : OnlyBoolean l) : askedFor cl l = [] := by
  unfold askedFor
  rw [List.map_eq_nil_iff]
  refine List.filter_eq_nil_iff.2 fun x hx => ?_
  obtain ⟨b, hb, he⟩ := List.mem_filterMap.1 hx
  cases b <;> cases he
  rw [h _ _ hb]
  exact fun e => hcl (of_decide_eq_true e).symm

theorem tryEdge_quiet {calls r : List BCall} {p c : Str} (h : tryEdge calls p c = .ok r) : ∃ l, r = calls ++ l ∧ OnlyBoolean l := by
  have hq : OnlyBoolean [.addEdge p c] := by intro k c h; simp at h
  unfold tryEdge at h
  cases hp : parentName calls c with
  | none => rw [hp] at h; cases h; exact ⟨_, rfl, hq⟩
  | some q =>
    rw [hp] at h
    simp only at h
    split at h
    · cases h; exact ⟨_, rfl, hq⟩
    · cases h

theorem childEdges_quiet {name : Str} : ∀ {ks : List Xml} {calls r : List BCall}, childEdges name calls ks = .ok r →
    ∃ l, r = calls ++ l ∧ OnlyBoolean l
  | [], calls, r, h => by cases h; exact ⟨[], by simp, by intro k c h; cases h⟩
  | k :: ks, calls, r, h => by
    rw [childEdges] at h
    split at h
    · cases ht : tryEdge calls name k.content with
      | fail => rw [ht] at h; cases h
      | crash => rw [ht] at h; cases h
      | ok c1 =>
        rw [ht] at h
        obtain ⟨l, rfl, h1⟩ := tryEdge_quiet ht
        obtain ⟨l', rfl, h2⟩ := childEdges_quiet h
        exact ⟨l ++ l', by simp, onlyBoolean_append h1 h2⟩
    · exact childEdges_quiet h

theorem pairConstraints_quiet {op : BinOp} {name : Str} : ∀ {ks : List Xml} {calls r : List BCall},
    pairConstraints op name calls ks = .ok r → ∃ l, r = calls ++ l ∧ OnlyBoolean l
  | [], calls, r, h => by cases h; exact ⟨[], by simp, by intro k c h; cases h⟩
  | k :: ks, calls, r, h => by
    rw [pairConstraints] at h
    split at h
    · split at h
      · rename_i c _
        obtain ⟨l, rfl, h1⟩ := pairConstraints_quiet h
        refine ⟨.addConstraint .boolean c :: l, by simp, ?_⟩
        intro k' c' hm
        rcases List.mem_cons.1 hm with e | hm
        · cases e; rfl
        · exact h1 _ _ hm
      · cases h
    · exact pairConstraints_quiet h

theorem sbind_ok {α β : Type} {x : Sxfm.SOut α} {f : α → Sxfm.SOut β} {b : β} (h : x.bind f = .ok b) : ∃ a, x = .ok a ∧ f a = .ok b := by
  cases x with
  | ok a => exact ⟨a, rfl, h⟩
  | fail => cases h
  | crash => cases h

theorem numElem_same_calls {sci : Str → Option Str} {s s' : OptSt} {cnt n : Str} (h : numElem sci s cnt n = .ok s') : s'.calls = s.calls := by
  unfold numElem at h
  split at h
  · cases h; rfl
  split at h
  · cases h; rfl
  split at h
  · cases h; rfl
  split at h
  · split at h <;> cases h <;> rfl
  · cases h; rfl

theorem optElem_quiet {sci : Str → Option Str} {num : Bool} {s s' : OptSt} {x : Xml} (h : optElem sci num s x = .ok s') :
    ∃ l, s'.calls = s.calls ++ l ∧ OnlyBoolean l := by
  have same : s'.calls = s.calls → ∃ l, s'.calls = s.calls ++ l ∧ OnlyBoolean l :=
    fun e => ⟨[], by simp [e], by intro k c h; cases h⟩
  have step : ∀ {o : Sxfm.SOut (List BCall)}, (∀ r, o = .ok r → ∃ l, r = s.calls ++ l ∧ OnlyBoolean l) →
      (o.bind fun cs => Sxfm.SOut.ok { s with calls := cs }) = .ok s' → ∃ l, s'.calls = s.calls ++ l ∧ OnlyBoolean l := by
    intro o ho e
    obtain ⟨r, h1, h2⟩ := sbind_ok e
    cases h2
    exact ho r h1
  unfold optElem at h
  split at h
  · cases h; exact same rfl
  split at h
  · cases h; exact same rfl
  split at h
  · cases h; exact same rfl
  split at h
  · cases h; exact same rfl
  split at h
  · exact step (fun r hr => tryEdge_quiet hr) h
  split at h
  · exact step (fun r hr => childEdges_quiet hr) h
  split at h
  · exact step (fun r hr => pairConstraints_quiet hr) h
  split at h
  · exact step (fun r hr => pairConstraints_quiet hr) h
  split at h
  · split at h
    · cases h; exact same rfl
    · cases h
  split at h
  · exact same (numElem_same_calls h)
  · cases h; exact same rfl

theorem optElems_quiet {sci : Str → Option Str} {num : Bool} : ∀ {xs : List Xml} {s s' : OptSt}, optElems sci num s xs = .ok s' →
    ∃ l, s'.calls = s.calls ++ l ∧ OnlyBoolean l
  | [], s, s', h => by cases h; exact ⟨[], by simp, by intro k c h; cases h⟩
  | x :: xs, s, s', h => by
    rw [optElems] at h
    obtain ⟨s1, h1, h2⟩ := sbind_ok h
    obtain ⟨l, e1, q1⟩ := optElem_quiet h1
    obtain ⟨l', e2, q2⟩ := optElems_quiet h2
    exact ⟨l ++ l', by rw [e2, e1, List.append_assoc], onlyBoolean_append q1 q2⟩

theorem parseOptions_quiet {sci : Str → Option Str} {num : Bool} : ∀ {xs : List Xml} {calls r : List BCall},
    parseOptions sci num calls xs = .ok r → ∃ l, r = calls ++ l ∧ OnlyBoolean l
  | [], calls, r, h => by cases h; exact ⟨[], by simp, by intro k c h; cases h⟩
  | x :: xs, calls, r, h => by
    rw [parseOptions] at h
    split at h
    · obtain ⟨c1, h1, h2⟩ := sbind_ok h
      unfold parseOption at h1
      obtain ⟨s, h3, h4⟩ := sbind_ok h1
      cases h4
      obtain ⟨l, e1, q1⟩ := optElems_quiet h3
      obtain ⟨l', rfl, q2⟩ := parseOptions_quiet h2
      refine ⟨l ++ [optCall num s] ++ l', by rw [e1]; simp, onlyBoolean_append (onlyBoolean_append q1 ?_) q2⟩
      intro k c hm
      rw [List.mem_singleton] at hm
      unfold optCall at hm
      split at hm
      · cases hm
      split at hm <;> cases hm
    · exact parseOptions_quiet h

theorem constraintKind_cls {cl : CClass} {x : Xml} {k : CKind} (h : constraintKind cl x = some k) : k.cls = cl := by
  unfold constraintKind at h
  cases cl with
  | boolean => cases h; rfl
  | nonBoolean => cases h; rfl
  | mixed =>
    simp only at h
    split at h
    · cases h; rfl
    · cases h

/-- The constraints read from the elements below one element. -/
theorem parseConstraints_asked {sci : Str → Option Str} {cl : CClass} : ∀ {xs : List Xml} {calls r : List BCall},
    parseConstraints sci cl calls xs = .ok r → ∃ l cs, r = calls ++ l ∧ askedFor cl l = cs ∧ (∀ cl', cl' ≠ cl → askedFor cl' l = []) ∧
      ((xs.filter fun k => decide (k.name = c!"constraint")).map Xml.content).map (parseText sci) = cs.map .ok
  | [], calls, r, h => by cases h; exact ⟨[], [], by simp, rfl, fun _ _ => rfl, rfl⟩
  | x :: xs, calls, r, h => by
    rw [parseConstraints] at h
    by_cases hx : x.name = c!"constraint"
    · rw [if_pos hx] at h
      cases hp : parseText sci x.content with
      | null => rw [hp] at h; cases h
      | ub => rw [hp] at h; cases h
      | diverges => rw [hp] at h; cases h
      | ok c =>
        rw [hp] at h
        simp only at h
        cases hk : constraintKind cl x with
        | none => rw [hk] at h; cases h
        | some k =>
          rw [hk] at h
          obtain ⟨l, cs, e1, e2, e3, e4⟩ := parseConstraints_asked h
          have hc := constraintKind_cls hk
          refine ⟨.addConstraint k c :: l, c :: cs, by rw [e1]; simp, ?_, ?_, ?_⟩
          · rw [show BCall.addConstraint k c :: l = [.addConstraint k c] ++ l from rfl, askedFor_append, e2]
            simp [askedFor, constraintsOf, hc]
          · intro cl' hne
            rw [show BCall.addConstraint k c :: l = [.addConstraint k c] ++ l from rfl, askedFor_append, e3 cl' hne]
            have : ¬ cl = cl' := fun e => hne e.symm
            simp [askedFor, constraintsOf, hc, this]
          · rw [List.filter_cons, if_pos (by simpa using hx), List.map_cons, List.map_cons, e4, hp]
            rfl
    · rw [if_neg hx] at h
      rw [List.filter_cons, if_neg (by simpa using hx)]
      exact parseConstraints_asked h

/-- What is read from the elements of a document. -/
theorem vmElems_read {sci : Str → Option Str} (cl : CClass) : ∀ {hs : List Xml} {calls r : List BCall},
    vmElems sci calls hs = .ok r → ∃ l cs, r = calls ++ l ∧ (textsIn cl hs).map (parseText sci) = cs.map .ok ∧
      cs.Sublist (askedFor cl l) ∧ (cl ≠ .boolean → askedFor cl l = cs)
  | [], calls, r, h => by cases h; exact ⟨[], [], by simp, rfl, by simp, fun _ => rfl⟩
  | x :: xs, calls, r, h => by
    rw [vmElems] at h
    obtain ⟨c1, h1, h2⟩ := sbind_ok h
    obtain ⟨l, cs, e1, e2, e3, e4⟩ := vmElems_read cl h2
    -- one element, with the texts in it
    suffices hone : ∃ l1 cs1, c1 = calls ++ l1 ∧ (textsIn cl [x]).map (parseText sci) = cs1.map .ok ∧
        cs1.Sublist (askedFor cl l1) ∧ (cl ≠ .boolean → askedFor cl l1 = cs1) by
      obtain ⟨l1, cs1, f1, f2, f3, f4⟩ := hone
      refine ⟨l1 ++ l, cs1 ++ cs, by rw [e1, f1, List.append_assoc], ?_, ?_, ?_⟩
      · have : textsIn cl (x :: xs) = textsIn cl [x] ++ textsIn cl xs := by
          unfold textsIn
          rw [show x :: xs = [x] ++ xs from rfl, List.filter_append, List.flatMap_append]
        rw [this, List.map_append, List.map_append, f2, e2]
      · rw [askedFor_append]; exact f3.append e3
      · intro hcl
        rw [askedFor_append, f4 hcl, e4 hcl]
    have quiet : (∀ cl', x.name ≠ constraintsElement cl') → (∃ l1, c1 = calls ++ l1 ∧ OnlyBoolean l1) →
        ∃ l1 cs1, c1 = calls ++ l1 ∧ (textsIn cl [x]).map (parseText sci) = cs1.map .ok ∧
          cs1.Sublist (askedFor cl l1) ∧ (cl ≠ .boolean → askedFor cl l1 = cs1) := by
      rintro hn ⟨l1, f1, f2⟩
      refine ⟨l1, [], f1, ?_, by simp, fun hcl => onlyBoolean_asked hcl f2⟩
      unfold textsIn
      rw [List.filter_cons, if_neg (by simpa using hn cl)]
      rfl
    have cons : ∀ cl', x.name = constraintsElement cl' → parseConstraints sci cl' calls x.kids = .ok c1 →
        ∃ l1 cs1, c1 = calls ++ l1 ∧ (textsIn cl [x]).map (parseText sci) = cs1.map .ok ∧
          cs1.Sublist (askedFor cl l1) ∧ (cl ≠ .boolean → askedFor cl l1 = cs1) := by
      intro cl' hn hp
      obtain ⟨l1, cs1, f1, f2, f3, f4⟩ := parseConstraints_asked hp
      by_cases hc : cl' = cl
      · subst hc
        refine ⟨l1, cs1, f1, ?_, by rw [f2]; exact List.Sublist.refl _, fun _ => f2⟩
        unfold textsIn
        rw [List.filter_cons, if_pos (by simpa using hn)]
        simpa using f4
      · refine ⟨l1, [], f1, ?_, by simp, fun _ => f3 cl fun e => hc e.symm⟩
        unfold textsIn
        rw [List.filter_cons, if_neg ?_]
        · rfl
        · rw [hn]
          revert hc
          cases cl <;> cases cl' <;> decide
    unfold vmElem at h1
    split at h1
    · rename_i hn
      exact quiet (by rw [hn]; intro cl'; cases cl' <;> decide) (parseOptions_quiet h1)
    split at h1
    · rename_i hn
      exact quiet (by rw [hn]; intro cl'; cases cl' <;> decide) (parseOptions_quiet h1)
    split at h1
    · rename_i hn; exact cons .boolean hn h1
    split at h1
    · rename_i hn; exact cons .nonBoolean hn h1
    split at h1
    · rename_i hn; exact cons .mixed hn h1
    · rename_i n1 n2 n3
      cases h1
      exact quiet (by intro cl'; cases cl' <;> assumption) ⟨[], by simp, by intro k c h; cases h⟩

theorem altOps_no_constraint {E : Env} {m : FModel} : ∀ {is : List Id} {os : List Op}, altOps E m is = some os →
    ∀ o ∈ os, ∀ k c, o ≠ .addConstraint k c
  | [], os, h, o, ho => by cases h; cases ho
  | i :: is, os, h, o, ho => by
    rw [altOps] at h
    cases hb : altParent E m i with
    | none => rw [hb] at h; cases h
    | some b =>
      rw [hb] at h
      simp only [Option.map_eq_some_iff] at h
      obtain ⟨os', h1, rfl⟩ := h
      cases b with
      | false => exact altOps_no_constraint h1 o ho
      | true =>
        rcases List.mem_cons.1 ho with rfl | ho
        · intro k c e; cases e
        · exact altOps_no_constraint h1 o ho

/-- Looking for alternatives leaves the constraints alone. -/
theorem outFold_quiet {P : FModel → Prop} (C : ClosedQuiet P) {E : Env} : ∀ (ops : List Op) (m : FModel),
    (∀ o ∈ ops, ∀ k c, o ≠ .addConstraint k c) → P m → OutP P (FModel.outFold (FModel.exec E) m ops)
  | [], m, _, h => h
  | o :: ops, m, ho, h => by
    have h1 := C.exec (E := E) o (ho o (by simp)) h
    rw [FModel.outFold]
    cases h2 : m.exec E o with
    | ok m1 => rw [h2] at h1; exact outFold_quiet C ops m1 (fun x hx => ho x (by simp [hx])) h1
    | err e m1 => rw [h2] at h1; exact h1
    | ub => trivial

theorem detectAlternatives_stores {E : Env} {m : FModel} {T : CClass → List Constraint} (h : Holding T m) :
    OutP (Holding T) (detectAlternatives E m) := by
  unfold detectAlternatives
  split
  · trivial
  split
  · trivial
  · rename_i os ho
    unfold FModel.commitOps
    have h1 := outFold_quiet (holding_quiet T) (E := E) os m (altOps_no_constraint ho) h
    cases h2 : FModel.outFold (FModel.exec E) m os with
    | err e m1 => rw [h2] at h1; exact h1
    | ub => trivial
    | ok m1 =>
      rw [h2] at h1
      simp only
      cases m1.consistent E with
      | none => trivial
      | some b => cases b <;> exact h1

/-- If an XML document is loaded, every constraint element in it is a constraint and none is lost: those of each class are constraints
    of the model in the order of the document.  Non-boolean and mixed constraints are exactly these; boolean ones also come from the
    excluded and implied options. -/
theorem C116_none_lost {sci : Str → Option Str} {E : Env} {world m : FModel} {cwd : Str} {x : Xml}
    (h : load sci E world cwd x = .built m) (cl : CClass) :
    ∃ cs : List Constraint, (textsIn cl x.kids).map (parseText sci) = cs.map .ok ∧ cs.Sublist ((m.store cl).map Stored.tree) ∧
      (cl ≠ .boolean → (m.store cl).map Stored.tree = cs) := by
  unfold load at h
  cases hp : parseVm sci cwd x with
  | fail => rw [hp] at h; cases h
  | crash => rw [hp] at h; cases h
  | ok calls =>
    rw [hp] at h
    simp only at h
    cases hb : world.build E (builderOf calls) with
    | ub => rw [hb] at h; cases h
    | null => rw [hb] at h; cases h
    | built m0 =>
      rw [hb] at h
      simp only at h
      have hm : (m.store cl).map Stored.tree = askedFor cl calls := by
        have h0 : Holding (fun cl => askedFor cl calls) m0 := fun cl => build_stores hb cl
        have h1 := detectAlternatives_stores (E := E) h0
        cases hd : detectAlternatives E m0 with
        | ub => rw [hd] at h; cases h
        | ok m1 => rw [hd] at h h1; cases h; exact h1 cl
        | err e m1 => rw [hd] at h h1; cases h; exact h1 cl
      obtain ⟨l, cs, e1, e2, e3, e4⟩ := vmElems_read cl hp
      have hl : askedFor cl calls = askedFor cl l := by
        rw [e1, askedFor_append]
        rfl
      exact ⟨cs, e2, by rw [hm, hl]; exact e3, fun hcl => by rw [hm, hl]; exact e4 hcl⟩

/-- A document with a constraint that cannot be read has no model. -/
theorem C116_unreadable {sci : Str → Option Str} {E : Env} {world : FModel} {cwd : Str} {x : Xml} {cl : CClass} {t : Str}
    (ht : t ∈ textsIn cl x.kids) (hn : ∀ c, parseText sci t ≠ .ok c) (m : FModel) : load sci E world cwd x ≠ .built m := by
  intro h
  obtain ⟨cs, h1, _⟩ := C116_none_lost h cl
  have h2 := List.mem_map_of_mem (f := parseText sci) ht
  rw [h1] at h2
  obtain ⟨c, _, hc⟩ := List.mem_map.1 h2
  exact hn c hc.symm

/-- Not vacuous: the document of C34 has a boolean constraint and is loaded. -/
example (E : Env) (sci : Str → Option Str) : textsIn .boolean altDoc.toXml.kids ≠ [] ∧
    ∃ m, load sci E nothing c!"/home" altDoc.toXml = .built m ∧
      ∃ cs : List Constraint, cs.length = (textsIn .boolean altDoc.toXml.kids).length ∧ cs.Sublist ((m.store .boolean).map Stored.tree) := by
  refine ⟨by decide, ?_⟩
  obtain ⟨m, h, _⟩ := C34_loads nothing_fresh E ((parseVm_doc c!"/home" (altDoc_ok sci)).1 altDoc_parents) (buildable_doc altDoc_says) altDesc_known
  obtain ⟨cs, h1, h2, _⟩ := C116_none_lost h .boolean
  refine ⟨m, h, cs, ?_, h2⟩
  have := congrArg List.length h1
  simpa using this.symm

end Verif.Props

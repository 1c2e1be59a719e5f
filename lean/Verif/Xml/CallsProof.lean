import Verif.Xml.Calls
/-!
# What the writer tells the XML library
-/

namespace Verif.Xml
open Verif Verif.Spec W

/-- Calls made one after the other until one fails. -/
def exec (L : Lib) : List XCall → WState → WState
  | [], s => s
  | c :: cs, s => if s.rc < 0 then s else exec L cs ⟨s.calls ++ [c], L (s.calls ++ [c])⟩

theorem exec_neg (L : Lib) (cs : List XCall) (s : WState) (h : s.rc < 0) : exec L cs s = s := by
  cases cs with
  | nil => rfl
  | cons c cs => simp [exec, h]

theorem exec_append (L : Lib) : ∀ (cs ds : List XCall) (s : WState), exec L (cs ++ ds) s = exec L ds (exec L cs s)
  | [], ds, s => rfl
  | c :: cs, ds, s => by
    simp only [List.cons_append, exec]
    split
    · next h => rw [exec_neg _ _ _ h]
    · exact exec_append L cs ds _

theorem exec_ok (L : Lib) (hL : ∀ h, 0 ≤ L h) : ∀ (cs : List XCall) (s : WState), 0 ≤ s.rc → 0 ≤ (exec L cs s).rc
  | [], s, h => h
  | c :: cs, s, h => by
    simp only [exec]
    split
    · exact h
    · exact exec_ok L hL cs _ (hL _)

/-- A part of the writer makes these calls. -/
def Makes (w : W) (cs : List XCall) : Prop := ∀ L s, 0 ≤ s.rc → w L s = .done (exec L cs s)

/-- A part of the writer crashes, if the library does not stop it before. -/
def Crashes (w : W) : Prop := ∀ L s, (∀ h, 0 ≤ L h) → 0 ≤ s.rc → w L s = .ub

theorem makes_skip : Makes skip [] := fun _ _ _ => rfl

theorem makes_call (c : XCall) : Makes (call c) [c] := by
  intro L s h
  simp [call, exec, show ¬ s.rc < 0 by omega]

theorem makes_seq {a b : W} {cs ds : List XCall} (ha : Makes a cs) (hb : Makes b ds) : Makes (a ;; b) (cs ++ ds) := by
  intro L s h
  simp only [seq, ha L s h, exec_append]
  split
  · next hn => rw [exec_neg _ _ _ hn]
  · next hn => rw [hb L _ (by omega)]

theorem crashes_left {a : W} (b : W) (ha : Crashes a) : Crashes (a ;; b) := by
  intro L s hL h
  simp [seq, ha L s hL h]

theorem crashes_right {a b : W} {cs : List XCall} (ha : Makes a cs) (hb : Crashes b) : Crashes (a ;; b) := by
  intro L s hL h
  have := exec_ok L hL cs s h
  simp only [seq, ha L s h]
  rw [if_neg (by omega)]
  exact hb L _ hL this

theorem seq_assoc (a b c : W) : ((a ;; b) ;; c) = (a ;; (b ;; c)) := by
  funext L s
  simp only [seq]
  cases a L s with
  | ub => rfl
  | done s1 =>
    dsimp
    by_cases h : s1.rc < 0
    · rw [if_pos h, if_pos h]
      simp [h]
    · rw [if_neg h, if_neg h]

theorem steps_append (cs ds : List XCall) : ∀ w : Pending, w.steps (cs ++ ds) = (w.steps cs).bind (·.steps ds) := by
  induction cs with
  | nil => intro w; rfl
  | cons c cs ih =>
    intro w
    simp only [List.cons_append, Pending.steps]
    cases w.step c with
    | none => rfl
    | some w => exact ih w

/-- Calls that put elements into the element being written. -/
def PutsKids (cs : List XCall) (xs : List Xml) : Prop :=
  ∀ (p : Open) (os : List Open), p.text = [] →
    Pending.steps ⟨p :: os, none⟩ cs = some ⟨{ p with kids := p.kids ++ xs } :: os, none⟩

theorem puts_nil : PutsKids [] [] := by
  intro p os h
  simp [Pending.steps]

theorem puts_append {cs ds : List XCall} {xs ys : List Xml} (ha : PutsKids cs xs) (hb : PutsKids ds ys) :
    PutsKids (cs ++ ds) (xs ++ ys) := by
  intro p os h
  rw [steps_append, ha p os h]
  simp only [Option.bind_some]
  rw [hb { p with kids := p.kids ++ xs } os h]
  simp

theorem puts_leaf (n t : Str) : PutsKids [.element n t] [leaf n t] := by
  intro p os h
  simp [Pending.steps, Pending.step, Pending.put, h, leaf]

/-- A part of the writer puts these elements into the element being written, or crashes. -/
def Adds (w : W) : Option (List Xml) → Prop
  | some xs => ∃ cs, Makes w cs ∧ PutsKids cs xs
  | none => Crashes w

theorem adds_skip : Adds skip (some []) := ⟨[], makes_skip, puts_nil⟩

theorem adds_leaf (n t : Str) : Adds (call (.element n t)) (some [leaf n t]) := ⟨_, makes_call _, puts_leaf n t⟩

theorem adds_seq {a b : W} {oa ob : Option (List Xml)} (ha : Adds a oa) (hb : Adds b ob) :
    Adds (a ;; b) (oa.bind fun xs => ob.map (xs ++ ·)) := by
  cases oa with
  | none => exact crashes_left b ha
  | some xs =>
    obtain ⟨cs, hm, hp⟩ := ha
    cases ob with
    | none => exact crashes_right hm hb
    | some ys =>
      obtain ⟨ds, hm', hp'⟩ := hb
      exact ⟨cs ++ ds, makes_seq hm hm', puts_append hp hp'⟩

theorem adds_need {α} (o : Option α) {k : α → W} {f : α → Option (List Xml)} (h : ∀ a, o = some a → Adds (k a) (f a)) :
    Adds (need o k) (o.bind f) := by
  cases o with
  | none => intro L s _ _; rfl
  | some a => exact h a rfl

theorem adds_each {α} {k : α → W} {f : α → Option (List Xml)} {g : List α → Option (List Xml)}
    (h0 : g [] = some []) (h1 : ∀ a as, g (a :: as) = (f a).bind fun xs => (g as).map (xs ++ ·))
    (h : ∀ a, Adds (k a) (f a)) : ∀ l, Adds (each k l) (g l)
  | [] => by rw [h0]; exact adds_skip
  | a :: as => by rw [h1]; exact adds_seq (h a) (adds_each h0 h1 h as)

/-- An element with children. -/
theorem adds_group (n : Str) {w : W} {o : Option (List Xml)} (h : Adds w o) :
    Adds (call (.start n) ;; w ;; call .stop) (o.map fun xs => [group n xs]) := by
  cases o with
  | none => exact crashes_right (makes_call _) (crashes_left _ h)
  | some xs =>
    obtain ⟨cs, hm, hp⟩ := h
    refine ⟨[.start n] ++ (cs ++ [.stop]), makes_seq (makes_call _) (makes_seq hm (makes_call _)), ?_⟩
    intro p os hp0
    rw [steps_append]
    simp only [Pending.steps, Pending.step, Option.isNone_none, if_true, Option.bind_some]
    rw [steps_append, hp ⟨n, [], [], []⟩ (p :: os) rfl]
    simp [Pending.steps, Pending.step, Pending.close, Pending.put, hp0, group]

/-- An element with one attribute and children. -/
theorem adds_attr (n a v : Str) {w : W} {o : Option (List Xml)} (h : Adds w o) :
    Adds (call (.start n) ;; call (.attribute a v) ;; w ;; call .stop) (o.map fun xs => [.node n [(a, v)] [] xs]) := by
  cases o with
  | none => exact crashes_right (makes_call _) (crashes_right (makes_call _) (crashes_left _ h))
  | some xs =>
    obtain ⟨cs, hm, hp⟩ := h
    refine ⟨[.start n] ++ ([.attribute a v] ++ (cs ++ [.stop])),
      makes_seq (makes_call _) (makes_seq (makes_call _) (makes_seq hm (makes_call _))), ?_⟩
    intro p os hp0
    rw [steps_append]
    simp only [Pending.steps, Pending.step, Option.isNone_none, if_true, Option.bind_some]
    rw [steps_append]
    simp only [Pending.steps, Pending.step, Option.bind_some, List.isEmpty_nil, List.map_nil, List.not_mem_nil,
      not_false_eq_true, and_self, if_true, List.nil_append]
    rw [steps_append, hp ⟨n, [(a, v)], [], []⟩ (p :: os) rfl]
    simp [Pending.steps, Pending.step, Pending.close, Pending.put, hp0]

/-! ## The parts of the writer -/

theorem adds_names (m : FModel) : ∀ is : List Id,
    Adds (each (fun i => need (m.nameOf i) fun x => call (.element c!"options" x)) is)
      ((namesOf? m is).map fun ns => ns.map (leaf c!"options")) := by
  apply adds_each (f := fun i => (m.nameOf i).bind fun x => some [leaf c!"options" x]) (g := fun is => (namesOf? m is).map fun ns => ns.map (leaf c!"options"))
  · rfl
  · intro a as
    simp only [namesOf?]
    cases m.nameOf a with
    | none => rfl
    | some n => cases namesOf? m as <;> rfl
  · intro a
    exact adds_need _ fun x _ => adds_leaf _ _

theorem names_nil (m : FModel) (is : List Id) : namesOf? m is = some [] ↔ is = [] := by
  cases is with
  | nil => simp [namesOf?]
  | cons i is =>
    simp only [namesOf?, reduceCtorEq, iff_false]
    cases m.nameOf i with
    | none => simp
    | some n => cases namesOf? m is <;> simp

theorem adds_options (n : Str) (m : FModel) (is : List Id) :
    Adds (optionsW n m is) ((namesOf? m is).map (optionList n)) := by
  unfold optionsW
  split
  · next h => subst h; exact adds_skip
  · next h =>
    have := adds_group n (adds_names m is)
    cases e : namesOf? m is with
    | none => rw [e] at this; exact this
    | some ns =>
      have hns : ns ≠ [] := by
        intro e'
        rw [e'] at e
        exact h ((names_nil m is).1 e)
      rw [e] at this
      simp only [Option.map_some, optionList, hns, if_false] at this ⊢
      exact this

theorem adds_parent (m : FModel) (i : Id) : Adds (parentW m i) (parentElem m i) := by
  have : parentElem m i = (m.parentFeature i).bind fun p =>
      match p with
      | none => some []
      | some p => (m.nameOf p).bind fun n => some [leaf c!"parent" n] := by
    unfold parentElem
    cases m.parentFeature i with
    | none => rfl
    | some p =>
      cases p with
      | none => rfl
      | some p => cases h : m.nameOf p <;> simp [h]
  rw [this]
  apply adds_need
  intro p _
  cases p with
  | none => exact adds_skip
  | some p => exact adds_need _ fun n _ => adds_leaf _ _

theorem adds_children (E : Env) (m : FModel) (i : Id) :
    Adds (childrenW E m i) ((childNames E m i).map (optionList c!"children")) := by
  have : (childNames E m i).map (optionList c!"children") =
      (m.children E Node.isFeat i).bind fun cs => (ordered m cs).bind fun cs => (namesOf? m cs).map (optionList c!"children") := by
    unfold childNames
    cases m.children E Node.isFeat i with
    | none => rfl
    | some cs => cases h : ordered m cs <;> simp [h]
  rw [this]
  exact adds_need _ fun cs _ => adds_need _ fun cs _ => adds_options _ _ _

theorem adds_implied (m : FModel) (f : Feat) :
    Adds (impliedW m f) ((impliedNames m f).map (optionList c!"impliedOptions")) := by
  have : (impliedNames m f).map (optionList c!"impliedOptions") =
      (targets m f.attr.name f.implications).bind fun cs => (ordered m cs).bind fun cs => (namesOf? m cs).map (optionList c!"impliedOptions") := by
    unfold impliedNames
    cases targets m f.attr.name f.implications with
    | none => rfl
    | some cs => cases h : ordered m cs <;> simp [h]
  rw [this]
  exact adds_need _ fun cs _ => adds_need _ fun cs _ => adds_options _ _ _

theorem adds_excluded (E : Env) (m : FModel) (i : Id) (f : Feat) :
    Adds (excludedW E m i f) ((excludedNames E m i f).map (optionList c!"excludedOptions")) := by
  have : (excludedNames E m i f).map (optionList c!"excludedOptions") =
      (excluded E m i f).bind fun cs => (namesOf? m cs).map (optionList c!"excludedOptions") := by
    unfold excludedNames
    cases excluded E m i f <;> rfl
  rw [this]
  exact adds_need _ fun cs _ => adds_options _ _ _

theorem adds_numeric (k : FKind) : Adds (numericW k) (numericElem k) := by
  cases k with
  | numeric vs st =>
    cases vs with
    | range lo hi => exact adds_seq (adds_leaf _ _) (adds_leaf _ _)
    | list vs =>
      have : numericElem (.numeric (.list vs) st) = (valuesText vs).bind fun t => some [leaf c!"values" t] := by
        simp only [numericElem]
        cases valuesText vs <;> rfl
      rw [this]
      exact adds_need _ fun t _ => adds_leaf _ _
  | _ => exact adds_skip

/-- What follows a part that adds elements. -/
theorem need_seq {α} (o : Option α) (k : α → W) (b : W) : ((need o k) ;; b) = need o fun a => (k a ;; b) := by
  cases o with
  | none => rfl
  | some a => rfl

theorem adds_range (r : Range) : Adds (rangeW r) ((writeRange r).map fun x => [x]) := by
  unfold rangeW writeRange
  have hl : ∀ t : Loc, Adds (call (.element c!"line" (natText t.line)) ;; call (.element c!"column" (natText t.column)))
      (some [leaf c!"line" (natText t.line), leaf c!"column" (natText t.column)]) :=
    fun t => adds_seq (adds_leaf _ _) (adds_leaf _ _)
  have hp := adds_leaf c!"path" (pathText r.path)
  cases hs : r.start with
  | none =>
    cases hc : r.category <;>
    exact crashes_right (makes_call _) (crashes_right (makes_call _) (crashes_right (makes_call _)
      (crashes_right (makes_call _) fun _ _ _ _ => rfl)))
  | some s =>
    cases he : r.stop with
    | none =>
      cases hc : r.category <;>
      exact crashes_right (makes_call _) (crashes_right (makes_call _) (crashes_right (makes_call _)
        (crashes_right (makes_call _) (crashes_right (makes_call _) (crashes_right (makes_call _)
          (crashes_right (makes_call _) (crashes_right (makes_call _) fun _ _ _ _ => rfl)))))))
    | some e =>
      have hg : Adds _ _ := adds_seq hp (adds_seq (adds_group c!"start" (hl s)) (adds_group c!"end" (hl e)))
      have hn := adds_attr c!"sourceRange" c!"category" c!"necessary" hg
      have hi := adds_attr c!"sourceRange" c!"category" c!"inessential" hg
      simp only [seq_assoc] at hn hi
      cases hc : r.category with
      | necessary => exact hn
      | inessential => exact hi

theorem adds_ranges : ∀ rs : List Range, Adds (each rangeW rs) (writeRanges rs) := by
  apply adds_each (f := fun r => (writeRange r).map fun x => [x])
  · rfl
  · intro a as
    simp only [writeRanges]
    cases writeRange a with
    | none => rfl
    | some x => cases writeRanges as <;> rfl
  · exact adds_range

theorem adds_locations (rs : List Range) : Adds (locationsW rs) (locationsElem rs) := by
  unfold locationsW locationsElem
  split
  · exact adds_skip
  · exact adds_group _ (adds_ranges rs)

theorem adds_feature (E : Env) (m : FModel) (i : Id) : Adds (featureW E m i) ((writeFeature E m i).map fun x => [x]) := by
  unfold featureW writeFeature
  cases m.feat? i with
  | none => exact crashes_right (makes_call _) fun _ _ _ _ => rfl
  | some f =>
    have h := adds_group c!"configurationOption" (adds_seq (adds_leaf c!"name" f.attr.name) (adds_seq (adds_parent m i)
      (adds_seq (adds_children E m i) (adds_seq (adds_implied m f) (adds_seq (adds_excluded E m i f)
        (adds_seq (adds_leaf c!"optional" (if f.attr.opt then c!"True" else c!"False"))
          (adds_seq (adds_numeric f.attr.kind) (adds_locations f.attr.locs))))))))
    simp only [seq_assoc] at h
    refine Eq.mp (congrArg (Adds _) ?_) h
    clear h
    dsimp only
    generalize impliedNames m f = oi, excludedNames E m i f = oe, numericElem f.attr.kind = on, locationsElem f.attr.locs = ol
    cases parentElem m i <;> cases childNames E m i <;> cases oi <;> cases oe <;> cases on <;> cases ol <;> simp

theorem adds_features (E : Env) (m : FModel) (n : Str) (which : Id → Bool) :
    Adds (featuresW E m n which)
      (((m.iterate E).bind fun is => writeFeatures E m (is.filter which)).map fun xs => [group n xs]) := by
  apply adds_group
  apply adds_need
  intro is _
  apply adds_each (f := fun i => (writeFeature E m i).map fun x => [x])
  · rfl
  · intro a as
    simp only [writeFeatures]
    cases writeFeature E m a with
    | none => rfl
    | some x => cases writeFeatures E m as <;> rfl
  · exact adds_feature E m

/-- An element with attributes and text. -/
theorem adds_text (n t : Str) {w : W} {cs : List XCall} (as : List (Str × Str)) (hm : Makes w cs)
    (hs : ∀ os, Pending.steps ⟨⟨n, [], [], []⟩ :: os, none⟩ cs = some ⟨⟨n, as, [], []⟩ :: os, none⟩) :
    Adds (call (.start n) ;; w ;; call (.string t) ;; call .stop) (some [.node n as t []]) := by
  refine ⟨[.start n] ++ (cs ++ ([.string t] ++ [.stop])),
      makes_seq (makes_call _) (makes_seq hm (makes_seq (makes_call _) (makes_call _))), ?_⟩
  intro p os hp0
  rw [steps_append]
  simp only [Pending.steps, Pending.step, Option.isNone_none, if_true, Option.bind_some]
  rw [steps_append, hs]
  simp [Pending.steps, Pending.step, Pending.close, Pending.put, hp0]

theorem adds_constraint (m : FModel) (cl : CClass) (s : Stored) :
    Adds (constraintW m cl s) (if cl = .boolean ∧ isSimple s.tree = true then some []
      else (m.cloneStored s).bind fun c => (constraintElem cl s c).map fun x => [x]) := by
  unfold constraintW
  split
  · exact adds_skip
  · cases hc : m.cloneStored s with
    | none =>
      by_cases hmx : cl = .mixed
      · rw [if_pos hmx]
        cases hi : s.info with
        | none => exact crashes_right (makes_call _) (crashes_left _ fun _ _ _ _ => rfl)
        | some i =>
          exact crashes_right (makes_call _) (crashes_right (makes_seq (makes_call _) (makes_call _)) fun _ _ _ _ => rfl)
      · rw [if_neg hmx]
        exact crashes_right (makes_call _) (crashes_right makes_skip fun _ _ _ _ => rfl)
    | some c =>
      by_cases hmx : cl = .mixed
      · subst hmx
        rw [if_pos rfl]
        cases hi : s.info with
        | none =>
          simp only [Option.bind_some, constraintElem, hi, Option.map_none]
          exact crashes_right (makes_call _) (crashes_left _ fun _ _ _ _ => rfl)
        | some i =>
          simp only [Option.bind_some, constraintElem, hi, Option.map_some]
          refine adds_text _ _ _ (makes_seq (makes_call _) (makes_call _)) ?_
          intro os
          simp [Pending.steps, Pending.step]
      · rw [if_neg hmx]
        have : constraintElem cl s c = some (leaf c!"constraint" c.toStr) := by
          cases cl with
          | mixed => exact absurd rfl hmx
          | _ => rfl
        simp only [Option.bind_some, this, Option.map_some]
        exact adds_text _ _ _ makes_skip fun os => rfl

theorem adds_constraints (m : FModel) (n : Str) (cl : CClass) :
    Adds (constraintsW m n cl) (constraintGroup m n cl) := by
  unfold constraintsW constraintGroup
  split
  · exact adds_skip
  · apply adds_group
    apply adds_each (g := constraintElems m cl) (f := fun s => if cl = .boolean ∧ isSimple s.tree = true then some []
      else (m.cloneStored s).bind fun c => (constraintElem cl s c).map fun x => [x])
    · rfl
    · intro s ss
      simp only [constraintElems]
      split
      · cases constraintElems m cl ss <;> rfl
      · cases m.cloneStored s with
        | none => rfl
        | some c =>
          dsimp
          cases constraintElem cl s c with
          | none => rfl
          | some x => cases constraintElems m cl ss <;> rfl
    · exact adds_constraint m cl

/-- The elements of the document element. -/
theorem adds_body (E : Env) (m : FModel) :
    Adds (featuresW E m c!"binaryOptions" (isBinary m) ;; featuresW E m c!"numericOptions" (isNumeric m) ;;
      constraintsW m c!"booleanConstraints" .boolean ;; constraintsW m c!"nonBooleanConstraints" .nonBoolean ;;
      constraintsW m c!"mixedConstraints" .mixed) ((write E m).map Xml.kids) := by
  have h := adds_seq (adds_features E m c!"binaryOptions" (isBinary m)) (adds_seq (adds_features E m c!"numericOptions" (isNumeric m))
    (adds_seq (adds_constraints m c!"booleanConstraints" .boolean) (adds_seq (adds_constraints m c!"nonBooleanConstraints" .nonBoolean)
      (adds_constraints m c!"mixedConstraints" .mixed))))
  refine Eq.mp (congrArg (Adds _) ?_) h
  unfold write
  cases m.iterate E with
  | none => rfl
  | some is =>
    simp only [Option.bind_some]
    cases writeFeatures E m (is.filter (isBinary m)) <;> cases writeFeatures E m (is.filter (isNumeric m)) <;>
      cases constraintGroup m c!"booleanConstraints" .boolean <;> cases constraintGroup m c!"nonBooleanConstraints" .nonBoolean <;>
      cases constraintGroup m c!"mixedConstraints" .mixed <;> simp [Xml.kids]

theorem write_shape {E : Env} {m : FModel} {x : Xml} (h : write E m = some x) :
    x = .node c!"vm" ([(c!"name", m.name), (c!"root", m.path)] ++ (if m.commit = [] then [] else [(c!"commit", m.commit)])) [] x.kids := by
  unfold write at h
  split at h
  · exact absurd h (by simp)
  · split at h
    · cases h; rfl
    · exact absurd h (by simp)

/-- The writer makes the calls that write the document of the model. -/
theorem model_makes {E : Env} {m : FModel} {x : Xml} (h : write E m = some x) :
    ∃ cs, cs ≠ [] ∧ Makes (modelW E m) cs ∧ Document cs x := by
  have hb := adds_body E m
  rw [h] at hb
  obtain ⟨cs, hm, hp⟩ := hb
  have hc : ∃ ds, Makes (if m.commit = [] then skip else call (.attribute c!"commit" m.commit)) ds ∧
      Pending.steps ⟨[⟨c!"vm", [(c!"name", m.name), (c!"root", m.path)], [], []⟩], none⟩ ds =
        some ⟨[⟨c!"vm", [(c!"name", m.name), (c!"root", m.path)] ++ (if m.commit = [] then [] else [(c!"commit", m.commit)]), [], []⟩], none⟩ := by
    by_cases e : m.commit = []
    · rw [if_pos e, if_pos e]
      exact ⟨[], makes_skip, rfl⟩
    · rw [if_neg e, if_neg e]
      exact ⟨_, makes_call _, by simp [Pending.steps, Pending.step]⟩
  obtain ⟨ds, hmd, hpd⟩ := hc
  have hw := makes_seq (makes_call .indent) (makes_seq (makes_call (.indentText c!"  "))
    (makes_seq (makes_call (.startDocument c!"1.0" c!"UTF-8")) (makes_seq (makes_call (.dtd c!"vm" c!"vm.dtd"))
      (makes_seq (makes_call (.start c!"vm")) (makes_seq (makes_call (.attribute c!"name" m.name))
        (makes_seq (makes_call (.attribute c!"root" m.path)) (makes_seq hmd (makes_seq hm (makes_call .endDocument)))))))))
  simp only [seq_assoc] at hw
  refine ⟨_, ?_, hw, ?_⟩
  · simp
  · unfold Document
    have hx := write_shape h
    simp only [List.cons_append, List.nil_append, Pending.steps, Pending.step, Option.bind_some, and_self, if_true,
      Option.isNone_none]
    simp only [List.isEmpty_nil, List.map_nil, List.not_mem_nil, not_false_eq_true, and_self, if_true, Option.bind_some,
      List.nil_append, List.map_cons, List.cons_append]
    rw [if_pos (by decide)]
    simp only [Option.bind_some]
    rw [steps_append, hpd]
    simp only [Option.bind_some]
    rw [steps_append, hp _ _ rfl]
    simp only [Option.bind_some, Pending.steps, Pending.step, List.length_singleton, Pending.closeAll, Pending.close, Pending.put,
      List.nil_append]
    rw [hx]
    rfl

/-- A model that cannot be written crashes the writer. -/
theorem model_crashes {E : Env} {m : FModel} (h : write E m = none) : Crashes (modelW E m) := by
  have hb := adds_body E m
  rw [h] at hb
  have hc : ∃ ds, Makes (if m.commit = [] then skip else call (.attribute c!"commit" m.commit)) ds := by
    by_cases e : m.commit = []
    · rw [if_pos e]
      exact ⟨[], makes_skip⟩
    · rw [if_neg e]
      exact ⟨_, makes_call _⟩
  obtain ⟨ds, hmd⟩ := hc
  have hw := crashes_right (makes_call .indent) (crashes_right (makes_call (.indentText c!"  "))
    (crashes_right (makes_call (.startDocument c!"1.0" c!"UTF-8")) (crashes_right (makes_call (.dtd c!"vm" c!"vm.dtd"))
      (crashes_right (makes_call (.start c!"vm")) (crashes_right (makes_call (.attribute c!"name" m.name))
        (crashes_right (makes_call (.attribute c!"root" m.path)) (crashes_right hmd (crashes_left (call .endDocument) hb))))))))
  simp only [seq_assoc] at hw
  exact hw

/-! ## Failing calls -/

/-- Calls made from a point on, none of which fails. -/
theorem exec_all (L : Lib) : ∀ (cs : List XCall) (s : WState), 0 ≤ s.rc →
    (∀ k, k < cs.length → ¬ L (s.calls ++ cs.take (k + 1)) < 0) →
    (exec L cs s).calls = s.calls ++ cs ∧ (exec L cs s).rc = (if cs = [] then s.rc else L (s.calls ++ cs))
  | [], s, _, _ => by simp [exec]
  | c :: cs, s, h0, h => by
    have hc : ¬ L (s.calls ++ [c]) < 0 := by simpa using h 0 (by simp)
    have := exec_all L cs ⟨s.calls ++ [c], L (s.calls ++ [c])⟩ (by dsimp; omega) (by
      intro k hk
      have := h (k + 1) (by simpa using hk)
      simpa [List.append_assoc] using this)
    simp only [exec, show ¬ s.rc < 0 by omega, if_false]
    refine ⟨by simpa [List.append_assoc] using this.1, ?_⟩
    rw [this.2]
    by_cases e : cs = []
    · simp [e]
    · simp [e]

/-- Calls made up to the first that fails. -/
theorem exec_until (L : Lib) : ∀ (k : Nat) (cs : List XCall) (s : WState), 0 ≤ s.rc → k < cs.length →
    L (s.calls ++ cs.take (k + 1)) < 0 → (∀ j, j < k → ¬ L (s.calls ++ cs.take (j + 1)) < 0) →
    exec L cs s = ⟨s.calls ++ cs.take (k + 1), L (s.calls ++ cs.take (k + 1))⟩
  | _, [], s, _, hk, _, _ => absurd hk (by simp)
  | 0, c :: cs, s, h0, _, hf, _ => by
    simp only [exec, show ¬ s.rc < 0 by omega, if_false]
    rw [exec_neg]
    · simp
    · simpa using hf
  | k + 1, c :: cs, s, h0, hk, hf, hj => by
    have hc : ¬ L (s.calls ++ [c]) < 0 := by simpa using hj 0 (by omega)
    simp only [exec, show ¬ s.rc < 0 by omega, if_false]
    have := exec_until L k cs ⟨s.calls ++ [c], L (s.calls ++ [c])⟩ (by dsimp; omega) (by simpa using hk)
      (by simpa [List.append_assoc] using hf) (by
        intro j hjk
        have := hj (j + 1) (by omega)
        simpa [List.append_assoc] using this)
    rw [this]
    simp [List.append_assoc]

/-- If a call fails, one is the first. -/
theorem fails_first {L : Lib} {cs : List XCall} (h : Fails L cs) : ∃ k, FailsAt L cs k := by
  obtain ⟨k, hk, hf⟩ := h
  induction k using Nat.strongRecOn with
  | ind k ih =>
    by_cases e : ∃ j, j < k ∧ L (cs.take (j + 1)) < 0
    · obtain ⟨j, hj, hfj⟩ := e
      exact ih j hj (by omega) hfj
    · exact ⟨k, hk, hf, fun j hj hfj => e ⟨j, hj, hfj⟩⟩

theorem exec_start (L : Lib) (cs : List XCall) (hne : cs ≠ []) :
    (¬ Fails L cs ∧ exec L cs ⟨[], 0⟩ = ⟨cs, L cs⟩ ∧ 0 ≤ L cs) ∨
    ∃ k, FailsAt L cs k ∧ exec L cs ⟨[], 0⟩ = ⟨cs.take (k + 1), L (cs.take (k + 1))⟩ := by
  by_cases h : Fails L cs
  · obtain ⟨k, hk⟩ := fails_first h
    refine Or.inr ⟨k, hk, ?_⟩
    have := exec_until L k cs ⟨[], 0⟩ (by simp) hk.1 (by simpa using hk.2.1) (by simpa using hk.2.2)
    simpa using this
  · refine Or.inl ⟨h, ?_, ?_⟩
    · have := exec_all L cs ⟨[], 0⟩ (by simp) (by
        intro k hk hf
        exact h ⟨k, hk, by simpa using hf⟩)
      cases e : exec L cs ⟨[], 0⟩ with
      | mk a b => rw [e] at this; simp [hne] at this; simp [this.1, this.2]
    · cases Int.lt_or_le (L cs) 0 with
      | inr h => exact h
      | inl hf =>
        have hl : 0 < cs.length := List.length_pos_iff.2 hne
        refine absurd ⟨cs.length - 1, by omega, ?_⟩ h
        rw [show cs.length - 1 + 1 = cs.length by omega, List.take_length]
        exact hf

end Verif.Xml

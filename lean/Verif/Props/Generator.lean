import Verif.Tools.Lemmas
import Verif.Props.Enumeration
import Verif.Props.XmlLayout
/-!
# The configuration generator

C64.
-/

namespace Verif.Props
open Verif Verif.Spec Verif.Tools Verif.Xml Verif.Z3Solver Verif.Sampling

variable {M : Machine} {fs : Files} {a : Args}

/-! ## What a run may do -/

theorem writeFile_frame {path text : Str} {code : Nat} {fs' : Files} {out : Str} (h : writeFile M fs path text = .exit code fs' out) :
    (code = 0 ∨ code = 1 ∧ fs' = fs ∧ out = []) ∧ ∀ p, p ≠ path → fs' p = fs p := by
  unfold writeFile at h
  split at h
  · cases h; exact ⟨.inl rfl, fun _ _ => rfl⟩
  · split at h
    · cases h; exact ⟨.inl rfl, fun p hp => by simp [hp]⟩
    · cases h; exact ⟨.inr ⟨rfl, rfl, rfl⟩, fun _ _ => rfl⟩

theorem writeOut_frame {m : FModel} {path : Str} {cs : List Config} {code : Nat} {fs' : Files} {out : Str}
    (h : writeOut M fs m path cs = .exit code fs' out) :
    (code = 0 ∨ code = 1 ∧ fs' = fs ∧ out = []) ∧ ∀ p, p ≠ path → fs' p = fs p := by
  unfold writeOut at h
  split at h
  · split at h
    · cases h
    · exact writeFile_frame h
  · cases h; exact ⟨.inl rfl, fun _ _ => rfl⟩

/-- A run ends with 0 or 1.  With 1 it has written nothing, and it never changes a file other than the
    output file. -/
theorem C64_one_file {fuel : Nat} {code : Nat} {fs' : Files} {out : Str} (h : generate M fuel fs a = .exit code fs' out) :
    (code = 0 ∨ code = 1 ∧ fs' = fs ∧ out = []) ∧ ∀ p, p ≠ a.out → fs' p = fs p := by
  have h1 : ∀ {code : Nat} {fs' : Files} {out : Str}, Run.exit 1 fs [] = .exit code fs' out →
      (code = 0 ∨ code = 1 ∧ fs' = fs ∧ out = []) ∧ ∀ p, p ≠ a.out → fs' p = fs p := by
    intro _ _ _ h; cases h; exact ⟨.inr ⟨rfl, rfl, rfl⟩, fun _ _ => rfl⟩
  unfold generate at h
  split at h
  · exact h1 h
  split at h
  · exact h1 h
  split at h
  · exact h1 h
  · cases h
  split at h
  · exact h1 h
  split at h
  · split at h
    · exact writeOut_frame h
    · exact h1 h
    · cases h
    · cases h
  · split at h
    · cases h
    · split at h
      · cases h
      · exact writeOut_frame h
  · exact h1 h

/-- Without a file name, with a file that cannot be read, is not valid or cannot be built, and when asked
    for sampling, the run ends with 1. -/
theorem C64_rejects {fuel : Nat}
    (h : a.file = [] ∨ fs a.file = none ∨ (∃ text, fs a.file = some text ∧ M.xml text = none) ∨
      (∃ text x, fs a.file = some text ∧ M.xml text = some x ∧ load M.sci M.env M.heap M.cwd x = .null) ∨
      (a.type = .sampleSet ∧ a.csv = []) ∨ a.type = .samplingStrategy)
    (hs : ∀ text x, fs a.file = some text → M.xml text = some x → load M.sci M.env M.heap M.cwd x ≠ .ub) :
    generate M fuel fs a = .exit 1 fs [] := by
  unfold generate
  split
  · rfl
  rename_i hf
  split
  · rfl
  rename_i hv
  unfold verifyFeatureModel at hv
  cases hfile : fs a.file with
  | none => simp [hfile] at hv
  | some text =>
    simp only [hfile] at hv h hs
    cases hx : M.xml text with
    | none => simp [hx] at hv
    | some x =>
      have hub := hs text x rfl hx
      simp only [loadFeatureModel, hfile, hx]
      cases hl : load M.sci M.env M.heap M.cwd x with
      | null => rfl
      | ub => exact absurd hl hub
      | built m =>
        dsimp only
        split
        · rfl
        rename_i hcsv
        rcases h with h | h | ⟨t, h1, h2⟩ | ⟨t, y, h1, h2, h3⟩ | h | h
        · exact absurd h hf
        · cases h
        · cases h1; rw [hx] at h2; cases h2
        · cases h1; rw [hx] at h2; cases h2; rw [hl] at h3; cases h3
        · exact absurd h hcsv
        · rw [h]

/-! ## All configurations -/

/-- The part after loading. -/
theorem generate_all {d : Desc} {m : FModel} (hm : Describes d m) (hf : a.file ≠ []) (hv : verifyFeatureModel M fs a.file = true)
    (hl : loadFeatureModel M fs a.file = .built m) (ht : a.type = .all) (hc : DescClear M.floats d)
    (hO : ∀ k ts, M.oracle.check k ts ≠ .unknown) (ho : a.out ≠ []) :
    ∃ k, ∀ fuel, k ≤ fuel →
      ((¬ ∃ b, DescValid M.floats (notBothDesc d) b) ∧ generate M fuel fs a = .exit 1 fs []) ∨
      ((∃ b, DescValid M.floats (notBothDesc d) b) ∧
        ∃ order es, WritesAll M.floats (notBothDesc d) order es ∧ generate M fuel fs a = writeFile M fs a.out (M.yaml es)) := by
  obtain ⟨k, h⟩ := C40_as_coded hm.wf (clear_desc hm hc) M.env M.oracle hO
  refine ⟨k, fun fuel hk => ?_⟩
  have hval : (∃ b, Valid M.floats (notBothIn m) b) ↔ ∃ b, DescValid M.floats (notBothDesc d) b :=
    exists_congr fun b => valid_notBoth_desc hm
  unfold generate
  rw [if_neg hf, hv, if_neg (by simp), hl, ht]
  dsimp only
  rw [if_neg (by simp)]
  rcases h fuel hk with ⟨hn, e⟩ | ⟨hb, cs, e, he⟩
  · left
    rw [e]
    exact ⟨fun hb => hn (hval.2 hb), rfl⟩
  · right
    refine ⟨hval.1 hb, ?_⟩
    obtain ⟨order, es, e1, e2⟩ := writesAll hm M.env rfl ((enumerates_desc hm).1 he)
    refine ⟨order, es, e2, ?_⟩
    rw [e]
    dsimp only
    have hne : cs ≠ [] := by
      rintro rfl
      obtain ⟨b, hb⟩ := hb
      obtain ⟨c, hc, _⟩ := he.all b hb
      cases hc
    unfold writeOut
    rw [if_pos ⟨ho, hne⟩, e1]

/-- Given a document that describes a model, the generator writes all its valid configurations, one entry
    for each, or ends with 1 and writes nothing if there are none.  Here exclusive or counts as "not both",
    which is how the solver reads it. -/
theorem C64_as_coded {x : Spec.Doc} {y : Xml} {d : Desc} {text : Str} (hf : a.file ≠ []) (ht : a.type = .all) (hfile : fs a.file = some text)
    (hx : M.xml text = some y) (hy : LaidOut x y) (hok : x.Ok M.sci) (hd : DocDescribes M.cwd x d) (hk : ConstraintsKnown d)
    (hc : DescClear M.floats (withGroups d)) (hh : ∀ i, M.heap.heap i ≠ none → i < M.heap.next)
    (hO : ∀ k ts, M.oracle.check k ts ≠ .unknown) (ho : a.out ≠ []) :
    ∃ k, ∀ fuel, k ≤ fuel →
      ((¬ ∃ b, DescValid M.floats (notBothDesc (withGroups d)) b) ∧ generate M fuel fs a = .exit 1 fs []) ∨
      ((∃ b, DescValid M.floats (notBothDesc (withGroups d)) b) ∧
        ∃ order es, WritesAll M.floats (notBothDesc (withGroups d)) order es ∧
          generate M fuel fs a = writeFile M fs a.out (M.yaml es)) := by
  obtain ⟨m, gs, hl, hm, hgs⟩ := C57_any_layout_partial hh M.env hok hd hk hy
  have hg := mem_withGroups hm rfl hgs
  have hc' : DescClear M.floats { d with groups := gs } := descClear_groups (d := withGroups d) hg hc
  have hv : verifyFeatureModel M fs a.file = true := by simp [verifyFeatureModel, hfile, hx]
  have hl' : loadFeatureModel M fs a.file = .built m := by simp only [loadFeatureModel, hfile, hx]; exact hl
  obtain ⟨k, h⟩ := generate_all hm hf hv hl' ht hc' hO ho
  have hval : (∃ b, DescValid M.floats (notBothDesc { d with groups := gs }) b) ↔
      ∃ b, DescValid M.floats (notBothDesc (withGroups d)) b :=
    exists_congr fun b => descValid_groups (d := notBothDesc (withGroups d)) hg
  refine ⟨k, fun fuel hk => ?_⟩
  rcases h fuel hk with ⟨h1, h2⟩ | ⟨h1, order, es, h2, h3⟩
  · exact .inl ⟨fun hb => h1 (hval.2 hb), h2⟩
  · exact .inr ⟨hval.1 h1, order, es, writesAll_groups (d := notBothDesc (withGroups d)) hg h2, h3⟩

/-- Without exclusive or these are exactly the valid configurations, and they end up in the output file. -/
theorem C64_writes_all_partial {x : Spec.Doc} {y : Xml} {d : Desc} {text : Str} (hf : a.file ≠ []) (ht : a.type = .all) (hfile : fs a.file = some text)
    (hx : M.xml text = some y) (hy : LaidOut x y) (hok : x.Ok M.sci) (hd : DocDescribes M.cwd x d) (hk : ConstraintsKnown d)
    (hc : DescClear M.floats (withGroups d)) (hxor : ∀ c ∈ d.constraints, NoXor c.2) (hh : ∀ i, M.heap.heap i ≠ none → i < M.heap.next)
    (hO : ∀ k ts, M.oracle.check k ts ≠ .unknown) (ho : a.out ≠ []) (hstd : a.out ≠ c!"-") (hopen : M.canOpen a.out = true) :
    ∃ k, ∀ fuel, k ≤ fuel →
      ((¬ ∃ b, DescValid M.floats (withGroups d) b) ∧ generate M fuel fs a = .exit 1 fs []) ∨
      ((∃ b, DescValid M.floats (withGroups d) b) ∧
        ∃ order es fs', WritesAll M.floats (withGroups d) order es ∧ generate M fuel fs a = .exit 0 fs' [] ∧
          fs' a.out = some (M.yaml es)) := by
  obtain ⟨k, h⟩ := C64_as_coded hf ht hfile hx hy hok hd hk hc hh hO ho
  have hid : notBothDesc (withGroups d) = withGroups d := notBothDesc_id (d := withGroups d) hxor
  rw [hid] at h
  refine ⟨k, fun fuel hk => ?_⟩
  rcases h fuel hk with h | ⟨h1, order, es, h2, h3⟩
  · exact .inl h
  · refine .inr ⟨h1, order, es, fun p => if p = a.out then some (M.yaml es) else fs p, h2, ?_, by simp⟩
    rw [h3, writeFile, if_neg hstd, if_pos hopen]

/-! ## Sample sets -/

/-- Given a document that describes a model and a sample set with at least one row, the generator writes one
    entry for each row. -/
theorem C64_sample_set_partial {x : Spec.Doc} {y : Xml} {d : Desc} {text table : Str} {t : Table} (hf : a.file ≠ []) (ht : a.type = .sampleSet)
    (hfile : fs a.file = some text) (hx : M.xml text = some y) (hy : LaidOut x y) (hok : x.Ok M.sci) (hd : DocDescribes M.cwd x d)
    (hk : ConstraintsKnown d) (hh : ∀ i, M.heap.heap i ≠ none → i < M.heap.next) (hc : a.csv ≠ []) (hcsv : fs a.csv = some table)
    (htab : M.csv table = some t) (htok : TableOk t) (hne : t.rows ≠ []) (ho : a.out ≠ []) (fuel : Nat) :
    ∃ order es, WritesRows d t order es ∧ generate M fuel fs a = writeFile M fs a.out (M.yaml es) := by
  obtain ⟨m, gs, hl, hm, hgs⟩ := C57_any_layout_partial hh M.env hok hd hk hy
  obtain ⟨cs, order, es, h1, h2, h3, h4⟩ := writesRows hm M.env htok
  refine ⟨order, es, ⟨h4.perm, h4.parents, h4.length, h4.sorted, h4.entries⟩, ?_⟩
  have hne' : cs ≠ [] := by
    rintro rfl
    exact hne (List.length_eq_zero_iff.1 h2.symm)
  unfold generate
  rw [if_neg hf, show verifyFeatureModel M fs a.file = true by simp [verifyFeatureModel, hfile, hx], if_neg (by simp),
    show loadFeatureModel M fs a.file = .built m by simp only [loadFeatureModel, hfile, hx]; exact hl, ht]
  dsimp only
  rw [if_neg (by simp [hc]), hcsv, Option.bind_some, htab]
  dsimp only
  rw [h1]
  dsimp only
  unfold writeOut
  rw [if_pos ⟨ho, hne'⟩, h3]

/-- The claim is false for sample sets without rows: the run ends with 0 and whatever the output file held
    before stays. -/
theorem C64_empty_set_keeps_old_output {x : Spec.Doc} {y : Xml} {d : Desc} {text table : Str} {t : Table} (hf : a.file ≠ [])
    (ht : a.type = .sampleSet) (hfile : fs a.file = some text) (hx : M.xml text = some y) (hy : LaidOut x y) (hok : x.Ok M.sci)
    (hd : DocDescribes M.cwd x d) (hk : ConstraintsKnown d) (hh : ∀ i, M.heap.heap i ≠ none → i < M.heap.next) (hc : a.csv ≠ [])
    (hcsv : fs a.csv = some table) (htab : M.csv table = some t) (he : t.rows = []) (fuel : Nat) :
    generate M fuel fs a = .exit 0 fs [] := by
  obtain ⟨m, gs, hl, hm, hgs⟩ := C57_any_layout_partial hh M.env hok hd hk hy
  obtain ⟨_, is, _, hit, _⟩ := C25_preorder hm.wf M.env
  unfold generate
  rw [if_neg hf, show verifyFeatureModel M fs a.file = true by simp [verifyFeatureModel, hfile, hx], if_neg (by simp),
    show loadFeatureModel M fs a.file = .built m by simp only [loadFeatureModel, hfile, hx]; exact hl, ht]
  dsimp only
  rw [if_neg (by simp [hc]), hcsv, Option.bind_some, htab]
  dsimp only
  rw [show readConfigurations M.env m t = some [] by unfold readConfigurations; rw [hit, he]; rfl]
  dsimp only
  unfold writeOut
  rw [if_neg (by simp)]

/-- A sample set that cannot be read ends in an exception nobody catches. -/
theorem C64_missing_sample_set_crashes {x : Spec.Doc} {y : Xml} {d : Desc} {text : Str} (hf : a.file ≠ [])
    (ht : a.type = .sampleSet) (hfile : fs a.file = some text) (hx : M.xml text = some y) (hy : LaidOut x y) (hok : x.Ok M.sci)
    (hd : DocDescribes M.cwd x d) (hk : ConstraintsKnown d) (hh : ∀ i, M.heap.heap i ≠ none → i < M.heap.next) (hc : a.csv ≠ [])
    (hcsv : fs a.csv = none) (fuel : Nat) : generate M fuel fs a = .crash := by
  obtain ⟨m, gs, hl, hm, hgs⟩ := C57_any_layout_partial hh M.env hok hd hk hy
  unfold generate
  rw [if_neg hf, show verifyFeatureModel M fs a.file = true by simp [verifyFeatureModel, hfile, hx], if_neg (by simp),
    show loadFeatureModel M fs a.file = .built m by simp only [loadFeatureModel, hfile, hx]; exact hl, ht]
  dsimp only
  rw [if_neg (by simp [hc]), hcsv]
  rfl

/-! ## Numbers -/

/-- A number that is not negative is appended in decimal … -/
theorem C64_number {b : Assign} {x : Attr} {vs : Values} {st : Option StepFn} (hk : x.kind = .numeric vs st) (ho : x.output ≠ [])
    (h : 0 ≤ b.int x.name) : attrShown b x = some (x.output ++ intText (b.int x.name)) := by
  unfold attrShown
  rw [if_neg ho, hk]
  dsimp only
  generalize b.int x.name = v at h
  cases v with
  | ofNat n => rfl
  | negSucc n => exact absurd h (by omega)

/-- … but a negative one never is. -/
theorem C64_negative {b : Assign} {x : Attr} {vs : Values} {st : Option StepFn} (hk : x.kind = .numeric vs st) (ho : x.output ≠ [])
    (h : b.int x.name < 0) : ∃ n : Nat, b.int x.name = -n ∧ attrShown b x = some (x.output ++ c!"(- " ++ natText n ++ c!")") ∧
      attrShown b x ≠ some (x.output ++ intText (b.int x.name)) := by
  unfold attrShown
  rw [if_neg ho, hk]
  dsimp only
  generalize b.int x.name = v at h
  cases v with
  | ofNat n => exact absurd h (by simp)
  | negSucc n =>
    refine ⟨n + 1, by omega, by simp [written], ?_⟩
    intro e
    have := List.append_cancel_left (Option.some.inj e)
    simp [written, intText] at this

/-! ## Not vacuous -/

theorem dnum_iff (d : Desc) (n : Str) :
    DNum d n ↔ (d.attrs.any fun x => x.name == n && (match x.kind with | .numeric _ _ => true | _ => false)) = true := by
  simp only [DNum, List.any_eq_true, Bool.and_eq_true, beq_iff_eq]
  refine exists_congr fun x => and_congr_right fun _ => and_congr_right fun _ => ?_
  cases x.kind with
  | numeric vs st => simp
  | _ => simp

/-- The conditions on a description that can be computed. -/
def descCheck (d : Desc) : Bool :=
  let num := fun n => d.attrs.any fun x => x.name == n && (match x.kind with | .numeric _ _ => true | _ => false)
  decide (Char.ofNat 0 ∉ d.root) && decide (∀ x ∈ d.attrs, Char.ofNat 0 ∉ x.name) &&
  decide (∀ x ∈ d.constraints, ∀ n ∈ x.2.features, Char.ofNat 0 ∉ n) && decide (∀ x ∈ d.attrs, x.kind ≠ .unknown) &&
  decide (∀ x ∈ d.attrs, x.kind = .binary → num (d.parent x.name) = false) &&
  (d.constraints.all fun x => match x.1 with
    | .mixed _ => sortOf (fun _ => .int) x.2 == some .bool
    | _ => sortOf (fun n => if num n then .int else .bool) x.2 == some .bool)

theorem descClear_of_check {F : IntFloats} {d : Desc} (h : descCheck d = true)
    (hr : ∀ x ∈ d.attrs, ∀ lo hi st, x.kind = .numeric (.range lo hi) st → Ends (stepOf F st) hi lo)
    (hg : ∀ n, Exclusive d n → ¬ DNum d n ∧ ∀ x ∈ d.kids n, x.kind = .binary) : DescClear F (withGroups d) := by
  classical
  simp only [descCheck, Bool.and_eq_true, decide_eq_true_eq, List.all_eq_true] at h
  obtain ⟨⟨⟨⟨⟨h1, h2⟩, h3⟩, h4⟩, h5⟩, h6⟩ := h
  have hgr : ∀ g ∈ (withGroups d).groups, Exclusive d g.1 := by
    intro g hg
    simp only [withGroups, List.mem_map, List.mem_filter, decide_eq_true_eq] at hg
    obtain ⟨n, ⟨_, hn⟩, rfl⟩ := hg
    exact hn
  have hs : dsort (withGroups d) = fun n => if (d.attrs.any fun x => x.name == n && (match x.kind with | .numeric _ _ => true | _ => false)) = true
      then ZSort.int else .bool := by
    funext n
    unfold dsort
    have := dnum_iff d n
    have hw : DNum (withGroups d) n ↔ DNum d n := .rfl
    rw [← hw] at this
    by_cases hn : DNum (withGroups d) n
    · rw [if_pos hn, if_pos (this.1 hn)]
    · rw [if_neg hn, if_neg (mt this.2 hn)]
  refine ⟨h1, h2, h3, h4, hr, ?_, ?_, ?_, ?_, ?_⟩
  · intro x hx hb hn
    have := h5 x hx hb
    rw [(dnum_iff d (d.parent x.name)).1 hn] at this
    cases this
  · exact fun g h => (hg _ (hgr g h)).1
  · exact fun g h => (hg _ (hgr g h)).2
  · intro g h _ e
    exact absurd (hgr g h).many (by rw [show d.kids g.1 = [] from e]; decide)
  · intro x hx
    have := h6 x hx
    obtain ⟨k, c⟩ := x
    rw [hs]
    cases k with
    | mixed i => exact eq_of_beq this
    | boolean => exact eq_of_beq this
    | nonBoolean => exact eq_of_beq this

theorem altDesc_clear (F : IntFloats) : DescClear F (withGroups altDesc) := by
  refine descClear_of_check (by decide) ?_ ?_
  · intro x hx lo hi st hk
    have : x ∈ [altDoc.binary[1].attr false, altDoc.binary[2].attr false, DocOption.attr true
      { name := c!"N", parent := some c!"A", optional := some true, values := some (.list [1, -5, 20]) }] := hx
    simp only [List.mem_cons, List.not_mem_nil, or_false] at this
    rcases this with rfl | rfl | rfl <;> cases hk
  · intro n hn
    by_cases h : n = c!"root"
    · subst h
      exact ⟨fun h => absurd ((dnum_iff _ _).1 h) (by decide), by decide⟩
    · exfalso
      have hne : altDesc.kids n ≠ [] := fun e => absurd hn.many (by rw [e]; decide)
      obtain ⟨x, hx⟩ := List.exists_mem_of_ne_nil _ hne
      obtain ⟨h1, h2⟩ := List.mem_filter.1 hx
      have h2 : altDesc.parent x.name = n := by simpa using h2
      have hp : ∀ x ∈ altDesc.attrs, altDesc.parent x.name = c!"root" ∨ altDesc.parent x.name = c!"A" := by decide
      rcases hp x h1 with e | e
      · exact h (h2.symm.trans e)
      · rw [← h2, e] at hn
        exact C34_example.2 hn

/-- Root, `A` and the number 1. -/
def altChoice : Assign := ⟨fun n => decide (n = c!"root" ∨ n = c!"A"), fun _ => 1, fun _ => 0⟩

theorem altDesc_has_valid (F : IntFloats) : ∃ b, DescValid F (withGroups altDesc) b := by
  classical
  refine ⟨altChoice, ?_⟩
  have hgr : ∀ n k, (n, k) ∈ (withGroups altDesc).groups → n = c!"root" ∧ k = .alternative := by
    intro n k hg
    simp only [withGroups, List.mem_map, List.mem_filter, decide_eq_true_eq] at hg
    obtain ⟨n', ⟨hm, hn⟩, e⟩ := hg
    cases e
    refine ⟨?_, rfl⟩
    have hne : ∀ n ∈ altDesc.root :: altDesc.attrs.map Attr.name, n = c!"root" ∨ (altDesc.kids n).length < 2 := by decide
    rcases hne n hm with e | e
    · exact e
    · exact absurd hn.many (by omega)
  have hnum : ∀ n, (altDesc.attrs.any fun x => x.name == n && (match x.kind with | .numeric _ _ => true | _ => false)) = false →
      dvalue (withGroups altDesc) altChoice n = .bool (altChoice.bool n) := by
    intro n hn
    unfold dvalue
    rw [if_neg]
    intro h
    rw [(dnum_iff altDesc n).1 h] at hn
    cases hn
  have hA := hnum c!"A" (by decide)
  have hB := hnum c!"B" (by decide)
  refine ⟨rfl, ?_, ?_, ?_, ?_, ?_, ?_⟩
  · show ∀ x ∈ altDesc.attrs, x.kind = .binary → altChoice.bool x.name = true → altChoice.bool (altDesc.parent x.name) = true
    decide
  · intro x hx hb _ hg
    have hp : ∀ x ∈ altDesc.attrs, x.kind = .binary → altDesc.parent x.name = c!"root" := by decide
    refine absurd ?_ (hg .alternative)
    rw [show (withGroups altDesc).parent x.name = c!"root" from hp x hx hb]
    simp only [withGroups, List.mem_map, List.mem_filter, decide_eq_true_eq]
    exact ⟨_, ⟨List.mem_cons_self .., C34_example.1⟩, rfl⟩
  · intro n hn _
    obtain ⟨rfl, _⟩ := hgr n _ hn
    exact ⟨altDoc.binary[1].attr false, by decide, rfl, by decide⟩
  · intro n hn _
    exact nomatch (hgr n _ hn).2
  · show ∀ x ∈ altDesc.attrs, ∀ vs st, x.kind = .numeric vs st → Allowed F vs st (altChoice.int x.name)
    intro x hx vs st hk
    have : x = altDoc.binary[1].attr false ∨ x = altDoc.binary[2].attr false ∨ x.kind = .numeric (.list [1, -5, 20]) none := by
      clear hk
      revert x
      decide
    rcases this with rfl | rfl | e
    · cases hk
    · cases hk
    · rw [e] at hk
      cases hk
      show (1 : Int) ∈ [1, -5, 20]
      decide
  · intro x hx
    have : x ∈ altDesc.constraints := hx
    simp only [altDesc, List.mem_cons, List.not_mem_nil, or_false] at this
    rcases this with rfl | rfl | rfl
    all_goals
      simp only [DHolds, excludes, meaning, hA, hB]
      decide

/-- The hypotheses are met by the document with `A` and `B` that exclude each other and the number `N`: its
    valid configurations are written. -/
example (hf : a.file ≠ []) (ht : a.type = .all) {text : Str} (hfile : fs a.file = some text) (hx : M.xml text = some altDoc.toXml)
    (hh : M.heap = nothing) (hcwd : M.cwd = c!"/home") (hO : M.oracle = idealOracle) (ho : a.out = c!"out.yml")
    (hopen : M.canOpen a.out = true) : ∃ fuel order es fs', WritesAll M.floats (withGroups altDesc) order es ∧
      generate M fuel fs a = .exit 0 fs' [] ∧ fs' a.out = some (M.yaml es) := by
  obtain ⟨k, h⟩ := C64_writes_all_partial (d := altDesc) hf ht hfile hx (.inl rfl) (altDoc_ok _) (hcwd ▸ altDoc_says) altDesc_known
    (altDesc_clear _) (by simp [altDesc, excludes, NoXor]) (by rw [hh]; exact nothing_fresh) (by rw [hO]; exact idealOracle_answers) (by rw [ho]; decide)
    (by rw [ho]; decide) hopen
  rcases h k (Nat.le_refl k) with ⟨hn, _⟩ | ⟨_, order, es, fs', h⟩
  · exact absurd (altDesc_has_valid _) hn
  · exact ⟨k, order, es, fs', h⟩

/-! ## A run with a negative number -/

/-- The root and a number that can only be -5. -/
def minusDoc : Spec.Doc where
  name := c!"M"
  commit := none
  binary := [{ name := c!"root" }]
  numeric := some [{ name := c!"N", output := some c!"-n ", values := some (.list [-5]) }]
  constraints := fun _ => none

def minusAttr : Attr := { name := c!"N", kind := .numeric (.list [-5]) none, output := c!"-n " }

def minusDesc : Desc where
  name := c!"M"
  path := c!"/home"
  commit := []
  root := c!"root"
  attrs := [minusAttr]
  parent := fun _ => c!"root"
  groups := []
  constraints := []

theorem minusDoc_ok (sci : Str → Option Str) : minusDoc.Ok sci where
  name := .inr (solid_of (by decide))
  path := by intro t h; cases h
  commit := by intro t h; cases h
  binary := by
    intro o ho
    simp only [minusDoc, List.mem_cons, List.not_mem_nil, or_false] at ho
    subst ho
    refine ⟨solid_of (by decide), ?_, ?_, ?_, ?_, ?_, ?_, ?_, ?_⟩ <;> simp
  numeric := by
    intro l hl o ho
    cases hl
    simp only [List.mem_cons, List.not_mem_nil, or_false] at ho
    subst ho
    refine ⟨solid_of (by decide), ?_, ?_, ?_, ?_, ?_, ?_, ?_, ?_⟩ <;> simp
    · decide
    · exact ⟨by decide, by simp only [List.mem_cons, List.not_mem_nil, or_false, forall_eq]; exact ⟨by decide, by decide⟩⟩
  constraints := by
    intro cl l hl
    cases hl

theorem minusDoc_says : DocDescribes c!"/home" minusDoc minusDesc where
  name := rfl
  path := rfl
  commit := rfl
  root := .inr (by decide)
  attrs := rfl
  distinct := by decide
  parent := by decide
  children := by decide
  no_parent := by decide
  acyclic := ⟨fun n => if n = c!"root" then 0 else 1, by decide⟩
  groups := rfl
  constraints := rfl

theorem minusDesc_clear (F : IntFloats) : DescClear F (withGroups minusDesc) := by
  have hkids : ∀ n, (minusDesc.kids n).length ≤ 1 := by
    intro n
    exact List.length_filter_le _ _
  refine descClear_of_check (by decide) ?_ ?_
  · intro x hx lo hi st hk
    rw [List.mem_singleton.1 (show x ∈ [minusAttr] from hx)] at hk
    cases hk
  · intro n hn
    exact absurd hn.many (by have := hkids n; omega)

theorem minusDesc_valid (F : IntFloats) (b : Assign) : DescValid F (withGroups minusDesc) b ↔ b.bool c!"root" = true ∧ b.int c!"N" = -5 := by
  have hg : ∀ g, g ∉ (withGroups minusDesc).groups := by
    classical
    intro g hg
    simp only [withGroups, List.mem_map, List.mem_filter, decide_eq_true_eq] at hg
    obtain ⟨n, ⟨_, hn⟩, _⟩ := hg
    have : (minusDesc.kids n).length ≤ 1 := List.length_filter_le _ _
    exact absurd hn.many (by omega)
  have hone : ∀ x, x ∈ (withGroups minusDesc).attrs → x = minusAttr := fun x hx => List.mem_singleton.1 hx
  constructor
  · intro v
    refine ⟨v.root, ?_⟩
    have := v.numeric minusAttr (List.mem_singleton.2 rfl) _ _ rfl
    exact List.mem_singleton.1 this
  · rintro ⟨h1, h2⟩
    refine ⟨h1, ?_, ?_, fun n hn => absurd hn (hg _), fun n hn => absurd hn (hg _), ?_, nofun⟩
    · intro x hx hk; rw [hone x hx] at hk; cases hk
    · intro x hx hk; rw [hone x hx] at hk; cases hk
    · intro x hx vs st hk
      rw [hone x hx] at hk ⊢
      cases hk
      exact List.mem_singleton.2 h2

/-- The claim is false for negative numbers: the only configuration has `N` as -5, and what is written is
    `-n (- 5)`. -/
theorem C64_writes_minus_five (hf : a.file ≠ []) (ht : a.type = .all) {text : Str} (hfile : fs a.file = some text)
    (hx : M.xml text = some minusDoc.toXml) (hh : ∀ i, M.heap.heap i ≠ none → i < M.heap.next) (hcwd : M.cwd = c!"/home")
    (hO : ∀ k ts, M.oracle.check k ts ≠ .unknown) (ho : a.out ≠ []) (hstd : a.out ≠ c!"-") (hopen : M.canOpen a.out = true) :
    ∃ k, ∀ fuel, k ≤ fuel → ∃ fs', generate M fuel fs a = .exit 0 fs' [] ∧
      fs' a.out = some (M.yaml [(c!"0", c!"[\"-n (- 5)\"]")]) := by
  obtain ⟨k, h⟩ := C64_writes_all_partial (d := minusDesc) hf ht hfile hx (.inl rfl) (minusDoc_ok _) (hcwd ▸ minusDoc_says)
    (by unfold ConstraintsKnown; decide) (minusDesc_clear _) nofun hh hO ho hstd hopen
  refine ⟨k, fun fuel hk => ?_⟩
  have hval : DescValid M.floats (withGroups minusDesc) ⟨fun _ => true, fun _ => -5, fun _ => 0⟩ := (minusDesc_valid _ _).2 ⟨rfl, rfl⟩
  rcases h fuel hk with ⟨hn, _⟩ | ⟨_, order, es, fs', hw, h1, h2⟩
  · exact absurd ⟨_, hval⟩ hn
  · refine ⟨fs', h1, ?_⟩
    rw [h2]
    obtain ⟨as, a1, a2, a3, a4⟩ := hw.entries
    have ho : order = [minusAttr] := List.perm_singleton.1 hw.perm
    match as, a1, a2, a3, a4 with
    | [], _, _, _, a4 =>
      obtain ⟨b, hb, _⟩ := a4 _ hval
      cases hb
    | [b], a1, a2, _, _ =>
      obtain ⟨v, hm⟩ := a2 0 b rfl
      have hes : es = [(natText 0, entryText order b)] := by
        match es, a1 with
        | [e], _ => rw [List.mem_singleton.1 hm]
      have h5 : natText 5 = c!"5" := natText_digit (n := 5) (by decide)
      have h0 : natText 0 = c!"0" := natText_digit (n := 0) (by decide)
      have hn := ((minusDesc_valid _ _).1 v).2
      have ht : entryText order b = c!"[\"-n (- 5)\"]" := by
        have e : attrShown b minusAttr = some (c!"-n " ++ (c!"(- " ++ natText 5 ++ c!")")) := by
          show (if c!"-n " = [] then none else some (c!"-n " ++ written (.int (b.int c!"N")))) = _
          rw [if_neg (by decide), hn]
          rfl
        rw [entryText, ho, List.filterMap_cons, e, h5]
        rfl
      rw [hes, ht, h0]
    | b :: b' :: as, _, a2, a3, _ =>
      obtain ⟨x, hx, hne⟩ := (List.pairwise_cons.1 a3).1 b' (List.mem_cons_self ..)
      have hn := ((minusDesc_valid _ _).1 (a2 0 b rfl).1).2
      have hn' := ((minusDesc_valid _ _).1 (a2 1 b' rfl).1).2
      rw [List.mem_singleton.1 (show x ∈ [minusAttr] from hx)] at hne
      refine absurd ?_ hne
      show ZVal.int (b.int c!"N") = .int (b'.int c!"N")
      rw [hn, hn']

end Verif.Props

import Verif.Solver.Examples
/-!
# C38, C39, C43, C44, C45: what the solver is told about a model
-/

namespace Verif.Props
open Verif Verif.Spec Verif.FModel Verif.Z3Solver

/-! ## C38 -/

/-- With exclusive or read as "not both", an assignment satisfies what the solver asserts exactly if it is
    a valid configuration, and the options are exactly the features, each once. -/
theorem C38_as_coded {F : IntFloats} {m : FModel} (w : WF m) (L : Clear F m) (E : Env) :
    ∃ k, ∀ fuel, k ≤ fuel → ∃ s, initSolver E F fuel m = .ok s ∧
      (∀ a, Sat a s.asserted ↔ Valid F (notBothIn m) a) ∧
      (s.options.map Prod.fst).Nodup ∧
      ∀ n, n ∈ s.options.map Prod.fst ↔ ∃ i, (n, i) ∈ m.features := by
  obtain ⟨k, l, _, hnd, hmem, h⟩ := initSolver_coded w L E
  refine ⟨k, fun fuel hf => ?_⟩
  obtain ⟨ts, e, hs⟩ := h fuel hf
  refine ⟨_, e, hs, ?_, ?_⟩
  · rw [List.map_map, List.nodup_iff_pairwise_ne, List.pairwise_map]
    refine hnd.imp_of_mem ?_
    intro i j hi hj hne e
    obtain ⟨f, hf⟩ := w.known_data ((hmem i).1 hi)
    obtain ⟨g, hg⟩ := w.known_data ((hmem j).1 hj)
    simp only [Function.comp, optEntry_data hf, optEntry_data hg] at e
    exact hne (w.name_inj ((hmem i).1 hi) ((hmem j).1 hj) hf hg e)
  · intro n
    simp only [List.map_map, List.mem_map, Function.comp]
    constructor
    · rintro ⟨i, hi, rfl⟩
      obtain ⟨f, hf⟩ := w.known_data ((hmem i).1 hi)
      rw [optEntry_data hf]
      exact ⟨i, w.entry_mem ((hmem i).1 hi) hf⟩
    · rintro ⟨i, hi⟩
      obtain ⟨f, hf, hn⟩ := w.feat_ok _ hi
      refine ⟨i, (hmem i).2 (List.mem_map.2 ⟨_, hi, rfl⟩), ?_⟩
      rw [optEntry_data hf]
      exact hn

/-- So for a model without exclusive or exactly the valid configurations are accepted.  Missing from the
    claim are the models that are not `Loadable`, see below. -/
theorem C38_exactly_valid_partial {F : IntFloats} {m : FModel} (w : WF m) (L : Loadable F m) (E : Env) :
    ∃ k, ∀ fuel, k ≤ fuel → ∃ s, initSolver E F fuel m = .ok s ∧
      (∀ a, Sat a s.asserted ↔ Valid F m a) ∧
      (s.options.map Prod.fst).Nodup ∧
      ∀ n, n ∈ s.options.map Prod.fst ↔ ∃ i, (n, i) ∈ m.features := by
  have h := C38_as_coded w L.toClear E
  rwa [notBothIn_id L.noXor] at h

/-- The hypotheses are met by a model with a group, an optional and a numeric feature and both kinds of
    constraints; this configuration of it is valid … -/
def shopChoice (a b o : Bool) (n : Int) : Assign where
  bool x := if x = c!"root" then true else if x = c!"A" then a else if x = c!"B" then b else if x = c!"O" then o else false
  int x := if x = c!"N" then n else 0
  div0 _ := 0

theorem shop_known {i : Id} (h : Known shop i) : i = 0 ∨ i = 2 ∨ i = 3 ∨ i = 4 ∨ i = 5 := by
  have : i ∈ [0, 2, 3, 4, 5] := h
  simpa using this

theorem shop_rels {r : Id} (h : r ∈ shop.rels) : r = 1 := by
  have : r ∈ [1] := h
  simpa using this

theorem shop_fparent {i p : Id} (hi : Known shop i) (h : FParent shop i p) : p = 0 := by
  obtain ⟨r, e, hr⟩ := parentFeature_spec shop_wf (.inl hi)
  have h' := (hr p).2 h
  rcases shop_known hi with rfl | rfl | rfl | rfl | rfl
  · rw [show shop.parentFeature 0 = some none by decide] at e; cases e; cases h'
  all_goals
    rw [h'] at e
    revert e
    first
      | rw [show shop.parentFeature 2 = some (some 0) by decide]
      | rw [show shop.parentFeature 3 = some (some 0) by decide]
      | rw [show shop.parentFeature 4 = some (some 0) by decide]
      | rw [show shop.parentFeature 5 = some (some 0) by decide]
    intro e; cases e; rfl

theorem shop_num : IsNum shop c!"N" ∧ ¬ IsNum shop c!"O" ∧ ¬ IsNum shop c!"A" := by
  refine ⟨isNumB_iff.1 (by decide), fun h => ?_, fun h => ?_⟩
  · exact absurd (isNumB_iff.2 h) (by decide)
  · exact absurd (isNumB_iff.2 h) (by decide)

theorem shopChoice_selected {a b o : Bool} {n : Int} {i : Id} : Selected shop (shopChoice a b o n) i ↔
    i = 0 ∨ (i = 2 ∧ a = true) ∨ (i = 3 ∧ b = true) ∨ (i = 4 ∧ o = true) := by
  constructor
  · rintro ⟨f, hf, hs⟩
    match i, hf with
    | 0, hf => exact .inl rfl
    | 1, hf => cases hf
    | 2, hf => cases hf; exact .inr (.inl ⟨rfl, hs⟩)
    | 3, hf => cases hf; exact .inr (.inr (.inl ⟨rfl, hs⟩))
    | 4, hf => cases hf; exact .inr (.inr (.inr ⟨rfl, hs⟩))
    | 5, hf => cases hf; cases hs
    | (k + 6), hf => cases hf
  · rintro (rfl | ⟨rfl, rfl⟩ | ⟨rfl, rfl⟩ | ⟨rfl, rfl⟩)
    · exact ⟨_, rfl, rfl⟩
    · exact ⟨_, rfl, rfl⟩
    · exact ⟨_, rfl, rfl⟩
    · exact ⟨_, rfl, rfl⟩

theorem shopChoice_valid : Valid exactFloats shop (shopChoice true false true 3) := by
  obtain ⟨n1, n2, n3⟩ := shop_num
  refine ⟨?_, ?_, ?_, ?_, ?_, ?_, ?_, ?_⟩
  · intro r hr; cases hr; exact shopChoice_selected.2 (.inl rfl)
  · intro i f p hi hd hk hp hs
    rw [shop_fparent hi hp]; exact shopChoice_selected.2 (.inl rfl)
  · intro i f p hi hd hk ho hp hpf hs
    rcases shop_known hi with rfl | rfl | rfl | rfl | rfl <;> cases hd
    · cases hp
    · exact shopChoice_selected.2 (by simp)
    · cases hp; obtain ⟨g, hg⟩ := hpf; cases hg
    · exact shopChoice_selected.2 (by simp)
    · cases hk
  · intro r p hr hd hp hs
    cases shop_rels hr
    refine ⟨2, by decide, shopChoice_selected.2 (by simp), ?_⟩
    intro c hc hs
    have : c ∈ [2, 3] := hc
    simp only [List.mem_cons, List.not_mem_nil, or_false] at this
    rcases this with rfl | rfl
    · rfl
    · simp [shopChoice_selected] at hs
  · intro r p hr hd
    cases shop_rels hr
    cases hd
  · intro i f vs st hi hd hk
    rcases shop_known hi with rfl | rfl | rfl | rfl | rfl <;> cases hd <;> cases hk
    exact .step (.start (by decide)) (plusTwo_step 1) (by decide)
  · intro c hc
    have hc : c ∈ [_] := hc
    cases List.mem_singleton.1 hc
    simp only [meaning, value, if_neg n2, if_neg n3]
    rfl
  · intro c hc i hi hall
    have hc : c ∈ [_] := hc
    cases List.mem_singleton.1 hc
    cases hi
    simp only [meaning, value01, if_pos n1, if_neg n2]
    rfl

example : WF shop ∧ Loadable exactFloats shop ∧ Valid exactFloats shop (shopChoice true false true 3) ∧
    ¬ Valid exactFloats shop (shopChoice true true true 3) := by
  refine ⟨shop_wf, shop_loadable, shopChoice_valid, fun v => ?_⟩
  obtain ⟨c, hc, hs, hu⟩ := v.alternative 1 0 (by decide) rfl rfl (shopChoice_selected.2 (.inl rfl))
  have h2 := hu 2 (by decide) (shopChoice_selected.2 (by simp))
  have h3 := hu 3 (by decide) (shopChoice_selected.2 (by simp))
  rw [← h2] at h3
  cases h3

/-! ### Models that are not loadable -/

/-- What holds of a solver that was set up. -/
def SRes.holds (r : SRes) (p : Z3Solver → Bool) : Bool := match r with | .ok s => p s | _ => false

def SRes.crashes (r : SRes) : Bool := match r with | .crash => true | _ => false

theorem SRes.of_crashes {r : SRes} (h : SRes.crashes r = true) : r = .crash := by
  cases r <;> first | rfl | cases h

theorem SRes.of_holds {r : SRes} {p : Z3Solver → Bool} (h : SRes.holds r p = true) : ∃ s, r = .ok s ∧ p s = true := by
  cases r <;> first | exact ⟨_, rfl, h⟩ | cases h

/-- root with `A` and `B`, exactly one of them. -/
def oneOfTwo : FModel :=
  ofNodes
    [featNode "root" none [1, 2] .root,
     { data := .feat { attr := { name := c!"A", kind := .binary, opt := true } }, parent := some 0, edges := [] },
     { data := .feat { attr := { name := c!"B", kind := .binary, opt := true } }, parent := some 0, edges := [] }]
    (some 0) [(c!"root", 0), (c!"A", 1), (c!"B", 2)] []
    [⟨.bin .xor (.feature c!"A") (.feature c!"B"), [some 1, some 2], none⟩]

/-- The claim is false with an exclusive or: neither side is accepted. -/
theorem C38_xor_accepts_invalid : WF oneOfTwo ∧
    ∃ s a, initSolver (stdEnv true) exactFloats 1 oneOfTwo = .ok s ∧ Sat a s.asserted ∧ ¬ Valid exactFloats oneOfTwo a := by
  refine ⟨wf_of_check (fun i => i) (ofNodes_fresh _ _ _ _ _) (by decide), ?_⟩
  have h : SRes.holds (initSolver (stdEnv true) exactFloats 1 oneOfTwo)
      (fun s => s.asserted.all (fun t => decide (t.eval ⟨fun n => decide (n = c!"root"), fun _ => 0, fun _ => 0⟩ = .bool true))) = true := by decide
  obtain ⟨s, e, hs⟩ := SRes.of_holds h
  refine ⟨s, _, e, fun t ht => by simpa using List.all_eq_true.1 hs t ht, fun v => ?_⟩
  have := v.boolean _ (List.mem_append_left _ (List.mem_singleton.2 rfl))
  have nA : ¬ IsNum oneOfTwo c!"A" := fun h => absurd (isNumB_iff.2 h) (by decide)
  have nB : ¬ IsNum oneOfTwo c!"B" := fun h => absurd (isNumB_iff.2 h) (by decide)
  simp only [meaning, value, if_neg nA, if_neg nB, opMeaning] at this
  exact absurd this (by decide)

theorem oneOfTwo_clear : Clear exactFloats oneOfTwo := by
  refine clear_of_check C38_xor_accepts_invalid.1 ?_ (by decide)
  intro i f lo hi st hk hd hkind
  have : i ∈ [0, 1, 2] := hk
  simp only [List.mem_cons, List.not_mem_nil, or_false] at this
  rcases this with rfl | rfl | rfl <;> cases hd <;> cases hkind

/-- No valid configuration is lost, if exclusive or is only used where it is to hold itself: at the top of
    a constraint or below conjunctions and disjunctions. -/
theorem C38_no_valid_lost {F : IntFloats} {m : FModel} (w : WF m) (L : Clear F m) (E : Env)
    (hx : ∀ c ∈ m.booleans ++ m.nonBooleans, XorOnTop c.tree) (hm : ∀ c ∈ m.mixeds, NoXor c.tree) :
    ∃ k, ∀ fuel, k ≤ fuel → ∃ s, initSolver E F fuel m = .ok s ∧ ∀ a, Valid F m a → Sat a s.asserted := by
  obtain ⟨k, h⟩ := C38_as_coded w L E
  refine ⟨k, fun fuel hf => ?_⟩
  obtain ⟨s, e, hs, _⟩ := h fuel hf
  refine ⟨s, e, fun a v => (hs a).2 (valid_notBoth.2 ⟨⟨v.root, v.parent, v.mandatory, v.alternative, v.or, v.numeric⟩, ?_, ?_⟩)⟩
  · exact fun c hc => (xorOnTop_weaker (hx c hc)).1 (v.boolean c hc)
  · intro c hc
    have := v.mixed c hc
    rw [mixedCoded_iff]
    unfold MixedCoded
    rw [notBoth_id (hm c hc)]
    exact this

/-- `C38_as_coded` and `C38_no_valid_lost` apply to the model with an exclusive or. -/
example : WF oneOfTwo ∧ Clear exactFloats oneOfTwo ∧ (∀ c ∈ oneOfTwo.booleans ++ oneOfTwo.nonBooleans, XorOnTop c.tree) ∧
    ∀ c ∈ oneOfTwo.mixeds, NoXor c.tree := by
  refine ⟨C38_xor_accepts_invalid.1, oneOfTwo_clear, fun c hc => ?_, fun c hc => nomatch hc⟩
  rw [List.mem_singleton.1 hc]
  exact .xor trivial trivial

/-- root with a feature `U` of unknown kind and its child `B`. -/
def withUnknown : FModel :=
  ofNodes [featNode "root" none [1] .root, featNode "U" (some 0) [2] .unknown, featNode "B" (some 1) []]
    (some 0) [(c!"root", 0), (c!"U", 1), (c!"B", 2)] []

/-- Features of unknown kind and what is below them are left out without an error. -/
theorem C38_unknown_left_out : WF withUnknown ∧
    ∃ s, initSolver (stdEnv true) exactFloats 1 withUnknown = .ok s ∧ s.options.map Prod.fst = [c!"root"] := by
  refine ⟨wf_of_check (fun i => i) (ofNodes_fresh _ _ _ _ _) (by decide), ?_⟩
  have h : SRes.holds (initSolver (stdEnv true) exactFloats 1 withUnknown)
      (fun s => decide (s.options.map Prod.fst = [c!"root"])) = true := by decide
  obtain ⟨s, e, hs⟩ := SRes.of_holds h
  exact ⟨s, e, by simpa using hs⟩

/-- root with a numeric feature `N` that has the child `A`. -/
def numericParent : FModel :=
  ofNodes [featNode "root" none [1] .root, featNode "N" (some 0) [2] (.numeric (.list [1, 2]) none), featNode "A" (some 1) []]
    (some 0) [(c!"root", 0), (c!"N", 1), (c!"A", 2)] []

/-- root with an alternative group without members. -/
def emptyGroup : FModel :=
  ofNodes [featNode "root" none [1] .root, { data := .rel .alternative, parent := some 0, edges := [] }]
    (some 0) [(c!"root", 0)] [1]

/-- A Boolean feature below a numeric one and an alternative group without members cannot be loaded. -/
theorem C38_cannot_be_loaded :
    (WF numericParent ∧ initSolver (stdEnv true) exactFloats 1 numericParent = .crash) ∧
    (WF emptyGroup ∧ initSolver (stdEnv true) exactFloats 1 emptyGroup = .crash) := by
  refine ⟨⟨wf_of_check (fun i => i) (ofNodes_fresh _ _ _ _ _) (by decide), SRes.of_crashes (by decide)⟩,
    wf_of_check (fun i => i) (ofNodes_fresh _ _ _ _ _) (by decide), SRes.of_crashes (by decide)⟩

/-! ## C39 -/

/-- What is asserted for an exclusive or of two Boolean expressions: not both sides. -/
theorem C39_asserts_not_both {m : FModel} (w : WF m) {l r : Constraint} (bl br : List (Option Id)) (i : Option MixedInfo)
    (hl : NoXor l) (hr : NoXor r) (sl : sortOf (sortIn m) l = some .bool) (sr : sortOf (sortIn m) r = some .bool)
    (nl : ∀ n ∈ l.features, Char.ofNat 0 ∉ n) (nr : ∀ n ∈ r.features, Char.ofNat 0 ∉ n)
    (hbl : BindsOk m l.features bl) (hbr : BindsOk m r.features br) (s : Z3Solver) :
    ∃ t, addConstraint m s ⟨.bin .xor l r, bl ++ br, i⟩ = .ok { s with asserted := s.asserted ++ [t] } ∧
      ∀ a, t.eval a = .bool true ↔
        ¬ (meaning (value m a) a.div0 l = some (.bool true) ∧ meaning (value m a) a.div0 r = some (.bool true)) := by
  obtain ⟨tl, h1, h2, h3⟩ := visit_ok w l hl sl nl bl br hbl (.boolVal false) rfl
  obtain ⟨tr, g1, g2, g3⟩ := visit_ok w r hr sr nr br [] hbr (.boolVal false) rfl
  rw [List.append_nil] at g1
  obtain ⟨t, e1, e2, e3⟩ := visitBin_xor h2 g2
  refine ⟨t, ?_, ?_⟩
  · simp [addConstraint, addVisited, visit, h1, g1, e1, Z3Solver.assert, e2]
  · intro a
    obtain ⟨a1, a2⟩ := h3 a
    obtain ⟨b1, b2⟩ := g3 a
    rw [Fits, h2] at a2
    rw [Fits, g2] at b2
    obtain ⟨x, hx⟩ := ZVal.of_bool a2
    obtain ⟨y, hy⟩ := ZVal.of_bool b2
    rw [a1, b1, hx, hy, e3 a x y hx hy]
    cases x <;> cases y <;> simp

/-- What is asserted for any constraint, however exclusive or is nested in it: the constraint with "not
    both" in place of each exclusive or. -/
theorem C39_as_coded {m : FModel} (w : WF m) {c : Stored} (hs : sortOf (sortIn m) c.tree = some .bool)
    (hn : ∀ n ∈ c.tree.features, Char.ofNat 0 ∉ n) (hb : BindsOk m c.tree.features c.binds) (s : Z3Solver) :
    ∃ ts, addConstraint m s c = .ok { s with asserted := s.asserted ++ ts } ∧
      ∀ a, Sat a ts ↔ meaning (value m a) a.div0 (notBoth c.tree) = some (.bool true) := addConstraint_coded w hs hn hb s

/-- So below a negation both is required where exactly one is meant: `A = B` is lost from `not (A xor B)`. -/
theorem C39_negated_xor_requires_both (ρ : Str → ZVal) (q : Int → Int) {x y : Bool} (hA : ρ c!"A" = .bool x) (hB : ρ c!"B" = .bool y) :
    (meaning ρ q (notBoth (.un .not (.bin .xor (.feature c!"A") (.feature c!"B")))) = some (.bool true) ↔ x = true ∧ y = true) ∧
    (meaning ρ q (.un .not (.bin .xor (.feature c!"A") (.feature c!"B"))) = some (.bool true) ↔ x = y) := by
  simp only [notBoth, notBothOp, meaning, hA, hB, opMeaning]
  cases x <;> cases y <;> simp

/-- The claim holds unless both sides are false … -/
theorem C39_exactly_one_partial {m : FModel} (w : WF m) {l r : Constraint} (bl br : List (Option Id)) (i : Option MixedInfo)
    (hl : NoXor l) (hr : NoXor r) (sl : sortOf (sortIn m) l = some .bool) (sr : sortOf (sortIn m) r = some .bool)
    (nl : ∀ n ∈ l.features, Char.ofNat 0 ∉ n) (nr : ∀ n ∈ r.features, Char.ofNat 0 ∉ n)
    (hbl : BindsOk m l.features bl) (hbr : BindsOk m r.features br) (s : Z3Solver) :
    ∃ t, addConstraint m s ⟨.bin .xor l r, bl ++ br, i⟩ = .ok { s with asserted := s.asserted ++ [t] } ∧
      (∀ a, (meaning (value m a) a.div0 l = some (.bool true) ∨ meaning (value m a) a.div0 r = some (.bool true)) →
        (t.eval a = .bool true ↔ meaning (value m a) a.div0 (.bin .xor l r) = some (.bool true))) ∧
      -- … and is false whenever they are.
      (∀ a, meaning (value m a) a.div0 l = some (.bool false) → meaning (value m a) a.div0 r = some (.bool false) →
        t.eval a = .bool true ∧ meaning (value m a) a.div0 (.bin .xor l r) = some (.bool false)) := by
  obtain ⟨t, h1, h2⟩ := C39_asserts_not_both w bl br i hl hr sl sr nl nr hbl hbr s
  obtain ⟨tl, _, c2, c3⟩ := visit_ok w l hl sl nl bl [] hbl (.boolVal false) rfl
  obtain ⟨tr, _, d2, d3⟩ := visit_ok w r hr sr nr br [] hbr (.boolVal false) rfl
  refine ⟨t, h1, fun a ho => ?_, fun a hf hg => ?_⟩
  · obtain ⟨a1, a2⟩ := c3 a
    obtain ⟨b1, b2⟩ := d3 a
    rw [Fits, c2] at a2
    rw [Fits, d2] at b2
    obtain ⟨x, hx⟩ := ZVal.of_bool a2
    obtain ⟨y, hy⟩ := ZVal.of_bool b2
    rw [h2]
    simp only [meaning, a1, b1, hx, hy, opMeaning] at ho ⊢
    cases x <;> cases y <;> simp_all
  · refine ⟨(h2 a).2 (by rw [hf]; simp), ?_⟩
    simp only [meaning, hf, hg, opMeaning]
    rfl

/-- A case in which the hypotheses are met, `A xor (A and B)`. -/
example : WF oneOfTwo ∧ NoXor (.feature c!"A") ∧ NoXor (.bin .and (.feature c!"A") (.feature c!"B")) ∧
    sortOf (sortIn oneOfTwo) (.feature c!"A") = some .bool ∧
    sortOf (sortIn oneOfTwo) (.bin .and (.feature c!"A") (.feature c!"B")) = some .bool ∧
    BindsOk oneOfTwo [c!"A"] [some 1] ∧ BindsOk oneOfTwo [c!"A", c!"B"] [none, some 2] := by
  refine ⟨C38_xor_accepts_invalid.1, noXorB_iff.1 (by decide), noXorB_iff.1 (by decide), ?_, ?_, bindsB_iff (by decide), bindsB_iff (by decide)⟩
  · rw [sortIn_eq]; decide
  · rw [sortIn_eq]; decide

/-! ## C43 -/

/-- A mixed constraint that is an arithmetic comparison asserts what its requirement and polarity say:
    `MixedHolds` reads Boolean features as 0/1. -/
theorem C43_requirement_and_polarity_partial {m : FModel} (w : WF m) {c : Stored} {i : MixedInfo} (hi : c.info = some i)
    (hx : NoXor c.tree) (hs : sortOf (fun _ => .int) c.tree = some .bool) (hn : ∀ n ∈ c.tree.features, Char.ofNat 0 ∉ n)
    (hb : BindsOk m c.tree.features c.binds) (s : Z3Solver) :
    ∃ t, addMixedConstraint m s c i = .ok { s with asserted := s.asserted ++ [t] } ∧
      ∀ a, t.eval a = .bool true ↔
        ((i.reqAll = true → ∀ n ∈ c.tree.features, ¬ IsNum m n → a.bool n = true) →
          meaning (value01 m a) a.div0 c.tree = some (.bool i.positive)) := by
  obtain ⟨ts, h1, h2⟩ := addMixed_ok w hx hs hn hb (by rw [hi]; simp) s
  simp only [addMixed, hi] at h1
  -- exactly one term
  have hone : ∃ t, ts = [t] := by
    obtain ⟨s', e, l⟩ : ∃ s', addMixedConstraint m s c i = .ok s' ∧ ∃ t, s'.asserted = s.asserted ++ [t] := by
      have h1' := h1
      unfold addMixedConstraint addVisited at h1'
      cases hv : visit m true c.tree c.binds (.boolVal false) with
      | none => rw [hv] at h1'; cases h1'
      | some p =>
        obtain ⟨t, bs, vars⟩ := p
        rw [hv] at h1'
        simp only at h1'
        cases hp : (if (!i.positive) = true then t.mkNot else some t) with
        | none => rw [hp] at h1'; cases h1'
        | some t1 =>
          rw [hp] at h1'
          simp only at h1'
          cases hq : (if (true && i.reqAll) = true then ZTerm.mk .or vars t1 else some t1) with
          | none => rw [hq] at h1'; cases h1'
          | some t2 =>
            rw [hq] at h1'
            simp only [Z3Solver.assert] at h1'
            refine ⟨{ s with asserted := s.asserted ++ ts }, h1, t2, ?_⟩
            by_cases ht : t2.sort = .bool
            · rw [if_pos ht] at h1'
              simp only [SRes.ok.injEq, Z3Solver.mk.injEq, true_and, and_true] at h1'
              exact h1'.symm
            · rw [if_neg ht] at h1'; cases h1'
    rw [h1] at e
    cases e
    obtain ⟨t, l⟩ := l
    exact ⟨t, List.append_cancel_left l⟩
  obtain ⟨t, rfl⟩ := hone
  refine ⟨t, h1, fun a => ?_⟩
  have := h2 a
  constructor
  · intro ht
    exact this.1 (fun t' ht' => by rw [List.mem_singleton.1 ht']; exact ht) i hi
  · intro h
    refine this.2 ?_ t (List.mem_singleton.2 rfl)
    intro i' hi' hall
    rw [hi] at hi'; cases hi'
    exact h hall

/-- The mixed constraint of the example meets the hypotheses. -/
example : ∃ c ∈ shop.mixeds, c.info = some ⟨true, true⟩ ∧ NoXor c.tree ∧ sortOf (fun _ => .int) c.tree = some .bool ∧
    (∀ n ∈ c.tree.features, Char.ofNat 0 ∉ n) ∧ BindsOk shop c.tree.features c.binds :=
  ⟨_, List.mem_singleton.2 rfl, rfl, noXorB_iff.1 (by decide), by decide, by decide, bindsB_iff (by decide)⟩

/-- Any mixed constraint in which a feature alone is an operand of a Boolean operator cannot be asserted:
    the feature has become a number.  `A implies N > 5` is one. -/
theorem C43_boolean_operand_crashes {m : FModel} (n : Str) (b : Option Id) (r : Constraint) (bs : List (Option Id))
    (op : BinOp) (hop : op ∈ [BinOp.and, .or, .implies, .excludes, .equivalence, .xor]) (i i' : MixedInfo) (s : Z3Solver) :
    addMixedConstraint m s ⟨.bin op (.feature n) r, b :: bs, some i'⟩ i = .crash := by
  have hf : ∀ t vars, visitFeature m true n b (.boolVal false) = some (t, vars) → t.sort = .int := by
    intro t vars h
    have hbool : ∀ (n' : Str) (o : Option ZTerm),
        o.map (fun v => (ZTerm.ite (.boolConst (cstr n')) (.intVal 1) (.intVal 0), v)) = some (t, vars) → t.sort = .int := by
      intro n' o h
      cases o with
      | none => cases h
      | some v => cases h; rfl
    have hnot : ∀ n' : Str, (ZTerm.boolConst (cstr n')).mkNot = some (.not (.boolConst (cstr n'))) := fun n' => mkNot_some rfl
    unfold visitFeature at h
    cases b with
    | none => simp only [hnot, if_true] at h; exact hbool _ _ h
    | some j =>
      simp only at h
      cases hj : m.feat? j with
      | none => rw [hj] at h; cases h
      | some f =>
        rw [hj] at h
        simp only at h
        cases hk : f.attr.kind with
        | numeric vs st => rw [hk] at h; cases h; rfl
        | binary => rw [hk] at h; simp only [hnot, if_true] at h; exact hbool _ _ h
        | root => rw [hk] at h; simp only [hnot, if_true] at h; exact hbool _ _ h
        | unknown => rw [hk] at h; simp only [hnot, if_true] at h; exact hbool _ _ h
  have hbin : ∀ t r' : ZTerm, t.sort = .int → visitBin op t r' = none := by
    intro t r' ht
    have hmk : ∀ o : ZOp, o = .and ∨ o = .or ∨ o = .implies → ZTerm.mk o t r' = none := by
      rintro o (rfl | rfl | rfl) <;> simp [ZTerm.mk, ht, ZOp.accepts]
    simp only [List.mem_cons, List.not_mem_nil, or_false] at hop
    rcases hop with rfl | rfl | rfl | rfl | rfl | rfl
    · exact hmk _ (.inl rfl)
    · exact hmk _ (.inr (.inl rfl))
    · exact hmk _ (.inr (.inr rfl))
    · simp only [visitBin]
      cases r'.mkNot with
      | none => rfl
      | some x => simp [ZTerm.mk, ht, ZOp.accepts]
    · simp [visitBin, hmk .implies (.inr (.inr rfl))]
    · simp only [visitBin]
      cases r'.mkNot with
      | none => rfl
      | some x => simp [ZTerm.mk, ht, ZOp.accepts]
  unfold addMixedConstraint addVisited
  simp only [visit]
  cases hv : visitFeature m true n b (.boolVal false) with
  | none => rfl
  | some p =>
    obtain ⟨t, vars⟩ := p
    simp only [Option.map_some]
    cases hr : visit m true r bs vars with
    | none => rfl
    | some q =>
      obtain ⟨tr, bs', vars'⟩ := q
      simp only [hbin t tr (hf t vars hv), Option.map_none]

/-! ## C44 -/

/-- If the loop over a range ends normally, it has found exactly the orbit of the minimum. -/
theorem C44_orbit_exact {F : IntFloats} {st : Option StepFn} {lo hi : Int} {fuel : Nat} {vs : List Int}
    (h : rangeLoop F st hi fuel lo [] = .values vs) : ∀ v, v ∈ vs ↔ Orbit (stepOf F st) lo hi v := by
  have hends : ∀ fuel lo acc vs, rangeLoop F st hi fuel lo acc = .values vs → Ends (stepOf F st) hi lo := by
    intro fuel
    induction fuel with
    | zero => intro lo acc vs h; cases h
    | succ fuel ih =>
      intro lo acc vs h
      simp only [rangeLoop] at h
      by_cases hl : lo ≤ hi
      · rw [if_pos hl] at h
        cases st with
        | none => cases h
        | some f =>
          simp only at h
          cases hy : f.nextInt F lo with
          | none => rw [hy] at h; cases h
          | some y =>
            rw [hy] at h
            exact .step hl (by simpa [stepOf] using hy) (ih y _ vs h)
      · exact .out (by omega)
  have hmono : ∀ fuel fuel' lo acc vs, rangeLoop F st hi fuel lo acc = .values vs → fuel ≤ fuel' →
      rangeLoop F st hi fuel' lo acc = .values vs := by
    intro fuel
    induction fuel with
    | zero => intro _ lo acc vs h; cases h
    | succ fuel ih =>
      intro fuel' lo acc vs h hle
      cases fuel' with
      | zero => omega
      | succ fuel' =>
        simp only [rangeLoop] at h ⊢
        by_cases hl : lo ≤ hi
        · rw [if_pos hl] at h ⊢
          cases st with
          | none => cases h
          | some f =>
            simp only at h ⊢
            cases hy : f.nextInt F lo with
            | none => rw [hy] at h; cases h
            | some y =>
              rw [hy] at h
              exact ih fuel' y _ vs h (by omega)
        · rw [if_neg hl] at h ⊢; exact h
  obtain ⟨ws, h1, k, h2⟩ := rangeLoop_ends (hends fuel lo [] vs h)
  have e1 := hmono fuel (max fuel k) lo [] vs h (by omega)
  have e2 := h2 (max fuel k) (by omega) []
  rw [e1, List.append_nil] at e2
  cases e2
  exact h1

/-- It ends if every step increases the value. -/
theorem C44_increasing_terminates {F : IntFloats} {st : Option StepFn} {lo hi : Int}
    (h : ∀ x, lo ≤ x → x ≤ hi → ∃ y, stepOf F st x = some y ∧ x < y) :
    ∃ vs k, (∀ v, v ∈ vs ↔ Orbit (stepOf F st) lo hi v) ∧ ∀ fuel, k ≤ fuel → rangeLoop F st hi fuel lo [] = .values vs := by
  have hends : ∀ (n : Nat) x, lo ≤ x → (hi - x).toNat < n → Ends (stepOf F st) hi x := by
    intro n
    induction n with
    | zero => intro x _ h; omega
    | succ n ih =>
      intro x hx hn
      by_cases hl : x ≤ hi
      · obtain ⟨y, hy, hlt⟩ := h x hx hl
        by_cases hy' : y ≤ hi
        · exact .step hl hy (ih y (by omega) (by omega))
        · exact .step hl hy (.out (by omega))
      · exact .out (by omega)
  obtain ⟨vs, h1, k, h2⟩ := rangeLoop_ends (hends _ lo (Int.le_refl _) (Nat.lt_succ_self _))
  exact ⟨vs, k, h1, fun fuel hf => by rw [h2 fuel hf, List.append_nil]⟩

example : (∀ x, 1 ≤ x → x ≤ 6 → ∃ y, stepOf exactFloats (some plusTwo) x = some y ∧ x < y) ∧
    rangeLoop exactFloats (some plusTwo) 6 9 1 [] = .values [5, 3, 1] := by
  refine ⟨fun x _ _ => ⟨x + 2, plusTwo_step x, by omega⟩, by decide⟩

/-- The claim is false for other step functions: from a value in the range that steps to itself, the loop
    never ends. -/
theorem C44_fixed_point_never_ends {F : IntFloats} {st : Option StepFn} {lo hi : Int} (h : lo ≤ hi)
    (hs : stepOf F st lo = some lo) (fuel : Nat) : rangeLoop F st hi fuel lo [] = .endless := by
  have key : ∀ fuel acc, rangeLoop F st hi fuel lo acc = .endless := by
    intro fuel
    induction fuel with
    | zero => intro _; rfl
    | succ fuel ih =>
      intro acc
      simp only [rangeLoop, if_pos h]
      cases st with
      | none => cases hs
      | some f =>
        have : f.nextInt F lo = some lo := by simpa [stepOf] using hs
        simp only [this, ih]
  exact key fuel []

/-- `x * 2` from 0 is such a case, for a numeric feature of a well-formed model. -/
def zeroDoubled : FModel :=
  ofNodes [featNode "root" none [1] .root,
    featNode "N" (some 0) [] (.numeric (.range 0 10) (some ⟨.var c!"x", .multiplication, .num (some ⟨2, 0⟩)⟩))]
    (some 0) [(c!"root", 0), (c!"N", 1)] []

theorem C44_doubling_from_zero_never_ends : WF zeroDoubled ∧
    ∀ fuel, initSolver (stdEnv true) exactFloats fuel zeroDoubled = .endless := by
  refine ⟨wf_of_check (fun i => i) (ofNodes_fresh _ _ _ _ _) (by decide), fun fuel => ?_⟩
  have hl := C44_fixed_point_never_ends (F := exactFloats) (st := some ⟨.var c!"x", .multiplication, .num (some ⟨2, 0⟩)⟩)
    (lo := 0) (hi := 10) (by decide) rfl fuel
  have hit : zeroDoubled.iterate (stdEnv true) = some [0, 1] := by decide
  have hg : groupNames zeroDoubled = some [] := by decide
  unfold initSolver applyModel
  simp only [hit, hg]
  have h0 : ∀ g, addFeature exactFloats fuel zeroDoubled {} 0 g =
      .ok { options := [(c!"root", .boolConst c!"root")], asserted := [.boolConst c!"root"] } := by
    intro g; rfl
  have h1 : ∀ g, addFeature exactFloats fuel zeroDoubled
      { options := [(c!"root", .boolConst c!"root")], asserted := [.boolConst c!"root"] } 1 g = .endless := by
    intro g
    unfold addFeature
    rw [show zeroDoubled.feat? 1 = some { attr := { name := c!"N", kind := .numeric (.range 0 10) (some ⟨.var c!"x", .multiplication, .num (some ⟨2, 0⟩)⟩) } } by rfl,
      show zeroDoubled.parentFeature 1 = some (some 0) by decide]
    simp only [parentPresent, show zeroDoubled.nameOf 0 = some c!"root" by decide, Option.map_some, has, List.lookup]
    simp [hl]
  simp only [forEach, h0, h1, SRes.andThen]

/-- A range without a step function cannot be enumerated at all. -/
theorem C44_no_step_function_crashes {F : IntFloats} {lo hi : Int} (h : lo ≤ hi) (fuel : Nat) :
    rangeLoop F none hi (fuel + 1) lo [] = .crash := by
  simp [rangeLoop, h]

/-! ## C45 -/

/-- Loading the features of a model that is clear in the order of iteration, no call reports an error. -/
theorem C45_loading_reports_nothing_partial {F : IntFloats} {m : FModel} (w : WF m) (L : Clear F m) (E : Env) :
    ∃ l k, m.iterate E = some l ∧ ∀ fuel, k ≤ fuel → ∀ (g : Id → Bool) d i r, l = d ++ i :: r →
      ∃ s s', forEach (fun s i => addFeature F fuel m s i (g i)) {} d = .ok s ∧ s.options.length = d.length ∧
        addFeature F fuel m s i (g i) = .ok s' := by
  obtain ⟨k, hk⟩ : ∃ k, ∀ fuel, k ≤ fuel → ∀ i ∈ m.features.map Prod.snd, FuelOk F m fuel i :=
    exists_fuel (fun i hi => fuel_ok L hi)
  obtain ⟨_, l, _, hit, _, hnd, hmem, hord⟩ := Props.C25_preorder w E
  refine ⟨l, k, hit, fun fuel hf g d i r e => ?_⟩
  subst e
  have hpar : ∀ d' j r', d ++ [i] = d' ++ j :: r' → ∀ p, FParent m j p → p ∈ [] ++ d' := by
    intro d' j r' e p hp
    have hjl : j ∈ d ++ i :: r := by
      have : j ∈ d ++ [i] := by rw [e]; simp
      rcases List.mem_append.1 this with h | h
      · exact List.mem_append_left _ h
      · exact List.mem_append_right _ (by rw [List.mem_singleton.1 h]; exact List.mem_cons_self ..)
    have hkp := fparent_fst w (.inl ((hmem j).1 hjl)) hp
    have hpl := (hmem p).2 hkp
    have e' : d ++ i :: r = d' ++ j :: (r' ++ r) := by
      have : d ++ i :: r = (d ++ [i]) ++ r := by simp
      rw [this, e]; simp
    rw [e'] at hpl hord
    rw [List.nil_append]
    rcases List.mem_append.1 hpl with h | h
    · exact h
    · exfalso
      rcases List.mem_cons.1 h with rfl | h
      · have hlt := (w.via_known hkp ((via_iff_fparent w (.inl hkp) (w.known_data hkp)).2 ⟨hkp, hp⟩)).2.2.2
        omega
      · have := (List.pairwise_append.1 hord).2.1
        exact (List.pairwise_cons.1 this).1 p h (fparent_isBelow hp)
  have hkn : ∀ j ∈ d ++ [i], Known m j := by
    intro j hj
    refine (hmem j).1 ?_
    rcases List.mem_append.1 hj with h | h
    · exact List.mem_append_left _ h
    · exact List.mem_append_right _ (by rw [List.mem_singleton.1 h]; exact List.mem_cons_self ..)
  have hnd' : (d ++ [i]).Nodup := by
    have : d ++ i :: r = (d ++ [i]) ++ r := by simp
    rw [this] at hnd
    exact (List.nodup_append.1 hnd).1
  obtain ⟨ts, h1, _⟩ := forEach_features w L (fuel := fuel) g d []
    (by simpa using fun j hj => hkn j (List.mem_append_left _ hj)) (by simpa using (List.nodup_append.1 hnd').1)
    (fun d' j r' e => by
      refine hpar d' j (r' ++ [i]) ?_
      rw [e]; simp)
    (fun j hj => hk fuel hf j (hkn j (List.mem_append_left _ hj))) {} rfl
  simp only [List.nil_append] at h1
  obtain ⟨ts', h2, _⟩ := addFeature_ok w L (s := { options := d.map (optEntry m), asserted := ts }) rfl
    (fun j hj => hkn j (List.mem_append_left _ hj)) (hkn i (by simp))
    (fun hi => (List.nodup_append.1 hnd').2.2 i hi i (List.mem_singleton.2 rfl) rfl)
    (fun p hp => by simpa using hpar d i [] (by simp) p hp) (hk fuel hf i (hkn i (by simp))) (g i)
  exact ⟨_, _, h1, by simp, h2⟩

/-- A call that reports an error changes nothing, whatever was added before. -/
theorem C45_error_changes_nothing {F : IntFloats} {fuel : Nat} {m : FModel} {s s' : Z3Solver} {i : Id} {g : Bool} {e : SolverErr}
    (h : addFeature F fuel m s i g = .err e s') : s' = s := by
  have hadd : ∀ n s'', s.addBool n = .err e s'' → s'' = s := by
    intro n s'' h
    unfold addBool at h
    split at h
    · cases h; rfl
    · cases h
  have haddI : ∀ n vs, s.addInt n vs = .err e s' → s' = s := by
    intro n vs h
    unfold addInt at h
    split at h
    · cases h; rfl
    · cases h
  have hlink : ∀ (s0 : Z3Solver) n pn b, s0.linkParent n pn b ≠ .err e s' := by
    intro s0 n pn b h
    unfold linkParent at h
    repeat' split at h
    all_goals cases h
  unfold addFeature at h
  split at h
  · split at h
    · cases h
    · cases h; rfl
    · split at h
      · cases h; rfl
      · split at h
        · exact haddI _ _ h
        · split at h
          · exact haddI _ _ h
          · cases h
          · cases h
        · split at h
          · split at h
            · cases h
            · exact absurd h (hlink _ _ _ _)
          · exact hadd _ _ h
        · split at h
          · split at h
            · cases h
            · split at h <;> cases h
          · exact hadd _ _ h
        · cases h; rfl
  · cases h

/-- Adding a feature whose parent is missing, and adding one a second time, is reported. -/
theorem C45_missing_parent_and_duplicate_reported {m : FModel} (w : WF m) {i : Id} {f : Feat} (hi : Known m i)
    (hf : data m i = some (.feat f)) (F : IntFloats) (fuel : Nat) (s : Z3Solver) (g : Bool) :
    (∀ p pf, FParent m i p → data m p = some (.feat pf) → pf.attr.name ∉ s.options.map Prod.fst →
      addFeature F fuel m s i g = .err .parentNotPresent s) ∧
    ((∀ p pf, FParent m i p → data m p = some (.feat pf) → pf.attr.name ∈ s.options.map Prod.fst) →
      f.attr.name ∈ s.options.map Prod.fst → addFeature F fuel m s i g = .err .alreadyPresent s) := by
  obtain ⟨r, e1, e2⟩ := parentFeature_spec w (.inl hi)
  constructor
  · intro p pf hp hpf hn
    have hr := (e2 p).2 hp
    subst hr
    unfold addFeature
    have hh : s.has pf.attr.name = false := by
      cases h : s.has pf.attr.name with
      | false => rfl
      | true => exact absurd (has_iff.1 h) hn
    simp only [feat?_of_data hf, e1, parentPresent, nameOf_of_data hpf, Option.map_some, hh]
  · intro hp hn
    unfold addFeature
    have hh := has_iff.2 hn
    cases r with
    | none => simp only [feat?_of_data hf, e1, parentPresent, hh, if_true]
    | some p =>
      have hfp := (e2 p).1 rfl
      obtain ⟨pf, hpf⟩ := w.known_data (fparent_fst w (.inl hi) hfp)
      have hph := has_iff.2 (hp p pf hfp hpf)
      simp only [feat?_of_data hf, e1, parentPresent, nameOf_of_data hpf, Option.map_some, hph, hh, if_true]

/-- After any calls in any order, every feature is an option at most once and its parent is one, too. -/
theorem C45_parents_first_at_most_once {m : FModel} (w : WF m) (F : IntFloats) (fuel : Nat) (calls : List (Id × Bool))
    (hc : ∀ e ∈ calls, Known m e.1) {s : Z3Solver}
    (h : forEach (fun s e => addFeature F fuel m s e.1 e.2) {} calls = .ok s) :
    (s.options.map Prod.fst).Nodup ∧
    ∀ n ∈ s.options.map Prod.fst, ∃ i f, Known m i ∧ data m i = some (.feat f) ∧ f.attr.name = n ∧
      ∀ p pf, FParent m i p → data m p = some (.feat pf) → pf.attr.name ∈ s.options.map Prod.fst := by
  -- a successful call adds one name, with the parent there
  have hone : ∀ s s' i g, Known m i → addFeature F fuel m s i g = .ok s' → ∃ f, data m i = some (.feat f) ∧
      s'.options.map Prod.fst = s.options.map Prod.fst ++ [f.attr.name] ∧ f.attr.name ∉ s.options.map Prod.fst ∧
      ∀ p pf, FParent m i p → data m p = some (.feat pf) → pf.attr.name ∈ s.options.map Prod.fst := by
    intro s s' i g hi h
    obtain ⟨f, hf⟩ := w.known_data hi
    have hdup : f.attr.name ∉ s.options.map Prod.fst := by
      intro hn
      by_cases hp : ∀ p pf, FParent m i p → data m p = some (.feat pf) → pf.attr.name ∈ s.options.map Prod.fst
      · rw [(C45_missing_parent_and_duplicate_reported w hi hf F fuel s g).2 hp hn] at h; cases h
      · refine hp (fun p pf h1 h2 => Classical.byContradiction fun h3 => ?_)
        rw [(C45_missing_parent_and_duplicate_reported w hi hf F fuel s g).1 p pf h1 h2 h3] at h; cases h
    have hpar : ∀ p pf, FParent m i p → data m p = some (.feat pf) → pf.attr.name ∈ s.options.map Prod.fst := by
      refine fun p pf h1 h2 => Classical.byContradiction fun h3 => ?_
      rw [(C45_missing_parent_and_duplicate_reported w hi hf F fuel s g).1 p pf h1 h2 h3] at h; cases h
    refine ⟨f, hf, ?_, hdup, hpar⟩
    have hadd : ∀ n s'', s.addBool n = .ok s'' → s''.options.map Prod.fst = s.options.map Prod.fst ++ [n] := by
      intro n s'' h
      unfold addBool at h
      split at h
      · cases h
      · cases h; simp
    have haddI : ∀ n vs s'', s.addInt n vs = .ok s'' → s''.options.map Prod.fst = s.options.map Prod.fst ++ [n] := by
      intro n vs s'' h
      unfold addInt at h
      split at h
      · cases h
      · cases h; simp
    have hassert : ∀ (s0 s1 : Z3Solver) t, s0.assert t = some s1 → s1.options = s0.options := by
      intro s0 s1 t h
      unfold Z3Solver.assert at h
      split at h
      · cases h; rfl
      · cases h
    have hlink : ∀ (s0 : Z3Solver) n pn b s1, s0.linkParent n pn b = .ok s1 → s1.options = s0.options := by
      intro s0 n pn b s1 h
      unfold linkParent at h
      split at h
      · split at h
        · cases h
        · split at h
          · cases h
          · rename_i s2 h2
            have e2 := hassert _ _ _ h2
            split at h
            · split at h
              · cases h
              · split at h
                · cases h
                · rename_i s3 h3
                  cases h
                  rw [hassert _ _ _ h3, e2]
            · cases h; exact e2
      · cases h
    unfold addFeature at h
    rw [feat?_of_data hf] at h
    split at h
    · rename_i f' p hf' hp'
      cases hf'
      split at h
      · cases h
      · cases h
      · split at h
        · cases h
        · split at h
          · exact haddI _ _ _ h
          · split at h
            · exact haddI _ _ _ h
            · cases h
            · cases h
          · split at h
            · rename_i s2 h2
              split at h
              · cases h
              · rw [hlink _ _ _ _ _ h]; exact hadd _ _ h2
            · rename_i hne
              exact absurd h (hne _)
          · split at h
            · rename_i s2 h2
              split at h
              · cases h
              · split at h
                · cases h
                · rename_i s3 h3
                  cases h
                  rw [hassert _ _ _ h3]; exact hadd _ _ h2
            · rename_i hne
              exact absurd h (hne _)
          · cases h
    · cases h
  have inv : ∀ (calls : List (Id × Bool)), (∀ e ∈ calls, Known m e.1) → ∀ s0 s : Z3Solver,
      ((s0.options.map Prod.fst).Nodup ∧
        ∀ n ∈ s0.options.map Prod.fst, ∃ i f, Known m i ∧ data m i = some (.feat f) ∧ f.attr.name = n ∧
          ∀ p pf, FParent m i p → data m p = some (.feat pf) → pf.attr.name ∈ s0.options.map Prod.fst) →
      forEach (fun s e => addFeature F fuel m s e.1 e.2) s0 calls = .ok s →
      (s.options.map Prod.fst).Nodup ∧
        ∀ n ∈ s.options.map Prod.fst, ∃ i f, Known m i ∧ data m i = some (.feat f) ∧ f.attr.name = n ∧
          ∀ p pf, FParent m i p → data m p = some (.feat pf) → pf.attr.name ∈ s.options.map Prod.fst := by
    intro calls
    induction calls with
    | nil => intro _ s0 s hi h; cases h; exact hi
    | cons e es ih =>
      intro hk s0 s hi h
      have hes := fun e he => hk e (List.mem_cons_of_mem _ he)
      simp only [forEach] at h
      cases hr : addFeature F fuel m s0 e.1 e.2 with
      | crash => rw [hr] at h; cases h
      | endless => rw [hr] at h; cases h
      | err er s1 =>
        rw [hr] at h
        rw [C45_error_changes_nothing hr] at h
        exact ih hes s0 s hi h
      | ok s1 =>
        rw [hr] at h
        obtain ⟨f, hf, hopt, hnew, hpar⟩ := hone s0 s1 e.1 e.2 (hk e (List.mem_cons_self ..)) hr
        refine ih hes s1 s ?_ h
        rw [hopt]
        refine ⟨?_, ?_⟩
        · rw [List.nodup_append]
          refine ⟨hi.1, by simp, ?_⟩
          intro a ha b hb e
          rw [List.mem_singleton.1 hb] at e
          exact hnew (e ▸ ha)
        · intro n hn
          rcases List.mem_append.1 hn with hn | hn
          · obtain ⟨i, g, h1, h2, h3, h4⟩ := hi.2 n hn
            exact ⟨i, g, h1, h2, h3, fun p pf a b => List.mem_append_left _ (h4 p pf a b)⟩
          · rw [List.mem_singleton.1 hn]
            exact ⟨e.1, f, hk e (List.mem_cons_self ..), hf, rfl, fun p pf a b => List.mem_append_left _ (hpar p pf a b)⟩
  exact inv calls hc {} s ⟨by simp, by simp⟩ h

/-- Calls in a wrong order and repeated, of which only the right ones have an effect. -/
example : (∀ e ∈ [(2, false), (0, false), (1, false), (0, false), (2, false)], Known chain e.1) ∧
    ∃ s, forEach (fun s e => addFeature exactFloats 1 chain s e.1 e.2) {} [(2, false), (0, false), (1, false), (0, false), (2, false)] = .ok s ∧
      s.options.map Prod.fst = [c!"root", c!"A", c!"B"] := by
  refine ⟨by decide, ?_⟩
  have h : SRes.holds (forEach (fun s e => addFeature exactFloats 1 chain s e.1 e.2) {} [(2, false), (0, false), (1, false), (0, false), (2, false)])
      (fun s => decide (s.options.map Prod.fst = [c!"root", c!"A", c!"B"])) = true := by decide
  obtain ⟨s, e, hs⟩ := SRes.of_holds h
  exact ⟨s, e, by simpa using hs⟩

/-- The claim on loading is false with features of unknown kind: their children's parents are missing. -/
theorem C45_unknown_parent_reported : WF withUnknown ∧ withUnknown.iterate (stdEnv true) = some [0, 1, 2] ∧
    ∃ s, forEach (fun s i => addFeature exactFloats 1 withUnknown s i false) {} [0, 1] = .ok s ∧
      addFeature exactFloats 1 withUnknown s 2 false = .err .parentNotPresent s := by
  refine ⟨C38_unknown_left_out.1, by decide, { options := [(c!"root", .boolConst c!"root")], asserted := [.boolConst c!"root"] }, rfl, rfl⟩

end Verif.Props

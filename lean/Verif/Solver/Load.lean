import Verif.Solver.Terms
import Verif.Props.Iteration
import Verif.FM.Clone
/-!
# Loading a model into the solver
-/

namespace Verif
open Verif.Spec Verif.FModel Verif.Z3Solver

/-! ### Ranges -/

theorem orbit_first {g : Int → Option Int} {x y hi v : Int} (hg : g x = some y) (h : Orbit g x hi v) :
    v = x ∨ Orbit g y hi v := by
  induction h with
  | start _ => exact .inl rfl
  | @step u w _ h1 h2 ih =>
    rcases ih with rfl | ih
    · rw [hg] at h1; cases h1
      exact .inr (.start h2)
    · exact .inr (.step ih h1 h2)

theorem orbit_cons {g : Int → Option Int} {x y hi v : Int} (hg : g x = some y) (hx : x ≤ hi) (h : Orbit g y hi v) :
    Orbit g x hi v := by
  induction h with
  | start h => exact .step (.start hx) hg h
  | step _ h1 h2 ih => exact .step ih h1 h2

theorem orbit_le {g : Int → Option Int} {x hi v : Int} (h : Orbit g x hi v) : x ≤ hi := by
  induction h with
  | start h => exact h
  | step _ _ _ ih => exact ih

/-- If stepping leads beyond the range, the loop ends with exactly the values on the way. -/
theorem rangeLoop_ends {F : IntFloats} {st : Option StepFn} {hi x : Int} (h : Ends (stepOf F st) hi x) :
    ∃ vs : List Int, (∀ v, v ∈ vs ↔ Orbit (stepOf F st) x hi v) ∧
      ∃ k, ∀ fuel, k ≤ fuel → ∀ acc, rangeLoop F st hi fuel x acc = .values (vs ++ acc) := by
  induction h with
  | @out x h =>
    refine ⟨[], ?_, 1, ?_⟩
    · intro v
      constructor
      · intro h; cases h
      · intro ho; have := orbit_le ho; omega
    · intro fuel hf acc
      cases fuel with
      | zero => omega
      | succ fuel =>
        unfold rangeLoop
        rw [if_neg (by omega)]
        rfl
  | @step x y hx hg _ ih =>
    obtain ⟨vs, h1, k, h2⟩ := ih
    refine ⟨vs ++ [x], ?_, k + 1, ?_⟩
    · intro v
      rw [List.mem_append, h1, List.mem_singleton]
      constructor
      · rintro (h | rfl)
        · exact orbit_cons hg hx h
        · exact .start hx
      · intro h
        rcases orbit_first hg h with h | h
        · exact .inr h
        · exact .inl h
    · intro fuel hf acc
      cases fuel with
      | zero => omega
      | succ fuel =>
        unfold rangeLoop
        rw [if_pos hx]
        unfold stepOf at hg
        cases st with
        | none => cases hg
        | some f =>
          simp only [Option.bind_some] at hg
          simp only [hg]
          rw [h2 fuel (by omega)]
          simp

/-! ### Options -/

/-- The term of a feature. -/
def optTerm (f : Feat) : ZTerm :=
  match f.attr.kind with
  | .numeric _ _ => .intConst f.attr.name
  | _ => .boolConst f.attr.name

/-- The entry of a feature in the option map. -/
def optEntry (m : FModel) (i : Id) : Str × ZTerm :=
  match m.feat? i with
  | some f => (f.attr.name, optTerm f)
  | none => ([], .boolVal false)

theorem optEntry_data {m : FModel} {i : Id} {f : Feat} (h : data m i = some (.feat f)) :
    optEntry m i = (f.attr.name, optTerm f) := by
  simp [optEntry, feat?_of_data h]

theorem lookup_mem' {α β} [BEq α] [LawfulBEq α] {l : List (α × β)} {k : α} {v : β} (h : l.lookup k = some v) : (k, v) ∈ l := by
  induction l with
  | nil => cases h
  | cons e l ih =>
    obtain ⟨a, b⟩ := e
    rw [List.lookup_cons] at h
    by_cases hk : (k == a) = true
    · rw [hk] at h
      cases h
      rw [eq_of_beq hk]; exact List.mem_cons_self ..
    · have : (k == a) = false := by simpa using hk
      rw [this] at h
      exact List.mem_cons_of_mem _ (ih h)

theorem lookup_some_of_mem {α β} [BEq α] [LawfulBEq α] {l : List (α × β)} {k : α} {v : β} (h : (k, v) ∈ l) :
    ∃ v', l.lookup k = some v' := by
  induction l with
  | nil => cases h
  | cons e l ih =>
    obtain ⟨a, b⟩ := e
    rw [List.lookup_cons]
    by_cases hk : (k == a) = true
    · rw [hk]; exact ⟨b, rfl⟩
    · have : (k == a) = false := by simpa using hk
      rw [this]
      rcases List.mem_cons.1 h with h | h
      · cases h; simp at hk
      · exact ih h

theorem has_iff {s : Z3Solver} {n : Str} : s.has n = true ↔ n ∈ s.options.map Prod.fst := by
  unfold Z3Solver.has
  constructor
  · intro h
    obtain ⟨v, hv⟩ := Option.isSome_iff_exists.1 h
    exact List.mem_map.2 ⟨_, lookup_mem' hv, rfl⟩
  · intro h
    obtain ⟨e, he, rfl⟩ := List.mem_map.1 h
    obtain ⟨v, hv⟩ := lookup_some_of_mem (k := e.1) (v := e.2) he
    rw [hv]; rfl

/-- Different features have different names. -/
theorem Spec.WF.name_inj {m : FModel} (w : WF m) {i j : Id} {f g : Feat} (hi : Known m i) (hj : Known m j)
    (hf : data m i = some (.feat f)) (hg : data m j = some (.feat g)) (h : f.attr.name = g.attr.name) : i = j := by
  obtain ⟨e, he, rfl⟩ := List.mem_map.1 hi
  obtain ⟨e', he', rfl⟩ := List.mem_map.1 hj
  obtain ⟨f', hf', hn⟩ := w.feat_ok e he
  obtain ⟨g', hg', hn'⟩ := w.feat_ok e' he'
  rw [hf] at hf'; cases hf'
  rw [hg] at hg'; cases hg'
  have h1 := getFeature_mem w.names (n := e.1) (i := e.2) he
  have h2 := getFeature_mem w.names (n := e'.1) (i := e'.2) he'
  rw [← hn, h, hn'] at h1
  rw [h1] at h2
  exact Option.some.inj h2

theorem Spec.WF.entry_mem {m : FModel} (w : WF m) {i : Id} {f : Feat} (hi : Known m i) (hf : data m i = some (.feat f)) :
    (f.attr.name, i) ∈ m.features := by
  obtain ⟨e, he, rfl⟩ := List.mem_map.1 hi
  obtain ⟨f', hf', hn⟩ := w.feat_ok e he
  rw [hf] at hf'; cases hf'
  rw [hn]; exact he

/-- The option of a loaded feature. -/
theorem lookup_loaded {m : FModel} (w : WF m) {done : List Id} (hk : ∀ j ∈ done, Known m j) {i : Id} {f : Feat}
    (hi : i ∈ done) (hf : data m i = some (.feat f)) :
    (done.map (optEntry m)).lookup f.attr.name = some (optTerm f) := by
  obtain ⟨v, hv⟩ := lookup_some_of_mem (k := f.attr.name) (v := optTerm f)
    (List.mem_map.2 ⟨i, hi, optEntry_data hf⟩ : _ ∈ done.map (optEntry m))
  rw [hv]
  obtain ⟨j, hj, he⟩ := List.mem_map.1 (lookup_mem' hv)
  obtain ⟨g, hg⟩ := w.known_data (hk j hj)
  rw [optEntry_data hg] at he
  injection he with h1 h2
  have := w.name_inj (hk j hj) (hk i hi) hg hf h1
  subst this
  rw [hf] at hg; cases hg
  rw [h2]

/-! ### One feature -/

/-- What loading a feature asserts. -/
def FeatOk (F : IntFloats) (m : FModel) (a : Assign) (i : Id) (inGroup : Bool) : Prop :=
  ∀ f, data m i = some (.feat f) →
    (f.attr.kind = .root → a.bool f.attr.name = true) ∧
    (f.attr.kind = .binary → ∀ p g, FParent m i p → data m p = some (.feat g) →
      (a.bool f.attr.name = true → a.bool g.attr.name = true) ∧
      (inGroup = false → f.attr.opt = false → a.bool g.attr.name = true → a.bool f.attr.name = true)) ∧
    (∀ vs st, f.attr.kind = .numeric vs st → Allowed F vs st (a.int f.attr.name))

theorem oneOf_eval (x : ZTerm) (a : Assign) (v : Int) (hx : x.eval a = .int v) (vs : List Int) :
    (oneOf x vs).eval a = .bool (decide (v ∈ vs)) := by
  have key : ∀ (vs : List Int) (t : ZTerm) (b : Bool), t.eval a = .bool b →
      (vs.foldl (fun t v => ZTerm.bin .or t (.bin .eq x (.intVal v))) t).eval a = .bool (b || decide (v ∈ vs)) := by
    intro vs
    induction vs with
    | nil => intro t b h; simp [h]
    | cons u us ih =>
      intro t b h
      rw [List.foldl_cons, ih _ (b || decide (v = u)) (by simp [ZTerm.eval, h, hx, ZOp.apply])]
      simp [Bool.or_assoc]
  have := key vs (.boolVal false) false rfl
  simpa [oneOf] using this

theorem linkParent_ok {s : Z3Solver} {n pn x p : Str} {mandatory : Bool} (hx : s.options.lookup n = some (.boolConst x))
    (hp : s.options.lookup pn = some (.boolConst p)) :
    ∃ ts, s.linkParent n pn mandatory = .ok { s with asserted := s.asserted ++ ts } ∧
      ∀ a, Sat a ts ↔ (a.bool x = true → a.bool p = true) ∧ (mandatory = true → a.bool p = true → a.bool x = true) := by
  have h1 : ZTerm.mk .implies (.boolConst x) (.boolConst p) = some (.bin .implies (.boolConst x) (.boolConst p)) := mk_some rfl
  have h2 : ZTerm.mk .implies (.boolConst p) (.boolConst x) = some (.bin .implies (.boolConst p) (.boolConst x)) := mk_some rfl
  have hs : ∀ q q' : Str, (ZTerm.bin .implies (.boolConst q) (.boolConst q')).sort = .bool := fun _ _ => rfl
  have ev : ∀ (a : Assign) (q q' : Str), (ZTerm.bin .implies (.boolConst q) (.boolConst q')).eval a = .bool true ↔
      (a.bool q = true → a.bool q' = true) := by
    intro a q q'
    simp only [ZTerm.eval, ZOp.apply, ZVal.bool.injEq]
    cases a.bool q <;> cases a.bool q' <;> simp
  cases mandatory with
  | false =>
    refine ⟨[.bin .implies (.boolConst x) (.boolConst p)], ?_, ?_⟩
    · simp [linkParent, hx, hp, h1, Z3Solver.assert, hs]
    · intro a
      simp [Sat, ev]
  | true =>
    refine ⟨[.bin .implies (.boolConst x) (.boolConst p), .bin .implies (.boolConst p) (.boolConst x)], ?_, ?_⟩
    · simp [linkParent, hx, hp, h1, h2, Z3Solver.assert, hs]
    · intro a
      simp [Sat, ev]

/-- The rounds the range of a feature needs are available. -/
def FuelOk (F : IntFloats) (m : FModel) (fuel : Nat) (i : Id) : Prop :=
  ∀ f lo hi st, data m i = some (.feat f) → f.attr.kind = .numeric (.range lo hi) st →
    ∃ vs : List Int, (∀ v, v ∈ vs ↔ Orbit (stepOf F st) lo hi v) ∧ rangeLoop F st hi fuel lo [] = .values vs

theorem addFeature_ok {F : IntFloats} {m : FModel} (w : WF m) (L : Clear F m) {fuel : Nat} {s : Z3Solver} {done : List Id}
    (hs : s.options = done.map (optEntry m)) (hk : ∀ j ∈ done, Known m j) {i : Id} (hi : Known m i) (hni : i ∉ done)
    (hp : ∀ p, FParent m i p → p ∈ done) (hfuel : FuelOk F m fuel i) (inGroup : Bool) :
    ∃ ts, addFeature F fuel m s i inGroup =
        .ok { s with options := (done ++ [i]).map (optEntry m), asserted := s.asserted ++ ts } ∧
      ∀ a, Sat a ts ↔ FeatOk F m a i inGroup := by
  obtain ⟨f, hf⟩ := w.known_data hi
  obtain ⟨po, hpo, hpoi⟩ := parentFeature_spec w (.inl hi)
  have hname : s.has f.attr.name = false := by
    rw [Bool.eq_false_iff]
    intro h
    rw [has_iff, hs, List.map_map] at h
    obtain ⟨j, hj, he⟩ := List.mem_map.1 h
    obtain ⟨g, hg⟩ := w.known_data (hk j hj)
    simp only [Function.comp, optEntry_data hg] at he
    exact hni (w.name_inj (hk j hj) hi hg hf he ▸ hj)
  have hnul := L.names _ _ (w.entry_mem hi hf)
  have hlook : ∀ t, (s.options ++ [(f.attr.name, t)]).lookup f.attr.name = some t := by
    intro t
    have : s.options.lookup f.attr.name = none := by
      unfold Z3Solver.has at hname
      simpa using hname
    rw [List.lookup_append, this]
    simp
  have hparent : ∃ pn : Option Str, s.parentPresent m po = some (pn, true) ∧
      (∀ p g, FParent m i p → data m p = some (.feat g) → pn = some g.attr.name) ∧
      (pn = none → ∀ p, ¬ FParent m i p) := by
    cases po with
    | none => exact ⟨none, rfl, fun p g h => by simp [← hpoi p] at h, fun _ p h => by simp [← hpoi p] at h⟩
    | some p =>
      have hpp := (hpoi p).1 rfl
      have hpd := hp p hpp
      obtain ⟨g, hg⟩ := w.known_data (hk p hpd)
      refine ⟨some g.attr.name, ?_, ?_, by intro h; cases h⟩
      · simp only [parentPresent, nameOf_of_data hg, Option.map_some, Option.some.injEq, Prod.mk.injEq, true_and]
        rw [has_iff, hs, List.map_map]
        exact List.mem_map.2 ⟨p, hpd, by simp [optEntry_data hg]⟩
      · intro p' g' hp' hg'
        have := (hpoi p').2 hp'
        cases this
        rw [hg] at hg'; cases hg'; rfl
  obtain ⟨pn, hpn, hpn1, hpn2⟩ := hparent
  have hopts : s.options ++ [(f.attr.name, optTerm f)] = (done ++ [i]).map (optEntry m) := by
    simp [hs, optEntry_data hf]
  unfold addFeature
  simp only [feat?_of_data hf, hpo]
  rw [hpn]
  simp only [hname, Bool.false_eq_true, if_false]
  cases hkind : f.attr.kind with
  | unknown => exact absurd hkind (L.known i f hi hf)
  | root =>
    have hot : optTerm f = .boolConst f.attr.name := by simp [optTerm, hkind]
    rw [hot] at hopts
    simp only [addBool, hname, Bool.false_eq_true, if_false, cstr_id hnul, hlook]
    refine ⟨[.boolConst f.attr.name], ?_, ?_⟩
    · simp only [Z3Solver.assert, ZTerm.sort, if_true, hopts]
    · intro a
      constructor
      · intro h f' hf'
        rw [hf] at hf'; cases hf'
        refine ⟨fun _ => ?_, fun h => ?_, fun _ _ h => ?_⟩
        · have := h _ (List.mem_singleton.2 rfl)
          simpa [ZTerm.eval] using this
        · rw [hkind] at h; cases h
        · rw [hkind] at h; cases h
      · intro h t ht
        rw [List.mem_singleton.1 ht]
        simp [ZTerm.eval, (h f hf).1 hkind]
  | numeric vs st =>
    have hot : optTerm f = .intConst f.attr.name := by simp [optTerm, hkind]
    rw [hot] at hopts
    have fin : ∀ us : List Int, (∀ v, v ∈ us ↔ Allowed F vs st v) →
        s.addInt f.attr.name us =
          .ok { s with options := (done ++ [i]).map (optEntry m), asserted := s.asserted ++ [oneOf (.intConst f.attr.name) us] } ∧
        ∀ a, Sat a [oneOf (.intConst f.attr.name) us] ↔ FeatOk F m a i inGroup := by
      intro us hus
      refine ⟨by simp only [addInt, hname, Bool.false_eq_true, if_false, cstr_id hnul, hopts], ?_⟩
      intro a
      have hev := oneOf_eval (.intConst f.attr.name) a (a.int f.attr.name) rfl us
      constructor
      · intro h f' hf'
        rw [hf] at hf'; cases hf'
        refine ⟨fun h => ?_, fun h => ?_, fun vs' st' h' => ?_⟩
        · rw [hkind] at h; cases h
        · rw [hkind] at h; cases h
        · rw [hkind] at h'; cases h'
          have := h _ (List.mem_singleton.2 rfl)
          rw [hev] at this
          exact (hus _).1 (by simpa using this)
      · intro h t ht
        rw [List.mem_singleton.1 ht, hev]
        simpa using (hus _).2 ((h f hf).2.2 _ _ hkind)
    cases vs with
    | list vs =>
      have := fin vs (fun v => Iff.rfl)
      exact ⟨_, this.1, this.2⟩
    | range lo hi =>
      obtain ⟨us, h1, h2⟩ := hfuel f lo hi st hf hkind
      have := fin us h1
      simp only [h2]
      exact ⟨_, this.1, this.2⟩
  | binary =>
    have hot : optTerm f = .boolConst f.attr.name := by simp [optTerm, hkind]
    rw [hot] at hopts
    have hnr : m.root ≠ some i := by
      intro hr
      obtain ⟨r, g, h1, h2, h3, h4, _⟩ := w.root_ok
      rw [hr] at h1; cases h1
      rw [hf] at h3; cases h3
      rw [hkind] at h4; cases h4
    obtain ⟨p, hfp, hkp⟩ := w.has_fparent (.inl hi) hnr
    obtain ⟨g, hg⟩ := w.known_data hkp
    have hpe := hpn1 p g hfp hg
    subst hpe
    have hgk : ∀ vs st, g.attr.kind ≠ .numeric vs st := fun vs st => L.parents i f p g vs st hi hf hkind hfp hg
    have hgt : optTerm g = .boolConst g.attr.name := by
      unfold optTerm
      cases hgg : g.attr.kind with
      | numeric vs st => exact absurd hgg (hgk vs st)
      | _ => rfl
    simp only [addBool, hname, Bool.false_eq_true, if_false, cstr_id hnul]
    have hlp : (s.options ++ [(f.attr.name, ZTerm.boolConst f.attr.name)]).lookup g.attr.name = some (.boolConst g.attr.name) := by
      rw [List.lookup_append, hs, lookup_loaded w hk (hp p hfp) hg, hgt]
      rfl
    obtain ⟨ts, h1, h2⟩ := linkParent_ok (s := { s with options := s.options ++ [(f.attr.name, ZTerm.boolConst f.attr.name)] })
      (n := f.attr.name) (pn := g.attr.name) (mandatory := !inGroup && !f.attr.opt) (hlook _) hlp
    refine ⟨ts, by rw [h1]; simp only [hopts], ?_⟩
    intro a
    rw [h2]
    have hfu : ∀ p', FParent m i p' → p' = p := by
      intro p' hp'
      have e1 := (hpoi p').2 hp'
      have e2 := (hpoi p).2 hfp
      rw [e1] at e2; exact Option.some.inj e2
    constructor
    · rintro ⟨e1, e2⟩ f' hf'
      rw [hf] at hf'; cases hf'
      refine ⟨fun h => ?_, fun _ => ?_, fun _ _ h => ?_⟩
      · rw [hkind] at h; cases h
      · intro p' g' hp' hg'
        cases hfu p' hp'
        rw [hg] at hg'; cases hg'
        exact ⟨e1, fun a1 a2 => e2 (by simp [a1, a2])⟩
      · rw [hkind] at h; cases h
    · intro h
      obtain ⟨e1, e2⟩ := (h f hf).2.1 hkind p g hfp hg
      exact ⟨e1, fun hh => by
        simp only [Bool.and_eq_true, Bool.not_eq_true'] at hh
        exact e2 hh.1 hh.2⟩

end Verif

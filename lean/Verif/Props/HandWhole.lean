import Verif.Props.Hand
/-!
# C94: a whole model by hand, and what is added to a solver that holds a model
-/

namespace Verif.Props
open Verif Verif.Spec Verif.FModel Verif.Z3Solver

theorem treeValid_iff {F : IntFloats} {m : FModel} (w : WF m) {a : Assign} {g : Id → Bool}
    (hg : ∀ i, Known m i → (g i = true ↔ ∃ p k, par m i = some p ∧ data m p = some (.rel k))) :
    TreeValid F m a ↔ (∀ i, Known m i → FeatOk F m a i (g i)) ∧ ∀ r ∈ m.rels, RelOk m a r := by
  have hdata : ∀ i, Known m i → ∃ f, data m i = some (.feat f) := fun i hi => w.known_data hi
  have sel : ∀ j g, data m j = some (.feat g) → (Selected m a j ↔ a.bool g.attr.name = true) := by
    intro j g hg
    constructor
    · rintro ⟨g', hg', h⟩
      rw [hg] at hg'; cases hg'; exact h
    · intro h; exact ⟨g, hg, h⟩
  constructor
  · intro v
    constructor
    · intro i hi f hd
      refine ⟨?_, ?_, ?_⟩
      · intro hk
        exact (sel i f hd).1 (v.root i (w.one_root i f hi hd hk))
      · intro hk p q hp hq
        refine ⟨fun h => (sel p q hq).1 (v.parent i f p hi hd hk hp ((sel i f hd).2 h)), ?_⟩
        intro hgr ho hs
        cases hp with
        | direct h hpf => exact (sel i f hd).1 (v.mandatory i f p hi hd hk ho h hpf ((sel p q hq).2 hs))
        | skip h hr _ =>
          obtain ⟨k, hr⟩ := hr
          have := (hg i hi).2 ⟨_, k, h, hr⟩
          rw [this] at hgr; cases hgr
      · intro vs st hk
        exact v.numeric i f vs st hi hd hk
    · intro r hr p hp hs
      exact ⟨fun hd => v.alternative r p hr hd hp hs, fun hd => v.or r p hr hd hp hs⟩
  · rintro ⟨hf, hrel⟩
    refine ⟨?_, ?_, ?_, ?_, ?_, ?_⟩
    · intro r hr
      obtain ⟨r', q, h1, h2, h3, h4, _⟩ := w.root_ok
      rw [hr] at h1; cases h1
      exact ⟨q, h3, ((hf r h2) q h3).1 h4⟩
    · intro i f p hi hd hk hp hs
      obtain ⟨q, hq⟩ := hdata p (fparent_fst w (.inl hi) hp)
      exact ⟨q, hq, ((hf i hi f hd).2.1 hk p q hp hq).1 ((sel i f hd).1 hs)⟩
    · intro i f p hi hd hk ho hp hpf hs
      obtain ⟨q, hq, hs⟩ := hs
      refine ⟨f, hd, ((hf i hi f hd).2.1 hk p q (.direct hp hpf) hq).2 ?_ ho hs⟩
      rw [Bool.eq_false_iff]
      intro h
      obtain ⟨p', k, h1, h2⟩ := (hg i hi).1 h
      rw [hp] at h1; cases h1
      rw [hq] at h2; cases h2
    · intro r p hr hd hp hs
      exact (hrel r hr p hp hs).1 hd
    · intro r p hr hd hp hs
      exact (hrel r hr p hp hs).2 hd
    · intro i f vs st hi hd hk
      exact (hf i hi f hd).2.2 vs st hk

/-- The calls add the features, groups and constraints of the model and nothing else; the features with
    the flag of those in groups. -/
structure WholeModel (m : FModel) (qs : List Tell) : Prop where
  feature : ∀ i g, Tell.feature i g ∈ qs → Known m i ∧ (g = true ↔ ∃ p k, par m i = some p ∧ data m p = some (.rel k))
  features : ∀ i, Known m i → ∃ g, Tell.feature i g ∈ qs
  group : ∀ r, Tell.group r ∈ qs ↔ r ∈ m.rels
  constraint : ∀ c, Tell.constraint c ∈ qs ↔ c ∈ m.booleans ++ m.nonBooleans
  mixed : ∀ c, Tell.mixed c ∈ qs ↔ c ∈ m.mixeds
  noBool : ∀ n, Tell.bool n ∉ qs
  noInt : ∀ n vs, Tell.int n vs ∉ qs
  adding : ∀ q ∈ qs, Adding q

theorem wholeModel_demands {F : IntFloats} {m : FModel} (w : WF m) {qs : List Tell} (h : WholeModel m qs) (a : Assign) :
    (∀ q ∈ qs, Demands F m a q) ↔ Valid F (notBothIn m) a := by
  classical
  have hg : ∀ i, Known m i → (decide (∃ p k, par m i = some p ∧ data m p = some (.rel k)) = true ↔
      ∃ p k, par m i = some p ∧ data m p = some (.rel k)) := fun i _ => by simp
  rw [valid_notBoth, treeValid_iff w hg]
  constructor
  · intro hd
    refine ⟨⟨fun i hi => ?_, fun r hr => hd _ ((h.group r).2 hr)⟩, fun c hc => hd _ ((h.constraint c).2 hc), fun c hc => hd _ ((h.mixed c).2 hc)⟩
    obtain ⟨g, hm⟩ := h.features i hi
    have := hd _ hm
    have hb := (h.feature i g hm).2
    cases g with
    | true => rw [decide_eq_true (hb.1 rfl)]; exact this
    | false => rw [decide_eq_false (fun hx => by simp at hb; obtain ⟨p, k, h1, h2⟩ := hx; exact hb p h1 k h2)]; exact this
  · rintro ⟨⟨h1, h2⟩, h3, h4⟩ q hq
    cases q with
    | bool n => trivial
    | int n vs => exact absurd hq (h.noInt n vs)
    | feature i g =>
      obtain ⟨hi, hb⟩ := h.feature i g hq
      have := h1 i hi
      cases g with
      | true => rwa [decide_eq_true (hb.1 rfl)] at this
      | false => rwa [decide_eq_false (fun hx => by simp at hb; obtain ⟨p, k, h1, h2⟩ := hx; exact hb p h1 k h2)] at this
    | group r => exact h2 r ((h.group r).1 hq)
    | constraint c => exact h3 c ((h.constraint c).1 hq)
    | mixed c => exact h4 c ((h.mixed c).1 hq)
    | _ => trivial

theorem valueAs_optSort (f : Feat) (a : Assign) : valueAs a (f.attr.name, optSort f) = valueOf f a := by
  unfold optSort valueOf
  cases f.attr.kind <;> rfl

theorem showsOpts_iff {m : FModel} {opts : List (Str × ZSort)}
    (ho : ∀ e, e ∈ opts ↔ ∃ i f, Known m i ∧ data m i = some (.feat f) ∧ e = (f.attr.name, optSort f)) (a : Assign) (c : Config) :
    ShowsOpts opts a c ↔ Shows m a c := by
  constructor
  · intro h
    constructor
    · intro i f hi hf
      rw [← valueAs_optSort]
      exact h.has _ ((ho _).2 ⟨i, f, hi, hf, rfl⟩)
    · intro n hn
      obtain ⟨e, he, rfl⟩ := h.only n hn
      obtain ⟨i, f, hi, hf, rfl⟩ := (ho e).1 he
      exact ⟨i, f, hi, hf, rfl⟩
  · intro h
    constructor
    · intro e he
      obtain ⟨i, f, hi, hf, rfl⟩ := (ho e).1 he
      rw [valueAs_optSort]
      exact h.has i f hi hf
    · intro n hn
      obtain ⟨i, f, hi, hf, rfl⟩ := h.only n hn
      exact ⟨_, (ho _).2 ⟨i, f, hi, hf, rfl⟩, rfl⟩

theorem wholeModel_opts {m : FModel} (w : WF m) {qs : List Tell} (h : WholeModel m qs) (e : Str × ZSort) :
    e ∈ qs.flatMap (addedOpt m) ↔ ∃ i f, Known m i ∧ data m i = some (.feat f) ∧ e = (f.attr.name, optSort f) := by
  rw [List.mem_flatMap]
  constructor
  · rintro ⟨q, hq, he⟩
    cases q with
    | bool n => exact absurd hq (h.noBool n)
    | int n vs => exact absurd hq (h.noInt n vs)
    | feature i g =>
      have hi := (h.feature i g hq).1
      obtain ⟨f, hf⟩ := w.known_data hi
      simp only [addedOpt, hf, List.mem_singleton] at he
      exact ⟨i, f, hi, hf, he⟩
    | _ => cases he
  · rintro ⟨i, f, hi, hf, rfl⟩
    obtain ⟨g, hm⟩ := h.features i hi
    exact ⟨_, hm, by simp [addedOpt, hf]⟩

theorem wholeModel_ok {F : IntFloats} {m : FModel} (L : Clear F m) {qs : List Tell} (h : WholeModel m qs) : ∀ q ∈ qs, TellOk m q ∧ Adding q := by
  intro q hq
  refine ⟨?_, h.adding q hq⟩
  cases q with
  | bool n => exact absurd hq (h.noBool n)
  | int n vs => exact absurd hq (h.noInt n vs)
  | feature i g => exact (h.feature i g hq).1
  | group r => exact (h.group r).1 hq
  | constraint c =>
    have hc := (h.constraint c).1 hq
    exact ⟨L.sorts c hc, L.leaves c (List.mem_append_left _ hc), L.binds c (List.mem_append_left _ hc)⟩
  | mixed c =>
    have hc := (h.mixed c).1 hq
    exact ⟨L.mixedSorts c hc, L.leaves c (List.mem_append_right _ hc), L.binds c (List.mem_append_right _ hc), L.infos c hc⟩
  | _ => trivial

/-- A model whose features, groups and constraints are added call by call, in any order in which no call
    is refused, gives the configurations it gives when loaded by the factory: valid ones, all different,
    and if fewer come than are asked for, all of them. -/
theorem C94_whole_model {F : IntFloats} {m : FModel} (w : WF m) (L : Clear F m) (O : Oracle) (hO : ∀ k ts, O.check k ts ≠ .unknown) :
    ∃ k, ∀ fuel, k ≤ fuel → ∀ qs, WholeModel m qs → ∀ n s rs,
      Z3Solver.tells F fuel m O {} (qs ++ List.replicate n .next) = some (List.replicate qs.length .done ++ rs, s) →
      ∃ cs : List Config, rs = cs.map .config ++ List.replicate (n - cs.length) (.error .unsat) ∧ cs.length ≤ n ∧ cs.Pairwise Differ ∧
        (∀ c ∈ cs, ValidConfig F (notBothIn m) c) ∧ (cs.length < n → Enumerates F (notBothIn m) cs) := by
  obtain ⟨k, h⟩ := C94_enumerates w L O hO
  refine ⟨k, fun fuel hf qs hq n s rs e => ?_⟩
  obtain ⟨cs, h1, h2, h3, h4, h5⟩ := h fuel hf qs (wholeModel_ok L hq) n s rs e
  simp only [wholeModel_demands w hq] at h4 h5
  have hsh := fun a c => showsOpts_iff (m := m) (wholeModel_opts w hq) a c
  have hv : ∀ c ∈ cs, ValidConfig F (notBothIn m) c := by
    intro c hc
    obtain ⟨a, ha, hs⟩ := h4 c hc
    have := (hsh a c).1 hs
    exact ⟨a, ha, this.has, this.only⟩
  refine ⟨cs, h1, h2, h3, hv, fun hlt => ⟨hv, h3, fun a ha => ?_⟩⟩
  obtain ⟨c, hc, hs⟩ := h5 hlt a ha
  have := (hsh a c).1 hs
  exact ⟨c, hc, this.has, this.only⟩

/-- What has been added when the factory has loaded a model. -/
structure HandLoaded (F : IntFloats) (m : FModel) (p : Hand) : Prop where
  opts : ∀ e, e ∈ p.opts ↔ ∃ i f, Known m i ∧ data m i = some (.feat f) ∧ e = (f.attr.name, optSort f)
  holds : ∀ a, p.holds a ↔ Valid F (notBothIn m) a
  given : p.given = []

/-- A solver that the factory has filled answers all further calls, also those that add options, groups
    and constraints, as the machine does that remembers the model. -/
theorem C94_after_loading {F : IntFloats} {m : FModel} (w : WF m) (L : Clear F m) (E : Env) (O : Oracle)
    (hO : ∀ k ts, O.check k ts ≠ .unknown) :
    ∃ p, HandLoaded F m p ∧ ∃ k, ∀ fuel, k ≤ fuel → ∃ s, initSolver E F fuel m = .ok s ∧
      ∀ qs, (∀ q ∈ qs, TellOk m q) → HSteps F m p qs ((s.tells F fuel m O qs).map (·.1)) := by
  obtain ⟨k1, l, _, hnd, hmem, h⟩ := initSolver_coded w L E
  obtain ⟨k2, h'⟩ := hand_fuel L
  let o : Id → Str × ZSort := fun i => match data m i with | some (.feat f) => (f.attr.name, optSort f) | _ => ([], .bool)
  have ho : ∀ {i f}, data m i = some (.feat f) → o i = (f.attr.name, optSort f) := by
    intro i f hf
    simp only [o, hf]
  refine ⟨⟨l.map o, Valid F (notBothIn m), []⟩, ⟨fun e => ?_, fun a => Iff.rfl, rfl⟩, max k1 k2, fun fuel hf => ?_⟩
  · constructor
    · intro he
      obtain ⟨i, hi, rfl⟩ := List.mem_map.1 he
      obtain ⟨f, hf⟩ := w.known_data ((hmem i).1 hi)
      exact ⟨i, f, (hmem i).1 hi, hf, ho hf⟩
    · rintro ⟨i, f, hi, hf, rfl⟩
      exact List.mem_map.2 ⟨i, (hmem i).2 hi, ho hf⟩
  · obtain ⟨ts, e, hs⟩ := h fuel (by omega)
    refine ⟨_, e, fun qs hq => hat_steps w L hO (h' fuel (by omega)) qs hq ⟨?_, ?_, [], rfl, by simp, rfl, fun b => ?_⟩⟩
    · show l.map (optEntry m) = (l.map o).map optOf
      rw [List.map_map]
      refine List.map_congr_left fun i hi => ?_
      obtain ⟨f, hf⟩ := w.known_data ((hmem i).1 hi)
      rw [Function.comp_apply, ho hf, optEntry_data hf]
      simp only [optOf, optTerm, optSort]
      cases f.attr.kind <;> rfl
    · show ((l.map o).map Prod.fst).Nodup
      rw [List.map_map]
      rw [List.Nodup, List.pairwise_map]
      refine List.Pairwise.imp_of_mem (fun {i j} hi hj hne e => hne ?_) hnd
      obtain ⟨f, hf⟩ := w.known_data ((hmem i).1 hi)
      obtain ⟨g, hg⟩ := w.known_data ((hmem j).1 hj)
      rw [Function.comp_apply, Function.comp_apply, ho hf, ho hg] at e
      exact w.name_inj ((hmem i).1 hi) ((hmem j).1 hj) hf hg e
    · simp [hs]

theorem hsteps_enumerates {F : IntFloats} {m : FModel} {p : Hand} (hp : p.given = []) {qs : List Tell} (hq : ∀ q ∈ qs, Adding q) {n : Nat}
    {rs : List Reply} (hs : HSteps F m p (qs ++ List.replicate n .next) (some (List.replicate qs.length .done ++ rs))) :
    ∃ cs : List Config, rs = cs.map .config ++ List.replicate (n - cs.length) (.error .unsat) ∧ cs.length ≤ n ∧ cs.Pairwise Differ ∧
      (∀ c ∈ cs, ∃ a, p.holds a ∧ (∀ q ∈ qs, Demands F m a q) ∧ ShowsOpts (p.opts ++ qs.flatMap (addedOpt m)) a c) ∧
      (cs.length < n → ∀ a, p.holds a → (∀ q ∈ qs, Demands F m a q) → ∃ c ∈ cs, ShowsOpts (p.opts ++ qs.flatMap (addedOpt m)) a c) := by
  obtain ⟨q, h1, h2, h3, h4⟩ := hsteps_adds hq hs
  obtain ⟨new, g1, g2, g3, g4, g5⟩ := hsteps_nexts h1
  simp only [h4] at g3 g5
  rw [h3] at g3 g4 g5
  rw [h2, hp] at g5
  refine ⟨new, g1, g2, g4.imp ?_, fun c hc => ?_, fun hlt a ha ha' => ?_⟩
  · rintro d c ⟨a, hs, hn⟩
    refine Classical.byContradiction fun hx => hn fun e he t ht => ?_
    have he' := hs.has e he
    have : d.value e.1 = c.value e.1 := Classical.byContradiction fun hne => hx ⟨_, hne⟩
    rw [← this, ht] at he'
    exact Option.some.inj he'
  · obtain ⟨a, h1, h2, _⟩ := g3 c hc
    exact ⟨a, h1.1, h1.2, h2⟩
  · obtain ⟨d, hd, hag⟩ := g5 hlt a ⟨ha, ha'⟩
    rw [List.nil_append] at hd
    obtain ⟨a', _, hs, _⟩ := g3 d hd
    refine ⟨d, hd, fun e he => ?_, hs.only⟩
    rw [hs.has e he, ← hag e he _ (hs.has e he)]

/-- What is added to a solver that holds a model narrows and widens what it gives: the configurations of
    the features of the model and of the options added, valid in the model and meeting what the calls
    demand, all different, and if fewer come than are asked for, all of them. -/
theorem C94_extends_model {F : IntFloats} {m : FModel} (w : WF m) (L : Clear F m) (E : Env) (O : Oracle)
    (hO : ∀ k ts, O.check k ts ≠ .unknown) :
    ∃ k, ∀ fuel, k ≤ fuel → ∃ s, initSolver E F fuel m = .ok s ∧ ∃ opts : List (Str × ZSort),
      (∀ e, e ∈ opts ↔ ∃ i f, Known m i ∧ data m i = some (.feat f) ∧ e = (f.attr.name, optSort f)) ∧
      ∀ qs, (∀ q ∈ qs, TellOk m q ∧ Adding q) → ∀ n s' rs,
        s.tells F fuel m O (qs ++ List.replicate n .next) = some (List.replicate qs.length .done ++ rs, s') →
        ∃ cs : List Config, rs = cs.map .config ++ List.replicate (n - cs.length) (.error .unsat) ∧ cs.length ≤ n ∧ cs.Pairwise Differ ∧
          (∀ c ∈ cs, ∃ a, Valid F (notBothIn m) a ∧ (∀ q ∈ qs, Demands F m a q) ∧ ShowsOpts (opts ++ qs.flatMap (addedOpt m)) a c) ∧
          (cs.length < n → ∀ a, Valid F (notBothIn m) a → (∀ q ∈ qs, Demands F m a q) →
            ∃ c ∈ cs, ShowsOpts (opts ++ qs.flatMap (addedOpt m)) a c) := by
  obtain ⟨p, hp, k, h⟩ := C94_after_loading w L E O hO
  refine ⟨k, fun fuel hf => ?_⟩
  obtain ⟨s, e, hs⟩ := h fuel hf
  refine ⟨s, e, p.opts, hp.opts, fun qs hq n s' rs he => ?_⟩
  have h1 := hs (qs ++ List.replicate n .next) (by
    intro q hq'
    rcases List.mem_append.1 hq' with h' | h'
    · exact (hq q h').1
    · rw [(List.mem_replicate.1 h').2]; trivial)
  rw [he] at h1
  have h2 := hsteps_enumerates hp.given (fun q hq' => (hq q hq').2) h1
  simpa only [hp.holds] using h2

/-- The shop, added in another order than the factory's. -/
def shopByHand : List Tell :=
  shop.mixeds.map .mixed ++ [.group 1, .feature 0 false, .feature 3 true, .feature 5 false, .feature 2 true] ++
    shop.booleans.map .constraint ++ [.feature 4 false]

/-- The hypotheses are met, also by the loaded shop with a number and a constraint more. -/
example : WholeModel shop shopByHand ∧
    (∀ O, ∃ s, Z3Solver.tells exactFloats 9 shop O {} shopByHand = some (List.replicate 8 .done, s)) ∧
    ∀ q ∈ [Tell.int c!"X" [1, 2], .constraint notO], TellOk shop q ∧ Adding q := by
  refine ⟨⟨?_, ?_, ?_, ?_, ?_, ?_, ?_, ?_⟩, fun O => ⟨_, rfl⟩, ?_⟩
  · intro i g h
    simp [shopByHand] at h
    rcases h with ⟨rfl, rfl⟩ | ⟨rfl, rfl⟩ | ⟨rfl, rfl⟩ | ⟨rfl, rfl⟩ | ⟨rfl, rfl⟩ <;>
      refine ⟨show _ ∈ [0, 2, 3, 4, 5] by decide, ?_⟩
    · simp [show par shop 0 = none from rfl]
    · simp only [true_iff]; exact ⟨1, .alternative, rfl, rfl⟩
    · simp [show par shop 5 = some 0 from rfl]
      intro k hk; cases hk
    · simp only [true_iff]; exact ⟨1, .alternative, rfl, rfl⟩
    · simp [show par shop 4 = some 0 from rfl]
      intro k hk; cases hk
  · intro i hi
    have : i ∈ [0, 2, 3, 4, 5] := hi
    simp only [List.mem_cons, List.not_mem_nil, or_false] at this
    rcases this with rfl | rfl | rfl | rfl | rfl
    · exact ⟨false, by simp [shopByHand]⟩
    · exact ⟨true, by simp [shopByHand]⟩
    · exact ⟨true, by simp [shopByHand]⟩
    · exact ⟨false, by simp [shopByHand]⟩
    · exact ⟨false, by simp [shopByHand]⟩
  · intro r
    simp [shopByHand, show shop.rels = [1] from rfl]
  · intro c
    simp [shopByHand, show shop.nonBooleans = [] from rfl]
  · intro c
    simp [shopByHand]
  · intro n h; simp [shopByHand] at h
  · intro n vs h; simp [shopByHand] at h
  · intro q hq
    simp only [shopByHand, List.mem_append, List.mem_map, List.mem_cons, List.not_mem_nil, or_false] at hq
    rcases hq with ((⟨_, _, rfl⟩ | rfl | rfl | rfl | rfl | rfl) | ⟨_, _, rfl⟩) | rfl <;> trivial
  · intro q hq
    simp only [List.mem_cons, List.not_mem_nil, or_false] at hq
    rcases hq with rfl | rfl
    · exact ⟨show Char.ofNat 0 ∉ c!"X" by decide, trivial⟩
    · exact ⟨oneOfAO_tellable.2, trivial⟩

end Verif.Props

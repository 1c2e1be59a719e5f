import Verif.FM.Invariant
/-!
# Concrete models

Used to show that hypotheses can be met and to refute claims.  A model given by its list of nodes
is checked for well-formedness by evaluation; the check is proved sound.
-/

namespace Verif
open Verif.Spec

/-- The environment with identity orders. -/
def stdEnv (asserts : Bool) : Env := ⟨id, fun _ => .refl _, id, fun _ => .refl _, asserts⟩

/-- The environment that visits sets and maps backwards. -/
def revEnv (asserts : Bool) : Env :=
  ⟨List.reverse, List.reverse_perm, List.reverse, List.reverse_perm, asserts⟩

/-- A model with the given nodes at addresses 0, 1, 2, … -/
def ofNodes (nodes : List Node) (root : Option Id) (features : List (Str × Id)) (rels : List Id)
    (booleans : List Stored := []) : FModel :=
  { heap := fun i => nodes[i]?
    next := nodes.length
    name := c!"M"
    root := root
    path := []
    commit := []
    features := features
    booleans := booleans
    nonBooleans := []
    mixeds := []
    rels := rels }

/-- Addresses of the nodes of a model. -/
def ids (m : FModel) : List Id := m.features.map Prod.snd ++ m.rels

theorem mem_ids {m : FModel} {i : Id} : i ∈ ids m ↔ Owned m i := by
  simp [ids, Owned, Known]

/-- Well-formedness by evaluation, except for the freshness of addresses. -/
def wfCheck (m : FModel) (rk : Id → Nat) : Bool :=
  (match m.root with
   | none => false
   | some r =>
     decide (r ∈ m.features.map Prod.snd) &&
     (match data m r with | some (.feat f) => decide (f.attr.kind = .root) | _ => false) &&
     decide (par m r = none)) &&
  decide ((m.features.map Prod.fst).Nodup) &&
  m.features.all (fun e => match data m e.2 with | some (.feat f) => decide (f.attr.name = e.1) | _ => false) &&
  decide m.rels.Nodup &&
  m.rels.all (fun r => match data m r with | some (.rel _) => true | _ => false) &&
  (ids m).all (fun i =>
    (match par m i with
     | none => decide (m.root = some i)
     | some p => decide (p ∈ ids m) && decide (i ∈ edg m p) && decide (rk p < rk i)) &&
    (edg m i).all (fun c => decide (c ∈ ids m) && decide (par m c = some i)) &&
    decide ((edg m i).Nodup)) &&
  (m.features.map Prod.snd).all (fun i =>
    match data m i with
    | some (.feat f) => decide (f.attr.kind ≠ .root ∨ m.root = some i)
    | _ => true)

theorem wf_of_check {m : FModel} (rk : Id → Nat) (hf : ∀ i, m.heap i ≠ none → i < m.next)
    (h : wfCheck m rk = true) : WF m := by
  simp only [wfCheck, Bool.and_eq_true, List.all_eq_true, decide_eq_true_eq] at h
  obtain ⟨⟨⟨⟨⟨⟨h1, h2⟩, h3⟩, h4⟩, h5⟩, h6⟩, h7⟩ := h
  have hpar : ∀ i p, Owned m i → par m i = some p → Owned m p ∧ i ∈ edg m p ∧ rk p < rk i := by
    intro i p ho hp
    have := (h6 i (mem_ids.2 ho)).1.1
    rw [hp] at this
    simp only [Bool.and_eq_true, decide_eq_true_eq] at this
    exact ⟨mem_ids.1 this.1.1, this.1.2, this.2⟩
  have hor : ∀ i, Owned m i → par m i = none → m.root = some i := by
    intro i ho hp
    have := (h6 i (mem_ids.2 ho)).1.1
    rw [hp] at this
    simpa using this
  refine
    { root_ok := ?_
      names := h2
      feat_ok := ?_
      rels_nodup := h4
      rel_ok := ?_
      par_edge := fun i p ho hp => ⟨(hpar i p ho hp).1, (hpar i p ho hp).2.1⟩
      edge_par := ?_
      edges_nodup := fun i ho => (h6 i (mem_ids.2 ho)).2
      orphan := hor
      one_root := ?_
      reach := reach_of_rank rk (fun i p ho hp => ⟨(hpar i p ho hp).1, (hpar i p ho hp).2.2⟩) hor
      fresh := hf }
  · cases hr : m.root with
    | none => rw [hr] at h1; cases h1
    | some r =>
      rw [hr] at h1
      simp only [Bool.and_eq_true, decide_eq_true_eq] at h1
      obtain ⟨⟨a, b⟩, c⟩ := h1
      cases hd : data m r with
      | none => rw [hd] at b; cases b
      | some d =>
        cases d with
        | rel k => rw [hd] at b; cases b
        | feat f =>
          rw [hd] at b
          exact ⟨r, f, rfl, a, hd, by simpa using b, c⟩
  · intro e he
    have := h3 e he
    cases hd : data m e.2 with
    | none => rw [hd] at this; cases this
    | some d =>
      cases d with
      | rel k => rw [hd] at this; cases this
      | feat f => rw [hd] at this; exact ⟨f, rfl, by simpa using this⟩
  · intro r hr
    have := h5 r hr
    cases hd : data m r with
    | none => rw [hd] at this; cases this
    | some d =>
      cases d with
      | rel k => exact ⟨k, hd⟩
      | feat f => rw [hd] at this; cases this
  · intro i c ho hc
    have := (h6 i (mem_ids.2 ho)).1.2 c hc
    exact ⟨mem_ids.1 this.1, this.2⟩
  · intro i f hk hd hroot
    have := h7 i hk
    rw [hd] at this
    simp only [decide_eq_true_eq] at this
    exact this.resolve_left (fun h => h hroot)

theorem ofNodes_fresh (nodes : List Node) (root features rels booleans) :
    ∀ i, (ofNodes nodes root features rels booleans).heap i ≠ none →
      i < (ofNodes nodes root features rels booleans).next := by
  intro i hi
  simp only [ofNodes] at *
  rcases Nat.lt_or_ge i nodes.length with h | h
  · exact h
  · exact absurd (List.getElem?_eq_none h) hi

/-- A leaf of the example models. -/
def featNode (n : String) (parent : Option Id) (edges : List Id) (kind : FKind := .binary) : Node :=
  { data := .feat { attr := { name := n.toList, kind := kind } }, parent := parent, edges := edges }

/-- root -- A -- B, and C below the root. -/
def chain : FModel :=
  ofNodes [featNode "root" none [1, 3] .root, featNode "A" (some 0) [2], featNode "B" (some 1) [],
           featNode "C" (some 0) []]
    (some 0) [(c!"root", 0), (c!"A", 1), (c!"B", 2), (c!"C", 3)] []

theorem chain_wf : WF chain := wf_of_check (fun i => i) (ofNodes_fresh _ _ _ _ _) (by decide)

theorem chain_bound : Bound chain := by
  constructor <;> · intro s hs; simp [allStored, chain, ofNodes] at hs

/-- root with an alternative group {A, B}; C is a child of A. -/
def grouped : FModel :=
  ofNodes [featNode "root" none [1] .root, ⟨.rel .alternative, some 0, [2, 3]⟩, featNode "A" (some 1) [4],
           featNode "B" (some 1) [], featNode "C" (some 2) []]
    (some 0) [(c!"root", 0), (c!"A", 2), (c!"B", 3), (c!"C", 4)] [1]

theorem grouped_wf : WF grouped := wf_of_check (fun i => i) (ofNodes_fresh _ _ _ _ _) (by decide)

theorem grouped_bound : Bound grouped := by
  constructor <;> · intro s hs; simp [allStored, grouped, ofNodes] at hs

/-- The model of an outcome. -/
def Out.get : Out → Option FModel
  | .ok m => some m
  | .err _ m => some m
  | .ub => none

/-- The result of an outcome. -/
inductive OutTag
  | ok
  | err (e : FTErr)
  | ub
  deriving DecidableEq

def Out.tag : Out → OutTag
  | .ok _ => .ok
  | .err e _ => .err e
  | .ub => .ub

theorem Out.of_ok {o : Out} (h : o.tag = .ok) : ∃ m, o = .ok m ∧ o.get = some m := by
  cases o with
  | ok m => exact ⟨m, rfl, rfl⟩
  | err e m => cases h
  | ub => cases h

theorem Out.of_err {o : Out} {e : FTErr} (h : o.tag = .err e) : ∃ m, o = .err e m ∧ o.get = some m := by
  cases o with
  | ok m => cases h
  | err e' m => cases h; exact ⟨m, rfl, rfl⟩
  | ub => cases h

/-- Two nodes that are each other's parent do not occur in a well-formed model. -/
theorem not_wf_cycle {m : FModel} {a b : Id} (ha : Owned m a) (h1 : par m a = some b) (h2 : par m b = some a) :
    ¬ WF m := by
  intro w
  have hb := (w.par_edge a b ha h1).1
  have e1 := w.level_par ha h1
  have e2 := w.level_par hb h2
  omega

/-- The operation succeeds with a model that passes a decidable test. -/
def Out.passes (o : Out) (p : FModel → Bool) : Bool :=
  match o with | .ok m => p m | _ => false

theorem Out.of_passes {o : Out} {p : FModel → Bool} (h : o.passes p = true) : ∃ m, o = .ok m ∧ p m = true := by
  cases o with
  | ok m => exact ⟨m, rfl, h⟩
  | err e m => cases h
  | ub => cases h

/-- The operation fails and leaves a model that passes a decidable test. -/
def Out.failsWith (o : Out) (p : FTErr → FModel → Bool) : Bool :=
  match o with | .err e m => p e m | _ => false

theorem Out.of_failsWith {o : Out} {p : FTErr → FModel → Bool} (h : o.failsWith p = true) :
    ∃ e m, o = .err e m ∧ p e m = true := by
  cases o with
  | err e m => exact ⟨e, m, rfl, h⟩
  | ok m => cases h
  | ub => cases h

/-- The model a clone or build returned passes a decidable test. -/
def BuildRes.passes (r : BuildRes) (p : FModel → Bool) : Bool :=
  match r with | .built m => p m | _ => false

theorem BuildRes.of_passes {r : BuildRes} {p : FModel → Bool} (h : BuildRes.passes r p = true) :
    ∃ m, r = .built m ∧ p m = true := by
  cases r with
  | built m => exact ⟨m, rfl, h⟩
  | null => cases h
  | ub => cases h

/-- The committed model of a copy transaction passes a decidable test. -/
def commits (r : Option (Option FModel)) (p : FModel → Bool) : Bool :=
  match r with | some (some m) => p m | _ => false

theorem of_commits {r : Option (Option FModel)} {p : FModel → Bool} (h : commits r p = true) :
    ∃ m, r = some (some m) ∧ p m = true := by
  match r, h with
  | some (some m), h => exact ⟨m, rfl, h⟩

instance (m : FModel) (i : Id) : Decidable (Spec.Known m i) := by
  unfold Spec.Known; infer_instance

end Verif

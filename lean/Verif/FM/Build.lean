import Verif.FM.BuildSteps
/-!
# Using the builder

A program that uses `FeatureModelBuilder` (FeatureModelBuilder.h:42-97) is the list of its calls.
-/

namespace Verif

/-- A call on the builder. -/
inductive BCall
  | makeFeature (a : Attr)
  | makeRoot (n : Str)
  | addEdge (parent child : Str)
  | emplaceRelationship (k : RKind) (parent : Str)
  | addConstraint (k : CKind) (c : Constraint)
  | setVmName (n : Str)
  | setPath (n : Str)
  | setCommit (n : Str)
  deriving DecidableEq, Repr

/-- The builder after one more call. -/
def BCall.apply (b : ModelBuilder) : BCall → ModelBuilder
  | .makeFeature a => b.makeFeature a
  | .makeRoot n => b.makeRoot n
  | .addEdge p c => b.addEdge p c
  | .emplaceRelationship k p => b.emplaceRelationship k p
  | .addConstraint k c => b.addConstraint k c
  | .setVmName n => b.setVmName n
  | .setPath n => b.setPath n
  | .setCommit n => b.setCommit n

/-- The builder after a list of calls. -/
def builderOf (calls : List BCall) : ModelBuilder := calls.foldl BCall.apply {}

namespace BCall

/-- What a call adds to each queue. -/
def featOp : BCall → Option Op
  | .makeFeature a => some (.addFeature a none)
  | .makeRoot n => some (.setRoot n)
  | _ => none

def modelOp : BCall → Option Op
  | .addEdge p c => some (.addChild (.name p) (.name c))
  | .setVmName n => some (.setName n)
  | .setPath n => some (.setPath n)
  | .setCommit n => some (.setCommit n)
  | _ => none

def relOp : BCall → Option Op
  | .emplaceRelationship k p => some (.addRelationship k (.name p))
  | .addConstraint k c => some (.addConstraint k c)
  | _ => none

end BCall

namespace Spec

/-- The features made by the calls. -/
def attrsOf (calls : List BCall) : List Attr := calls.filterMap fun | .makeFeature a => some a | _ => none

/-- The root names given. -/
def rootsOf (calls : List BCall) : List Str := calls.filterMap fun | .makeRoot n => some n | _ => none

/-- The groups asked for. -/
def groupsOf (calls : List BCall) : List (Str × RKind) :=
  calls.filterMap fun | .emplaceRelationship k p => some (p, k) | _ => none

/-- The constraints added. -/
def constraintsOf (calls : List BCall) : List (CKind × Constraint) :=
  calls.filterMap fun | .addConstraint k c => some (k, c) | _ => none

def namesOf (calls : List BCall) : List Str := calls.filterMap fun | .setVmName n => some n | _ => none
def pathsOf (calls : List BCall) : List Str := calls.filterMap fun | .setPath n => some n | _ => none
def commitsOf (calls : List BCall) : List Str := calls.filterMap fun | .setCommit n => some n | _ => none

/-- The last element, or the given one. -/
def lastOr (d : Str) (l : List Str) : Str := l.foldl (fun _ x => x) d

end Spec
open Verif.Spec

theorem builder_queues : ∀ (calls : List BCall) (b : ModelBuilder),
    calls.foldl BCall.apply b =
      ⟨b.feats ++ calls.filterMap BCall.featOp, b.model ++ calls.filterMap BCall.modelOp,
       b.rels ++ calls.filterMap BCall.relOp⟩
  | [], b => by simp
  | c :: cs, b => by
    rw [List.foldl_cons, builder_queues cs]
    cases c <;> simp [List.filterMap_cons, BCall.apply, BCall.featOp, BCall.modelOp, BCall.relOp, ModelBuilder.makeFeature, ModelBuilder.makeRoot,
      ModelBuilder.addEdge, ModelBuilder.emplaceRelationship, ModelBuilder.addConstraint, ModelBuilder.setVmName,
      ModelBuilder.setPath, ModelBuilder.setCommit]

/-! ### First phase -/

/-- No name is used twice. -/
def NamesOk (d : Desc) (calls : List BCall) : Prop :=
  ((d.attrs ++ attrsOf calls).map Attr.name).Nodup ∧
    ∀ n, n = d.root ∨ n ∈ rootsOf calls → n ∉ (d.attrs ++ attrsOf calls).map Attr.name

theorem phase1 (E : Env) : ∀ (calls : List BCall) (m : FModel) (d : Desc), Describes d m → d.groups = [] →
    d.constraints = [] → d.parent = (fun _ => d.root) → (∀ a ∈ attrsOf calls, a.kind ≠ .root) →
    (∃ e m', FModel.outFold (FModel.exec E) m (calls.filterMap BCall.featOp) = .err e m' ∧ ¬ NamesOk d calls) ∨
    (∃ m', FModel.outFold (FModel.exec E) m (calls.filterMap BCall.featOp) = .ok m' ∧
      Describes { d with attrs := d.attrs ++ attrsOf calls, root := lastOr d.root (rootsOf calls),
                         parent := fun _ => lastOr d.root (rootsOf calls) } m')
  | [], m, d, h, _, _, hp, _ => by
    refine .inr ⟨m, rfl, ?_⟩
    have : ({ d with attrs := d.attrs ++ attrsOf [], root := lastOr d.root (rootsOf []),
                     parent := fun _ => lastOr d.root (rootsOf []) } : Desc) = d := by
      obtain ⟨a, b, c, e, f, g, i, j⟩ := d
      simp only at hp
      subst hp
      simp [attrsOf, rootsOf, lastOr]
    rw [this]; exact h
  | .makeFeature a :: cs, m, d, h, hg, hc, hp, hk => by
    have hka : a.kind ≠ .root := hk a (by simp [attrsOf])
    have hkr : ∀ b ∈ attrsOf cs, b.kind ≠ .root := fun b hb => hk b (by simp only [attrsOf] at *; simp at *; exact .inr hb)
    have e1 : attrsOf (.makeFeature a :: cs) = a :: attrsOf cs := by simp [attrsOf]
    have e2 : rootsOf (.makeFeature a :: cs) = rootsOf cs := by simp [rootsOf]
    by_cases hn : a.name ∈ m.features.map Prod.fst
    · refine .inl ⟨.alreadyPresent, m, ?_, ?_⟩
      · simp only [List.filterMap_cons, BCall.featOp, FModel.outFold, FModel.exec, execAddFeature_err hn]
      · rintro ⟨g1, g2⟩
        rw [e1, List.map_append, List.map_cons] at g1
        rw [mem_features_fst, h.names] at hn
        rcases hn with hn | hn
        · refine g2 d.root (.inl rfl) ?_
          rw [e1]; simp [← hn]
        · exact (List.nodup_append.1 g1).2.2 _ hn _ (List.mem_cons_self ..) rfl
    · rw [mem_features_fst, h.names, not_or] at hn
      obtain ⟨m1, h1, h2⟩ := describes_addFeature E h hg hc hp hka hn.1 hn.2
      have hh := phase1 E cs m1 _ h2 hg hc hp hkr
      have hf : FModel.outFold (FModel.exec E) m ((.makeFeature a :: cs).filterMap BCall.featOp) =
          FModel.outFold (FModel.exec E) m1 (cs.filterMap BCall.featOp) := by
        simp only [List.filterMap_cons, BCall.featOp]; exact outFold_cons h1
      rw [hf, e1, e2]
      simp only [List.append_assoc, List.singleton_append] at hh
      rcases hh with ⟨e, m', g1, g2⟩ | hh
      · refine .inl ⟨e, m', g1, fun g3 => g2 ?_⟩
        unfold NamesOk at *
        rw [e1, e2] at g3
        simpa [List.append_assoc] using g3
      · exact .inr hh
  | .makeRoot n :: cs, m, d, h, hg, hc, hp, hk => by
    have e1 : attrsOf (.makeRoot n :: cs) = attrsOf cs := by simp [attrsOf]
    have e2 : rootsOf (.makeRoot n :: cs) = n :: rootsOf cs := by simp [rootsOf]
    rw [e1] at hk
    by_cases hn : n ∈ d.attrs.map Attr.name
    · obtain ⟨r, rf, r1, r2, r3, r4⟩ := h.root
      have hne : rf.attr.name ≠ n := by rw [r4]; rintro rfl; exact h.root_new hn
      refine .inl ⟨.alreadyPresent, m, ?_, ?_⟩
      · have := execSetRoot_taken r1 r3 hne (mem_features_fst.2 ((h.names n).2 (.inr hn)))
        simp only [List.filterMap_cons, BCall.featOp, FModel.outFold, FModel.exec, this]
      · rintro ⟨_, g2⟩
        refine g2 n (.inr (by rw [e2]; exact List.mem_cons_self ..)) ?_
        rw [List.map_append]; exact List.mem_append_left _ hn
    · obtain ⟨m1, h1, h2⟩ := describes_setRoot E h hg hc hp hn
      have hh := phase1 E cs m1 _ h2 hg hc rfl hk
      have hf : FModel.outFold (FModel.exec E) m ((.makeRoot n :: cs).filterMap BCall.featOp) =
          FModel.outFold (FModel.exec E) m1 (cs.filterMap BCall.featOp) := by
        simp only [List.filterMap_cons, BCall.featOp]; exact outFold_cons h1
      rw [hf, e1, e2]
      rcases hh with ⟨e, m', g1, g2⟩ | hh
      · refine .inl ⟨e, m', g1, fun g3 => g2 ?_⟩
        unfold NamesOk at *
        rw [e1, e2] at g3
        refine ⟨g3.1, fun x hx => g3.2 x ?_⟩
        rcases hx with rfl | hx
        · exact .inr (List.mem_cons_self ..)
        · exact .inr (List.mem_cons_of_mem _ hx)
      · exact .inr hh
  | .addEdge p c :: cs, m, d, h, hg, hc, hp, hk => phase1 E cs m d h hg hc hp hk
  | .emplaceRelationship k p :: cs, m, d, h, hg, hc, hp, hk => phase1 E cs m d h hg hc hp hk
  | .addConstraint k c :: cs, m, d, h, hg, hc, hp, hk => phase1 E cs m d h hg hc hp hk
  | .setVmName n :: cs, m, d, h, hg, hc, hp, hk => phase1 E cs m d h hg hc hp hk
  | .setPath n :: cs, m, d, h, hg, hc, hp, hk => phase1 E cs m d h hg hc hp hk
  | .setCommit n :: cs, m, d, h, hg, hc, hp, hk => phase1 E cs m d h hg hc hp hk

/-! ### Second phase -/

/-- The parents after the edges of the calls. -/
def parentsAfter (f : Str → Str) : List BCall → Str → Str
  | [] => f
  | .addEdge p c :: cs => parentsAfter (setParentOf f c p) cs
  | _ :: cs => parentsAfter f cs

theorem parentsAfter_none : ∀ {calls : List BCall} {f : Str → Str} {c : Str}, (∀ p, .addEdge p c ∉ calls) →
    parentsAfter f calls c = f c
  | [], f, c, _ => rfl
  | .addEdge p c' :: cs, f, c, h => by
    unfold parentsAfter
    rw [parentsAfter_none (fun p' hp => h p' (List.mem_cons_of_mem _ hp))]
    have : c ≠ c' := by rintro rfl; exact h p (List.mem_cons_self ..)
    simp [setParentOf, this]
  | .makeFeature _ :: cs, f, c, h => parentsAfter_none (calls := cs) (fun p' hp => h p' (List.mem_cons_of_mem _ hp))
  | .makeRoot _ :: cs, f, c, h => parentsAfter_none (calls := cs) (fun p' hp => h p' (List.mem_cons_of_mem _ hp))
  | .emplaceRelationship _ _ :: cs, f, c, h => parentsAfter_none (calls := cs) (fun p' hp => h p' (List.mem_cons_of_mem _ hp))
  | .addConstraint _ _ :: cs, f, c, h => parentsAfter_none (calls := cs) (fun p' hp => h p' (List.mem_cons_of_mem _ hp))
  | .setVmName _ :: cs, f, c, h => parentsAfter_none (calls := cs) (fun p' hp => h p' (List.mem_cons_of_mem _ hp))
  | .setPath _ :: cs, f, c, h => parentsAfter_none (calls := cs) (fun p' hp => h p' (List.mem_cons_of_mem _ hp))
  | .setCommit _ :: cs, f, c, h => parentsAfter_none (calls := cs) (fun p' hp => h p' (List.mem_cons_of_mem _ hp))

/-- After the edges the parent is the old one or one that was asked for. -/
theorem parentsAfter_cases (calls : List BCall) : ∀ (f : Str → Str) (c : Str),
    (∃ p, BCall.addEdge p c ∈ calls ∧ parentsAfter f calls c = p) ∨
      ((∀ p, BCall.addEdge p c ∉ calls) ∧ parentsAfter f calls c = f c) := by
  induction calls with
  | nil => intro f c; exact .inr ⟨(by intro p h; cases h), rfl⟩
  | cons x cs ih =>
    intro f c
    have skip : (∀ p, BCall.addEdge p c ≠ x) → parentsAfter f (x :: cs) c = parentsAfter f cs c →
        (∃ p, BCall.addEdge p c ∈ x :: cs ∧ parentsAfter f (x :: cs) c = p) ∨
          ((∀ p, BCall.addEdge p c ∉ x :: cs) ∧ parentsAfter f (x :: cs) c = f c) := by
      intro h1 h2
      rcases ih f c with ⟨p, h3, h4⟩ | ⟨h3, h4⟩
      · exact Or.inl
          ⟨p, List.mem_cons_of_mem _ h3, by rw [h2]; exact h4⟩
      · refine Or.inr ⟨fun p hp => ?_, by rw [h2]; exact h4⟩
        rcases List.mem_cons.1 hp with h | h
        · exact h1 p h
        · exact h3 p h
    cases x with
    | addEdge p c' =>
      simp only [parentsAfter]
      rcases ih (setParentOf f c' p) c with ⟨q, h3, h4⟩ | ⟨h3, h4⟩
      · exact .inl ⟨q, List.mem_cons_of_mem _ h3, h4⟩
      · by_cases hcc : c = c'
        · subst hcc
          exact .inl ⟨p, List.mem_cons_self .., by rw [h4]; simp [setParentOf]⟩
        · refine .inr ⟨fun q hq => ?_, by rw [h4]; simp [setParentOf, hcc]⟩
          rcases List.mem_cons.1 hq with h | h
          · cases h; exact hcc rfl
          · exact h3 q h
    | _ => exact skip (by intro p h; cases h) rfl

theorem phase2 (E : Env) (rk : Str → Nat) : ∀ (calls : List BCall) (m : FModel) (d : Desc), Describes d m → d.groups = [] →
    d.constraints = [] → (∀ a ∈ d.attrs, rk (d.parent a.name) < rk a.name) →
    (∀ p c, .addEdge p c ∈ calls → rk p < rk c ∧ c ≠ d.root) →
    (∃ e m', FModel.outFold (FModel.exec E) m (calls.filterMap BCall.modelOp) = .err e m' ∧
      ¬ ∀ p c, .addEdge p c ∈ calls → c ∈ d.attrs.map Attr.name ∧ (p = d.root ∨ p ∈ d.attrs.map Attr.name)) ∨
    (∃ m', FModel.outFold (FModel.exec E) m (calls.filterMap BCall.modelOp) = .ok m' ∧
      Describes { d with parent := parentsAfter d.parent calls, name := lastOr d.name (namesOf calls),
                         path := lastOr d.path (pathsOf calls), commit := lastOr d.commit (commitsOf calls) } m' ∧
      ∀ p c, .addEdge p c ∈ calls → c ∈ d.attrs.map Attr.name ∧ (p = d.root ∨ p ∈ d.attrs.map Attr.name))
  | [], m, d, h, _, _, _, _ => .inr ⟨m, rfl, h, by intro p c hx; cases hx⟩
  | .addEdge p c :: cs, m, d, h, hg, hc, hr, he => by
    obtain ⟨hpc, hcr⟩ := he p c (List.mem_cons_self ..)
    have hhead : ∀ (o : Out), m.exec E (.addChild (.name p) (.name c)) = o →
        (∀ m1, o ≠ .ok m1) → FModel.outFold (FModel.exec E) m ((.addEdge p c :: cs).filterMap BCall.modelOp) = o := by
      intro o ho hno
      simp only [List.filterMap_cons, BCall.modelOp, FModel.outFold, ho]
    by_cases hcn : c ∈ d.attrs.map Attr.name
    · by_cases hpn : p = d.root ∨ p ∈ d.attrs.map Attr.name
      · obtain ⟨m1, h1, h2⟩ := describes_addChild E h hg hc hcn hpn rk hr hpc
        have hh := phase2 E rk cs m1 _ h2 hg hc (by
            intro a ha
            simp only [setParentOf]
            split
            · next hac => rw [hac]; exact hpc
            · exact hr a ha) (fun p' c' hx => he p' c' (List.mem_cons_of_mem _ hx))
        have hf : FModel.outFold (FModel.exec E) m ((.addEdge p c :: cs).filterMap BCall.modelOp) =
            FModel.outFold (FModel.exec E) m1 (cs.filterMap BCall.modelOp) := by
          simp only [List.filterMap_cons, BCall.modelOp]; exact outFold_cons h1
        rw [hf]
        rcases hh with ⟨e, m', g1, g2⟩ | ⟨m', g1, g2, g3⟩
        · exact .inl ⟨e, m', g1, fun g3 => g2 fun p' c' hx => g3 p' c' (List.mem_cons_of_mem _ hx)⟩
        · refine .inr ⟨m', g1, g2, fun p' c' hx => ?_⟩
          rcases List.mem_cons.1 hx with hx | hx
          · cases hx; exact ⟨hcn, hpn⟩
          · exact g3 p' c' hx
      · refine .inl ⟨.missingParent, m, hhead _ ?_ (by intro m1 hx; cases hx), fun g => hpn (g p c (List.mem_cons_self ..)).2⟩
        have hp0 : m.getFeature p = none := by
          rw [getFeature_none, mem_features_fst, h.names]; exact hpn
        obtain ⟨ci, hci⟩ := (h.names c).2 (.inr hcn)
        have hc0 := getFeature_mem h.wf.names hci
        simp only [FModel.exec, FModel.execAddChild, FModel.resolve, hp0, hc0]
    · refine .inl ⟨.missingChild, m, hhead _ ?_ (by intro m1 hx; cases hx), fun g => hcn (g p c (List.mem_cons_self ..)).1⟩
      have hc0 : m.getFeature c = none := by
        rw [getFeature_none, mem_features_fst, h.names]
        rintro (h | h)
        · exact hcr h
        · exact hcn h
      simp only [FModel.exec, FModel.execAddChild, FModel.resolve, hc0]
  | .setVmName n :: cs, m, d, h, hg, hc, hr, he => by
    have h1 := describes_meta h (n := n) (p := d.path) (c := d.commit) (m' := { m with name := n })
      (by rw [← h.path, ← h.commit])
    rcases phase2 E rk cs _ _ h1 hg hc hr (fun p' c' hx => he p' c' (List.mem_cons_of_mem _ hx)) with ⟨e, m', g1, g2⟩ | ⟨m', g1, g2, g3⟩
    · exact .inl ⟨e, m', g1, fun g3 => g2 fun p' c' hx => g3 p' c' (List.mem_cons_of_mem _ hx)⟩
    · exact .inr ⟨m', g1, g2, fun p' c' hx => g3 p' c' (by rcases List.mem_cons.1 hx with hx | hx; cases hx; exact hx)⟩
  | .setPath n :: cs, m, d, h, hg, hc, hr, he => by
    have h1 := describes_meta h (n := d.name) (p := n) (c := d.commit) (m' := { m with path := n })
      (by rw [← h.name, ← h.commit])
    rcases phase2 E rk cs _ _ h1 hg hc hr (fun p' c' hx => he p' c' (List.mem_cons_of_mem _ hx)) with ⟨e, m', g1, g2⟩ | ⟨m', g1, g2, g3⟩
    · exact .inl ⟨e, m', g1, fun g3 => g2 fun p' c' hx => g3 p' c' (List.mem_cons_of_mem _ hx)⟩
    · exact .inr ⟨m', g1, g2, fun p' c' hx => g3 p' c' (by rcases List.mem_cons.1 hx with hx | hx; cases hx; exact hx)⟩
  | .setCommit n :: cs, m, d, h, hg, hc, hr, he => by
    have h1 := describes_meta h (n := d.name) (p := d.path) (c := n) (m' := { m with commit := n })
      (by rw [← h.name, ← h.path])
    rcases phase2 E rk cs _ _ h1 hg hc hr (fun p' c' hx => he p' c' (List.mem_cons_of_mem _ hx)) with ⟨e, m', g1, g2⟩ | ⟨m', g1, g2, g3⟩
    · exact .inl ⟨e, m', g1, fun g3 => g2 fun p' c' hx => g3 p' c' (List.mem_cons_of_mem _ hx)⟩
    · exact .inr ⟨m', g1, g2, fun p' c' hx => g3 p' c' (by rcases List.mem_cons.1 hx with hx | hx; cases hx; exact hx)⟩
  | .makeFeature a :: cs, m, d, h, hg, hc, hr, he => by
    rcases phase2 E rk cs _ _ h hg hc hr (fun p' c' hx => he p' c' (List.mem_cons_of_mem _ hx)) with ⟨e, m', g1, g2⟩ | ⟨m', g1, g2, g3⟩
    · exact .inl ⟨e, m', g1, fun g3 => g2 fun p' c' hx => g3 p' c' (List.mem_cons_of_mem _ hx)⟩
    · exact .inr ⟨m', g1, g2, fun p' c' hx => g3 p' c' (by rcases List.mem_cons.1 hx with hx | hx; cases hx; exact hx)⟩
  | .makeRoot a :: cs, m, d, h, hg, hc, hr, he => by
    rcases phase2 E rk cs _ _ h hg hc hr (fun p' c' hx => he p' c' (List.mem_cons_of_mem _ hx)) with ⟨e, m', g1, g2⟩ | ⟨m', g1, g2, g3⟩
    · exact .inl ⟨e, m', g1, fun g3 => g2 fun p' c' hx => g3 p' c' (List.mem_cons_of_mem _ hx)⟩
    · exact .inr ⟨m', g1, g2, fun p' c' hx => g3 p' c' (by rcases List.mem_cons.1 hx with hx | hx; cases hx; exact hx)⟩
  | .emplaceRelationship a _ :: cs, m, d, h, hg, hc, hr, he => by
    rcases phase2 E rk cs _ _ h hg hc hr (fun p' c' hx => he p' c' (List.mem_cons_of_mem _ hx)) with ⟨e, m', g1, g2⟩ | ⟨m', g1, g2, g3⟩
    · exact .inl ⟨e, m', g1, fun g3 => g2 fun p' c' hx => g3 p' c' (List.mem_cons_of_mem _ hx)⟩
    · exact .inr ⟨m', g1, g2, fun p' c' hx => g3 p' c' (by rcases List.mem_cons.1 hx with hx | hx; cases hx; exact hx)⟩
  | .addConstraint a _ :: cs, m, d, h, hg, hc, hr, he => by
    rcases phase2 E rk cs _ _ h hg hc hr (fun p' c' hx => he p' c' (List.mem_cons_of_mem _ hx)) with ⟨e, m', g1, g2⟩ | ⟨m', g1, g2, g3⟩
    · exact .inl ⟨e, m', g1, fun g3 => g2 fun p' c' hx => g3 p' c' (List.mem_cons_of_mem _ hx)⟩
    · exact .inr ⟨m', g1, g2, fun p' c' hx => g3 p' c' (by rcases List.mem_cons.1 hx with hx | hx; cases hx; exact hx)⟩

/-! ### Third phase -/

theorem phase3 (E : Env) : ∀ (calls : List BCall) (m : FModel) (d : Desc), Describes d m →
    ((d.groups ++ groupsOf calls).map Prod.fst).Nodup →
    (∀ g ∈ groupsOf calls, g.1 = d.root ∨ g.1 ∈ d.attrs.map Attr.name) →
    (∀ x ∈ constraintsOf calls, ∀ n ∈ x.2.features, n = d.root ∨ n ∈ d.attrs.map Attr.name) →
    ∃ m', FModel.outFold (FModel.exec E) m (calls.filterMap BCall.relOp) = .ok m' ∧
      Describes { d with groups := d.groups ++ groupsOf calls, constraints := d.constraints ++ constraintsOf calls } m'
  | [], m, d, h, _, _, _ => ⟨m, rfl, by simpa [groupsOf, constraintsOf] using h⟩
  | .emplaceRelationship k n :: cs, m, d, h, h1, h2, h3 => by
    have e1 : groupsOf (.emplaceRelationship k n :: cs) = (n, k) :: groupsOf cs := by simp [groupsOf]
    have e2 : constraintsOf (.emplaceRelationship k n :: cs) = constraintsOf cs := by simp [constraintsOf]
    rw [e1] at h1 h2
    rw [e2] at h3
    obtain ⟨m1, g1, g2⟩ := describes_addRelationship E h (k := k) (h2 (n, k) (List.mem_cons_self ..)) (by
      intro k' hk'
      rw [List.map_append] at h1
      exact (List.nodup_append.1 h1).2.2 n (List.mem_map_of_mem (f := Prod.fst) hk') n (by simp) rfl)
    obtain ⟨m', g3, g4⟩ := phase3 E cs m1 _ g2 (by simpa [List.append_assoc] using h1)
      (fun g hg => h2 g (List.mem_cons_of_mem _ hg)) h3
    refine ⟨m', ?_, ?_⟩
    · simp only [List.filterMap_cons, BCall.relOp]; rw [outFold_cons g1]; exact g3
    · rw [e1, e2]; simpa [List.append_assoc] using g4
  | .addConstraint k c :: cs, m, d, h, h1, h2, h3 => by
    have e1 : groupsOf (.addConstraint k c :: cs) = groupsOf cs := by simp [groupsOf]
    have e2 : constraintsOf (.addConstraint k c :: cs) = (k, c) :: constraintsOf cs := by simp [constraintsOf]
    rw [e1] at h1 h2
    rw [e2] at h3
    obtain ⟨m1, g1, g2⟩ := describes_addConstraint E h (k := k) (c := c) (h3 (k, c) (List.mem_cons_self ..))
    obtain ⟨m', g3, g4⟩ := phase3 E cs m1 _ g2 h1 h2 (fun x hx => h3 x (List.mem_cons_of_mem _ hx))
    refine ⟨m', ?_, ?_⟩
    · simp only [List.filterMap_cons, BCall.relOp]; rw [outFold_cons g1]; exact g3
    · rw [e1, e2]; simpa [List.append_assoc] using g4
  | .makeFeature _ :: cs, m, d, h, h1, h2, h3 => phase3 E cs m d h h1 h2 h3
  | .makeRoot _ :: cs, m, d, h, h1, h2, h3 => phase3 E cs m d h h1 h2 h3
  | .addEdge _ _ :: cs, m, d, h, h1, h2, h3 => phase3 E cs m d h h1 h2 h3
  | .setVmName _ :: cs, m, d, h, h1, h2, h3 => phase3 E cs m d h h1 h2 h3
  | .setPath _ :: cs, m, d, h, h1, h2, h3 => phase3 E cs m d h h1 h2 h3
  | .setCommit _ :: cs, m, d, h, h1, h2, h3 => phase3 E cs m d h h1 h2 h3

/-- The description of a new model. -/
def freshDesc : Desc :=
  { name := c!"FeatureModel", path := [], commit := [], root := c!"root", attrs := [], parent := fun _ => c!"root",
    groups := [], constraints := [] }

theorem describes_fresh {m : FModel} (hf : ∀ i, m.heap i ≠ none → i < m.next) : Describes freshDesc m.fresh := by
  have w := wf_fresh m hf
  have hd : data m.fresh m.next = some (.feat { attr := { name := c!"root", kind := .root } }) := by
    simp [data, FModel.fresh]
  have he : edg m.fresh m.next = [] := by simp [edg, FModel.fresh]
  refine
    { wf := w
      bound := bound_fresh m
      name := rfl
      path := rfl
      commit := rfl
      distinct := by simp [freshDesc]
      root_new := by simp [freshDesc]
      names := by intro n; simp [FModel.fresh, freshDesc]
      root := ⟨m.next, _, rfl, by simp [FModel.fresh, freshDesc], hd, rfl⟩
      feat := by intro a ha; cases ha
      groups_known := by intro g hg; cases hg
      grouped := by intro n k i hg; cases hg
      ungrouped := by
        intro n i hi _ c hc
        simp [FModel.fresh] at hi
        rw [hi.2, he] at hc; cases hc
      rels := by intro r hr; cases hr
      store := by intro cl; cases cl <;> rfl
      registered := ?_ }
  refine (registered_nil (by intro cl; cases cl <;> rfl)).2 ?_
  intro i f hk hdf
  have : i = m.next := by simpa [Known, FModel.fresh] using hk
  subst this
  rw [hd] at hdf; cases hdf
  exact ⟨rfl, rfl, rfl⟩

end Verif

import Verif.FM.Frame
/-! Lemmas: a call on a copy transaction is the same modification as in a modify transaction. -/

namespace Verif
namespace Spec
open Verif

/-- The reference `r` handed to a copy transaction on `m` and the reference `r'` handed to a modify
    transaction on the copy `c` denote the feature of one name. -/
def SameRef (m c : FModel) (r r' : Ref) : Prop :=
  ∃ n i, (n, i) ∈ c.features ∧ (r' = .name n ∨ r' = .ptr (some i)) ∧
    (r = .name n ∨ ∃ j, r = .ptr (some j) ∧ (n, j) ∈ m.features)

/-- The same modification, except for how features are referred to; `addChild` is left out. -/
def SameOp (m c : FModel) : Op → Op → Prop
  | .addFeature a none, .addFeature a' none => a = a'
  | .addFeature a (some j), .addFeature a' (some i) => a = a' ∧ SameRef m c (.ptr (some j)) (.ptr (some i))
  | .removeFeature f r, .removeFeature f' r' => r = r' ∧ SameRef m c f f'
  | .addRelationship k f, .addRelationship k' f' => k = k' ∧ SameRef m c f f'
  | .removeRelationship f, .removeRelationship f' => SameRef m c f f'
  | .addLocation f l, .addLocation f' l' => l = l' ∧ SameRef m c f f'
  | .removeLocation f l, .removeLocation f' l' => l = l' ∧ SameRef m c f f'
  | .addConstraint k t, .addConstraint k' t' => k = k' ∧ t = t'
  | .setName n, .setName n' => n = n'
  | .setCommit n, .setCommit n' => n = n'
  | .setPath n, .setPath n' => n = n'
  | .setRoot n, .setRoot n' => n = n'
  | _, _ => False

/-- Pairs of the same modification, each meaningful and successful where it is applied. -/
def SameRun (E : Env) (m : FModel) : FModel → List (Op × Op) → Prop
  | _, [] => True
  | c, o :: os => SameOp m c o.1 o.2 ∧ Legal c o.2 ∧ ∃ c', c.exec E o.2 = .ok c' ∧ SameRun E m c' os

end Spec
open Verif.Spec

theorem nameOf_mem {m : FModel} (w : WF m) {n : Str} {i : Id} (h : (n, i) ∈ m.features) : m.nameOf i = some n := by
  obtain ⟨f, hf, hn⟩ := w.feat_ok _ h
  simp only at hf hn
  simp [FModel.nameOf, FModel.feat?, heap_of_data hf, hn]

theorem nameOf_heap {m c : FModel} {i : Id} (h : c.heap i = m.heap i) : c.nameOf i = m.nameOf i := by
  simp only [FModel.nameOf, FModel.feat?, h]

theorem sameRef_translate {m c : FModel} (wm : WF m) (wc : WF c) (hf : Frame m.next m.heap c) {r r' : Ref}
    (h : SameRef m c r r') : ∃ i, c.translate (c.resolve r) = some (some i) ∧ c.resolve r' = some i := by
  obtain ⟨n, i, hi, h1, h2⟩ := h
  have hg := getFeature_mem wc.names hi
  refine ⟨i, ?_, ?_⟩
  · rcases h2 with rfl | ⟨j, rfl, hj⟩
    · simp [FModel.resolve, FModel.translate, hg, nameOf_mem wc hi]
    · have hlt : j < m.next := wm.owned_lt (.inl (List.mem_map_of_mem (f := Prod.snd) hj))
      simp [FModel.resolve, FModel.translate, nameOf_heap (hf.low j hlt), nameOf_mem wm hj, hg]
  · rcases h1 with rfl | rfl
    · exact hg
    · rfl

theorem sameOp_copyExec {m c : FModel} (wm : WF m) (wc : WF c) (hf : Frame m.next m.heap c) (E : Env) {o o' : Op}
    (h : SameOp m c o o') : c.copyExec E o = c.exec E o' := by
  cases o <;> cases o' <;> first | (cases h; done) | (rename_i p _; cases p <;> cases h; done) | (rename_i p _ _; cases p <;> cases h; done) | skip
  case addFeature.addFeature a p a' p' =>
    cases p <;> cases p' <;> first | (cases h; done) | skip
    · cases h; rfl
    · obtain ⟨rfl, h⟩ := h
      obtain ⟨i, h1, h2⟩ := sameRef_translate wm wc hf h
      simp only [FModel.resolve] at h1 h2
      cases h2
      simp only [FModel.copyExec, h1, FModel.exec]
  case removeFeature.removeFeature =>
    obtain ⟨rfl, h⟩ := h
    obtain ⟨i, h1, h2⟩ := sameRef_translate wm wc hf h
    simp only [FModel.copyExec, h1, FModel.exec, FModel.execRemoveFeature, h2, show c.resolve (.ptr (some i)) = some i from rfl]
  case addRelationship.addRelationship k f k' f' =>
    obtain ⟨rfl, h⟩ := h
    obtain ⟨i, h1, h2⟩ := sameRef_translate wm wc hf h
    simp only [FModel.copyExec, h1, FModel.exec, FModel.execAddRelationship]
    cases f' with
    | ptr x => simp only [FModel.resolve] at h2 ⊢; rw [h2]
    | name x =>
      simp only [FModel.resolve] at h2 ⊢
      have : ∀ m' : FModel, m'.features = c.features → m'.getFeature x = some i := by
        intro m' e
        rw [← h2]; simp only [FModel.getFeature, e]
      rw [this]
      rfl
  case removeRelationship.removeRelationship =>
    obtain ⟨i, h1, h2⟩ := sameRef_translate wm wc hf h
    simp only [FModel.copyExec, h1, FModel.exec, FModel.execRemoveRelationship, h2, show c.resolve (.ptr (some i)) = some i from rfl]
  case addLocation.addLocation =>
    obtain ⟨rfl, h⟩ := h
    obtain ⟨i, h1, h2⟩ := sameRef_translate wm wc hf h
    simp only [FModel.copyExec, h1, FModel.exec, FModel.execAddLocation, h2, show c.resolve (.ptr (some i)) = some i from rfl]
  case removeLocation.removeLocation =>
    obtain ⟨rfl, h⟩ := h
    obtain ⟨i, h1, h2⟩ := sameRef_translate wm wc hf h
    simp only [FModel.copyExec, h1, FModel.exec, FModel.execRemoveLocation, h2, show c.resolve (.ptr (some i)) = some i from rfl]
  case addConstraint.addConstraint => obtain ⟨rfl, rfl⟩ := h; rfl
  all_goals · cases h; rfl

theorem sameRun_copy {m : FModel} (wm : WF m) (E : Env) : ∀ (ops : List (Op × Op)) (c : FModel), WF c → Bound c →
    Frame m.next m.heap c → SameRun E m c ops →
    ∃ c', FModel.copyRun E c (ops.map Prod.fst) = some c' ∧ FModel.outFold (FModel.exec E) c (ops.map Prod.snd) = .ok c' ∧
      WF c' ∧ Bound c'
  | [], c, wc, bc, _, _ => ⟨c, rfl, rfl, wc, bc⟩
  | o :: os, c, wc, bc, hf, h => by
    obtain ⟨h1, h2, c1, h3, h4⟩ := h
    have he := sameOp_copyExec wm wc hf E h1
    have hf1 := hf.copyExec (E := E) o.1
    rw [he, h3] at hf1
    obtain ⟨w1, b1⟩ : WF c1 ∧ Bound c1 := by
      rcases exec_sound wc bc E h2 with ⟨x, hx, a, b⟩ | ⟨e, x, hx, _⟩
      · rw [h3] at hx; cases hx; exact ⟨a, b⟩
      · rw [h3] at hx; cases hx
    obtain ⟨c', g1, g2, g3, g4⟩ := sameRun_copy wm E os c1 w1 b1 hf1 h4
    refine ⟨c', ?_, ?_, g3, g4⟩
    · simp only [List.map_cons, FModel.copyRun, he, h3]; exact g1
    · simp only [List.map_cons, FModel.outFold, h3]; exact g2

end Verif

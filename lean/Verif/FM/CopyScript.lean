import Verif.FM.Copy
import Verif.FM.Clone
import Verif.FM.ScriptLemmas
/-!
# Edits in a copy transaction

A copy transaction runs every call at once on its copy (FeatureModelTransaction.h:831-963), so a program can go on with what
the calls return.
-/

namespace Verif
open Verif.Spec

/-- The call for an edit in a copy transaction on `m` with the copy `c`: the parent of a new feature is given as a pointer into
    the model if it has a feature of that name, otherwise as a pointer into the copy, as returned by an earlier `addFeature`
    (FeatureModelTransaction.h:831-843). -/
def Edit.copyOp (m c : FModel) : Edit → Op
  | .add a p => .addFeature a (if (m.getFeature p).isSome then m.getFeature p else c.getFeature p)
  | e => e.op m

/-- The calls for a list of edits, on the copy as the calls before left it. -/
def copyOps (E : Env) (m : FModel) : FModel → List Edit → List Op
  | _, [] => []
  | c, e :: es =>
    e.copyOp m c :: match c.copyExec E (e.copyOp m c) with
      | .ok c => copyOps E m c es
      | .err _ c => copyOps E m c es
      | .ub => []

/-- `openTransaction`, the edits, `commit` (FeatureModelTransaction.h:808-817). -/
def runCopy (E : Env) (m : FModel) (es : List Edit) : Option (Option FModel) :=
  match m.clone E with
  | .built c => m.copyTransaction E (copyOps E m c es)
  | _ => none

namespace Spec

/-- What an edit in a copy transaction makes of the description: moving a feature has no effect. -/
noncomputable def Desc.inCopy (d : Desc) : Edit → Desc
  | .move _ _ => d
  | e => d.edit e

/-- The edits make sense one after the other; moving makes sense always. -/
def Desc.CanCopy : Desc → List Edit → Prop
  | _, [] => True
  | d, e :: es => ((∃ p c, e = .move p c) ∨ d.Can e) ∧ Desc.CanCopy (d.inCopy e) es

end Spec

variable {d : Desc} {m c : FModel}

theorem sameRef_name (h : Describes d c) {n : Str} (hn : d.Has n) : SameRef m c (.name n) (.name n) := by
  obtain ⟨i, hi⟩ := (h.names n).2 hn
  exact ⟨n, i, hi, .inl rfl, .inl rfl⟩

theorem copyExec_edit (wm : WF m) (hf : Frame m.next m.heap c) (E : Env) (h : Describes d c) {e : Edit} (he : d.Can e)
    (hn : ∀ p x, e ≠ .move p x) : c.copyExec E (e.copyOp m c) = c.exec E (e.op c) := by
  have wc := h.wf
  cases e with
  | add a p =>
    obtain ⟨j, hj⟩ := (h.names p).2 he.2.1
    have hg := getFeature_mem wc.names hj
    simp only [Edit.copyOp, Edit.op]
    cases hp : m.getFeature p with
    | some i =>
      rw [if_pos (by rfl), hg]
      exact sameOp_copyExec wm wc hf E (o := .addFeature a (some i)) (o' := .addFeature a (some j))
        ⟨rfl, p, j, hj, .inr rfl, .inr ⟨i, rfl, getFeature_some hp⟩⟩
    | none =>
      rw [if_neg (by simp), hg]
      simp only [FModel.copyExec, FModel.translate, nameOf_mem wc hj, Option.map_some, hg, FModel.exec]
  | remove n b => exact sameOp_copyExec wm wc hf E (o' := .removeFeature (.name n) b) ⟨rfl, sameRef_name h (.inr he.1)⟩
  | group k n => exact sameOp_copyExec wm wc hf E (o' := .addRelationship k (.name n)) ⟨rfl, sameRef_name h he.1⟩
  | ungroup n =>
    obtain ⟨k, hk⟩ := he
    exact sameOp_copyExec wm wc hf E (o' := .removeRelationship (.name n)) (sameRef_name h (h.groups_known _ hk))
  | locate n r => exact sameOp_copyExec wm wc hf E (o' := .addLocation (.name n) r) ⟨rfl, sameRef_name h (.inr he)⟩
  | unlocate n r =>
    obtain ⟨a, ha, rfl, _⟩ := he
    exact sameOp_copyExec wm wc hf E (o' := .removeLocation (.name a.name) r) ⟨rfl, sameRef_name h (.inr (List.mem_map.2 ⟨a, ha, rfl⟩))⟩
  | constrain k t => exact sameOp_copyExec wm wc hf E (o' := .addConstraint k t) ⟨rfl, rfl⟩
  | name s => rfl
  | commit s => rfl
  | path s => rfl
  | root n => rfl
  | move p x => exact absurd rfl (hn p x)

theorem describes_copyRun (wm : WF m) (E : Env) : ∀ (es : List Edit) (d : Desc) (c : FModel), Describes d c → ConstraintsKnown d →
    Frame m.next m.heap c → d.CanCopy es →
    ∃ c', FModel.copyRun E c (copyOps E m c es) = some c' ∧ Describes (es.foldl Desc.inCopy d) c' ∧
      ConstraintsKnown (es.foldl Desc.inCopy d)
  | [], _, c, h, hk, _, _ => ⟨c, rfl, h, hk⟩
  | e :: es, d, c, h, hk, hf, hc => by
    obtain ⟨c1, c2⟩ := hc
    have key : ∃ c1, c.copyExec E (e.copyOp m c) = .ok c1 ∧ Describes (d.inCopy e) c1 ∧ ConstraintsKnown (d.inCopy e) := by
      by_cases hm : ∃ p x, e = .move p x
      · obtain ⟨p, x, rfl⟩ := hm
        exact ⟨c, rfl, h, hk⟩
      · have hn : ∀ p x, e ≠ .move p x := fun p x he => hm ⟨p, x, he⟩
        have he : d.Can e := c1.resolve_left hm
        obtain ⟨c1, h1, h2, h3, _⟩ := describes_edit E h hk he (m0 := c) (by
          rintro a p rfl
          obtain ⟨j, hj⟩ := (h.names p).2 he.2.1
          exact ⟨j, getFeature_mem h.wf.names hj, hj⟩)
        have hd : d.inCopy e = d.edit e := by
          cases e <;> first | rfl | exact absurd rfl (hn _ _)
        rw [hd]
        exact ⟨c1, by rw [copyExec_edit wm hf E h he hn]; exact h1, h2, h3⟩
    obtain ⟨c1, h1, h2, h3⟩ := key
    have hf1 := hf.copyExec (E := E) (e.copyOp m c)
    rw [h1] at hf1
    obtain ⟨c', k1, k2⟩ := describes_copyRun wm E es _ c1 h2 h3 hf1 c2
    refine ⟨c', ?_, k2⟩
    simp only [copyOps, FModel.copyRun, h1]
    exact k1

theorem describes_copy (E : Env) (h : Describes d m) (hk : ConstraintsKnown d) (hroot : c!"root" ∉ d.attrs.map Attr.name) {es : List Edit}
    (hc : d.cloned.CanCopy es) :
    ∃ c, runCopy E m es = some (some c) ∧ Describes (es.foldl Desc.inCopy d.cloned) c ∧ ConstraintsKnown (es.foldl Desc.inCopy d.cloned) := by
  obtain ⟨c, h1, h2⟩ := clone_describes h E hroot hk
  have hk' : ConstraintsKnown d.cloned := by
    intro x hx n hn
    rw [cloned_names]
    exact hk x hx n hn
  obtain ⟨c', h3, h4, h5⟩ := describes_copyRun h.wf E es _ c h2 hk' (frame_clone h.wf.fresh h1) hc
  refine ⟨c', ?_, h4, h5⟩
  unfold runCopy FModel.copyTransaction
  simp only [h1, h3, consistent_of_WF h4.wf]

theorem inCopy_edit {e : Edit} (hn : ∀ p x, e ≠ .move p x) (d : Desc) : d.inCopy e = d.edit e := by
  cases e <;> first | rfl | exact absurd rfl (hn _ _)

theorem foldl_inCopy {es : List Edit} (hn : ∀ e ∈ es, ∀ p x, e ≠ .move p x) : ∀ d : Desc, es.foldl Desc.inCopy d = es.foldl Desc.edit d := by
  induction es with
  | nil => exact fun _ => rfl
  | cons e es ih =>
    intro d
    rw [List.foldl_cons, List.foldl_cons, inCopy_edit (hn e (List.mem_cons_self ..)), ih (fun e he => hn e (List.mem_cons_of_mem _ he))]

/-- Without moves, the copy and a modify transaction on a clone `c0` go through the same states. -/
theorem copyRun_same (wm : WF m) (E : Env) {c0 : FModel} (w0 : WF c0) : ∀ (es : List Edit) (d : Desc) (c : FModel) (K : Str → Prop),
    Describes d c → ConstraintsKnown d → Frame m.next m.heap c → (∀ x, K x → ∃ i, (x, i) ∈ c0.features ∧ (x, i) ∈ c.features) →
    Desc.CanAll K d es → (∀ e ∈ es, ∀ p x, e ≠ .move p x) →
    ∃ c', FModel.copyRun E c (copyOps E m c es) = some c' ∧ FModel.outFold (FModel.exec E) c (es.map (·.op c0)) = .ok c' ∧
      Describes (es.foldl Desc.edit d) c'
  | [], _, c, _, h, _, _, _, _, _ => ⟨c, rfl, rfl, h⟩
  | e :: es, d, c, K, h, hk, hf, hK, hc, hn => by
    obtain ⟨c1, c2, c3⟩ := hc
    have hne := hn e (List.mem_cons_self ..)
    have h0 : ∀ a p, e = .add a p → ∃ i, c0.getFeature p = some i ∧ (p, i) ∈ c.features := by
      rintro a p rfl
      obtain ⟨i, i1, i2⟩ := hK p (c2 a p rfl)
      exact ⟨i, getFeature_mem w0.names i1, i2⟩
    obtain ⟨m1, h1, h2, h3, h4⟩ := describes_edit E h hk c1 h0
    have hop : e.op c = e.op c0 := by
      cases e <;> first | rfl | skip
      rename_i a p
      obtain ⟨i, i1, i2⟩ := h0 a p rfl
      simp only [Edit.op, i1, getFeature_mem h.wf.names i2]
    have hx : c.copyExec E (e.copyOp m c) = .ok m1 := by rw [copyExec_edit wm hf E h c1 hne, hop]; exact h1
    have hf1 := hf.copyExec (E := E) (e.copyOp m c)
    rw [hx] at hf1
    obtain ⟨m', k1, k2, k3⟩ := copyRun_same wm E w0 es (d.edit e) m1 _ h2 h3 hf1 (by
      rintro x ⟨x1, x2⟩
      obtain ⟨i, i1, i2⟩ := hK x x1
      exact ⟨i, i1, h4 x i i2 x2⟩) c3 (fun e he => hn e (List.mem_cons_of_mem _ he))
    refine ⟨m', ?_, by rw [List.map_cons, outFold_cons h1]; exact k2, k3⟩
    simp only [copyOps, FModel.copyRun, hx]
    exact k1

end Verif

import Verif.Xml.LabLemmas
import Verif.Props.SideBySide
/-!
# C98: the life of copy transactions

Model: Verif/Xml/Lab.lean.
-/

namespace Verif.Props
open Verif Verif.Spec Verif.Xml Verif.Desk Verif.Lab

variable {L L' : Lab}

/-- A call on a copy transaction, whatever pointers it is given and whether or not it fails, leaves every model but the
    transaction's own copy as it was, node for node: the original, other models, and the copies of other open transactions. -/
theorem C98_untouched (t : Tidy L.desk) {sci : Str → Option Str} {E : Env} {o : LabOp} (ho : OwnLab L o) {r : LRes}
    (hs : Lab.step sci E L o = some (L', r)) {j : Nat} (hj : ¬ Lab.Target L o j) : Desk.Same L.desk L'.desk j := Lab.untouched t ho hs hj

/-- A program that opens copy transactions, edits in them in any interleaving with each other and with edits, clones and
    destruction of the models, moves, aborts and commits them, runs through; the answers are as told, and each copy is what the
    edits on it alone make of the model at the time of opening. -/
theorem C98_histories (sci : Str → Option Str) (E : Env) {os : List LabOp} {T : Told} {rs : List LRes}
    (h : AllDoes sci ⟨[], []⟩ os T rs) : ∃ L, Lab.run sci E Lab.empty os = some (L, rs) ∧ Lab.Fits L T ∧ Tidy L.desk := by
  obtain ⟨L, h1, g⟩ := labOk_run (E := E) h labOk_empty
  exact ⟨L, h1, ⟨g.desk.is, g.txs⟩, g.desk.tidy⟩

/-- In no program whatsoever does a copy come out of two commits. -/
theorem C98_once (sci : Str → Option Str) (E : Env) {os : List LabOp} {rs : List LRes} (h : Lab.run sci E Lab.empty os = some (L, rs))
    {i j k : Nat} (hi : rs[i]? = some (.model k)) (hj : rs[j]? = some (.model k)) : i = j :=
  run_once sole_empty h i j k hi hj

/-- Committing an open transaction: the copy is given out as it is if it is consistent; otherwise it is destroyed and the answer
    is ABORTED. -/
theorem C98_commit {sci : Str → Option Str} {E : Env} {t k : Nat} (hx : L.txs[t]? = some (some ⟨true, some k⟩)) {c : FModel}
    (hc : get L.desk k = some c) :
    (c.consistent E = some true → ∃ L', Lab.step sci E L (.commit t) = some (L', .model k) ∧ get L'.desk k = some c) ∧
    (c.consistent E = some false → ∃ L', Lab.step sci E L (.commit t) = some (L', .err .aborted) ∧ get L'.desk k = none) ∧
    (c.consistent E = none → Lab.step sci E L (.commit t) = none) := by
  refine ⟨fun h => ⟨{ L with txs := L.txs.set t (some ⟨true, none⟩) }, ?_, hc⟩,
    fun h => ⟨⟨freeAll L.desk k c, L.txs.set t (some ⟨false, none⟩)⟩, ?_, get_freed hc⟩, fun h => ?_⟩ <;>
    simp only [Lab.step, hx, hc, Option.bind_some, h, abortTx, reset, Option.map_some]

/-- A transaction assigned to itself goes on as before. -/
theorem C98_assign_self {sci : Str → Option Str} {E : Env} {t : Nat} {x : CTx} (hx : L.txs[t]? = some (some x)) :
    Lab.step sci E L (.assign t t) = some (L, .none) := by
  simp only [Lab.step, hx, if_true]

/-! ### After the end -/

/-- The operation takes the copy out of the transaction, or destroys it. -/
def Ends (t : Nat) (o : LabOp) : Prop := o = .commit t ∨ o = .abort t ∨ o = .move t ∨ ∃ s, s ≠ t ∧ o = .assign s t

/-- After it, commits answer ABORTED and change no model, and so do additions and `setRoot`, with ERROR; all other calls are
    undefined but for `addChild`. -/
theorem C98_after_end {sci : Str → Option Str} {E : Env} {t : Nat} {o : LabOp} (ho : Ends t o) {r : LRes}
    (hs : Lab.step sci E L o = some (L', r)) :
    (∃ L'', Lab.step sci E L' (.commit t) = some (L'', .err .aborted) ∧ L''.desk = L'.desk) ∧
    (∀ a p, Lab.step sci E L' (.call t (.addFeature a p)) = some (L', .err .error)) ∧
    (∀ k p, Lab.step sci E L' (.call t (.addRelationship k p)) = some (L', .err .error)) ∧
    (∀ k c, Lab.step sci E L' (.call t (.addConstraint k c)) = some (L', .err .error)) ∧
    (∀ n, Lab.step sci E L' (.call t (.setRoot n)) = some (L', .err .error)) ∧
    (∀ p c, Lab.step sci E L' (.call t (.addChild p c)) = some (L', .none)) ∧
    (∀ f b, Lab.step sci E L' (.call t (.removeFeature f b)) = none) ∧
    (∀ p, Lab.step sci E L' (.call t (.removeRelationship p)) = none) ∧
    (∀ f l, Lab.step sci E L' (.call t (.addLocation f l)) = none) ∧
    (∀ f l, Lab.step sci E L' (.call t (.removeLocation f l)) = none) ∧
    (∀ n, Lab.step sci E L' (.call t (.setName n)) = none) ∧
    (∀ n, Lab.step sci E L' (.call t (.setCommit n)) = none) ∧ ∀ n, Lab.step sci E L' (.call t (.setPath n)) = none := by
  have key : ∃ b, L'.txs[t]? = some (some ⟨b, none⟩) := by
    have at' : ∀ {l : List (Option CTx)} {x y : Option CTx}, l[t]? = some x → (l.set t y)[t]? = some y := by
      intro l x y h
      exact List.getElem?_set_self (List.getElem?_eq_some_iff.1 h).1
    rcases ho with rfl | rfl | rfl | ⟨s, hst, rfl⟩
    · simp only [Lab.step] at hs
      cases hx : L.txs[t]? with
      | none => rw [hx] at hs; cases hs
      | some x =>
        cases x with
        | none => rw [hx] at hs; cases hs
        | some x =>
          rw [hx] at hs
          have ab : (abortTx L t x).map (fun L => (L, LRes.err .aborted)) = some (L', r) → ∃ b, L'.txs[t]? = some (some ⟨b, none⟩) := by
            intro h
            simp only [abortTx, Option.map_map, Option.map_eq_some_iff] at h
            obtain ⟨D, _, h2⟩ := h
            cases h2
            exact ⟨false, at' hx⟩
          obtain ⟨b, o⟩ := x
          cases b <;> cases o <;> try exact ab hs
          simp only [Option.bind_eq_some_iff] at hs
          obtain ⟨c, h1, h2⟩ := hs
          cases hc : c.consistent E with
          | none => rw [hc] at h2; cases h2
          | some b =>
            rw [hc] at h2
            cases b with
            | false => exact ab h2
            | true => cases h2; exact ⟨true, at' hx⟩
    · simp only [Lab.step] at hs
      cases hx : L.txs[t]? with
      | none => rw [hx] at hs; cases hs
      | some x =>
        cases x with
        | none => rw [hx] at hs; cases hs
        | some x =>
          rw [hx] at hs
          simp only [abortTx, Option.map_map, Option.map_eq_some_iff] at hs
          obtain ⟨D, _, h2⟩ := hs
          cases h2
          exact ⟨false, at' hx⟩
    · simp only [Lab.step] at hs
      cases hx : L.txs[t]? with
      | none => rw [hx] at hs; cases hs
      | some x =>
        cases x with
        | none => rw [hx] at hs; cases hs
        | some x =>
          rw [hx] at hs; cases hs
          refine ⟨x.cont, ?_⟩
          have := at' (y := some { x with copy := none }) hx
          rw [List.getElem?_append_left (List.getElem?_eq_some_iff.1 this).1, this]
    · simp only [Lab.step] at hs
      cases hy : L.txs[s]? with
      | none => rw [hy] at hs; cases hs
      | some y =>
        cases y with
        | none => rw [hy] at hs; cases hs
        | some y =>
          rw [hy] at hs
          cases hx : L.txs[t]? with
          | none => rw [hx] at hs; cases hs
          | some x =>
            cases x with
            | none => rw [hx] at hs; cases hs
            | some x =>
              rw [hx] at hs
              simp only at hs
              rw [if_neg hst, Option.map_eq_some_iff] at hs
              obtain ⟨D, h1, h2⟩ := hs
              cases h2
              exact ⟨x.cont, at' (x := some x) (by rw [List.getElem?_set_ne hst, hx])⟩
  obtain ⟨b, hx⟩ := key
  have hc : ∀ p, Lab.step sci E L' (.call t p) = (careful p).map fun r => (L', r) := by
    intro p
    simp only [Lab.step, hx, Lab.call]
  refine ⟨⟨⟨L'.desk, L'.txs.set t (some ⟨false, none⟩)⟩, ?_, rfl⟩, ?_⟩
  · simp only [Lab.step, hx]
    cases b <;> rfl
  · exact ⟨fun _ _ => hc _, fun _ _ => hc _, fun _ _ => hc _, fun _ => hc _, fun _ _ => hc _, fun _ _ => hc _, fun _ => hc _, fun _ _ => hc _,
      fun _ _ => hc _, fun _ => hc _, fun _ => hc _, fun _ => hc _⟩

/-! ### Uncommitted changes -/

/-- An open transaction must not be destroyed: it is a failed assertion, and without assertions the copy is gone without a word. -/
theorem C98_destroy_uncommitted {sci : Str → Option Str} {E : Env} {t k : Nat} (hx : L.txs[t]? = some (some ⟨true, some k⟩)) {c : FModel}
    (hc : get L.desk k = some c) :
    (E.asserts = true → Lab.step sci E L (.destroy t) = none) ∧
    (E.asserts = false → ∃ L', Lab.step sci E L (.destroy t) = some (L', .none) ∧ get L'.desk k = none) := by
  constructor
  · intro ha
    simp only [Lab.step, hx, ha, uncommitted, Option.isSome_some, Bool.and_true, if_true]
  · intro ha
    refine ⟨⟨freeAll L.desk k c, L.txs.set t none⟩, ?_, get_freed hc⟩
    simp only [Lab.step, hx, ha, Bool.false_and, reset, hc, Option.map_some]
    rfl

/-- Assigning to an open transaction loses its changes without an assertion or an answer, in all builds, although the
    destructor guards against that. -/
theorem C98_assign_loses {sci : Str → Option Str} {E : Env} {s t k : Nat} (hst : s ≠ t) {b : Bool} (hy : L.txs[s]? = some (some ⟨b, some k⟩))
    {x : CTx} (hx : L.txs[t]? = some (some x)) {c : FModel} (hc : get L.desk k = some c) :
    ∃ L', Lab.step sci E L (.assign s t) = some (L', .none) ∧ get L'.desk k = none ∧ L'.txs[s]? = some (some x) := by
  refine ⟨⟨freeAll L.desk k c, (L.txs.set s (some x)).set t (some { x with copy := none })⟩, ?_, get_freed hc, ?_⟩
  · simp only [Lab.step, hx, hy, if_neg hst, reset, hc, Option.map_some]
  · show ((L.txs.set s (some x)).set t _)[s]? = _
    rw [List.getElem?_set_ne (Ne.symm hst), List.getElem?_set_self (List.getElem?_eq_some_iff.1 hy).1]

/-! ### A program -/

/-- Two transactions are open on one model; edits in both, and of the model itself, take turns.  The first is moved and
    committed from its new place after the model is destroyed, the parent of its last feature being found in the other copy's
    original; the second is aborted. -/
def lives : List LabOp :=
  [.desk (.build (pairCalls false false (some .alternative) false)), .opens 0, .opens 0, .desk (.clone 0),
   .edit 0 (some 0) (.add { name := c!"C", kind := .binary } c!"A"), .edit 1 (some 0) (.add { name := c!"C", kind := .binary } c!"B"),
   .desk (.edit 0 [.name c!"Old"]), .edit 0 none (.add { name := c!"D", kind := .binary } c!"C"), .desk (.delete 0), .move 0,
   .edit 2 (some 3) (.add { name := c!"F", kind := .binary } c!"B"), .edit 2 none (.move c!"A" c!"F"), .commit 2, .commit 2, .commit 0, .abort 1,
   .destroy 0, .destroy 1, .destroy 2]

/-- The committed model. -/
noncomputable def livesCopy : Desc :=
  (((pairDesc false false (some .alternative) false).cloned.edit (.add { name := c!"C", kind := .binary } c!"A")).edit
    (.add { name := c!"D", kind := .binary } c!"C")).edit (.add { name := c!"F", kind := .binary } c!"B")

/-- In the end there are the clone and the committed copy. -/
noncomputable def livesTold : Told :=
  ⟨[none, some livesCopy, none, some (pairDesc false false (some .alternative) false).cloned], [none, none, none]⟩

theorem lives_does (sci : Str → Option Str) : AllDoes sci ⟨[], []⟩ lives livesTold
    [.none, .none, .none, .none, .none, .none, .none, .none, .none, .none, .none, .none, .model 1, .err .aborted, .err .aborted, .none, .none,
     .none, .none] := by
  refine .cons (.desk (by simp [named]) (.build (pair_buildable false false (some .alternative) false) (pair_known _ _ _ _))) ?_
  refine .cons (.opens (d := pairDesc false false (some .alternative) false) (by simp [Told.Held]) rfl (by decide)) ?_
  refine .cons (.opens (d := pairDesc false false (some .alternative) false) (by simp [Told.Held]) rfl (by decide)) ?_
  refine .cons (.desk (by simp [named, Told.Held]) (.clone (d := pairDesc false false (some .alternative) false) rfl (by decide))) ?_
  refine .cons (.edit (d := (pairDesc false false (some .alternative) false).cloned) rfl rfl (.inr ?_) ?_) ?_
  · simp [Desc.Can, Desc.cloned, Desc.Has, pairDesc, pairCalls, attrsOf, groupsOf, clonedAttr]
  · rintro a p j e ⟨⟩
    cases e
    exact ⟨_, rfl, by simp [Desc.Has, pairDesc, pairCalls, attrsOf]⟩
  refine .cons (.edit (d := (pairDesc false false (some .alternative) false).cloned) rfl rfl (.inr ?_) ?_) ?_
  · simp [Desc.Can, Desc.cloned, Desc.Has, pairDesc, pairCalls, attrsOf, groupsOf, clonedAttr]
  · rintro a p j e ⟨⟩
    cases e
    exact ⟨_, rfl, by simp [Desc.Has, pairDesc, pairCalls, attrsOf]⟩
  refine .cons (.desk (by simp [named, Told.Held]) (.edit (d := pairDesc false false (some .alternative) false) rfl (by simp [Desc.CanAll, Desc.Can]))) ?_
  refine .cons (.edit (d := (pairDesc false false (some .alternative) false).cloned.edit (.add { name := c!"C", kind := .binary } c!"A")) rfl rfl (.inr ?_) ?_) ?_
  · simp [Desc.Can, Desc.edit, Desc.cloned, Desc.Has, pairDesc, pairCalls, attrsOf, groupsOf, clonedAttr]
  · rintro a p j e ⟨⟩
  refine .cons (.desk (by simp [named, Told.Held]) (.delete (d := (pairDesc false false (some .alternative) false).edit (.name c!"Old")) rfl)) ?_
  refine .cons (.move (x := some 1) rfl) ?_
  refine .cons (.edit (d := ((pairDesc false false (some .alternative) false).cloned.edit (.add { name := c!"C", kind := .binary } c!"A")).edit
    (.add { name := c!"D", kind := .binary } c!"C")) rfl rfl (.inr ?_) ?_) ?_
  · simp [Desc.Can, Desc.edit, Desc.cloned, Desc.Has, pairDesc, pairCalls, attrsOf, groupsOf, clonedAttr]
  · rintro a p j e ⟨⟩
    cases e
    exact ⟨_, rfl, by simp [Desc.cloned, Desc.Has, pairDesc, pairCalls, attrsOf, clonedAttr]⟩
  refine .cons (.edit (d := livesCopy) rfl rfl (.inl ⟨_, _, rfl⟩) (by rintro a p j e ⟨⟩)) ?_
  refine .cons (.commit (k := 1) rfl) ?_
  refine .cons (.again rfl) ?_
  refine .cons (.again rfl) ?_
  refine .cons (.abort (k := 2) rfl) ?_
  refine .cons (.destroy rfl) ?_
  refine .cons (.destroy rfl) ?_
  exact .cons (.destroy rfl) .nil

/-- `C98_histories` and `C98_once` apply to it. -/
example (sci : Str → Option Str) (E : Env) : ∃ L m rs, Lab.run sci E Lab.empty lives = some (L, rs) ∧ get L.desk 0 = none ∧
    get L.desk 1 = some m ∧ get L.desk 2 = none ∧ Describes livesCopy m ∧ rs[12]? = some (.model 1) := by
  obtain ⟨L, h1, ⟨h2, _⟩, _⟩ := C98_histories sci E (lives_does sci)
  obtain ⟨m, a, b⟩ := (h2.2 1).1 livesCopy rfl
  exact ⟨L, m, _, h1, (h2.2 0).2 rfl, a, (h2.2 2).2 rfl, b, rfl⟩

/-- The beginning of it meets the hypotheses of the other theorems: two open transactions, the copies at 1 and 2. -/
theorem lives_open (sci : Str → Option Str) (E : Env) : ∃ L rs c, Lab.run sci E Lab.empty (lives.take 3) = some (L, rs) ∧ Tidy L.desk ∧
    L.txs = [some ⟨true, some 1⟩, some ⟨true, some 2⟩] ∧ get L.desk 1 = some c := by
  have h : AllDoes sci ⟨[], []⟩ (lives.take 3) _ [.none, .none, .none] :=
    .cons (.desk (by simp [named]) (.build (pair_buildable false false (some .alternative) false) (pair_known _ _ _ _)))
      (.cons (.opens (d := pairDesc false false (some .alternative) false) (by simp [Told.Held]) rfl (by decide))
        (.cons (.opens (d := pairDesc false false (some .alternative) false) (by simp [Told.Held]) rfl (by decide)) .nil))
  obtain ⟨L, h1, g⟩ := labOk_run (E := E) h labOk_empty
  obtain ⟨c, hc, _⟩ := (g.desk.is.2 1).1 (pairDesc false false (some .alternative) false).cloned rfl
  refine ⟨L, _, c, h1, g.desk.tidy, ?_, hc⟩
  have e := g.txs
  match ht : L.txs with
  | [some x, some y] =>
    rw [ht] at e
    simp at e
    have hx := g.open' x 1 (by rw [ht]; simp) (by rw [e.1])
    have hy := g.open' y 2 (by rw [ht]; simp) (by rw [e.2])
    obtain ⟨a, b⟩ := x
    obtain ⟨a', b'⟩ := y
    cases hx; cases hy
    simp only at e
    rw [e.1, e.2]
  | [] => rw [ht] at e; simp at e
  | [_] => rw [ht] at e; simp at e
  | _ :: _ :: _ :: _ => rw [ht] at e; simp at e
  | [none, _] => rw [ht] at e; simp at e
  | [_, none] => rw [ht] at e; simp at e

/-- Assigning the second to the first destroys the first copy; aborting the first is one of the ends of `C98_after_end`. -/
example (sci : Str → Option Str) (E : Env) : ∃ L L' L'' c, get L.desk 1 = some c ∧ Lab.step sci E L (.assign 0 1) = some (L', .none) ∧
    get L'.desk 1 = none ∧ Lab.step sci E L (.abort 0) = some (L'', .none) ∧ Ends 0 (.abort 0) ∧
    Lab.step sci E L'' (.call 0 (.setName c!"x")) = none := by
  obtain ⟨L, rs, c, h1, t, h2, hc⟩ := lives_open sci E
  obtain ⟨L', h3, h4, _⟩ := C98_assign_loses (sci := sci) (E := E) (s := 0) (t := 1) (by simp) (b := true) (k := 1) (by rw [h2]; rfl)
    (x := ⟨true, some 2⟩) (by rw [h2]; rfl) hc
  have ha : Lab.step sci E L (.abort 0) = some (⟨freeAll L.desk 1 c, L.txs.set 0 (some ⟨false, none⟩)⟩, .none) := by
    simp only [Lab.step, h2, List.getElem?_cons_zero, abortTx, reset, hc, Option.map_some]
  have he : Ends 0 (.abort 0) := .inr (.inl rfl)
  obtain ⟨_, _, _, _, _, _, _, _, _, _, hn, _⟩ := C98_after_end he ha
  exact ⟨L, L', _, c, hc, h3, h4, ha, he, hn _⟩

/-- Three copies that end in a commit: one is consistent, one has a second root, and one was assigned to itself before. -/
example : ((Lab.run (fun _ => none) (stdEnv true) Lab.empty
    [.desk (.build (pairCalls false false none false)), .opens 0, .opens 0, .opens 0, .edit 1 none (.name c!"x"),
     .call 1 (.addFeature { name := c!"R", kind := .root } none), .assign 2 2, .commit 0, .commit 1, .commit 2]).map fun r =>
       (r.2, (get r.1.desk 2).isSome)) =
    some ([.none, .none, .none, .none, .none, .none, .none, .model 1, .err .aborted, .model 3], false) := by decide

end Verif.Props

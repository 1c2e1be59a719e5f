import Verif.FM.Equality
/-!
# Location objects held by a Python program

Models what a Python program sees of `feature.locations`
(`/repo/bindings/python/vara-feature/pybind_Feature.cpp:55-82`,
`/repo/bindings/python/vara-feature/pybind_FeatureSourceRange.cpp:61-72, 94-101`).  The iterator hands out
references into the `std::vector` of the feature (Feature.h:95-122), so a location object is an address: an
allocation and a slot.  The vector is modelled with its capacity; using an address in a released allocation, or a
slot without an element, is undefined.  How far the vector grows is a parameter.  Iterators are compared as
addresses.  What the program does with other features is left out.
-/

namespace Verif.Held
open Verif Verif.FModel

/-- `std::vector<FeatureSourceRange>`: the allocation, the elements, the capacity. -/
structure LVec where
  buf : Nat
  items : List Range
  cap : Nat

/-- The address of an element. -/
structure Slot where
  buf : Nat
  idx : Nat
  deriving DecidableEq

/-- The state of `py::make_iterator(F.getLocationsBegin(), F.getLocationsEnd())` (pybind_Feature.cpp:57-59). -/
structure PyIter where
  buf : Nat
  pos : Nat
  stop : Nat
  first : Bool := true

/-- The feature with the location objects and iterators of the program, these by number. -/
structure World where
  vec : LVec
  held : List Slot := []
  iters : List PyIter := []

/-- What can be assigned to through a location object (pybind_FeatureSourceRange.cpp:61-72, 94-101). -/
inductive Change
  | path (p : List Str)
  | category (c : Category)
  | startLine (n : Nat)
  | startColumn (n : Nat)
  | endLine (n : Nat)
  | endColumn (n : Nat)

/-- The assignment (FeatureSourceRange.h:62-66, 200-206); `none`: `start` or `end` is `None`. -/
def Change.on : Change → Range → Option Range
  | .path p, r => some { r with path := p }
  | .category c, r => some { r with category := c }
  | .startLine n, r => r.start.map fun l => { r with start := some { l with line := n } }
  | .startColumn n, r => r.start.map fun l => { r with start := some { l with column := n } }
  | .endLine n, r => r.stop.map fun l => { r with stop := some { l with line := n } }
  | .endColumn n, r => r.stop.map fun l => { r with stop := some { l with column := n } }

/-- Calls of the program; location objects and iterators are given by number. -/
inductive LocCall
  /-- `iter(feature.locations)` -/
  | iter
  /-- `next(it)`; the object is held -/
  | next (k : Nat)
  /-- reading all of a location object -/
  | read (j : Nat)
  | change (j : Nat) (c : Change)
  | add (r : Range)
  | update (old new : Range)
  /-- `feature.removeLocation(l)` with a location object -/
  | remove (j : Nat)

/-- What a call answers. -/
inductive LocReply
  | none
  /-- a new location object with what it shows -/
  | object (r : Range)
  | value (r : Range)
  | bool (b : Bool)
  | stopIteration
  | attributeError
  | noSuchObject
  deriving DecidableEq

/-- Reading through an address; `none`: undefined. -/
def LVec.at (v : LVec) (s : Slot) : Option Range := if s.buf = v.buf then v.items[s.idx]? else none

/-- Assigning through an address. -/
def LVec.put (v : LVec) (s : Slot) (r : Range) : LVec := { v with items := v.items.set s.idx r }

/-- `push_back` (Feature.h:92-94); `grow n` is how much more than needed is allocated for `n` elements. -/
def LVec.push (grow : Nat → Nat) (v : LVec) (r : Range) : LVec :=
  if v.items.length < v.cap then { v with items := v.items ++ [r] }
  else ⟨v.buf + 1, v.items ++ [r], v.items.length + 1 + grow v.items.length⟩

/-- Advancing the iterator as `py::make_iterator` does: not before the first element. -/
def PyIter.step (i : PyIter) : PyIter := if i.first then { i with first := false } else { i with pos := i.pos + 1 }

/-- One call; `none`: undefined behaviour. -/
def World.call (grow : Nat → Nat) (w : World) : LocCall → Option (LocReply × World)
  | .iter => some (.none, { w with iters := w.iters ++ [⟨w.vec.buf, 0, w.vec.items.length, true⟩] })
  | .next k =>
    match w.iters[k]? with
    | none => some (.noSuchObject, w)
    | some i =>
      if i.buf = w.vec.buf then
        let i := i.step
        if i.pos = i.stop then some (.stopIteration, { w with iters := w.iters.set k { i with first := true } })
        else
          (w.vec.at ⟨i.buf, i.pos⟩).map fun r =>
            (.object r, { w with iters := w.iters.set k i, held := w.held ++ [⟨i.buf, i.pos⟩] })
      else none
  | .read j =>
    match w.held[j]? with
    | none => some (.noSuchObject, w)
    | some s => (w.vec.at s).map fun r => (.value r, w)
  | .change j c =>
    match w.held[j]? with
    | none => some (.noSuchObject, w)
    | some s =>
      (w.vec.at s).map fun r =>
        match c.on r with
        | none => (.attributeError, w)
        | some r => (.none, { w with vec := w.vec.put s r })
  | .add r => some (.none, { w with vec := w.vec.push grow r })
  | .update old new =>
    some (.bool (replaceLoc old new w.vec.items).2,
      { w with vec := { w.vec with items := (replaceLoc old new w.vec.items).1 } })
  | .remove j =>
    match w.held[j]? with
    | none => some (.noSuchObject, w)
    | some s =>
      (w.vec.at s).bind fun r =>
        (eraseLoc r w.vec.items).map fun rs => (.none, { w with vec := { w.vec with items := rs } })

/-- A sequence of calls. -/
def World.calls (grow : Nat → Nat) : World → List LocCall → Option (List LocReply × World)
  | w, [] => some ([], w)
  | w, q :: qs =>
    match w.call grow q with
    | none => none
    | some (r, w) => (calls grow w qs).map fun (rs, w) => (r :: rs, w)

/-- How a loop ends. -/
inductive LoopEnd
  | done (w : World)
  | undefined
  /-- not within the rounds looked at -/
  | running

/-- `for l in feature.locations: …`: the calls of the body may use the number of the object just handed out. -/
def World.loop (grow : Nat → Nat) (body : Nat → List LocCall) (k : Nat) : Nat → World → LoopEnd
  | 0, _ => .running
  | fuel + 1, w =>
    match w.call grow (.next k) with
    | none => .undefined
    | some (.stopIteration, w) => .done w
    | some (_, w) =>
      match w.calls grow (body (w.held.length - 1)) with
      | none => .undefined
      | some (_, w) => loop grow body k fuel w

/-- The whole loop. -/
def World.forEach (grow : Nat → Nat) (body : Nat → List LocCall) (fuel : Nat) (w : World) : LoopEnd :=
  match w.call grow .iter with
  | none => .undefined
  | some (_, w') => w'.loop grow body w.iters.length fuel

/-- A feature with the given locations and no location object yet. -/
def World.fresh (rs : List Range) (cap : Nat) : World := { vec := ⟨0, rs, cap⟩ }

end Verif.Held

/-! ## What is expected -/

namespace Verif.Spec
open Verif Verif.Held

/-- Locations with their identities, location objects by identity, and for every iterator what it has yet to
    hand out. -/
structure Locs where
  here : List (Nat × Range)
  objects : List Nat := []
  iters : List (List Nat) := []

/-- What is assigned. -/
inductive Assigned : Change → Range → Range → Prop
  | path (p r) : Assigned (.path p) r { r with path := p }
  | category (c r) : Assigned (.category c) r { r with category := c }
  | startLine {n} {r : Range} {l} : r.start = some l → Assigned (.startLine n) r { r with start := some ⟨n, l.column⟩ }
  | startColumn {n} {r : Range} {l} : r.start = some l → Assigned (.startColumn n) r { r with start := some ⟨l.line, n⟩ }
  | endLine {n} {r : Range} {l} : r.stop = some l → Assigned (.endLine n) r { r with stop := some ⟨n, l.column⟩ }
  | endColumn {n} {r : Range} {l} : r.stop = some l → Assigned (.endColumn n) r { r with stop := some ⟨l.line, n⟩ }

/-- One location has other contents, the rest is as it was. -/
def Rewritten (x : Nat) (r : Range) (a b : Locs) : Prop :=
  ∃ l r0 t, a.here = l ++ (x, r0) :: t ∧ b.here = l ++ (x, r) :: t ∧ b.objects = a.objects ∧ b.iters = a.iters

/-- What each call should answer and do. -/
inductive Answers : Locs → LocCall → LocReply → Locs → Prop
  | iter (a) : Answers a .iter .none { a with iters := a.iters ++ [a.here.map Prod.fst] }
  | next {a : Locs} {k x xs r} : a.iters[k]? = some (x :: xs) → (x, r) ∈ a.here →
      Answers a (.next k) (.object r) { a with iters := a.iters.set k xs, objects := a.objects ++ [x] }
  | stop {a : Locs} {k} : a.iters[k]? = some [] →
      Answers a (.next k) .stopIteration a
  | noIter {a : Locs} {k} : a.iters[k]? = none → Answers a (.next k) .noSuchObject a
  | read {a : Locs} {j x r} : a.objects[j]? = some x → (x, r) ∈ a.here → Answers a (.read j) (.value r) a
  | noObject {a : Locs} {j} : a.objects[j]? = none → Answers a (.read j) .noSuchObject a
  | change {a b : Locs} {j x r r' c} : a.objects[j]? = some x → (x, r) ∈ a.here → Assigned c r r' → Rewritten x r' a b →
      Answers a (.change j c) .none b
  | changeNone {a : Locs} {j x r c} : a.objects[j]? = some x → (x, r) ∈ a.here → (∀ r', ¬ Assigned c r r') →
      Answers a (.change j c) .attributeError a
  | changeNoObject {a : Locs} {j c} : a.objects[j]? = none → Answers a (.change j c) .noSuchObject a
  | add {a : Locs} {r x} : (∀ p ∈ a.here, p.1 ≠ x) → Answers a (.add r) .none { a with here := a.here ++ [(x, r)] }
  | update {a b : Locs} {old new x} {l t r0} : a.here = l ++ (x, r0) :: t → r0.eq old = true →
      (∀ p ∈ l, p.2.eq old = false) → Rewritten x new a b → Answers a (.update old new) (.bool true) b
  | updateNone {a : Locs} {old new} : (∀ p ∈ a.here, p.2.eq old = false) → Answers a (.update old new) (.bool false) a
  | remove {a : Locs} {j x r l y r0 t} : a.objects[j]? = some x → (x, r) ∈ a.here → a.here = l ++ (y, r0) :: t →
      r0.eq r = true → (∀ p ∈ l, p.2.eq r = false) → Answers a (.remove j) .none { a with here := l ++ t }
  | removeNoObject {a : Locs} {j} : a.objects[j]? = none → Answers a (.remove j) .noSuchObject a

/-- A sequence of calls. -/
inductive AllAnswers : Locs → List LocCall → List LocReply → Locs → Prop
  | nil (a) : AllAnswers a [] [] a
  | cons {a b c q r qs rs} : Answers a q r b → AllAnswers b qs rs c → AllAnswers a (q :: qs) (r :: rs) c

end Verif.Spec

/-!
# How long Python objects of a model live

The Python classes hand out pointers into a C++ model.  The model is owned by its Python object
(`loadFeatureModel`, `merge_with` and `build_feature_model` return a `unique_ptr`); the objects for
features, nodes, locations and constraints own nothing.  What keeps what alive is decided by the return value policies and
`keep_alive` clauses of the bindings (/repo/bindings/python/vara-feature/pybind_FeatureModel.cpp,
pybind_Feature.cpp).

Trusted about pybind11 (not in this sandbox) and CPython: `keep_alive<0, 1>` makes the result keep the
receiver; `reference` keeps nothing; `reference_internal` (the default of `def_property_readonly` for
member functions and of the elements `make_iterator` gives) makes a *new* object keep the receiver,
but if there is a Python object for that pointer and type already, it is given again as it is; results
that are Python objects themselves (such as iterators) ignore the policy; an object is freed as soon as
no variable and no object refers to it.  Addresses of freed objects are not used again.
-/

namespace Verif.Keep

/-- What a pointer into a model points to: a node of the tree (feature or relationship), a location of a feature, a
    constraint wrapper (`BooleanConstraint` and so on), the `Constraint` in one. -/
inductive Part
  | node (i : Nat)
  | location (i j : Nat)
  | wrapper (j : Nat)
  | constraint (j : Nat)
  deriving DecidableEq, Repr

/-- What an iterator runs over. -/
inductive Range
  | nodes
  | locations
  | wrappers
  deriving DecidableEq, Repr

/-- What a Python object stands for. -/
inductive What
  | model
  | part (p : Part)
  | iter (r : Range)
  deriving DecidableEq, Repr

/-- A Python object: the model it belongs to, what it stands for, the objects it keeps alive, and whether a variable of the
    program refers to it. -/
structure Obj where
  home : Nat
  what : What
  keeps : List Nat
  held : Bool
  deriving DecidableEq, Repr

/-- All objects ever made, the newest first; an object is known by the number of those made before it.  A model is known by
    the number of its object. -/
abbrev Objs := List Obj

/-- The objects not freed: those held, and those kept by one not freed.  Only older objects are kept, so one pass does. -/
def live : Objs → List Nat → List Nat
  | [], _ => []
  | o :: older, kept =>
    if o.held || decide (older.length ∈ kept) then older.length :: live older (o.keeps ++ kept)
    else live older kept

/-- The object with a number. -/
def get : Objs → Nat → Option Obj
  | [], _ => none
  | o :: older, n => if n = older.length then some o else get older n

/-- Change whether variables refer to an object. -/
def hold (b : Bool) : Objs → Nat → Objs
  | [], _ => []
  | o :: older, n => if n = older.length then { o with held := b } :: older else o :: hold b older n

/-- The Python object for a pointer, if there is one (pybind11's registered instances). -/
def registered (s : Objs) (k : Nat) (p : Part) : Option Nat :=
  (live s []).find? (fun n => match get s n with
    | some o => decide (o.home = k ∧ o.what = .part p)
    | none => false)

/-- What a Python program does with such objects. -/
inductive PyOp
  /-- `loadFeatureModel(…)`, `a.merge_with(b)`, `builder.build_feature_model()` -/
  | load
  /-- `fm.get_root()`, `fm.get_feature(name)`, which is node `i` -/
  | getFeature (h i : Nat)
  /-- `iter(fm)` -/
  | iterate (h : Nat)
  /-- `iter(node)`, `node.children()` -/
  | children (h : Nat)
  /-- `node.parent()`, which is node `i` -/
  | parent (h i : Nat)
  /-- `feature.locations` -/
  | locations (h : Nat)
  /-- `fm.booleanConstraints` and the two others -/
  | constraints (h : Nat)
  /-- `next(it)`, which points to `p` -/
  | next (h : Nat) (p : Part)
  /-- `wrapper.constraint` -/
  | inner (h : Nat)
  /-- any other method, such as `name`, `size()`, `str(…)` -/
  | use (h : Nat)
  /-- the variables that refer to it are deleted or bound to something else -/
  | drop (h : Nat)
  deriving DecidableEq, Repr

/-- A pointer is returned: the object there is, or a new one that keeps `keeps`. -/
def give (s : Objs) (k : Nat) (p : Part) (keeps : List Nat) : Objs :=
  match registered s k p with
  | some n => hold true s n
  | none => ⟨k, .part p, keeps, true⟩ :: s

/-- A new iterator. -/
def giveIter (s : Objs) (k : Nat) (r : Range) (keeps : List Nat) : Objs := ⟨k, .iter r, keeps, true⟩ :: s

/-- The nodes an iterator over `r` can give. -/
def Range.gives : Range → Part → Bool
  | .nodes, .node _ => true
  | .locations, .location _ _ => true
  | .wrappers, .wrapper _ => true
  | _, _ => false

/-- Has the model been freed? -/
def freed (s : Objs) (k : Nat) : Bool := !decide (k ∈ live s [])

/-- One call on the object `h`, if a variable refers to it and the class has the method (otherwise Python raises an exception
    and nothing happens); `none` is a use of freed memory. -/
def call (s : Objs) (h : Nat) (f : Obj → Option Objs) : Option Objs :=
  match get s h with
  | none => some s
  | some o =>
    if !o.held then some s
    else
      match f o with
      | none => some s
      | some s' => if freed s o.home then none else some s'

/-- One step (pybind_FeatureModel.cpp:70-78 get_root and get_feature by reference, :137-142 `__iter__` with keep_alive, :143-159
    constraints without, :21-23, 31-33, 52-54 `constraint`; pybind_Feature.cpp:16-29 children with keep_alive, :34-35 parent by reference,
    :55-61 locations without). -/
def step (s : Objs) : PyOp → Option Objs
  | .load => some (⟨s.length, .model, [], true⟩ :: s)
  | .getFeature h i => call s h fun o => match o.what with
    | .model => some (give s o.home (.node i) [])
    | _ => none
  | .iterate h => call s h fun o => match o.what with
    | .model => some (giveIter s o.home .nodes [h])
    | _ => none
  | .children h => call s h fun o => match o.what with
    | .part (.node _) => some (giveIter s o.home .nodes [h])
    | _ => none
  | .parent h i => call s h fun o => match o.what with
    | .part (.node _) => some (give s o.home (.node i) [])
    | _ => none
  | .locations h => call s h fun o => match o.what with
    | .part (.node _) => some (giveIter s o.home .locations [])
    | _ => none
  | .constraints h => call s h fun o => match o.what with
    | .model => some (giveIter s o.home .wrappers [])
    | _ => none
  | .next h p => call s h fun o => match o.what with
    | .iter r => if r.gives p then some (give s o.home p [h]) else none
    | _ => none
  | .inner h => call s h fun o => match o.what with
    | .part (.wrapper j) => some (give s o.home (.constraint j) [h])
    | _ => none
  | .use h => call s h fun _ => some s
  | .drop h => some (hold false s h)

/-- A program. -/
def run : Objs → List PyOp → Option Objs
  | s, [] => some s
  | s, o :: os => match step s o with
    | none => none
    | some s' => run s' os

end Verif.Keep

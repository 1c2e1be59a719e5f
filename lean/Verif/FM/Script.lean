import Verif.FM.Buildable
/-!
# Scripts that edit a model
-/

namespace Verif

/-- A modification as a program asks for it: features are given by their names. -/
inductive Edit
  | add (a : Attr) (parent : Str)
  | remove (n : Str) (recursive : Bool)
  | group (k : RKind) (n : Str)
  | ungroup (n : Str)
  | locate (n : Str) (r : Range)
  | unlocate (n : Str) (r : Range)
  | constrain (k : CKind) (c : Constraint)
  | name (s : Str)
  | commit (s : Str)
  | path (s : Str)
  | root (n : Str)
  | move (parent child : Str)

/-- The modification a transaction stores (FeatureModelTransaction.h:93-166): `addFeature` takes a pointer, which the
    program gets by `getFeature` when the transaction is written down; the others take a name, which is looked up when
    the modification is carried out. -/
def Edit.op (m : FModel) : Edit → Op
  | .add a p => .addFeature a (m.getFeature p)
  | .remove n b => .removeFeature (.name n) b
  | .group k n => .addRelationship k (.name n)
  | .ungroup n => .removeRelationship (.name n)
  | .locate n r => .addLocation (.name n) r
  | .unlocate n r => .removeLocation (.name n) r
  | .constrain k c => .addConstraint k c
  | .name s => .setName s
  | .commit s => .setCommit s
  | .path s => .setPath s
  | .root n => .setRoot n
  | .move p c => .addChild (.name p) (.name c)

/-- A modify transaction that is opened, filled and committed (FeatureModelTransaction.h:978-993); `none` if it does not end
    with success. -/
def runTransaction (E : Env) (m : FModel) (es : List Edit) : Option FModel :=
  match m.commitOps E (es.map (·.op m)) with
  | .ok m => some m
  | _ => none

/-- One transaction after the other. -/
def runScript (E : Env) : FModel → List (List Edit) → Option FModel
  | m, [] => some m
  | m, t :: ts => (runTransaction E m t).bind fun m => runScript E m ts

namespace Spec

def Desc.Has (d : Desc) (n : Str) : Prop := n = d.root ∨ n ∈ d.attrs.map Attr.name

/-- `x` is `n` or below it. -/
inductive Desc.Under (d : Desc) (n : Str) : Str → Prop
  | refl : d.Under n n
  | step {a} : a ∈ d.attrs → d.Under n (d.parent a.name) → d.Under n a.name

open Classical in
/-- What a modification says, on the description. -/
noncomputable def Desc.edit (d : Desc) : Edit → Desc
  | .add a p => { d with attrs := d.attrs ++ [a], parent := fun x => if x = a.name then p else d.parent x }
  | .remove n _ => { d with attrs := d.attrs.filter fun a => !d.Under n a.name, groups := d.groups.filter fun g => !d.Under n g.1 }
  | .group k n => { d with groups := d.groups ++ [(n, k)] }
  | .ungroup n => { d with groups := d.groups.filter fun g => g.1 ≠ n }
  | .locate n r => { d with attrs := d.attrs.map fun a => if a.name = n then { a with locs := a.locs ++ [r] } else a }
  | .unlocate n r => { d with attrs := d.attrs.map fun a => if a.name = n then { a with locs := a.locs.eraseP (·.eq r) } else a }
  | .constrain k c => { d with constraints := d.constraints ++ [(k, c)] }
  | .name s => { d with name := s }
  | .commit s => { d with commit := s }
  | .path s => { d with path := s }
  | .root n => { d with root := n, parent := fun x => if d.parent x = d.root then n else d.parent x,
                        groups := d.groups.map fun g => (if g.1 = d.root then n else g.1, g.2) }
  | .move p c => { d with parent := fun x => if x = c then p else d.parent x }

/-- When a modification makes sense.  New children go to features without group: a group contains all children of its
    feature. -/
def Desc.Can (d : Desc) : Edit → Prop
  | .add a p => a.kind ≠ .root ∧ d.Has p ∧ ¬ d.Has a.name ∧ ∀ k, (p, k) ∉ d.groups
  | .remove n b => n ∈ d.attrs.map Attr.name ∧ (b = false → ∀ a ∈ d.attrs, d.parent a.name ≠ n) ∧
      ∀ x, d.Under n x → ∀ y ∈ d.constraints, x ∉ y.2.features
  | .group _ n => d.Has n ∧ ∀ k, (n, k) ∉ d.groups
  | .ungroup n => ∃ k, (n, k) ∈ d.groups
  | .locate n _ => n ∈ d.attrs.map Attr.name
  | .unlocate n r => ∃ a ∈ d.attrs, a.name = n ∧ ∃ l ∈ a.locs, l.eq r = true
  | .constrain _ c => ∀ n ∈ c.features, d.Has n
  | .name _ => True
  | .commit _ => True
  | .path _ => True
  | .root n => ¬ d.Has n ∧ ∀ y ∈ d.constraints, d.root ∉ y.2.features
  | .move p c => c ∈ d.attrs.map Attr.name ∧ d.Has p ∧ ¬ d.Under c p ∧ ∀ k, (p, k) ∉ d.groups

/-- The modifications of a transaction make sense one after the other; `K` are the features that are there since it was
    opened, to which the program may have pointers. -/
def Desc.CanAll : (Str → Prop) → Desc → List Edit → Prop
  | _, _, [] => True
  | K, d, e :: es => d.Can e ∧ (∀ a p, e = .add a p → K p) ∧ Desc.CanAll (fun x => K x ∧ (d.edit e).Has x) (d.edit e) es

/-- So do the transactions of a script. -/
def Desc.CanRun : Desc → List (List Edit) → Prop
  | _, [] => True
  | d, t :: ts => Desc.CanAll d.Has d t ∧ Desc.CanRun (t.foldl Desc.edit d) ts

end Spec
end Verif

import Verif.Merge.Spec
import Verif.FM.Clone
/-!
# What merging two models means, on their descriptions
-/

namespace Verif.Spec
open Verif

/-- The children of the feature form a group. -/
def Desc.Grouped (d : Desc) (n : Str) : Prop := ∃ k, (n, k) ∈ d.groups

/-- Nothing in the second model conflicts with the first: features of the same name have parents of the same name up to case
    and, if asked for, the same properties; the others have a kind. -/
def Desc.Takes (strict : Bool) (d d2 : Desc) : Prop :=
  ∀ b ∈ d2.attrs, (∀ a ∈ d.attrs, a.name = b.name →
      lower (d.parent a.name) = lower (d2.parent b.name) ∧
      (strict = true → a.opt = b.opt ∧ SameKind a.kind b.kind ∧ (d.Grouped (d.parent a.name) ↔ d2.Grouped (d2.parent b.name)))) ∧
    ((∀ a ∈ d.attrs, a.name ≠ b.name) → b.kind ≠ .unknown)

/-- A feature with the locations of another one that it does not have. -/
def withLocs (a b : Attr) : Attr :=
  { clonedAttr a with locs := (clonedAttr a).locs ++ b.locs.filter fun r => !a.locs.any fun l => l.eq r }

/-- The same with all features of another model. -/
def Desc.gives (d2 : Desc) (a : Attr) : Attr :=
  match d2.attrs.find? fun b => decide (b.name = a.name) with
  | some b => withLocs a b
  | none => clonedAttr a

/-- The features of the first, with the locations of the second; then the other features of the second.  All else is that of
    the first. -/
def Desc.merged (d d2 : Desc) : Desc :=
  { d with
    attrs := d.attrs.map d2.gives ++ (d2.attrs.filter fun b => decide (b.name ∉ d.attrs.map Attr.name)).map clonedAttr
    parent := fun n => if n ∈ d.attrs.map Attr.name then d.parent n else d2.parent n }

/-- No feature of the second model is new below a feature whose children form a group. -/
def Desc.OutsideGroups (d d2 : Desc) : Prop :=
  ∀ b ∈ d2.attrs, b.name ∉ d.attrs.map Attr.name → ¬ d.Grouped (d2.parent b.name)

end Verif.Spec

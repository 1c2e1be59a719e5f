import Verif.FM.Transaction
/-!
# Equality of features, and changing a location in place
-/

namespace Verif
namespace FModel

/-- `Feature::operator==` (Feature.h:79-82). -/
def featEq (m : FModel) (a b : Id) : Option Bool :=
  match m.feat? a, m.feat? b with
  | some f, some g => some (decide (lower f.attr.name = lower g.attr.name))
  | _, _ => none

/-- `Feature::hash` (Feature.h:50-52); `h` is `std::hash<std::string>`. -/
def featHash (h : Str → Nat) (m : FModel) (a : Id) : Option Nat := (m.feat? a).map fun f => h (lower f.attr.name)

/-- `std::find` and assignment (Feature.h:107-111): the new locations and the returned value. -/
def replaceLoc (old new : Range) : List Range → List Range × Bool
  | [] => ([], false)
  | x :: xs => if x.eq old then (new :: xs, true) else ((x :: (replaceLoc old new xs).1), (replaceLoc old new xs).2)

/-- `Feature::updateLocation` (Feature.h:105-113) on a feature of a model. -/
def updateLocation (m : FModel) (i : Id) (old new : Range) : Option (FModel × Bool) :=
  match m.feat? i with
  | none => none
  | some f =>
    (m.updFeat i fun f => { f with attr := { f.attr with locs := (replaceLoc old new f.attr.locs).1 } }).map fun m' =>
      (m', (replaceLoc old new f.attr.locs).2)

end FModel
end Verif

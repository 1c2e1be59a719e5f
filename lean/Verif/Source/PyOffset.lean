import Verif.Graph.Model
/-!
# `LineColumnOffset` of the Python bindings

`/repo/bindings/python/vara-feature/pybind_FeatureSourceRange.cpp:90-101` over
`/repo/include/vara/Feature/FeatureSourceRange.h:52-71`.  The constructor is bound with `py::init<int, int>` although
the C++ one takes `unsigned`; the setters are bound with the type they have.
-/

namespace Verif

/-- Converting a Python integer to a C++ `int` (pybind11; outside of its range a `TypeError`). -/
def pyInt (v : Int) : Option Int := if -2147483648 ≤ v ∧ v ≤ 2147483647 then some v else none

/-- Converting a Python integer to `unsigned`. -/
def pyUnsigned (v : Int) : Option Nat := if 0 ≤ v ∧ v ≤ 4294967295 then some v.toNat else none

/-- `int` to `unsigned`: modulo `2^32`. -/
def toUnsigned (v : Int) : Nat := (v % 4294967296).toNat

/-- `LineColumnOffset(line, column)` (pybind_FeatureSourceRange.cpp:91-93, FeatureSourceRange.h:55-56); `none`: a
    `TypeError`. -/
def pyOffset (line column : Int) : Option Loc :=
  (pyInt line).bind fun l => (pyInt column).map fun c => ⟨toUnsigned l, toUnsigned c⟩

/-- `offset.line_number = v` (pybind_FeatureSourceRange.cpp:94-97). -/
def pySetLine (o : Loc) (v : Int) : Option Loc := (pyUnsigned v).map fun n => { o with line := n }

/-- `offset.column_offset = v` (pybind_FeatureSourceRange.cpp:98-101). -/
def pySetColumn (o : Loc) (v : Int) : Option Loc := (pyUnsigned v).map fun n => { o with column := n }

end Verif

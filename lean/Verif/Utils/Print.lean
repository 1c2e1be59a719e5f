import Verif.Utils.Result
import Verif.FM.Model
/-!
# Printing results

Models `operator<<` of `Ok`, `Error` and `Result` (`/repo/include/vara/Utils/Result.h`) and of the errors of the library
(`/repo/include/vara/Feature/Error.h`, `/repo/include/vara/Solver/Error.h`).
-/

namespace Verif.Utils

/-- `operator<<` of `Error<FTErrorCode>` (Feature/Error.h:43-80). -/
def ftText : FTErr → Str
  | .aborted => c!"Transaction aborted."
  | .alreadyPresent => c!"Node already present."
  | .error => c!"Error."
  | .inconsistent => c!"Inconsistent feature model."
  | .missingFeature => c!"Missing feature."
  | .missingParent => c!"Missing parent of node."
  | .missingChild => c!"Missing child of node."
  | .missingModel => c!"Missing a feature model."
  | .nonLeafNode => c!"Not a leaf node."
  | .recursiveEdge => c!"Recursive edge."

/-- All of `SolverErrorCode` (Solver/Error.h:10-18). -/
inductive SolverCode
  | notImplemented | notSupported | unsat | alreadyPresent | notAllConstraintsProcessed | parentNotPresent | illegalState
  deriving DecidableEq, Repr

/-- `operator<<` of `Error<SolverErrorCode>` (Solver/Error.h:33-63). -/
def solverText : SolverCode → Str
  | .notImplemented => c!"This method is not implemented yet."
  | .notSupported => c!"This method is not supported."
  | .unsat => c!"The current model is unsatisfiable."
  | .alreadyPresent => c!"Variable is already present."
  | .notAllConstraintsProcessed => c!"Not all constraints have been processed yet; are there variables missing?"
  | .parentNotPresent => c!"Parent feature of a feature is not present."
  | .illegalState => c!"The solver is in an illegal state for this operation."

/-- `operator<<` of `Result` (Result.h:141-145): what `std::visit` finds is copied from a constant lvalue into the
    parameter `V`, and the copy is printed; `none`: there is no such copy, the call is ill-formed.  `sv` and `se` are
    `operator<<` of the value (Result.h:35-39) and of the error. -/
def Res.print {V E : Ty} (sv : V.Val → Str) (se : E.Val → Str) : Res V E → Option Str
  | .ok v => if V.copies && E.copies then (okFrom V .constLvalue v).map sv else none
  | .err e => if V.copies && E.copies then (errFrom E .constLvalue e).map se else none

/-- `Ok<void>` prints as this (Result.h:50-54). -/
def voidText : voidTy.Val → Str := fun _ => c!"OK"

/-- `llvm::raw_ostream` prints a `bool` as the number it is promoted to (trusted). -/
def boolText : boolTy.Val → Str := fun b => natText (Bool.toNat b)

/-- A `uint64_t` is printed in decimal (trusted). -/
def countText : countTy.Val → Str := natText

end Verif.Utils

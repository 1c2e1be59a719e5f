import Verif.Tools.Generator
import Verif.Graph.Model
/-!
# The feature model viewer

Models `main` of `/repo/tools/fm-viewer/FeatureModelViewer.cpp`.  The command line enters as the values of its
options.  `llvm::WriteGraph` opens the named file or one with a new name, and returns the name, or the empty
name if the file cannot be opened.
-/

namespace Verif.Tools
open Verif Verif.Xml

/-- What the viewer needs of its surroundings besides what loading needs. -/
structure Desk extends Machine where
  /-- printed addresses of nodes and of the model -/
  ptr : FModel → Id → Str
  self : FModel → Str
  /-- `createGraphFilename`: a new file, or none -/
  temp : Str → Option Str
  /-- `findProgramByName` -/
  program : Str → Option Str

/-- The options (FeatureModelViewer.cpp:11-42); `xml` has no effect. -/
structure ViewArgs where
  file : Str := []
  xml : Bool := true
  verify : Bool := false
  viewer : Str := []
  out : Str := []
  dump : Bool := false
  deriving DecidableEq, Repr

/-- A program started on a file: the one asked for, or one that LLVM finds. -/
inductive Started
  | asked (program file : Str)
  | found (file : Str)
  deriving DecidableEq, Repr

inductive ViewRun
  | exit (code : Nat) (files : Files) (stdout : Str) (started : Option Started)
  | crash

/-- The file and its new contents. -/
def Files.set (fs : Files) (path text : Str) : Files := fun p => if p = path then some text else fs p

/-- `main` (FeatureModelViewer.cpp:44-100). -/
def view (D : Desk) (fs : Files) (a : ViewArgs) : ViewRun :=
  if a.file = [] then .exit 1 fs [] none
  else if a.verify = true ∧ verifyFeatureModel D.toMachine fs a.file = false then .exit 1 fs [] none
  else
    match loadFeatureModel D.toMachine fs a.file with
    | .null => .exit 1 fs [] none
    | .ub => .crash
    | .built m =>
      if a.dump = true then
        match m.dump D.env with
        | none => .crash
        | some t => .exit 0 fs t none
      else if a.out ≠ [] then
        if D.canOpen a.out then
          match m.writeGraph (D.ptr m) (D.self m) [] with
          | none => .crash
          | some t => .exit 0 (fs.set a.out t) [] none
        else .exit 0 fs [] none
      else
        match D.temp m.name with
        | none => .exit 1 fs [] none
        | some path =>
          match m.writeGraph (D.ptr m) (D.self m) [] with
          | none => .crash
          | some t =>
            .exit 0 (fs.set path t) [] (some (match (if a.viewer = [] then none else D.program a.viewer) with
              | some p => .asked p path
              | none => .found path))

end Verif.Tools

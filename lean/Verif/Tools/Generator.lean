import Verif.Solver.Model
import Verif.Sampling.Model
import Verif.Xml.Model
/-!
# The configuration generator

Models `main` of `/repo/tools/config-generator/ConfigurationGenerator.cpp` and the helpers that load and
verify a file, `/repo/lib/Feature/FeatureModel.cpp:119-158`.

The command line enters as the values of its options (LLVM's parser of the command line is not modelled).
libxml2 with the validation against the DTD, the CSV library and the YAML library are functions of the
environment.
-/

namespace Verif.Tools
open Verif Verif.Xml Verif.Z3Solver Verif.Sampling

/-- Contents of the files; `none` if there is no readable file. -/
abbrev Files := Str → Option Str

/-- The libraries and the machine. -/
structure Machine where
  /-- `parseDoc` (FeatureModelParser.cpp:420-448): well-formed and valid, else null -/
  xml : Str → Option Xml
  /-- the CSV library on the contents of a file; `none`: an exception -/
  csv : Str → Option Table
  /-- the YAML library on the map with the configurations -/
  yaml : List (Str × Str) → Str
  /-- whether a file can be opened for writing -/
  canOpen : Str → Bool
  /-- environment of the iteration over a model -/
  env : Env
  floats : IntFloats
  oracle : Oracle
  sci : Str → Option Str
  /-- what is on the heap at the start -/
  heap : FModel
  cwd : Str

/-- `ConfigurationGenerationChoice` (ConfigurationGenerator.cpp:18-22). -/
inductive Choice
  | all | samplingStrategy | sampleSet
  deriving DecidableEq, Repr

/-- The options (ConfigurationGenerator.cpp:14-48). -/
structure Args where
  file : Str := []
  type : Choice := .all
  csv : Str := []
  out : Str := c!"configurations.yml"
  deriving DecidableEq, Repr

/-- How a run ends: with an exit code, the files after it and what is on the standard output, or with
    undefined behaviour or an exception that nobody catches, or not at all. -/
inductive Run
  | exit (code : Nat) (files : Files) (stdout : Str)
  | crash
  | endless

/-- `verifyFeatureModel` (FeatureModel.cpp:140-158, FeatureModelParser.cpp:407-409). -/
def verifyFeatureModel (M : Machine) (fs : Files) (path : Str) : Bool :=
  match fs path with
  | none => false
  | some text => (M.xml text).isSome

/-- `loadFeatureModel` (FeatureModel.cpp:119-138, FeatureModelParser.cpp:393-405). -/
def loadFeatureModel (M : Machine) (fs : Files) (path : Str) : BuildRes :=
  match fs path with
  | none => .null
  | some text =>
    match M.xml text with
    | none => .null
    | some x => load M.sci M.env M.heap M.cwd x

/-- `raw_fd_ostream` on a path and writing a text to it: "-" is the standard output. -/
def writeFile (M : Machine) (fs : Files) (path text : Str) : Run :=
  if path = c!"-" then .exit 0 fs text
  else if M.canOpen path then .exit 0 (fun p => if p = path then some text else fs p) []
  else .exit 1 fs []

/-- The end of `main` (ConfigurationGenerator.cpp:103-116). -/
def writeOut (M : Machine) (fs : Files) (m : FModel) (out : Str) (cs : List Config) : Run :=
  if out ≠ [] ∧ cs ≠ [] then
    match writeConfigurations M.env m cs with
    | none => .crash
    | some es => writeFile M fs out (M.yaml es)
  else .exit 0 fs []

/-- `main` (ConfigurationGenerator.cpp:50-117); `fuel` bounds the number of rounds of the loops. -/
def generate (M : Machine) (fuel : Nat) (fs : Files) (a : Args) : Run :=
  if a.file = [] then .exit 1 fs []
  else if verifyFeatureModel M fs a.file = false then .exit 1 fs []
  else
    match loadFeatureModel M fs a.file with
    | .null => .exit 1 fs []
    | .ub => .crash
    | .built m =>
      if a.type = .sampleSet ∧ a.csv = [] then .exit 1 fs []
      else
        match a.type with
        | .all =>
          match getAllConfigs M.env M.floats M.oracle fuel m with
          | .ok cs => writeOut M fs m a.out cs
          | .err _ => .exit 1 fs []
          | .crash => .crash
          | .endless => .endless
        | .sampleSet =>
          match (fs a.csv).bind M.csv with
          | none => .crash
          | some t =>
            match readConfigurations M.env m t with
            | none => .crash
            | some cs => writeOut M fs m a.out cs
        | .samplingStrategy => .exit 1 fs []

end Verif.Tools

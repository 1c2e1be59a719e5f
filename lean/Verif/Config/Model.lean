import Verif.Base.Str
/-!
# Configurations

Models `ConfigurationOption` and `Configuration`
(`/repo/include/vara/Configuration/Configuration.h`, `/repo/lib/Configuration/Configuration.cpp`).

`llvm::StringMap` is a list of entries with distinct names in an unspecified order.  JSON text is
read and written by LLVM; it enters the model as a `JsonText` (a printer and a reader).
-/

namespace Verif

/-- The variant held by an option (Configuration.h:127). -/
inductive OptVal
  | bool (b : Bool)
  | int (v : Int)
  | str (s : Str)
  deriving DecidableEq, Repr

/-- `ConfigurationOption::convert` (Configuration.h:110-121). -/
def convert (s : Str) : OptVal :=
  if lower s = c!"true" || lower s = c!"false" then .bool (decide (s = c!"true"))
  else
    match getAsInt64 0 s with
    | some v => .int v
    | none => .str s

/-- `ConfigurationOption::asString` (Configuration.h:63-79). -/
def OptVal.asString : OptVal → Str
  | .str s => s
  | .bool b => if b then c!"true" else c!"false"
  | .int v => intText v

/-- `ConfigurationOption` (Configuration.h:26-27, 124-127). -/
structure Option' where
  name : Str
  value : OptVal
  deriving DecidableEq, Repr

/-- The constructor (Configuration.h:26-27). -/
def mkOption (name value : Str) : Option' := ⟨name, convert value⟩

/-- `ConfigurationOption::toString` (Configuration.h:85-87). -/
def Option'.toString (o : Option') : Str := o.name ++ c!": " ++ o.value.asString

/-- `Configuration` (Configuration.h:182): key and option of every entry. -/
abbrev Config := List (Str × Option')

/-- `OptionMappings[Name] = …`: replaces the entry in place or adds one. -/
def mapSet {α} (k : Str) (v : α) : List (Str × α) → List (Str × α)
  | [] => [(k, v)]
  | (k', v') :: m => if k' = k then (k, v) :: m else (k', v') :: mapSet k v m

/-- `StringMap::find`. -/
def mapFind {α} (k : Str) : List (Str × α) → Option α
  | [] => none
  | (k', v) :: m => if k' = k then some v else mapFind k m

/-- `addConfigurationOption` (Configuration.cpp:45-48). -/
def Config.add (c : Config) (o : Option') : Config := mapSet o.name o c

/-- `setConfigurationOption` (Configuration.cpp:50-55). -/
def Config.set (c : Config) (name value : Str) : Config := c.add (mkOption name value)

/-- `configurationOptionValue` (Configuration.cpp:57-64). -/
def Config.value (c : Config) (name : Str) : Option Str := (mapFind name c).map (·.value.asString)

/-- Iterating with the non-const `begin()`/`end()` (Configuration.h:139-142, 149-152). -/
def Config.iterate (c : Config) : List (Str × Option') := c.drop 0

/-- Iterating with the const `begin()`, which returns `OptionMappings.end()`
    (Configuration.h:143-147, 153-157). -/
def Config.iterateConst (c : Config) : List (Str × Option') := c.drop c.length

/-- JSON values, as far as the code looks at them. -/
inductive Json
  | other
  | str (s : Str)
  | obj (kvs : List (Str × Json))

/-- The reader and printer of LLVM's JSON library. -/
structure JsonText where
  print : Json → Str
  parse : Str → Option Json

/-- The loop of `createConfigurationFromString` (Configuration.cpp:30-41). -/
def loadEntries : List (Str × Json) → Config → Option Config
  | [], c => some c
  | (k, .str v) :: kvs, c => loadEntries kvs (c.add (mkOption k v))
  | _ :: _, _ => none

/-- `createConfigurationFromString` (Configuration.cpp:9-43); `none` = `nullptr`. -/
def createConfiguration (J : JsonText) (s : Str) : Option Config :=
  match J.parse s with
  | some (.obj kvs) => loadEntries kvs []
  | _ => none

/-- `dumpToString` (Configuration.cpp:66-78). -/
def Config.dump (J : JsonText) (c : Config) : Str :=
  J.print (.obj (c.foldl (fun o e => mapSet e.1 (.str e.2.value.asString) o) []))

end Verif

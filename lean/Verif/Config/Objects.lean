import Verif.Config.Model
/-!
# The option objects of a configuration

`OptionMappings` (`/repo/include/vara/Configuration/Configuration.h:182`) owns the options; programs hold pointers to them,
views (`llvm::StringRef`) of their texts, and iterators.

`llvm::StringMap` is not part of the code: setting an existing key assigns to the entry where it is; a new key may move all
entries to another table, so that iterators taken before are not used any more.
-/

namespace Verif.Objs
open Verif

/-- A configuration with its option objects by address; `entries` in the order of iteration, `epoch` counts the insertions of
    new keys. -/
structure Conf where
  objs : Nat → Option Option' := fun _ => none
  next : Nat := 0
  entries : List (Str × Nat) := []
  epoch : Nat := 0

/-- A text given to a call: its own, or a view of the name (Configuration.h:31) or of the string value (Configuration.h:35-40) of an
    option. -/
inductive Txt
  | own (s : Str)
  | name (p : Nat)
  | value (p : Nat)

/-- The characters of a text, when it is read; `none` = undefined. -/
def Conf.text (c : Conf) : Txt → Option Str
  | .own s => some s
  | .name p => (c.objs p).map (·.name)
  | .value p =>
    match c.objs p with
    | some ⟨_, .str s⟩ => some s
    | _ => none

/-- Where the map puts a new entry. -/
abbrev Table := List (Str × Nat) → Str × Nat → List (Str × Nat)

/-- `OptionMappings[Option->name()] = std::move(Option)` (Configuration.cpp:45-48); the assignment frees the option that was there. -/
def Conf.add (K : Table) (c : Conf) (o : Option') : Conf :=
  match mapFind o.name c.entries with
  | some q =>
    { c with objs := fun i => if i = c.next then some o else if i = q then none else c.objs i
             next := c.next + 1, entries := mapSet o.name c.next c.entries }
  | none =>
    { objs := fun i => if i = c.next then some o else c.objs i
      next := c.next + 1, entries := K c.entries (o.name, c.next), epoch := c.epoch + 1 }

/-- `setConfigurationOption` (Configuration.cpp:50-55): the texts are read when the new option is made, before the map is
    changed.  Also gives the texts. -/
def Conf.set (K : Table) (c : Conf) (n v : Txt) : Option ((Str × Str) × Conf) :=
  match c.text n, c.text v with
  | some n, some v => some ((n, v), c.add K (mkOption n v))
  | _, _ => none

/-- Several calls. -/
def Conf.run (K : Table) : Conf → List (Txt × Txt) → Option (List (Str × Str) × Conf)
  | c, [] => some ([], c)
  | c, x :: xs =>
    match c.set K x.1 x.2 with
    | none => none
    | some (t, c) =>
      match Conf.run K c xs with
      | none => none
      | some (ts, c) => some (t :: ts, c)

/-- The rest of `for (auto &E : Conf) { … }` (Configuration.h:139-142, 149-152) at entry `i`, with `n` entries to go: the entry and
    its option are looked at and some options are set.  The iterator must be from the time of the last insertion. -/
def Conf.loop (K : Table) (body : Str → Option' → List (Txt × Txt)) (epoch : Nat) : Nat → Nat → Conf → Option (List (Str × Option') × Conf)
  | 0, _, c => if c.epoch = epoch then some ([], c) else none
  | n + 1, i, c =>
    if c.epoch = epoch then
      match c.entries[i]? with
      | none => none
      | some e =>
        match c.objs e.2 with
        | none => none
        | some o =>
          match c.run K (body e.1 o) with
          | none => none
          | some (_, c) =>
            match Conf.loop K body epoch n (i + 1) c with
            | none => none
            | some (vs, c) => some ((e.1, o) :: vs, c)
    else none

/-- The loop; gives the entries visited. -/
def Conf.each (K : Table) (body : Str → Option' → List (Txt × Txt)) (c : Conf) : Option (List (Str × Option') × Conf) :=
  c.loop K body c.epoch c.entries.length 0

/-! ## Specification -/

/-- What a configuration says. -/
def Conf.says (c : Conf) (n : Str) : Option Option' := (mapFind n c.entries).bind c.objs

/-- Every name once, with a live option of that name; nothing else is alive. -/
structure Ok (c : Conf) : Prop where
  keys : (c.entries.map Prod.fst).Nodup
  live : ∀ e ∈ c.entries, ∃ o, c.objs e.2 = some o ∧ o.name = e.1
  all : ∀ i, c.objs i ≠ none → i ∈ c.entries.map Prod.snd
  fresh : ∀ i, c.objs i ≠ none → i < c.next

/-- The map keeps what it has. -/
def Keeps (K : Table) : Prop := ∀ l e, (K l e).Perm (e :: l)

/-- Values after giving some names new ones. -/
def given (s : Str → Option Option') (xs : List (Str × Str)) : Str → Option Option' :=
  xs.foldl (fun s x n => if n = x.1 then some (mkOption x.1 x.2) else s n) s

/-- A loop over names, on values. -/
def visit (f : Str → Option' → List (Str × Str)) : List Str → (Str → Option Option') → List (Str × Option') × (Str → Option Option')
  | [], s => ([], s)
  | n :: ns, s =>
    match s n with
    | none => ([], s)
    | some o =>
      let r := visit f ns (given s (f n o))
      ((n, o) :: r.1, r.2)

end Verif.Objs

import Verif.Config.Lemmas
/-!
# Properties C11, C12, C13: configurations
-/

namespace Verif.Props
open Spec

/-! ## C11 -/

/-- Which texts are integers, and which integer. -/
theorem C11_integer_texts (s : Str) (v : Int) :
    convert s = .int v ↔ IntegerText s v ∧ IsInt64 v := by
  rw [← getAsInt64_auto]
  have hb : ∀ b, SpellsBool s b → getAsInt64 0 s ≠ some v := by
    intro b h e
    obtain ⟨hi, _⟩ := (getAsInt64_auto s v).1 e
    have hhead : ∃ c cs, s = c :: cs ∧ (isDigit c = true ∨ c = '-') := by
      have hu : ∀ s n, UnsignedText s n → ∃ c cs, s = c :: cs ∧ isDigit c = true := by
        intro s n h
        cases h with
        | dec hne had _ =>
          cases s with
          | nil => exact absurd rfl hne
          | cons c cs =>
            refine ⟨c, cs, rfl, ?_⟩
            obtain ⟨d, e, hd⟩ := had c (by simp)
            unfold radixDigit at e
            by_cases hc : isDigit c = true
            · exact hc
            · rw [if_neg hc] at e
              split at e
              · cases e; omega
              · split at e
                · cases e; omega
                · cases e
        | _ => exact ⟨_, _, rfl, by decide⟩
      cases hi with
      | pos h => obtain ⟨c, cs, e, hc⟩ := hu _ _ h; exact ⟨c, cs, e, .inl hc⟩
      | neg h => exact ⟨_, _, rfl, .inr rfl⟩
    obtain ⟨c, cs, rfl, hc⟩ := hhead
    have hl : lowerChar c = c := by
      rcases hc with hc | rfl
      · exact lowerChar_digit hc
      · decide
    unfold SpellsBool at h
    simp only [lower, List.map_cons, hl] at h
    cases b <;>
    · simp at h
      rcases hc with hc | hc
      · rw [h.1] at hc; exact absurd hc (by decide)
      · rw [h.1] at hc; exact absurd hc (by decide)
  unfold convert
  by_cases h1 : lower s = c!"true"
  · simp [h1, hb true h1]
  · by_cases h2 : lower s = c!"false"
    · simp [h2, hb false h2]
    · rw [if_neg (by simp [h1, h2])]
      cases getAsInt64 0 s <;> simp

/-- Boolean values are exactly the texts that spell one ignoring case … -/
theorem C11_boolean_texts (s : Str) : (∃ b, convert s = .bool b) ↔ ∃ b, SpellsBool s b := by
  unfold convert SpellsBool
  constructor
  · rintro ⟨b, h⟩
    split at h
    · rename_i hc
      simp only [Bool.or_eq_true, decide_eq_true_eq] at hc
      rcases hc with hc | hc
      · exact ⟨true, hc⟩
      · exact ⟨false, hc⟩
    · split at h <;> cases h
  · rintro ⟨b, h⟩
    rw [if_pos (by cases b <;> simp_all)]
    exact ⟨_, rfl⟩

/-- … but a text yields the boolean it spells only if it spells `false` or is exactly `true`. -/
theorem C11_boolean_value_partial {s : Str} {b : Bool} (h : SpellsBool s b) :
    convert s = .bool b ↔ b = false ∨ s = c!"true" := by
  have hs : lower s = c!"true" ∨ lower s = c!"false" := by
    unfold SpellsBool at h; cases b <;> simp_all
  unfold convert
  rw [if_pos (by simpa using hs)]
  cases b with
  | true => simp
  | false =>
    simp only [true_or, iff_true, OptVal.bool.injEq, decide_eq_false_iff_not]
    rintro rfl
    exact absurd h (by unfold SpellsBool; decide)

/-- The claim on letter case is false: `TRUE` and `True` are read as `false`. -/
theorem C11_upper_case_true_is_false :
    SpellsBool c!"TRUE" true ∧ convert c!"TRUE" = .bool false ∧
    SpellsBool c!"True" true ∧ convert c!"True" = .bool false := by
  unfold SpellsBool
  decide

/-- Values read back from their text: booleans, 64-bit integers, and strings that stay strings. -/
theorem C11_bool_roundtrip (b : Bool) : convert (OptVal.bool b).asString = .bool b := by
  cases b <;> decide

theorem C11_int_roundtrip {v : Int} (h : IsInt64 v) : convert (OptVal.int v).asString = .int v :=
  (C11_integer_texts _ _).2 ⟨integerText_intText v, h⟩

example : IsInt64 (-9223372036854775808) := by decide

/-- Reading a text, printing the value and reading again changes nothing: every value an option can
    hold survives. -/
theorem C11_idempotent (s : Str) : convert (convert s).asString = convert s := by
  cases h : convert s with
  | bool b => exact C11_bool_roundtrip b
  | int v => exact C11_int_roundtrip ((C11_integer_texts s v).1 h).2
  | str t =>
    have : t = s := by
      unfold convert at h
      split at h
      · cases h
      · split at h <;> cases h
        rfl
    subst this
    exact h

/-- A text is kept character by character exactly unless it spells a boolean or an integer
    differently from the canonical way. -/
theorem C11_other_strings (s : Str) :
    convert s = .str s ↔ (∀ b, ¬ SpellsBool s b) ∧ (∀ v, IntegerText s v → ¬ IsInt64 v) := by
  constructor
  · intro h
    refine ⟨fun b hb => ?_, fun v hv hr => ?_⟩
    · obtain ⟨b', e⟩ := (C11_boolean_texts s).2 ⟨b, hb⟩
      rw [h] at e; cases e
    · have := (C11_integer_texts s v).2 ⟨hv, hr⟩
      rw [h] at this; cases this
  · rintro ⟨h1, h2⟩
    cases h : convert s with
    | bool b => obtain ⟨b, hb⟩ := (C11_boolean_texts s).1 ⟨b, h⟩; exact absurd hb (h1 b)
    | int v => obtain ⟨hv, hr⟩ := (C11_integer_texts s v).1 h; exact absurd hr (h2 v hv)
    | str t =>
      unfold convert at h
      split at h
      · cases h
      · split at h <;> cases h
        rfl

example : convert c!"9223372036854775808" = .str c!"9223372036854775808" := by decide
example : convert c!"010" = .int 8 := by decide
example : convert c!"-0x1F" = .int (-31) := by decide

private theorem until_colon : ∀ {a b x y : Str}, ':' ∉ a → ':' ∉ b → a ++ ':' :: x = b ++ ':' :: y → a = b ∧ x = y
  | [], [], x, y, _, _, h => ⟨rfl, by simpa using h⟩
  | [], c :: b, x, y, _, hb, h => by simp at h; exact absurd (by rw [h.1]; simp) hb
  | c :: a, [], x, y, ha, _, h => by simp at h; exact absurd (by rw [← h.1]; simp) ha
  | c :: a, d :: b, x, y, ha, hb, h => by
    simp only [List.cons_append, List.cons.injEq] at h
    obtain ⟨h1, h2⟩ := until_colon (fun hm => ha (List.mem_cons_of_mem _ hm)) (fun hm => hb (List.mem_cons_of_mem _ hm)) h.2
    exact ⟨by rw [h.1, h1], h2⟩

/-- The text of an option is its name, a colon with a blank, and the text of its value; for names without colon it
    determines the option. -/
theorem C11_option_text (n v : Str) :
    (mkOption n v).toString = n ++ [':', ' '] ++ (convert v).asString ∧
    ∀ n' v', ':' ∉ n → ':' ∉ n' → (mkOption n v).toString = (mkOption n' v').toString → mkOption n v = mkOption n' v' := by
  refine ⟨rfl, ?_⟩
  intro n' v' h1 h2 h
  have h : n ++ ':' :: (' ' :: (convert v).asString) = n' ++ ':' :: (' ' :: (convert v').asString) := by
    simpa [Option'.toString, mkOption] using h
  obtain ⟨h3, h4⟩ := until_colon h1 h2 h
  have h5 : (convert v).asString = (convert v').asString := by simpa using h4
  have h6 : convert v = convert v' := by rw [← C11_idempotent v, h5, C11_idempotent]
  simp [mkOption, h3, h6]

example : (mkOption c!"opt" c!"TRUE").toString = c!"opt: false" := by decide

/-- With a colon in a name two options may have the same text. -/
theorem C11_option_text_colon : ∃ n v n' v', n ≠ n' ∧ (mkOption n v).toString = (mkOption n' v').toString :=
  ⟨c!"a: b", c!"c", c!"a", c!"b: c", by decide, by decide⟩

/-! ## C12 -/

theorem configAfter_snoc (ops : List ConfigOp) (op : ConfigOp) :
    configAfter (ops ++ [op]) = match op with
      | .set n v => (configAfter ops).set n v
      | .add o => (configAfter ops).add o := by
  unfold configAfter
  rw [List.foldl_append]
  rfl

/-- Induction from the end of a list. -/
theorem snocInd {α} {P : List α → Prop} (h0 : P []) (h1 : ∀ l x, P l → P (l ++ [x])) (l : List α) : P l := by
  have : P l.reverse.reverse := by
    induction l.reverse with
    | nil => exact h0
    | cons x l ih => rw [List.reverse_cons]; exact h1 _ _ ih
  simpa using this

theorem config_find (ops : List ConfigOp) (n : Str) :
    (mapFind n (configAfter ops)).map (·.value) = lastValue n ops ∧
      (∀ k o, mapFind k (configAfter ops) = some o → o.name = k) := by
  induction ops using snocInd with
  | h0 => exact ⟨rfl, fun k o h => by simp [configAfter, mapFind] at h⟩
  | h1 ops op ih =>
    rw [configAfter_snoc]
    unfold lastValue at *
    rw [List.filterMap_append, List.getLast?_append]
    cases op with
    | set m v =>
      simp only [Config.set, Config.add, mkOption, mapFind_mapSet]
      refine ⟨?_, ?_⟩
      · by_cases h : m = n
        · simp [h]
        · simpa [h] using ih.1
      · intro k o h
        by_cases hk : m = k
        · rw [if_pos hk] at h; cases h; exact hk
        · rw [if_neg hk] at h; exact ih.2 k o h
    | add o =>
      simp only [Config.add, mapFind_mapSet]
      refine ⟨?_, ?_⟩
      · by_cases h : o.name = n
        · simp [h]
        · simpa [h] using ih.1
      · intro k o' h
        by_cases hk : o.name = k
        · rw [if_pos hk] at h; cases h; exact hk
        · rw [if_neg hk] at h; exact ih.2 k o' h

/-- Lookups return the text of the value last given to the name, `none` for other names. -/
theorem C12_lookup (ops : List ConfigOp) (n : Str) :
    (configAfter ops).value n = (lastValue n ops).map OptVal.asString := by
  rw [← (config_find ops n).1, Option.map_map]
  rfl

theorem configAfter_nodup (ops : List ConfigOp) : KeysNodup (configAfter ops) := by
  induction ops using snocInd with
  | h0 => simp [configAfter, KeysNodup]
  | h1 ops op ih =>
    rw [configAfter_snoc]
    cases op <;> exact keysNodup_mapSet ih _ _

/-- The (non-const) iteration visits every name once, with its last value. -/
theorem C12_iterate (ops : List ConfigOp) :
    ((configAfter ops).iterate.map (·.1)).Nodup ∧
    ∀ n v, (∃ o, (n, o) ∈ (configAfter ops).iterate ∧ o.value = v) ↔ lastValue n ops = some v := by
  refine ⟨configAfter_nodup ops, fun n v => ?_⟩
  rw [← (config_find ops n).1]
  simp only [Config.iterate, List.drop_zero, Option.map_eq_some_iff,
    mapFind_mem (configAfter_nodup ops)]

/-- LLVM's JSON library on flat objects: reading a printed object gives an object with the same
    entries (in whatever order it iterates them). -/
def JsonText.Faithful (J : JsonText) : Prop :=
  ∀ kvs : List (Str × Str), KeysNodup kvs →
    ∃ kvs', J.parse (J.print (.obj (kvs.map fun e => (e.1, .str e.2)))) =
      some (.obj (kvs'.map fun e => (e.1, .str e.2))) ∧ KeysNodup kvs' ∧
      ∀ k, mapFind k kvs' = mapFind k kvs

theorem loadEntries_strings (kvs : List (Str × Str)) (c : Config) :
    loadEntries (kvs.map fun e => (e.1, .str e.2)) c =
      some (kvs.foldl (fun c e => mapSet e.1 (mkOption e.1 e.2) c) c) := by
  induction kvs generalizing c with
  | nil => rfl
  | cons e kvs ih => exact ih _

/-- Every value stored in a configuration comes from reading a text. -/
def Readable (c : Config) : Prop := ∀ n o, (n, o) ∈ c → o.name = n ∧ ∃ s, o.value = convert s

theorem mapFind_mkOption (kvs : List (Str × Str)) (h : KeysNodup kvs) (c : Config) (k : Str) :
    mapFind k (kvs.foldl (fun c e => mapSet e.1 (mkOption e.1 e.2) c) c) =
      match mapFind k kvs with
      | some v => some (mkOption k v)
      | none => mapFind k c := by
  induction kvs generalizing c with
  | nil => rfl
  | cons e es ih =>
    obtain ⟨k0, v0⟩ := e
    unfold KeysNodup at h
    rw [List.map_cons, List.nodup_cons] at h
    simp only [List.foldl_cons]
    rw [ih h.2]
    simp only [mapFind, mapFind_mapSet]
    by_cases hc : k0 = k
    · subst hc
      have : mapFind k0 es = none := by
        cases e : mapFind k0 es with
        | none => rfl
        | some v => exact absurd (List.mem_map.2 ⟨_, (mapFind_mem h.2).1 e, rfl⟩) h.1
      simp [this]
    · rw [if_neg hc, if_neg hc]

/-- The object that `dump` prints has string values only. -/
theorem dump_entries (c : Config) (o : List (Str × Str)) :
    c.foldl (fun o e => mapSet e.1 (.str e.2.value.asString) o) (o.map fun e => (e.1, Json.str e.2)) =
      (c.foldl (fun o e => mapSet e.1 e.2.value.asString o) o).map fun e => (e.1, Json.str e.2) := by
  have hset : ∀ (k v : Str) (o : List (Str × Str)),
      mapSet k (.str v) (o.map fun e => (e.1, Json.str e.2)) =
        (mapSet k v o).map fun e => (e.1, Json.str e.2) := by
    intro k v o
    induction o with
    | nil => rfl
    | cons e o ih =>
      simp only [List.map_cons, mapSet]
      split
      · rfl
      · rw [ih]; rfl
  induction c generalizing o with
  | nil => rfl
  | cons e c ih =>
    simp only [List.foldl_cons]
    rw [hset, ih]

/-- Dumping and loading gives a configuration with the same names and values. -/
theorem C12_dump_load (J : JsonText) (hJ : JsonText.Faithful J) (c : Config) (hk : KeysNodup c)
    (hr : Readable c) :
    ∃ c', createConfiguration J (c.dump J) = some c' ∧ ∀ n, mapFind n c' = mapFind n c := by
  have hd := dump_entries c []
  rw [List.map_nil] at hd
  unfold Config.dump createConfiguration
  rw [hd]
  obtain ⟨kvs', h1, h2, h3⟩ := hJ (c.foldl (fun o e => mapSet e.1 e.2.value.asString o) [])
    (keysNodup_foldl (fun (o : Option') => o.value.asString) c [] (by simp [KeysNodup]))
  rw [h1]
  simp only [loadEntries_strings]
  refine ⟨_, rfl, fun n => ?_⟩
  rw [mapFind_mkOption _ h2, h3, mapFind_foldl (fun (o : Option') => o.value.asString) c hk]
  cases e : mapFind n c with
  | none => rfl
  | some o =>
    simp only
    obtain ⟨h4, s, h5⟩ := hr n o ((mapFind_mem hk).1 e)
    obtain ⟨on, ov⟩ := o
    simp only [mkOption] at *
    subst h4
    rw [h5, C11_idempotent]

/-! A JSON printer and reader for flat objects that is faithful, so the hypothesis can be met: quotes
and backslashes are escaped. -/

namespace SampleJson

def esc : Str → Str
  | [] => ['"']
  | c :: s => if c = '"' ∨ c = '\\' then '\\' :: c :: esc s else c :: esc s

def unesc : Str → Option (Str × Str)
  | [] => none
  | '"' :: rest => some ([], rest)
  | '\\' :: c :: s => (unesc s).map fun r => (c :: r.1, r.2)
  | c :: s => (unesc s).map fun r => (c :: r.1, r.2)

theorem unesc_esc (s rest : Str) : unesc (esc s ++ rest) = some (s, rest) := by
  induction s with
  | nil => rfl
  | cons c s ih =>
    simp only [esc]
    by_cases h : c = '"' ∨ c = '\\'
    · rw [if_pos h]; simp [unesc, ih]
    · rw [if_neg h]
      have h1 : c ≠ '"' := fun e => h (.inl e)
      have h2 : c ≠ '\\' := fun e => h (.inr e)
      rw [List.cons_append, unesc]
      · simp [ih]
      · exact h1
      · intro c' s' e _; exact h2 e

/-- `{"k":"v","k":"v",}` -/
def printPairs : List (Str × Json) → Str
  | [] => ['}']
  | (k, .str v) :: kvs => '"' :: esc k ++ (':' :: '"' :: esc v) ++ ',' :: printPairs kvs
  | (_, _) :: _ => []

def parsePairs : Nat → Str → Option (List (Str × Json))
  | _, ['}'] => some []
  | n + 1, '"' :: s => match unesc s with
    | some (k, ':' :: '"' :: s') => match unesc s' with
      | some (v, ',' :: s'') => (parsePairs n s'').map ((k, .str v) :: ·)
      | _ => none
    | _ => none
  | _, _ => none

def json : JsonText where
  print
    | .obj kvs => '{' :: printPairs kvs
    | _ => []
  parse
    | '{' :: s => (parsePairs s.length s).map .obj
    | _ => none

theorem parse_print (kvs : List (Str × Str)) (n : Nat) (h : kvs.length ≤ n) :
    parsePairs n (printPairs (kvs.map fun e => (e.1, .str e.2))) =
      some (kvs.map fun e => (e.1, .str e.2)) := by
  induction kvs generalizing n with
  | nil => cases n <;> rfl
  | cons e kvs ih =>
    obtain ⟨k, v⟩ := e
    cases n with
    | zero => simp at h
    | succ n =>
      simp only [List.map_cons, printPairs, List.cons_append, List.append_assoc]
      rw [parsePairs]
      rw [unesc_esc]
      simp only
      rw [unesc_esc]
      simp only
      rw [ih n (by simpa using h)]
      rfl

theorem length_print (kvs : List (Str × Str)) :
    kvs.length ≤ (printPairs (kvs.map fun e => (e.1, Json.str e.2))).length := by
  induction kvs with
  | nil => simp
  | cons e kvs ih => obtain ⟨k, v⟩ := e; simp [printPairs] at *; omega

theorem faithful : JsonText.Faithful json := by
  intro kvs hk
  refine ⟨kvs, ?_, hk, fun _ => rfl⟩
  show ((parsePairs _ _).map Json.obj) = _
  rw [parse_print _ _ (length_print kvs)]
  rfl

end SampleJson

/-- The hypotheses of `C12_dump_load` are met by a real configuration. -/
example : JsonText.Faithful SampleJson.json ∧
    SampleJson.json.print (.obj [(c!"a\"b", .str c!"1")]) = c!"{\"a\\\"b\":\"1\",}" :=
  ⟨SampleJson.faithful, by decide⟩

/-- Configurations made by the interface satisfy the hypotheses: options are built from texts. -/
theorem C12_history_readable (ops : List ConfigOp)
    (h : ∀ o, .add o ∈ ops → ∃ s, o.value = convert s) :
    KeysNodup (configAfter ops) ∧ Readable (configAfter ops) := by
  refine ⟨configAfter_nodup ops, ?_⟩
  intro n o hm
  have hf := (mapFind_mem (configAfter_nodup ops)).2 hm
  refine ⟨(config_find ops n).2 n o hf, ?_⟩
  have h1 := (config_find ops n).1
  rw [hf] at h1
  simp only [Option.map_some] at h1
  have h2 := List.mem_of_getLast? h1.symm
  rw [List.mem_filterMap] at h2
  obtain ⟨op, hop, e⟩ := h2
  cases op with
  | set m v =>
    simp only at e
    split at e
    · exact ⟨v, (Option.some.inj e).symm⟩
    · cases e
  | add o' =>
    simp only at e
    split at e
    · rw [← Option.some.inj e]; exact h o' hop
    · cases e

/-- Loading fails exactly on texts that are no flat JSON object of strings. -/
theorem C12_load_iff (J : JsonText) (s : Str) :
    (∃ c, createConfiguration J s = some c) ↔
      ∃ kvs : List (Str × Str), J.parse s = some (.obj (kvs.map fun e => (e.1, .str e.2))) := by
  constructor
  · rintro ⟨c, h⟩
    unfold createConfiguration at h
    split at h
    · rename_i kvs e
      rw [e]
      have : ∀ (kvs : List (Str × Json)) (c0 : Config), loadEntries kvs c0 = some c →
          ∃ kvs' : List (Str × Str), kvs = kvs'.map fun e => (e.1, Json.str e.2) := by
        intro kvs
        induction kvs with
        | nil => intro c0 _; exact ⟨[], rfl⟩
        | cons e kvs ih =>
          intro c0 h
          obtain ⟨k, j⟩ := e
          cases j with
          | str v =>
            obtain ⟨kvs', rfl⟩ := ih _ h
            exact ⟨(k, v) :: kvs', rfl⟩
          | other => simp [loadEntries] at h
          | obj _ => simp [loadEntries] at h
      obtain ⟨kvs', rfl⟩ := this _ _ h
      exact ⟨kvs', rfl⟩
    · cases h
  · rintro ⟨kvs, h⟩
    unfold createConfiguration
    rw [h]
    exact ⟨_, loadEntries_strings _ _⟩

example : (configAfter [.set c!"a" c!"1", .set c!"b" c!"x", .set c!"a" c!"true"]).value c!"a" =
    some c!"true" := by decide

/-! ## C13 -/

/-- The const interface visits no option at all … -/
theorem C13_const_visits_nothing (c : Config) : c.iterateConst = [] := by
  simp [Config.iterateConst]

/-- … so it agrees with the non-const interface only on the empty configuration. -/
theorem C13_const_agrees_partial (c : Config) : c.iterateConst = c.iterate ↔ c = [] := by
  simp [Config.iterateConst, Config.iterate, eq_comm]

/-- The claim is false. -/
theorem C13_counterexample : ∃ c : Config, c.iterateConst ≠ c.iterate :=
  ⟨configAfter [.set c!"a" c!"1"], by decide⟩

end Verif.Props

import Verif.Sampling.Lemmas
import Verif.FM.Examples
/-!
# Sample sets

C46.
-/

namespace Verif.Props
open Verif Verif.Spec Verif.Sampling

variable {m : FModel}

/-! ## Reading -/

/-- A table is read as one configuration per row, the last row first, with exactly one option per column
    that names a feature, of the value the field has for that feature. -/
theorem C46_read (w : WF m) (E : Env) {t : Table} (ht : TableOk t) :
    ∃ cs : List Config, readConfigurations E m t = some cs.reverse ∧ cs.length = t.rows.length ∧ ∀ (k : Nat) (c : Config), cs[k]? = some c →
      (∀ n i f v, (n, i) ∈ m.features → data m i = some (.feat f) → Cell t k n v → c.value n = some (cellValue f.attr.kind v)) ∧
      ∀ n v, c.value n = some v → n ∈ t.columns ∧ ∃ i, (n, i) ∈ m.features := by
  obtain ⟨cs, h1, h2, h3⟩ := readConfigurations_spec w E ht
  exact ⟨cs, h1, h2, fun k c hc => ⟨(h3 k c hc).value, (h3 k c hc).only⟩⟩

theorem readRow_none (w : WF m) {columns row : List Str} : ∀ {is : List Id} (c : Config), (∀ i ∈ is, Known m i) →
    (readRow m columns row is c = none ↔ ∃ i ∈ is, ∃ n, (n, i) ∈ m.features ∧ n ∈ columns ∧ row.length ≤ columns.idxOf n)
  | [], c, _ => by simp [readRow]
  | i :: is, c, hk => by
    obtain ⟨n, f, h1, h2, h3⟩ := Xml.known_entry w (hk i (List.mem_cons_self ..))
    have ih := fun c => readRow_none w (columns := columns) (row := row) (is := is) c fun j hj => hk j (List.mem_cons_of_mem _ hj)
    have same : ∀ {n'}, (n', i) ∈ m.features → n' = f.attr.name := by
      intro n' h
      obtain ⟨f', e1, e2⟩ := w.feat_ok _ h
      rw [h2] at e1; cases e1
      exact e2.symm
    have hn : (f.attr.name, i) ∈ m.features := by rw [← same h1]; exact h1
    unfold readRow
    rw [feat?_of_data h2]
    dsimp only
    by_cases hin : f.attr.name ∈ columns
    · rw [if_pos hin]
      cases hv : field columns row f.attr.name with
      | none => simp only [true_iff]; exact ⟨i, List.mem_cons_self .., _, hn, hin, List.getElem?_eq_none_iff.1 hv⟩
      | some v =>
        dsimp only
        rw [ih]
        constructor
        · rintro ⟨j, hj, r⟩; exact ⟨j, List.mem_cons_of_mem _ hj, r⟩
        · rintro ⟨j, hj, n', k1, k2, k3⟩
          rcases List.mem_cons.1 hj with rfl | hj
          · rw [same k1] at k3
            have : row[columns.idxOf f.attr.name]? = none := List.getElem?_eq_none_iff.2 k3
            rw [show field columns row f.attr.name = none from this] at hv
            cases hv
          · exact ⟨j, hj, n', k1, k2, k3⟩
    · rw [if_neg hin, ih]
      constructor
      · rintro ⟨j, hj, r⟩; exact ⟨j, List.mem_cons_of_mem _ hj, r⟩
      · rintro ⟨j, hj, n', k1, k2, k3⟩
        rcases List.mem_cons.1 hj with rfl | hj
        · rw [same k1] at k2; exact absurd k2 hin
        · exact ⟨j, hj, n', k1, k2, k3⟩

theorem readRows_none (columns : List Str) (is : List Id) : ∀ (rows : List (List Str)) (cs : List Config),
    readRows m columns is rows cs = none ↔ ∃ r ∈ rows, readRow m columns r is [] = none
  | [], cs => by simp [readRows]
  | r :: rows, cs => by
    unfold readRows
    cases hr : readRow m columns r is [] with
    | none => simp [hr]
    | some c => dsimp only; rw [readRows_none columns is rows]; simp [hr]

/-- If rows come shorter than the header, reading fails exactly if one of them ends before the column of a feature; then no
    configuration is returned at all. -/
theorem C46_short_row (w : WF m) (E : Env) (t : Table) : readConfigurations E m t = none ↔
    ∃ row ∈ t.rows, ∃ n i, (n, i) ∈ m.features ∧ n ∈ t.columns ∧ row.length ≤ t.columns.idxOf n := by
  obtain ⟨r, is, hr, hit, _, hnd, hmem, _⟩ := Props.C25_preorder w E
  unfold readConfigurations
  rw [hit]
  dsimp only
  rw [readRows_none]
  constructor
  · rintro ⟨row, hrow, h⟩
    obtain ⟨i, _, n, h1, h2, h3⟩ := (readRow_none w [] (fun i hi => (hmem i).1 hi)).1 h
    exact ⟨row, hrow, n, i, h1, h2, h3⟩
  · rintro ⟨row, hrow, n, i, h1, h2, h3⟩
    exact ⟨row, hrow, (readRow_none w [] (fun i hi => (hmem i).1 hi)).2 ⟨i, (hmem i).2 (known_of_mem h1), n, h1, h2, h3⟩⟩

/-- Decimal numbers are kept as they are … -/
theorem C46_number (vs : Values) (s : Option StepFn) {v : Int} (h : IsInt64 v) : cellValue (.numeric vs s) (intText v) = intText v := by
  have := C11_int_roundtrip h
  show (convert (intText v)).asString = _
  rw [show intText v = (OptVal.int v).asString from rfl, this]

/-- … but a number with leading zero is read as octal and shown in decimal. -/
theorem C46_leading_zero (vs : Values) (s : Option StepFn) : cellValue (.numeric vs s) c!"010" = intText 8 := by
  show (convert c!"010").asString = _
  rw [show convert c!"010" = .int 8 by decide]
  rfl

/-- In general a field of a numeric feature is kept exactly if it is neither a number within 64 bits that is
    written differently from how numbers are printed (octal, hexadecimal, binary, leading zeros) nor a truth
    value with capital letters. -/
theorem C46_kept_iff (vs : Values) (s : Option StepFn) (v : Str) : cellValue (.numeric vs s) v = v ↔
    (∀ b, SpellsBool v b → v = c!"true" ∨ v = c!"false") ∧ ∀ k, IntegerText v k → IsInt64 k → v = intText k := by
  show (convert v).asString = v ↔ _
  cases h : convert v with
  | int k =>
    obtain ⟨h1, h2⟩ := (C11_integer_texts v k).1 h
    constructor
    · intro e
      refine ⟨fun b hb => ?_, fun k' hk hr => ?_⟩
      · obtain ⟨b', e'⟩ := (C11_boolean_texts v).2 ⟨b, hb⟩
        rw [h] at e'; cases e'
      · have := (C11_integer_texts v k').2 ⟨hk, hr⟩
        rw [h] at this; cases this
        exact e.symm
    · rintro ⟨_, e⟩
      exact (e k h1 h2).symm
  | bool b =>
    obtain ⟨b', hb⟩ := (C11_boolean_texts v).1 ⟨b, h⟩
    constructor
    · intro e
      refine ⟨fun _ _ => ?_, fun k hk hr => ?_⟩
      · rw [← e]; cases b
        · exact .inr rfl
        · exact .inl rfl
      · have := (C11_integer_texts v k).2 ⟨hk, hr⟩
        rw [h] at this; cases this
    · rintro ⟨e, _⟩
      rcases e b' hb with rfl | rfl
      · rw [← h]; decide
      · rw [← h]; decide
  | str t =>
    have ht : t = v := by
      unfold convert at h
      split at h
      · cases h
      · split at h
        · cases h
        · cases h; rfl
    subst ht
    obtain ⟨h1, h2⟩ := (C11_other_strings t).1 h
    refine ⟨fun _ => ⟨fun b hb => absurd hb (h1 b), fun k hk hr => absurd hr (h2 k hk)⟩, fun _ => rfl⟩

/-! ## Writing -/

theorem length_of_indexed {es : List (Str × Str)} {cs : List Config} {g : Config → Str} (hs : es.Pairwise fun a b => strLt a.1 b.1 = true)
    (he : ∀ e, e ∈ es ↔ ∃ j c, cs[j]? = some c ∧ e = (natText j, g c)) :
    (es.map Prod.fst).Perm ((List.range cs.length).map natText) := by
  refine (List.perm_ext_iff_of_nodup ?_ ?_).2 ?_
  · exact List.pairwise_map.2 (hs.imp fun h e => by rw [e, strLt_irrefl] at h; cases h)
  · exact List.pairwise_map.2 (List.nodup_range.imp fun h e => h (natText_inj e))
  · intro k
    simp only [List.mem_map, List.mem_range]
    constructor
    · rintro ⟨e, hm, rfl⟩
      obtain ⟨j, c, h1, rfl⟩ := (he e).1 hm
      exact ⟨j, (List.getElem?_eq_some_iff.1 h1).1, rfl⟩
    · rintro ⟨j, hj, rfl⟩
      exact ⟨(natText j, g cs[j]), (he _).2 ⟨j, cs[j], List.getElem?_eq_getElem hj, rfl⟩, rfl⟩

/-- Every configuration is written once, under its number, as the list of the output strings of the
    features it selects, in the order of the model (`Pre`: preorder, siblings in alphabetical order), with
    the value appended for numeric features.  The entries are ordered by the text of their number. -/
theorem C46_write (w : WF m) (E : Env) (cs : List Config) :
    ∃ r is es, m.root = some r ∧ Pre m r is ∧ writeConfigurations E m cs = some es ∧ es.length = cs.length ∧
      (∀ (k : Nat) (c : Config), cs[k]? = some c → (natText k, c!"[" ++ listed (is.filterMap (shown m c)) ++ c!"]") ∈ es) ∧
      es.Pairwise fun a b => strLt a.1 b.1 = true := by
  obtain ⟨r, is, hr, hit, hpre, hnd, hmem, _⟩ := C25_preorder w E
  obtain ⟨es, h1, h2, h3⟩ := writeAll_spec w (is := is) (fun i hi => (hmem i).1 hi) (cs := cs) 0 (es := []) .nil (by simp)
  simp only [List.not_mem_nil, Nat.zero_add, false_or] at h3
  refine ⟨r, is, es, hr, hpre, ?_, ?_, ?_, h2⟩
  · unfold writeConfigurations; rw [hit]; exact h1
  · have := (length_of_indexed h2 h3).length_eq
    simpa using this
  · intro k c hc
    exact (h3 _).2 ⟨k, c, hc, rfl⟩

/-- A feature selected in a row is shown with its output string, one that is not is not. -/
theorem C46_selected (w : WF m) {t : Table} (ht : TableOk t) (E : Env) {cs : List Config} (hr : readConfigurations E m t = some cs.reverse)
    {k : Nat} {c : Config} (hc : cs[k]? = some c) {n : Str} {i : Id} {f : Feat} (hi : (n, i) ∈ m.features)
    (hd : data m i = some (.feat f)) (ho : f.attr.output ≠ []) (hb : f.attr.kind = .binary) {v : Str} (hv : Cell t k n v) :
    shown m c i = if v = c!"0" then none else some f.attr.output := by
  obtain ⟨cs', h1, h2, h3⟩ := C46_read w E ht
  rw [hr] at h1
  have : cs = cs' := by simpa using h1
  subst this
  have hval := (h3 k c hc).1 n i f v hi hd hv
  obtain ⟨f', f1, f2⟩ := w.feat_ok _ hi
  rw [hd] at f1; cases f1
  unfold shown
  rw [hd]
  dsimp only at f2 ⊢
  rw [if_neg ho, f2, hval, hb]
  by_cases h0 : v = c!"0"
  · simp [cellValue, h0]
  · simp [cellValue, h0]

/-- What is written for a configuration says which strings are shown, if none of them contains a
    quotation mark.  The claim has no such condition. -/
theorem C46_readable_partial {is : List Id} {c c' : Config} (h : ∀ s ∈ is.filterMap (shown m c), '"' ∉ s)
    (h' : ∀ s ∈ is.filterMap (shown m c'), '"' ∉ s)
    (he : listed (is.filterMap (shown m c)) = listed (is.filterMap (shown m c'))) :
    is.filterMap (shown m c) = is.filterMap (shown m c') := listed_inj h h' he

/-- With a quotation mark it may not: two lists that are written alike. -/
theorem C46_ambiguous : listed [c!"a", c!"b"] = listed [c!"a\", \"b"] := by decide

/-- In general: a list is written like the list in which two neighbours are one string with quotation
    marks and a comma. -/
theorem C46_quotation_marks (pre post : List Str) (a b : Str) :
    listed (pre ++ a :: b :: post) = listed (pre ++ (a ++ c!"\", \"" ++ b) :: post) := by
  induction pre with
  | nil => cases post <;> simp [listed]
  | cons x xs ih =>
    cases xs with
    | nil => cases post <;> simp [listed]
    | cons y ys =>
      simp only [List.cons_append] at ih ⊢
      simp only [listed] at ih ⊢
      rw [ih]

/-! ## The order of the entries -/

theorem sorted_unique : ∀ {l l' : List Str}, l.Perm l' → l.Pairwise (fun a b => strLt a b = true) →
    l'.Pairwise (fun a b => strLt a b = true) → l = l'
  | [], l', h, _, _ => (List.Perm.nil_eq h)
  | a :: l, [], h, _, _ => by simpa using h.length_eq
  | a :: l, b :: l', h, hs, hs' => by
    rw [List.pairwise_cons] at hs hs'
    have e : a = b := by
      have ha : a ∈ b :: l' := h.mem_iff.1 (by simp)
      have hb : b ∈ a :: l := h.mem_iff.2 (by simp)
      rcases List.mem_cons.1 ha with h1 | h1
      · exact h1
      · rcases List.mem_cons.1 hb with h2 | h2
        · exact h2.symm
        · have := strLt_asymm (hs.1 b h2)
          rw [hs'.1 a h1] at this
          cases this
    subst e
    rw [sorted_unique (List.Perm.cons_inv h) hs.2 hs'.2]

/-- Up to ten configurations are written in their order. -/
theorem C46_order_partial (w : WF m) (E : Env) {cs : List Config} {es : List (Str × Str)} (h : writeConfigurations E m cs = some es)
    (hl : cs.length ≤ 10) : es.map Prod.fst = (List.range cs.length).map natText := by
  obtain ⟨r, is, hr, hit, hpre, hnd, hmem, _⟩ := C25_preorder w E
  obtain ⟨es', h1, h2, h3⟩ := writeAll_spec w (is := is) (fun i hi => (hmem i).1 hi) (cs := cs) 0 (es := []) .nil (by simp)
  simp only [List.not_mem_nil, Nat.zero_add, false_or] at h3
  have e : writeConfigurations E m cs = some es' := by unfold writeConfigurations; rw [hit]; exact h1
  rw [h] at e; cases e
  refine sorted_unique (length_of_indexed h2 h3) (List.pairwise_map.2 h2) (List.pairwise_map.2 ?_)
  refine List.Pairwise.imp_of_mem ?_ List.pairwise_lt_range
  intro a b ha hb hab
  simp only [List.mem_range] at ha hb
  rw [natText, if_pos (by omega), natText, if_pos (by omega)]
  have hd : ∀ a b : Fin 10, a < b → strLt [digitChar a] [digitChar b] = true := by decide
  exact hd ⟨a, by omega⟩ ⟨b, by omega⟩ hab

/-- With more than ten the eleventh comes before the third. -/
theorem C46_order_fails (w : WF m) (E : Env) {cs : List Config} {es : List (Str × Str)} (h : writeConfigurations E m cs = some es)
    (hl : 10 < cs.length) : ∃ a b c, es.map Prod.fst = a ++ natText 10 :: b ++ natText 2 :: c := by
  obtain ⟨r, is, hr, hit, hpre, hnd, hmem, _⟩ := C25_preorder w E
  obtain ⟨es', h1, h2, h3⟩ := writeAll_spec w (is := is) (fun i hi => (hmem i).1 hi) (cs := cs) 0 (es := []) .nil (by simp)
  simp only [List.not_mem_nil, Nat.zero_add, false_or] at h3
  have e : writeConfigurations E m cs = some es' := by unfold writeConfigurations; rw [hit]; exact h1
  rw [h] at e; cases e
  have hp := length_of_indexed h2 h3
  have hs : (es.map Prod.fst).Pairwise fun a b => strLt a b = true := List.pairwise_map.2 h2
  have h10 : natText 10 ∈ es.map Prod.fst := hp.mem_iff.2 (List.mem_map.2 ⟨10, by simpa using hl, rfl⟩)
  have hlt : strLt (natText 10) (natText 2) = true := by
    have e1 : natText 10 = c!"10" := by simp [natText]; decide
    have e2 : natText 2 = c!"2" := by simp [natText]; decide
    rw [e1, e2]; decide
  have h2' : natText 2 ∈ es.map Prod.fst := hp.mem_iff.2 (List.mem_map.2 ⟨2, by simp; omega, rfl⟩)
  obtain ⟨a, b, hab⟩ := List.append_of_mem h10
  rw [hab] at hs h2' ⊢
  rcases List.mem_append.1 h2' with hm | hm
  · have := (List.pairwise_append.1 hs).2.2 _ hm (natText 10) (by simp)
    rw [strLt_asymm hlt] at this
    cases this
  · rcases List.mem_cons.1 hm with e | hm
    · rw [e, strLt_irrefl] at hlt; cases hlt
    · obtain ⟨x, y, rfl⟩ := List.append_of_mem hm
      exact ⟨a, x, y, by simp⟩

/-! ## Not vacuous -/

def flagNode (n o : String) (parent : Option Id) (edges : List Id) (kind : FKind := .binary) : Node :=
  { data := .feat { attr := { name := n.toList, kind := kind, output := o.toList } }, parent := parent, edges := edges }

/-- `root` with `A`, `B` and `N`. -/
def flagModel : FModel :=
  ofNodes [featNode "root" none [1, 2, 3] .root, flagNode "A" "-a" (some 0) [], flagNode "B" "-b" (some 0) [],
           flagNode "N" "-n " (some 0) [] (.numeric (.range 0 9) none)]
    (some 0) [(c!"root", 0), (c!"A", 1), (c!"B", 2), (c!"N", 3)] []

theorem flagModel_wf : WF flagModel := wf_of_check (fun i => i) (ofNodes_fresh _ _ _ _ _) (by decide)

def flagTable : Table := ⟨[c!"N", c!"root", c!"B", c!"time", c!"A"], [[c!"3", c!"1", c!"0", c!"7.5", c!"1"], [c!"4", c!"1", c!"1", c!"8", c!"0"]]⟩

theorem flagTable_ok : TableOk flagTable := ⟨by decide, by decide⟩

theorem natText_digit {n : Nat} (h : n < 10) : natText n = [digitChar n] := by rw [natText, if_pos h]

def flagConfig (a b : Bool) (n : Int) : Config :=
  [(c!"root", ⟨c!"root", .bool true⟩), (c!"A", ⟨c!"A", .bool a⟩), (c!"B", ⟨c!"B", .bool b⟩), (c!"N", ⟨c!"N", .int n⟩)]

theorem flagConfig_value (a b : Bool) (n : Int) : (flagConfig a b n).value c!"N" = some (intText n) ∧
    (flagConfig a b n).value c!"A" = some (OptVal.bool a).asString ∧ (flagConfig a b n).value c!"B" = some (OptVal.bool b).asString ∧
    (flagConfig a b n).value c!"root" = some c!"true" := ⟨rfl, rfl, rfl, rfl⟩

/-- The two rows are written in reverse order. -/
theorem C46_example : readConfigurations (stdEnv true) flagModel flagTable = some [flagConfig false true 4, flagConfig true false 3] ∧
    writeConfigurations (stdEnv true) flagModel [flagConfig false true 4, flagConfig true false 3] =
      some [(c!"0", c!"[\"-b\", \"-n 4\"]"), (c!"1", c!"[\"-a\", \"-n 3\"]")] := by
  refine ⟨by decide, ?_⟩
  have hit : flagModel.iterate (stdEnv true) = some [0, 1, 2, 3] := by decide
  have v4 : intText 4 = c!"4" := natText_digit (n := 4) (by decide)
  have v3 : intText 3 = c!"3" := natText_digit (n := 3) (by decide)
  have d0 : data flagModel 0 = some (.feat { attr := { name := c!"root", kind := .root } }) := by decide
  have d1 : data flagModel 1 = some (.feat { attr := { name := c!"A", kind := .binary, output := c!"-a" } }) := by decide
  have d2 : data flagModel 2 = some (.feat { attr := { name := c!"B", kind := .binary, output := c!"-b" } }) := by decide
  have d3 : data flagModel 3 = some (.feat { attr := { name := c!"N", kind := .numeric (.range 0 9) none, output := c!"-n " } }) := by
    decide
  obtain ⟨a1, a2, a3, a4⟩ := flagConfig_value false true 4
  obtain ⟨b1, b2, b3, b4⟩ := flagConfig_value true false 3
  rw [v4] at a1
  rw [v3] at b1
  have e1 : flags flagModel (flagConfig false true 4) [0, 1, 2, 3] c!"[" = some c!"[\"-b\", \"-n 4\"" := by
    simp only [flags, feat?_of_data d0, feat?_of_data d1, feat?_of_data d2, feat?_of_data d3, a1, a2, a3, a4]
    decide
  have e2 : flags flagModel (flagConfig true false 3) [0, 1, 2, 3] c!"[" = some c!"[\"-a\", \"-n 3\"" := by
    simp only [flags, feat?_of_data d0, feat?_of_data d1, feat?_of_data d2, feat?_of_data d3, b1, b2, b3, b4]
    decide
  unfold writeConfigurations
  rw [hit]
  simp only [writeAll, e1, e2, natText_digit (show 0 < 10 by decide), natText_digit (show 0 + 1 < 10 by decide)]
  decide

/-- A row that ends before the column of feature `A`, with complete rows around it. -/
example : readConfigurations (stdEnv true) flagModel
    ⟨flagTable.columns, [[c!"3", c!"1", c!"0", c!"7.5", c!"1"], [c!"4", c!"1", c!"1", c!"8"], [c!"4", c!"1", c!"1", c!"8", c!"0"]]⟩ = none :=
  (C46_short_row flagModel_wf _ _).2 ⟨[c!"4", c!"1", c!"1", c!"8"], by decide, c!"A", 1, by decide, by decide, by decide⟩

end Verif.Props

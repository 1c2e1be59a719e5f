import Verif.Sampling.Spec
import Verif.Config.Lemmas
import Verif.FM.Order
import Verif.Props.Iteration
import Verif.Props.Configuration
import Verif.Xml.Write
/-!
# Sample sets: proofs
-/

namespace Verif.Sampling
open Verif Verif.Spec Verif.Xml

variable {m : FModel}

/-! ## Reading -/

theorem idxOf_get {l : List Str} (h : l.Nodup) {j : Nat} {n : Str} (hj : l[j]? = some n) : l.idxOf n = j := by
  obtain ⟨hlt, rfl⟩ := List.getElem?_eq_some_iff.1 hj
  exact h.idxOf_getElem j hlt

theorem value_set (c : Config) (n v k : Str) : (c.set n v).value k = if n = k then some (convert v).asString else c.value k := by
  unfold Config.value Config.set Config.add
  rw [mapFind_mapSet]
  by_cases h : n = k
  · subst h; simp [mkOption]
  · simp [mkOption, h, Ne.symm h]

theorem convert_option (k : FKind) (v : Str) : (convert (optionText k v)).asString = cellValue k v := by
  have ht : (convert c!"true").asString = c!"true" := by decide
  have hf : (convert c!"false").asString = c!"false" := by decide
  cases k <;> simp only [optionText, cellValue] <;> simp <;> split <;> assumption

/-- A row is read: features named by a column get the value of the field, nothing else changes. -/
theorem readRow_spec (w : WF m) {columns row : List Str} (hc : columns.Nodup) (hr : row.length = columns.length) :
    ∀ {is : List Id} (c : Config), (∀ i ∈ is, Known m i) → is.Nodup →
    ∃ c', readRow m columns row is c = some c' ∧
      (∀ n, (∀ i ∈ is, ∀ f, data m i = some (.feat f) → f.attr.name = n → n ∉ columns) → c'.value n = c.value n) ∧
      ∀ i ∈ is, ∀ f, data m i = some (.feat f) → ∀ (j : Nat) (v : Str), columns[j]? = some f.attr.name → row[j]? = some v →
        c'.value f.attr.name = some (cellValue f.attr.kind v)
  | [], c, _, _ => ⟨c, rfl, fun _ _ => rfl, by simp⟩
  | i :: is, c, hk, hn => by
    obtain ⟨n, f, h1, h2, h3⟩ := known_entry w (hk i (by simp))
    rw [List.nodup_cons] at hn
    unfold readRow
    rw [feat?_of_data h2]
    dsimp only
    have hdiff : ∀ j ∈ is, ∀ g, data m j = some (.feat g) → g.attr.name ≠ f.attr.name := by
      intro j hj g hg e
      obtain ⟨n', g', k1, k2, k3⟩ := known_entry w (hk j (by simp [hj]))
      rw [hg] at k2; cases k2
      rw [e, h3] at k3
      subst k3
      have := w.entry_unique h1 k1
      subst this
      exact hn.1 hj
    by_cases hin : f.attr.name ∈ columns
    · rw [if_pos hin]
      obtain ⟨j, hj⟩ := List.mem_iff_getElem?.1 hin
      have hlt : j < row.length := by rw [hr]; exact (List.getElem?_eq_some_iff.1 hj).1
      have hv : row[j]? = some row[j] := List.getElem?_eq_getElem hlt
      have hfield : field columns row f.attr.name = some row[j] := by
        unfold field
        rw [idxOf_get hc hj, hv]
      rw [hfield]
      dsimp only
      obtain ⟨c', e1, e2, e3⟩ := readRow_spec w hc hr (is := is) (c.set f.attr.name (optionText f.attr.kind row[j]))
        (fun x hx => hk x (by simp [hx])) hn.2
      refine ⟨c', e1, ?_, ?_⟩
      · intro k hk'
        rw [e2 k fun x hx g hg e => hk' x (by simp [hx]) g hg e, value_set, if_neg]
        intro e
        exact hk' i (by simp) f h2 e (e ▸ hin)
      · intro x hx g hg j' v hj' hv'
        rcases List.mem_cons.1 hx with rfl | hx
        · rw [h2] at hg; cases hg
          rw [e2 _ fun y hy g' hg' e => absurd e (hdiff y hy g' hg'), value_set, if_pos rfl, convert_option]
          have : j' = j := by rw [← idxOf_get hc hj', idxOf_get hc hj]
          subst this
          rw [hv] at hv'; cases hv'
          rfl
        · exact e3 x hx g hg j' v hj' hv'
    · rw [if_neg hin]
      obtain ⟨c', e1, e2, e3⟩ := readRow_spec w hc hr (is := is) c (fun x hx => hk x (by simp [hx])) hn.2
      refine ⟨c', e1, ?_, ?_⟩
      · intro k hk'
        exact e2 k fun x hx g hg e => hk' x (by simp [hx]) g hg e
      · intro x hx g hg j' v hj' hv'
        rcases List.mem_cons.1 hx with rfl | hx
        · rw [h2] at hg; cases hg
          exact absurd (List.mem_of_getElem? hj') hin
        · exact e3 x hx g hg j' v hj' hv'

theorem readRows_spec (columns : List Str) (is : List Id) : ∀ {rows : List (List Str)} (cs : List Config),
    (∀ r ∈ rows, ∃ c, readRow m columns r is [] = some c) →
    ∃ cs' : List Config, readRows m columns is rows cs = some (cs'.reverse ++ cs) ∧ cs'.length = rows.length ∧
      ∀ (k : Nat) (r : List Str) (c : Config), rows[k]? = some r → cs'[k]? = some c → readRow m columns r is [] = some c
  | [], cs, _ => ⟨[], rfl, rfl, by simp⟩
  | r :: rows, cs, h => by
    obtain ⟨c, hc⟩ := h r (by simp)
    obtain ⟨cs', h1, h2, h3⟩ := readRows_spec columns is (rows := rows) (c :: cs) fun r hr => h r (by simp [hr])
    refine ⟨c :: cs', ?_, by simp [h2], ?_⟩
    · unfold readRows
      rw [hc]
      dsimp only
      rw [h1]
      simp
    · intro k r' c' hr hc'
      cases k with
      | zero => simp at hr hc'; subst hr; subst hc'; exact hc
      | succ k => exact h3 k r' c' (by simpa using hr) (by simpa using hc')

/-- The configuration read from a row. -/
structure RowRead (m : FModel) (t : Table) (k : Nat) (c : Config) : Prop where
  /-- features with a column have the value of the field -/
  value : ∀ n i f v, (n, i) ∈ m.features → data m i = some (.feat f) → Cell t k n v → c.value n = some (cellValue f.attr.kind v)
  /-- there are no other options -/
  only : ∀ n v, c.value n = some v → n ∈ t.columns ∧ ∃ i, (n, i) ∈ m.features

theorem readConfigurations_spec (w : WF m) (E : Env) {t : Table} (ht : TableOk t) :
    ∃ cs : List Config, readConfigurations E m t = some cs.reverse ∧ cs.length = t.rows.length ∧
      ∀ (k : Nat) (c : Config), cs[k]? = some c → RowRead m t k c := by
  obtain ⟨r, is, hr, hit, _, hnd, hmem, _⟩ := Props.C25_preorder w E
  unfold readConfigurations
  rw [hit]
  dsimp only
  have hrow : ∀ row ∈ t.rows, _ := fun row hrow =>
    readRow_spec w ht.columns (ht.rows row hrow) (is := is) [] (fun i hi => (hmem i).1 hi) hnd
  obtain ⟨cs, h1, h2, h3⟩ := readRows_spec (m := m) t.columns is (rows := t.rows) [] fun r hr => by
    obtain ⟨c, hc, _⟩ := hrow r hr
    exact ⟨c, hc⟩
  refine ⟨cs, by simpa using h1, h2, ?_⟩
  intro k c hc
  have hk : k < t.rows.length := by rw [← h2]; exact (List.getElem?_eq_some_iff.1 hc).1
  have hrk : t.rows[k]? = some t.rows[k] := List.getElem?_eq_getElem hk
  have e := h3 k _ c hrk hc
  obtain ⟨c', e1, e2, e3⟩ := hrow t.rows[k] (List.getElem_mem hk)
  rw [e] at e1; cases e1
  constructor
  · rintro n i f v hi hd ⟨row, j, c1, c2, c3⟩
    rw [hrk] at c1; cases c1
    obtain ⟨f', d1, d2⟩ := w.feat_ok _ hi
    rw [hd] at d1; cases d1
    dsimp only at d2
    subst d2
    exact e3 i ((hmem i).2 (known_of_mem hi)) f hd j v c2 c3
  · intro n v hv
    apply Classical.byContradiction
    intro hne
    have := e2 n (by
      intro i hi f hf hn hc
      obtain ⟨n', f', k1, k2, k3⟩ := known_entry w ((hmem i).1 hi)
      rw [hf] at k2; cases k2
      rw [hn] at k3
      subst k3
      exact hne ⟨hc, i, k1⟩)
    rw [hv] at this
    cases this

/-! ## Writing -/

/-- What is appended to a text so far. -/
def joined : Bool → List Str → Str
  | _, [] => []
  | first, s :: ss => (if first then [] else c!", ") ++ c!"\"" ++ s ++ c!"\"" ++ joined false ss

theorem joined_false : ∀ {ss : List Str}, ss ≠ [] → joined false ss = c!", " ++ joined true ss
  | s :: ss, _ => by simp [joined]

theorem listed_eq : ∀ ss : List Str, joined true ss = listed ss
  | [] => rfl
  | [s] => by simp [joined, listed]
  | s :: t :: ss => by
    have ih := listed_eq (t :: ss)
    rw [joined, listed, joined_false (by simp), ih]
    · simp
    · simp

theorem flags_spec (w : WF m) (c : Config) : ∀ {is : List Id} {acc : Str}, (∀ i ∈ is, Known m i) → acc ≠ [] →
    flags m c is acc = some (acc ++ joined (decide (acc.length = 1)) (is.filterMap (shown m c)))
  | [], acc, _, _ => by simp [flags, joined]
  | i :: is, acc, hk, ha => by
    obtain ⟨n, f, h1, h2, h3⟩ := known_entry w (hk i (by simp))
    have ih := fun {acc : Str} (h : acc ≠ []) => flags_spec w c (is := is) (acc := acc) (fun x hx => hk x (by simp [hx])) h
    unfold flags
    rw [feat?_of_data h2]
    dsimp only
    rw [List.filterMap_cons]
    have hs : shown m c i = if f.attr.output = [] then none
        else match c.value f.attr.name with
          | none => none
          | some v => if v = c!"false" then none
            else match f.attr.kind with
              | .numeric _ _ => some (f.attr.output ++ v)
              | _ => some f.attr.output := by
      unfold shown; rw [h2]; rfl
    rw [hs]
    cases hv : c.value f.attr.name with
    | none =>
      dsimp only
      rw [ih ha]
      simp
    | some v =>
      dsimp only
      by_cases hsel : v ≠ c!"false" ∧ f.attr.output ≠ []
      · rw [if_pos hsel, if_neg hsel.2, if_neg hsel.1]
        have hl : ∀ s : Str, ((if acc.length ≠ 1 then acc ++ c!", " else acc) ++ c!"\"" ++ f.attr.output ++ s ++ c!"\"").length ≠ 1 := by
          intro s
          have : acc.length ≠ 0 := by simpa using ha
          split <;> simp only [List.length_append, List.length_cons, List.length_nil] <;> omega
        rw [ih (by simp), decide_eq_false (hl _)]
        have hjoin : ∀ s : Str, (if acc.length ≠ 1 then acc ++ c!", " else acc) ++ c!"\"" ++ f.attr.output ++ s ++ c!"\"" ++
            joined false (is.filterMap (shown m c)) =
            acc ++ joined (decide (acc.length = 1)) ((f.attr.output ++ s) :: is.filterMap (shown m c)) := by
          intro s
          by_cases h1 : acc.length = 1
          · simp [h1, joined]
          · simp [h1, joined]
        rw [hjoin]
        cases f.attr.kind <;> simp
      · rw [if_neg hsel, ih ha]
        by_cases ho : f.attr.output = []
        · rw [if_pos ho]
        · have : v = c!"false" := by
            apply Classical.byContradiction
            intro h
            exact hsel ⟨h, ho⟩
          rw [if_neg ho, if_pos this]

theorem mapInsert_sorted {k v : Str} : ∀ {es : List (Str × Str)}, es.Pairwise (fun a b => strLt a.1 b.1 = true) →
    (mapInsert k v es).Pairwise (fun a b => strLt a.1 b.1 = true) ∧
    ∀ e, e ∈ mapInsert k v es ↔ e = (k, v) ∨ (e ∈ es ∧ e.1 ≠ k)
  | [], _ => by simp [mapInsert]
  | (k', v') :: es, h => by
    rw [List.pairwise_cons] at h
    unfold mapInsert
    by_cases h1 : strLt k k' = true
    · rw [if_pos h1]
      refine ⟨List.pairwise_cons.2 ⟨?_, List.pairwise_cons.2 h⟩, ?_⟩
      · intro e he
        rcases List.mem_cons.1 he with rfl | he
        · exact h1
        · exact strLt_trans h1 (h.1 e he)
      · intro e
        have hne : ∀ e ∈ (k', v') :: es, e.1 ≠ k := by
          intro e he hk
          rcases List.mem_cons.1 he with rfl | he
          · rw [← hk, strLt_irrefl] at h1; cases h1
          · have := h.1 e he
            rw [hk] at this
            rw [strLt_asymm h1] at this; cases this
        simp only [List.mem_cons]
        constructor
        · rintro (h | h)
          · exact .inl h
          · exact .inr ⟨h, hne e (by simpa using h)⟩
        · rintro (h | ⟨h, _⟩)
          · exact .inl h
          · exact .inr h
    · rw [if_neg h1]
      by_cases h2 : strLt k' k = true
      · rw [if_pos h2]
        obtain ⟨i1, i2⟩ := mapInsert_sorted (k := k) (v := v) h.2
        refine ⟨List.pairwise_cons.2 ⟨?_, i1⟩, ?_⟩
        · intro e he
          rcases (i2 e).1 he with rfl | ⟨he, _⟩
          · exact h2
          · exact h.1 e he
        · intro e
          rw [List.mem_cons, i2, List.mem_cons]
          constructor
          · rintro (rfl | h | ⟨h, h'⟩)
            · refine .inr ⟨.inl rfl, ?_⟩
              intro e
              dsimp only at e
              rw [e, strLt_irrefl] at h2; cases h2
            · exact .inl h
            · exact .inr ⟨.inr h, h'⟩
          · rintro (h | ⟨h | h, h'⟩)
            · exact .inr (.inl h)
            · exact .inl h
            · exact .inr (.inr ⟨h, h'⟩)
      · rw [if_neg h2]
        have e : k' = k := strLt_total (by simpa using h2) (by simpa using h1)
        subst e
        refine ⟨List.pairwise_cons.2 ⟨h.1, h.2⟩, ?_⟩
        intro e
        simp only [List.mem_cons]
        constructor
        · rintro (h' | h')
          · exact .inl h'
          · refine .inr ⟨.inr h', fun hk => ?_⟩
            have := h.1 e h'
            rw [hk, strLt_irrefl] at this; cases this
        · rintro (h' | ⟨h' | h', hk⟩)
          · exact .inl h'
          · subst h'; exact absurd rfl hk
          · exact .inr h'

theorem natText_inj {a b : Nat} (h : natText a = natText b) : a = b := by
  rw [← natText_value a, h, natText_value]

/-- The text of a configuration. -/
def configText (m : FModel) (is : List Id) (c : Config) : Str := c!"[" ++ listed (is.filterMap (shown m c)) ++ c!"]"

theorem writeAll_spec (w : WF m) {is : List Id} (hk : ∀ i ∈ is, Known m i) : ∀ {cs : List Config} (k : Nat) {es : List (Str × Str)},
    es.Pairwise (fun a b => strLt a.1 b.1 = true) → (∀ e ∈ es, ∃ j, j < k ∧ e.1 = natText j) →
    ∃ es', writeAll m is k cs es = some es' ∧ es'.Pairwise (fun a b => strLt a.1 b.1 = true) ∧
      ∀ e, e ∈ es' ↔ e ∈ es ∨ ∃ j c, cs[j]? = some c ∧ e = (natText (k + j), configText m is c)
  | [], k, es, hs, _ => ⟨es, rfl, hs, by simp⟩
  | c :: cs, k, es, hs, he => by
    obtain ⟨i1, i2⟩ := mapInsert_sorted (k := natText k) (v := configText m is c) hs
    obtain ⟨es', h1, h2, h3⟩ := writeAll_spec w hk (cs := cs) (k + 1) i1 (by
      intro e hm
      rcases (i2 e).1 hm with rfl | ⟨hm, _⟩
      · exact ⟨k, by omega, rfl⟩
      · obtain ⟨j, hj, e⟩ := he e hm
        exact ⟨j, by omega, e⟩)
    refine ⟨es', ?_, h2, ?_⟩
    · unfold writeAll
      rw [flags_spec w c hk (by simp)]
      dsimp only
      rw [show (c!"[" : Str).length = 1 from rfl, decide_eq_true rfl, listed_eq]
      exact h1
    · intro e
      rw [h3, i2]
      constructor
      · rintro ((rfl | ⟨h, _⟩) | ⟨j, c', h, rfl⟩)
        · exact .inr ⟨0, c, rfl, rfl⟩
        · exact .inl h
        · exact .inr ⟨j + 1, c', by simpa using h, by rw [show k + 1 + j = k + (j + 1) by omega]⟩
      · rintro (h | ⟨j, c', h, rfl⟩)
        · refine .inl (.inr ⟨h, fun e' => ?_⟩)
          obtain ⟨j, hj, e''⟩ := he e h
          rw [e''] at e'
          have := natText_inj e'
          omega
        · cases j with
          | zero => simp at h; subst h; exact .inl (.inl rfl)
          | succ j => exact .inr ⟨j, c', by simpa using h, by rw [show k + 1 + j = k + (j + 1) by omega]⟩

/-! ## Reading what is written -/

theorem split_quote : ∀ {s s' r r' : Str}, '"' ∉ s → '"' ∉ s' → s ++ '"' :: r = s' ++ '"' :: r' → s = s' ∧ r = r'
  | [], [], r, r', _, _, h => by simpa using h
  | [], c :: s', r, r', _, h2, h => by
    simp at h
    exact absurd (by simp [← h.1]) h2
  | c :: s, [], r, r', h1, _, h => by
    simp at h
    exact absurd (by simp [h.1]) h1
  | c :: s, c' :: s', r, r', h1, h2, h => by
    simp only [List.cons_append, List.cons.injEq] at h
    obtain ⟨a, b⟩ := split_quote (fun e => h1 (by simp [e])) (fun e => h2 (by simp [e])) h.2
    exact ⟨by rw [h.1, a], b⟩

theorem joined_inj : ∀ {ss ss' : List Str} {b : Bool}, (∀ s ∈ ss, '"' ∉ s) → (∀ s ∈ ss', '"' ∉ s) → joined b ss = joined b ss' → ss = ss'
  | [], [], _, _, _, _ => rfl
  | [], s :: ss, b, _, _, h => by cases b <;> simp [joined] at h
  | s :: ss, [], b, _, _, h => by cases b <;> simp [joined] at h
  | s :: ss, t :: ts, b, h1, h2, h => by
    simp only [joined, List.append_assoc, List.append_cancel_left_eq, List.cons_append, List.nil_append, List.cons.injEq, true_and] at h
    obtain ⟨a, e⟩ := split_quote (h1 s (by simp)) (h2 t (by simp)) h
    rw [a, joined_inj (fun x hx => h1 x (by simp [hx])) (fun x hx => h2 x (by simp [hx])) e]

theorem listed_inj {ss ss' : List Str} (h1 : ∀ s ∈ ss, '"' ∉ s) (h2 : ∀ s ∈ ss', '"' ∉ s) (h : listed ss = listed ss') : ss = ss' := by
  rw [← listed_eq, ← listed_eq] at h
  exact joined_inj h1 h2 h

end Verif.Sampling

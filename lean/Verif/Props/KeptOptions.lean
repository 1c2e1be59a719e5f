import Verif.Config.Objects
import Verif.Config.Lemmas
import Verif.Props.Configuration
/-!
# Option objects and iterators kept while a configuration is changed (C106)
-/

namespace Verif.Props
open Verif Objs

variable {K : Table} {c c' : Conf}

/-! ## Adding an option -/

theorem says_iff (h : Objs.Ok c) {n : Str} {o : Option'} : c.says n = some o ↔ ∃ p, (n, p) ∈ c.entries ∧ c.objs p = some o := by
  unfold Conf.says
  rw [Option.bind_eq_some_iff]
  constructor
  · rintro ⟨p, a, b⟩; exact ⟨p, (mapFind_mem h.keys).1 a, b⟩
  · rintro ⟨p, a, b⟩; exact ⟨p, (mapFind_mem h.keys).2 a, b⟩

theorem entry_unique_name (h : Objs.Ok c) {n n' : Str} {p : Nat} (a : (n, p) ∈ c.entries) (b : (n', p) ∈ c.entries) : n = n' := by
  obtain ⟨o, h1, h2⟩ := h.live _ a
  obtain ⟨o', h3, h4⟩ := h.live _ b
  simp only at h1 h2 h3 h4
  rw [h1] at h3; cases h3
  exact h2.symm.trans h4

theorem entry_lt (h : Objs.Ok c) {n : Str} {p : Nat} (a : (n, p) ∈ c.entries) : p < c.next := by
  obtain ⟨o, h1, _⟩ := h.live _ a
  exact h.fresh p (by simp only at h1; rw [h1]; simp)

/-- The entries afterwards. -/
theorem add_entries (hK : Keeps K) (h : Objs.Ok c) (o : Option') {n : Str} {p : Nat} :
    (n, p) ∈ (c.add K o).entries ↔ (n = o.name ∧ p = c.next) ∨ (n ≠ o.name ∧ (n, p) ∈ c.entries) := by
  unfold Conf.add
  cases hf : mapFind o.name c.entries with
  | some q =>
    simp only
    rw [← mapFind_mem (keysNodup_mapSet h.keys _ _), mapFind_mapSet]
    by_cases hn : o.name = n
    · subst hn; simp [eq_comm]
    · rw [if_neg hn, mapFind_mem h.keys]
      simp [Ne.symm hn]
  | none =>
    simp only
    rw [(hK _ _).mem_iff, List.mem_cons]
    have hno : ∀ q, (o.name, q) ∉ c.entries := by
      intro q hq
      rw [(mapFind_mem h.keys).2 hq] at hf; cases hf
    constructor
    · rintro (e | e)
      · cases e; exact .inl ⟨rfl, rfl⟩
      · exact .inr ⟨fun x => hno p (x ▸ e), e⟩
    · rintro (⟨rfl, rfl⟩ | ⟨_, e⟩)
      · exact .inl rfl
      · exact .inr e

/-- The objects afterwards. -/
theorem add_objs (h : Objs.Ok c) (o : Option') (i : Nat) : (c.add K o).objs i =
    if i = c.next then some o else if (o.name, i) ∈ c.entries then none else c.objs i := by
  unfold Conf.add
  cases hf : mapFind o.name c.entries with
  | some q =>
    simp only
    have hq := (mapFind_mem h.keys).1 hf
    by_cases hi : i = q
    · subst hi; simp [hq]
    · have : (o.name, i) ∉ c.entries := by
        intro e
        rw [(mapFind_mem h.keys).2 e] at hf
        cases hf; exact hi rfl
      simp [hi, this]
  | none =>
    simp only
    have : (o.name, i) ∉ c.entries := by
      intro e
      rw [(mapFind_mem h.keys).2 e] at hf; cases hf
    simp [this]

theorem add_next (o : Option') : (c.add K o).next = c.next + 1 := by
  unfold Conf.add; cases mapFind o.name c.entries <;> rfl

theorem add_ok (hK : Keeps K) (h : Objs.Ok c) (o : Option') : Objs.Ok (c.add K o) := by
  refine ⟨?_, ?_, ?_, ?_⟩
  · unfold Conf.add
    cases hf : mapFind o.name c.entries with
    | some q => exact keysNodup_mapSet h.keys _ _
    | none =>
      simp only
      refine ((hK _ _).map Prod.fst).nodup_iff.2 ?_
      rw [List.map_cons, List.nodup_cons]
      refine ⟨?_, h.keys⟩
      intro e
      obtain ⟨⟨n, q⟩, e1, e2⟩ := List.mem_map.1 e
      simp only at e2; subst e2
      rw [(mapFind_mem h.keys).2 e1] at hf; cases hf
  · rintro ⟨n, p⟩ he
    rcases (add_entries hK h o).1 he with ⟨rfl, rfl⟩ | ⟨hn, he⟩
    · exact ⟨o, by rw [add_objs h]; simp, rfl⟩
    · obtain ⟨o', h1, h2⟩ := h.live _ he
      refine ⟨o', ?_, h2⟩
      rw [add_objs h, if_neg (Nat.ne_of_lt (entry_lt h he)), if_neg]
      · exact h1
      · exact fun e => hn (entry_unique_name h he e)
  · intro i hi
    rw [add_objs h] at hi
    by_cases e : i = c.next
    · exact List.mem_map.2 ⟨(o.name, i), (add_entries hK h o).2 (.inl ⟨rfl, e⟩), rfl⟩
    · rw [if_neg e] at hi
      by_cases e' : (o.name, i) ∈ c.entries
      · rw [if_pos e'] at hi; exact absurd rfl hi
      · rw [if_neg e'] at hi
        obtain ⟨⟨n, p⟩, h1, rfl⟩ := List.mem_map.1 (h.all i hi)
        refine List.mem_map.2 ⟨(n, p), (add_entries hK h o).2 (.inr ⟨?_, h1⟩), rfl⟩
        rintro rfl; exact e' h1
  · intro i hi
    rw [add_next]
    rw [add_objs h] at hi
    by_cases e : i = c.next
    · omega
    · rw [if_neg e] at hi
      by_cases e' : (o.name, i) ∈ c.entries
      · rw [if_pos e'] at hi; exact absurd rfl hi
      · rw [if_neg e'] at hi
        exact Nat.lt_succ_of_lt (h.fresh i hi)

theorem add_says (hK : Keeps K) (h : Objs.Ok c) (o : Option') (n : Str) : (c.add K o).says n = if n = o.name then some o else c.says n := by
  have h' := add_ok hK h o
  by_cases hn : n = o.name
  · rw [if_pos hn]
    exact (says_iff h').2 ⟨c.next, (add_entries hK h o).2 (.inl ⟨hn, rfl⟩), by rw [add_objs h]; simp⟩
  · rw [if_neg hn]
    have key : ∀ x, (c.add K o).says n = some x ↔ c.says n = some x := by
      intro x
      rw [says_iff h', says_iff h]
      constructor
      · rintro ⟨p, a, b⟩
        rcases (add_entries hK h o).1 a with ⟨e, _⟩ | ⟨_, e⟩
        · exact absurd e hn
        · rw [add_objs h, if_neg (Nat.ne_of_lt (entry_lt h e)), if_neg (fun e' => hn (entry_unique_name h e e'))] at b
          exact ⟨p, e, b⟩
      · rintro ⟨p, e, b⟩
        refine ⟨p, (add_entries hK h o).2 (.inr ⟨hn, e⟩), ?_⟩
        rw [add_objs h, if_neg (Nat.ne_of_lt (entry_lt h e)), if_neg (fun e' => hn (entry_unique_name h e e'))]
        exact b
    cases e : c.says n with
    | some x => exact (key x).2 e
    | none =>
      cases e' : (c.add K o).says n with
      | none => rfl
      | some x => rw [(key x).1 e'] at e; cases e

theorem set_some {n v : Txt} {t : Str × Str} (h : c.set K n v = some (t, c')) :
    c.text n = some t.1 ∧ c.text v = some t.2 ∧ c' = c.add K (mkOption t.1 t.2) := by
  unfold Conf.set at h
  cases h1 : c.text n with
  | none => rw [h1] at h; cases h
  | some a =>
    cases h2 : c.text v with
    | none => rw [h1, h2] at h; cases h
    | some b => rw [h1, h2] at h; cases h; exact ⟨rfl, rfl, rfl⟩

/-- Induction over the calls of a program. -/
theorem run_ind {P : Conf → List (Str × Str) → Conf → Prop} (h0 : ∀ c, Objs.Ok c → P c [] c)
    (h1 : ∀ c t ts c', Objs.Ok c → P (c.add K (mkOption t.1 t.2)) ts c' → P c (t :: ts) c') (hK : Keeps K) :
    ∀ {ops : List (Txt × Txt)} {c c' : Conf} {ts : List (Str × Str)}, Objs.Ok c → c.run K ops = some (ts, c') → P c ts c'
  | [], c, c', ts, h, e => by simp only [Conf.run, Option.some.injEq, Prod.mk.injEq] at e; obtain ⟨rfl, rfl⟩ := e; exact h0 c h
  | x :: xs, c, c', ts, h, e => by
    unfold Conf.run at e
    cases h2 : c.set K x.1 x.2 with
    | none => rw [h2] at e; cases e
    | some r =>
      obtain ⟨t, c1⟩ := r
      rw [h2] at e
      simp only at e
      obtain ⟨_, _, rfl⟩ := set_some h2
      cases h3 : (c.add K (mkOption t.1 t.2)).run K xs with
      | none => rw [h3] at e; cases e
      | some r =>
        obtain ⟨us, c2⟩ := r
        rw [h3] at e
        simp only [Option.some.injEq, Prod.mk.injEq] at e
        obtain ⟨rfl, rfl⟩ := e
        exact h1 c t us c2 h (run_ind h0 h1 hK (add_ok hK h _) h3)

/-! ## Properties -/

/-- Each call leaves every name with one option, and no option without a name. -/
theorem C106_owned (hK : Keeps K) (h : Objs.Ok c) {ops : List (Txt × Txt)} {ts : List (Str × Str)} (e : c.run K ops = some (ts, c')) : Objs.Ok c' :=
  run_ind (P := fun _ _ c' => Objs.Ok c') (fun _ h => h) (fun _ _ _ _ _ h => h) hK h e

/-- The configuration says what was said last, also if the texts were views of its own options. -/
theorem C106_says (hK : Keeps K) (h : Objs.Ok c) {ops : List (Txt × Txt)} {ts : List (Str × Str)} (e : c.run K ops = some (ts, c')) :
    c'.says = given c.says ts := by
  refine run_ind (P := fun c ts c' => c'.says = given c.says ts) (fun _ _ => rfl) ?_ hK h e
  intro c t ts c' hc ih
  rw [ih]
  unfold given
  rw [List.foldl_cons]
  congr 1
  funext n
  rw [add_says hK hc]
  rfl

/-- An option that is held is the same object with the same name and value as long as its name is not set; after that it is
    gone, even if it was set to the value it had. -/
theorem C106_held (hK : Keeps K) (h : Objs.Ok c) {ops : List (Txt × Txt)} {ts : List (Str × Str)} (e : c.run K ops = some (ts, c'))
    {n : Str} {p : Nat} (hp : (n, p) ∈ c.entries) :
    (n ∉ ts.map Prod.fst → c'.objs p = c.objs p ∧ c.objs p ≠ none ∧ (n, p) ∈ c'.entries) ∧
    (n ∈ ts.map Prod.fst → c'.objs p = none) := by
  have main := run_ind (P := fun c ts c' => (∀ n p, (n, p) ∈ c.entries →
      (n ∉ ts.map Prod.fst → c'.objs p = c.objs p ∧ (n, p) ∈ c'.entries) ∧ (n ∈ ts.map Prod.fst → c'.objs p = none)) ∧
      ∀ p, c.objs p = none → p < c.next → c'.objs p = none)
    (fun c _ => ⟨fun n p hp => ⟨fun _ => ⟨rfl, hp⟩, fun h => (by cases h)⟩, fun p h _ => h⟩) (by
      intro c t ts c' hc ih
      refine ⟨fun n p hp => ?_, fun p h1 h2 => ?_⟩
      · have hlt := entry_lt hc hp
        by_cases hn : n = t.1
        · subst hn
          refine ⟨fun hx => absurd (List.mem_cons_self ..) hx, fun _ => ih.2 p ?_ (by rw [add_next]; omega)⟩
          rw [add_objs hc, if_neg (Nat.ne_of_lt hlt), if_pos (show ((mkOption t.1 t.2).name, p) ∈ c.entries from hp)]
        · have hp' : (n, p) ∈ (c.add K (mkOption t.1 t.2)).entries := (add_entries hK hc _).2 (.inr ⟨hn, hp⟩)
          have ho : (c.add K (mkOption t.1 t.2)).objs p = c.objs p := by
            rw [add_objs hc, if_neg (Nat.ne_of_lt hlt), if_neg (fun x : ((mkOption t.1 t.2).name, p) ∈ c.entries => hn (entry_unique_name hc hp x))]
          obtain ⟨i1, i2⟩ := ih.1 n p hp'
          refine ⟨fun hx => ?_, fun hx => ?_⟩
          · obtain ⟨a, b⟩ := i1 (fun y => hx (List.mem_cons_of_mem _ y))
            exact ⟨a.trans ho, b⟩
          · rcases List.mem_cons.1 hx with y | y
            · exact absurd y hn
            · exact i2 y
      · refine ih.2 p ?_ (by rw [add_next]; omega)
        rw [add_objs hc, if_neg (Nat.ne_of_lt h2)]
        split
        · rfl
        · exact h1) hK h e
  refine ⟨fun hn => ⟨(main.1 n p hp).1 hn |>.1, ?_, ((main.1 n p hp).1 hn).2⟩, (main.1 n p hp).2⟩
  obtain ⟨o, h1, _⟩ := h.live _ hp
  simp only at h1
  rw [h1]; simp

/-- Setting an option to its own text by views of it is defined and changes nothing the configuration says, but the object is
    another one. -/
theorem C106_own_texts (hK : Keeps K) (h : Objs.Ok c) {n v s : Str} {p : Nat} (hp : (n, p) ∈ c.entries) (ho : c.objs p = some (mkOption n v))
    (hs : convert v = .str s) : ∃ c', c.set K (.name p) (.value p) = some ((n, s), c') ∧ c'.says = c.says ∧ c'.objs p = none := by
  have hv : s = v := by
    unfold convert at hs
    split at hs
    · cases hs
    · split at hs <;> cases hs; rfl
  subst hv
  have hset : c.set K (.name p) (.value p) = some ((n, s), c.add K (mkOption n s)) := by
    simp only [Conf.set, Conf.text, ho, mkOption, hs, Option.map_some]
  have hrun : c.run K [(.name p, .value p)] = some ([(n, s)], c.add K (mkOption n s)) := by
    simp only [Conf.run, hset]
  refine ⟨_, hset, ?_, (C106_held hK h hrun hp).2 (by simp)⟩
  funext m
  rw [add_says hK h]
  split
  · next e => rw [e]; exact ((says_iff h).2 ⟨p, hp, ho⟩).symm
  · rfl

/-- Once its name is set, the texts of a held option cannot be used any more. -/
theorem C106_freed_texts (hK : Keeps K) (h : Objs.Ok c) {ops : List (Txt × Txt)} {ts : List (Str × Str)} (e : c.run K ops = some (ts, c'))
    {n : Str} {p : Nat} (hp : (n, p) ∈ c.entries) (hn : n ∈ ts.map Prod.fst) (x : Txt) :
    c'.set K (.name p) x = none ∧ c'.set K (.value p) x = none ∧ c'.set K x (.name p) = none ∧ c'.set K x (.value p) = none := by
  have hd := (C106_held hK h e hp).2 hn
  have t1 : c'.text (.name p) = none := by simp only [Conf.text, hd, Option.map_none]
  have t2 : c'.text (.value p) = none := by simp only [Conf.text, hd]
  refine ⟨?_, ?_, ?_, ?_⟩ <;> simp only [Conf.set, t1, t2] <;> cases c'.text x <;> rfl

/-- Sets with texts of the program. -/
def owns (xs : List (Str × Str)) : List (Txt × Txt) := xs.map fun x => (.own x.1, .own x.2)

theorem run_owns : ∀ (xs : List (Str × Str)) (c : Conf),
    c.run K (owns xs) = some (xs, xs.foldl (fun c x => c.add K (mkOption x.1 x.2)) c)
  | [], c => rfl
  | x :: xs, c => by
    have := run_owns xs (c.add K (mkOption x.1 x.2))
    simp only [owns, List.map_cons, Conf.run, Conf.set, Conf.text, List.foldl_cons]
    rw [show xs.map (fun x => ((.own x.1, .own x.2) : Txt × Txt)) = owns xs from rfl, this]

/-- Sets of names that are there move no entry. -/
theorem sets_keys : ∀ (xs : List (Str × Str)) (c : Conf), (∀ x ∈ xs, x.1 ∈ c.entries.map Prod.fst) →
    (xs.foldl (fun c x => c.add K (mkOption x.1 x.2)) c).entries.map Prod.fst = c.entries.map Prod.fst ∧
    (xs.foldl (fun c x => c.add K (mkOption x.1 x.2)) c).epoch = c.epoch
  | [], c, _ => ⟨rfl, rfl⟩
  | x :: xs, c, h => by
    have hx := h x (List.mem_cons_self ..)
    have hf : ∃ q, mapFind (mkOption x.1 x.2).name c.entries = some q := by
      show ∃ q, mapFind x.1 c.entries = some q
      generalize c.entries = l at hx
      induction l with
      | nil => cases hx
      | cons e l ih =>
        simp only [mapFind]
        by_cases he : e.1 = x.1
        · exact ⟨e.2, if_pos he⟩
        · rw [if_neg he]
          rcases List.mem_cons.1 hx with y | y
          · exact absurd y.symm he
          · exact ih y
    obtain ⟨q, hq⟩ := hf
    have e1 : (c.add K (mkOption x.1 x.2)).entries.map Prod.fst = c.entries.map Prod.fst ∧ (c.add K (mkOption x.1 x.2)).epoch = c.epoch := by
      unfold Conf.add
      rw [hq]
      refine ⟨?_, rfl⟩
      have := keys_mapSet c.entries x.1 c.next
      rw [if_pos hx] at this
      exact this
    obtain ⟨i1, i2⟩ := sets_keys xs (c.add K (mkOption x.1 x.2)) (fun y hy => by
      rw [e1.1]; exact h y (List.mem_cons_of_mem _ hy))
    rw [List.foldl_cons]
    exact ⟨i1.trans e1.1, i2.trans e1.2⟩

theorem loop_visits (hK : Keeps K) (f : Str → Option' → List (Str × Str)) (ks : List Str) (hf : ∀ n o, ∀ x ∈ f n o, x.1 ∈ ks) :
    ∀ (n i : Nat) (c : Conf), Objs.Ok c → c.entries.map Prod.fst = ks → i + n = ks.length →
      ∃ c', c.loop K (fun n o => owns (f n o)) c.epoch n i = some ((visit f (ks.drop i) c.says).1, c') ∧ Objs.Ok c' ∧
        c'.entries.map Prod.fst = ks ∧ c'.says = (visit f (ks.drop i) c.says).2
  | 0, i, c, h, hks, hi => by
    have : ks.drop i = [] := List.drop_eq_nil_of_le (by omega)
    rw [this]
    exact ⟨c, by simp only [Conf.loop, if_true]; rfl, h, hks, rfl⟩
  | n + 1, i, c, h, hks, hi => by
    have hlen : c.entries.length = ks.length := by rw [← hks, List.length_map]
    have hil : i < c.entries.length := by omega
    obtain ⟨⟨k, p⟩, he⟩ : ∃ e, c.entries[i]? = some e := ⟨_, List.getElem?_eq_getElem hil⟩
    have hmem := List.mem_of_getElem? he
    obtain ⟨o, ho, _⟩ := h.live _ hmem
    simp only at ho
    have hk : ks[i]? = some k := by rw [← hks, List.getElem?_map, he]; rfl
    have hdrop : ks.drop i = k :: ks.drop (i + 1) := by
      have := List.drop_eq_getElem_cons (l := ks) (i := i) (by omega)
      rw [this]
      congr 1
      rw [List.getElem?_eq_getElem (by omega)] at hk
      exact Option.some.inj hk
    have hsay : c.says k = some o := (says_iff h).2 ⟨p, hmem, ho⟩
    have hr := run_owns (K := K) (f k o) c
    generalize hc1 : (f k o).foldl (fun c x => c.add K (mkOption x.1 x.2)) c = c1 at hr
    have h1 := C106_owned hK h hr
    have h2 := C106_says hK h hr
    obtain ⟨h3, h4⟩ := sets_keys (K := K) (f k o) c (fun x hx => hks ▸ hf k o x hx)
    rw [hc1] at h3 h4
    obtain ⟨c', g1, g2, g3, g4⟩ := loop_visits hK f ks hf n (i + 1) c1 h1 (h3.trans hks) (by omega)
    rw [h4] at g1
    rw [hdrop]
    simp only [visit, hsay]
    rw [← h2]
    refine ⟨c', ?_, g2, g3, g4⟩
    simp only [Conf.loop, if_true, he, ho, hr, g1]

theorem visit_names (f : Str → Option' → List (Str × Str)) (ks : List Str) (hf : ∀ n o, ∀ x ∈ f n o, x.1 ∈ ks) :
    ∀ (l : List Str) (s : Str → Option Option'), (∀ n ∈ ks, s n ≠ none) → (∀ n ∈ l, n ∈ ks) → (visit f l s).1.map Prod.fst = l
  | [], s, _, _ => rfl
  | n :: l, s, hs, hl => by
    cases ho : s n with
    | none => exact absurd ho (hs n (hl n (List.mem_cons_self ..)))
    | some o =>
      simp only [visit, ho, List.map_cons]
      congr 1
      refine visit_names f ks hf l _ ?_ (fun m hm => hl m (List.mem_cons_of_mem _ hm))
      have : ∀ (xs : List (Str × Str)) (s : Str → Option Option'), (∀ m ∈ ks, s m ≠ none) → ∀ m ∈ ks, given s xs m ≠ none := by
        intro xs
        induction xs with
        | nil => exact fun s h => h
        | cons x xs ih =>
          intro s h
          refine ih _ ?_
          intro m hm
          show (if m = x.1 then some (mkOption x.1 x.2) else s m) ≠ none
          by_cases e : m = x.1
          · rw [if_pos e]; simp
          · rw [if_neg e]; exact h m hm
      exact this _ s hs

/-- A loop over a configuration may set options that are there: it visits every name once, in the order of the configuration,
    with the value it has at that time, and the configuration says what all of the sets make of it. -/
theorem C106_loop (hK : Keeps K) (h : Objs.Ok c) (f : Str → Option' → List (Str × Str)) (hf : ∀ n o, ∀ x ∈ f n o, x.1 ∈ c.entries.map Prod.fst) :
    ∃ vs c', c.each K (fun n o => owns (f n o)) = some (vs, c') ∧ vs.map Prod.fst = c.entries.map Prod.fst ∧
      (vs, c'.says) = visit f (c.entries.map Prod.fst) c.says ∧ c'.entries.map Prod.fst = c.entries.map Prod.fst ∧ Objs.Ok c' := by
  obtain ⟨c', h1, h2, h3, h4⟩ := loop_visits hK f (c.entries.map Prod.fst) hf c.entries.length 0 c h rfl (by simp)
  rw [List.drop_zero] at h1 h4
  refine ⟨_, c', h1, ?_, ?_, h3, h2⟩
  · refine visit_names f _ hf _ _ ?_ (fun _ h => h)
    intro n hn
    obtain ⟨⟨n, p⟩, he, rfl⟩ := List.mem_map.1 hn
    obtain ⟨o, ho, _⟩ := h.live _ he
    rw [(says_iff h).2 ⟨p, he, ho⟩]; simp
  · rw [h4]

theorem epoch_mono (o : Option') : c.epoch ≤ (c.add K o).epoch ∧ (mapFind o.name c.entries = none → c.epoch < (c.add K o).epoch) := by
  unfold Conf.add
  cases h : mapFind o.name c.entries with
  | some q => exact ⟨Nat.le_refl _, fun h => (by cases h)⟩
  | none => exact ⟨Nat.le_succ _, fun _ => Nat.lt_succ_self _⟩

/-- A loop must not set a new name: the iterator is not good any more, whatever comes after. -/
theorem C106_new_name_in_loop (h : Objs.Ok c) (body : Str → Option' → List (Txt × Txt)) {e : Str × Nat} {es : List (Str × Nat)} (he : c.entries = e :: es)
    {o : Option'} (ho : c.objs e.2 = some o) {x y : Str} {rest : List (Txt × Txt)} (hb : body e.1 o = (.own x, .own y) :: rest)
    (hx : x ∉ c.entries.map Prod.fst) : c.each K body = none := by
  have hno : mapFind x c.entries = none := by
    cases hf : mapFind x c.entries with
    | none => rfl
    | some q => exact absurd (List.mem_map.2 ⟨_, (mapFind_mem h.keys).1 hf, rfl⟩) hx
  have mono : ∀ (ops : List (Txt × Txt)) (c c' : Conf) ts, c.run K ops = some (ts, c') → c.epoch ≤ c'.epoch := by
    intro ops
    induction ops with
    | nil => intro c c' ts e; simp only [Conf.run, Option.some.injEq, Prod.mk.injEq] at e; rw [e.2]; exact Nat.le_refl _
    | cons z zs ih =>
      intro c c' ts e
      unfold Conf.run at e
      cases h2 : c.set K z.1 z.2 with
      | none => rw [h2] at e; cases e
      | some r =>
        obtain ⟨t, c1⟩ := r
        rw [h2] at e
        simp only at e
        obtain ⟨_, _, rfl⟩ := set_some h2
        cases h3 : (c.add K (mkOption t.1 t.2)).run K zs with
        | none => rw [h3] at e; cases e
        | some r =>
          obtain ⟨us, c2⟩ := r
          rw [h3] at e
          simp only [Option.some.injEq, Prod.mk.injEq] at e
          obtain ⟨_, rfl⟩ := e
          exact Nat.le_trans (epoch_mono _).1 (ih _ _ _ h3)
  unfold Conf.each
  rw [he]
  simp only [List.length_cons, Conf.loop, if_true, he, List.getElem?_cons_zero, ho, hb, Conf.run, Conf.set, Conf.text]
  cases h3 : (c.add K (mkOption x y)).run K rest with
  | none => rfl
  | some r =>
    obtain ⟨us, c2⟩ := r
    simp only
    have hlt : c.epoch < c2.epoch := Nat.lt_of_lt_of_le ((epoch_mono (K := K) (mkOption x y)).2 hno) (mono _ _ _ _ h3)
    have : ∀ k i, c2.loop K body c.epoch k i = none := by
      intro k i
      cases k <;> simp only [Conf.loop] <;> rw [if_neg (by omega)]
    rw [this]

/-! ## An example -/

theorem ok_empty : Objs.Ok {} := ⟨List.nodup_nil, fun _ h => (by cases h), fun _ h => absurd rfl h, fun _ h => absurd rfl h⟩

/-- The map appends. -/
theorem keeps_append : Keeps fun l e => l ++ [e] := fun _ _ => List.perm_append_comm

/-- Two options are set; one is kept while the other changes, then set to its own text. -/
example : ∃ c c1 c2 c3 : Conf, Objs.Ok c ∧ (c!"x", 1) ∈ c.entries ∧ c.objs 1 = some (mkOption c!"x" c!"fast") ∧
    c.run (fun l e => l ++ [e]) [(.own c!"n", .own c!"7"), (.own c!"y", .value 1)] = some ([(c!"n", c!"7"), (c!"y", c!"fast")], c1) ∧
    c1.objs 1 = c.objs 1 ∧ c1.objs 0 = none ∧
    c1.set (fun l e => l ++ [e]) (.name 1) (.value 1) = some ((c!"x", c!"fast"), c2) ∧ c2.says c!"x" = c.says c!"x" ∧ c2.objs 1 = none ∧
    c2.each (fun l e => l ++ [e]) (fun n _ => owns [(c!"n", n)]) = some ([(c!"n", mkOption c!"n" c!"7"), (c!"x", mkOption c!"x" c!"fast"),
      (c!"y", mkOption c!"y" c!"fast")], c3) ∧ c3.says c!"n" = some (mkOption c!"n" c!"y") := by
  have hr := run_owns (K := fun l e => l ++ [e]) [(c!"n", c!"5"), (c!"x", c!"fast")] {}
  have ok := C106_owned keeps_append ok_empty hr
  refine ⟨_, _, _, _, ok, by decide, by decide, rfl, by decide, by decide, rfl, by decide, by decide, rfl, by decide⟩

end Verif.Props

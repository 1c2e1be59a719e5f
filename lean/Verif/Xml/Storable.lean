import Verif.Xml.Shuffled
import Verif.Props.Reparse
/-!
# Documents whose contents can be saved
-/

namespace Verif.Spec
open Verif

/-- What is asked of a document beyond being readable: the names of siblings differ in more than case, and
    no path of a file ends with a slash. -/
structure Storable (x : Doc) (d : Desc) : Prop where
  path : Trimmed d.path
  siblings : ∀ a ∈ d.attrs, ∀ b ∈ d.attrs, d.parent a.name = d.parent b.name → lower a.name = lower b.name → a.name = b.name
  files : ∀ o ∈ x.options, ∀ r ∈ o.2.locs, r.path.getLast? = some '/' → ∀ c ∈ r.path, c = '/'

end Verif.Spec

namespace Verif.Xml
open Verif Verif.Spec Verif.Sxfm

/-! ## Paths -/

theorem getLast?_drop {α} {p : α → Bool} {s : List α} (h : s.dropWhile p ≠ []) : (s.dropWhile p).getLast? = s.getLast? := by
  have e : s = s.takeWhile p ++ s.dropWhile p := (List.takeWhile_append_dropWhile).symm
  conv => rhs; rw [e, List.getLast?_append]
  rw [List.getLast?_eq_some_getLast h]
  rfl

theorem mem_take_while {α} {p : α → Bool} {c : α} {s : List α} (h : c ∈ s.takeWhile p) : p c = true := by
  induction s with
  | nil => cases h
  | cons a s ih =>
    rw [List.takeWhile_cons] at h
    split at h
    · rename_i hp
      rcases List.mem_cons.1 h with rfl | h
      · exact hp
      · exact ih h
    · cases h

theorem drop_while_nil {α} {p : α → Bool} {s : List α} : s.dropWhile p = [] ↔ ∀ c ∈ s, p c = true := by
  induction s with
  | nil => simp
  | cons a s ih =>
    rw [List.dropWhile_cons]
    split <;> simp_all

theorem dropWhile_short {α} (p : α → Bool) (s : List α) : (s.dropWhile p).length ≤ s.length := by
  have := congrArg List.length (List.takeWhile_append_dropWhile (p := p) (l := s))
  rw [List.length_append] at this
  omega

theorem dropWhile_head {α} {p : α → Bool} {s : List α} {c : α} (h : (s.dropWhile p).head? = some c) : p c = false := by
  induction s with
  | nil => cases h
  | cons a s ih =>
    rw [List.dropWhile_cons] at h
    split at h
    · exact ih h
    · rename_i hp
      rw [List.head?_cons, Option.some.injEq] at h
      subst h
      simpa using hp

theorem parts_clean : ∀ (fuel : Nat) (s : Str), s.length ≤ fuel → s.head? ≠ some '/' → s.getLast? ≠ some '/' →
    ∀ q ∈ pathParts fuel s, q ≠ [] ∧ '/' ∉ q
  | 0, s, _, _, _ => fun q hq => by cases hq
  | fuel + 1, s, hl, hh, he => by
    intro q hq
    unfold pathParts at hq
    split at hq
    · cases hq
    · rename_i hne
      rcases List.mem_cons.1 hq with rfl | hq
      · refine ⟨?_, fun hm => ?_⟩
        · cases s with
          | nil => exact absurd rfl hne
          | cons c cs =>
            have : c ≠ '/' := fun e => hh (by rw [e]; rfl)
            simp [this]
        · have := mem_take_while hm
          simp at this
      · split at hq
        · cases hq
        · rename_i hr
          have hlast : (s.dropWhile (· != '/')).getLast? = s.getLast? := getLast?_drop hr
          split at hq
          · rename_i hr'
            exfalso
            have hall : ∀ c ∈ s.dropWhile (· != '/'), c = '/' := by
              intro c hc
              have := drop_while_nil.1 hr' c hc
              simpa using this
            rw [List.getLast?_eq_some_getLast hr] at hlast
            exact he (by rw [← hlast, hall _ (List.getLast_mem hr)])
          · rename_i hr'
            refine parts_clean fuel _ ?_ ?_ ?_ q hq
            · have h1 := dropWhile_short (· == '/') (s.dropWhile (· != '/'))
              have h2 : (s.dropWhile (· != '/')).length ≤ s.length := dropWhile_short _ _
              cases s with
              | nil => exact absurd rfl hne
              | cons c cs =>
                have : c ≠ '/' := fun e => hh (by rw [e]; rfl)
                have h3 : (c :: cs).dropWhile (· != '/') = cs.dropWhile (· != '/') := by simp [this]
                rw [h3] at h1 ⊢
                have h4 := dropWhile_short (· != '/') cs
                simp only [List.length_cons] at hl
                omega
            · intro e
              have := dropWhile_head e
              simp at this
            · rw [getLast?_drop hr', hlast]
              exact he

theorem parts_last : ∀ (fuel : Nat) (s : Str) (c : Char), s.length ≤ fuel → s.head? ≠ some '/' →
    (pathParts fuel s).getLast?.bind List.getLast? = some c → s.getLast? = some c
  | 0, s, c, _, _ => fun h => by cases h
  | fuel + 1, s, c, hl, hh => by
    intro h
    unfold pathParts at h
    split at h
    · cases h
    · rename_i hne
      simp only at h
      split at h
      · rename_i hr
        have e : s.takeWhile (· != '/') = s := by
          have := List.takeWhile_append_dropWhile (p := (· != '/')) (l := s)
          rw [hr, List.append_nil] at this
          exact this
        rw [e] at h
        simpa using h
      · rename_i hr
        have hlast : (s.dropWhile (· != '/')).getLast? = s.getLast? := getLast?_drop hr
        split at h
        · simp at h
        · rename_i hr'
          rw [← hlast, ← getLast?_drop hr']
          refine parts_last fuel _ c ?_ ?_ ?_
          · have h1 := dropWhile_short (· == '/') (s.dropWhile (· != '/'))
            cases s with
            | nil => exact absurd rfl hne
            | cons c cs =>
              have : c ≠ '/' := fun e => hh (by rw [e]; rfl)
              have h3 : (c :: cs).dropWhile (· != '/') = cs.dropWhile (· != '/') := by simp [this]
              rw [h3] at h1 ⊢
              have h4 := dropWhile_short (· != '/') cs
              simp only [List.length_cons] at hl
              omega
          · intro e
            have := dropWhile_head e
            simp at this
          · have hne' : pathParts fuel ((s.dropWhile (· != '/')).dropWhile (· == '/')) ≠ [] := by
              intro e
              rw [e] at h
              have h1 := dropWhile_short (· != '/') s
              have h2 : ((s.dropWhile (· != '/')).dropWhile (· == '/')).length ≤ (s.dropWhile (· != '/')).length := dropWhile_short _ _
              cases fuel with
              | zero =>
                have : s.length ≤ 1 := hl
                cases s with
                | nil => exact absurd rfl hne
                | cons a as =>
                  have ea : as = [] := List.length_eq_zero_iff.1 (by rw [List.length_cons] at this; omega)
                  subst ea
                  have ha : a ≠ '/' := fun e => hh (by rw [e]; rfl)
                  exact hr (by simp [ha])
              | succ f => simp [pathParts, hr'] at e
            obtain ⟨p, ps, e⟩ := List.exists_cons_of_ne_nil hne'
            rw [e] at h ⊢
            rwa [List.getLast?_cons_cons] at h

theorem path_clean {s : Str} (h : s.getLast? = some '/' → ∀ c ∈ s, c = '/') : CleanPath (pathElems s) := by
  unfold pathElems
  split
  · rename_i hh
    refine ⟨.inl rfl, ?_⟩
    have hd : (s.dropWhile (· == '/')).head? ≠ some '/' := fun e => by have := dropWhile_head e; simp at this
    by_cases hr : s.dropWhile (· == '/') = []
    · rw [hr]
      cases s.length <;> simp [pathParts]
    · refine parts_clean _ _ (dropWhile_short _ _) hd ?_
      rw [getLast?_drop hr]
      intro e
      exact hr (drop_while_nil.2 fun c hc => by simp [h e c hc])
  · rename_i hh
    have : ∀ q ∈ pathParts s.length s, q ≠ [] ∧ '/' ∉ q := by
      cases hs : s with
      | nil => simp [pathParts]
      | cons c cs =>
        rw [← hs]
        refine parts_clean _ _ (Nat.le_refl _) hh fun e => hh ?_
        rw [hs, List.head?_cons, h e c (by rw [hs]; simp)]
    cases e : pathParts s.length s with
    | nil => trivial
    | cons p ps =>
      rw [e] at this
      exact ⟨.inr (this p (by simp)), fun q hq => this q (by simp [hq])⟩

theorem path_first {s : Str} {c : Char} (h : (pathElems s).head?.bind List.head? = some c) : s.head? = some c := by
  unfold pathElems at h
  split at h
  · rename_i hh
    rw [hh]
    exact h
  · rename_i hh
    cases s with
    | nil => cases h
    | cons a as =>
      have ha : a ≠ '/' := fun e => hh (by rw [e]; rfl)
      simp [pathParts, ha] at h
      rw [h]
      rfl

theorem path_last {s : Str} {c : Char} (h : (pathElems s).getLast?.bind List.getLast? = some c) : c = '/' ∨ s.getLast? = some c := by
  unfold pathElems at h
  split at h
  · by_cases hr : pathParts s.length (s.dropWhile (· == '/')) = []
    · rw [hr] at h
      simp at h
      exact .inl h.symm
    · obtain ⟨p, ps, e⟩ := List.exists_cons_of_ne_nil hr
      rw [e, List.getLast?_cons_cons, ← e] at h
      have hd : (s.dropWhile (· == '/')).head? ≠ some '/' := fun e => by have := dropWhile_head e; simp at this
      have := parts_last _ _ c (dropWhile_short _ _) hd h
      refine .inr (by rw [← this, getLast?_drop]; intro e'; rw [e'] at this; cases this)
  · rename_i hh
    exact .inr (parts_last _ _ c (Nat.le_refl _) hh h)

/-! ## Documents -/

variable {x : Spec.Doc} {d : Desc} {cwd : Str} {sci : Str → Option Str}

theorem option_is_ok (hx : x.Ok sci) {o : Bool × DocOption} (ho : o ∈ x.options) : o.2.Ok := by
  simp only [Doc.options, List.mem_append, List.mem_map] at ho
  rcases ho with ⟨o', h, rfl⟩ | ⟨o', h, rfl⟩
  · exact hx.binary _ h
  · cases hn : x.numeric with
    | none => rw [hn] at h; cases h
    | some l => rw [hn] at h; exact hx.numeric l hn _ h

theorem constraint_is_ok (hx : x.Ok sci) {cl : CClass} {z : CKind × Constraint} (hz : z ∈ x.ofClass cl) :
    z.1.cls = cl ∧ ∃ t, parseText sci t = .ok z.2 := by
  obtain ⟨c, hc, rfl⟩ := List.mem_map.1 hz
  cases hn : x.constraints cl with
  | none => rw [hn] at hc; cases hc
  | some l =>
    rw [hn] at hc
    have := hx.constraints cl l hn c hc
    exact ⟨this.kind, c.text, this.text⟩

theorem range_writable {r : DocRange} (hr : r.Ok) (hf : r.path.getLast? = some '/' → ∀ c ∈ r.path, c = '/') : RangeWritable r.read where
  start := ⟨_, rfl, hr.start⟩
  stop := ⟨_, rfl, hr.stop⟩
  path := path_clean hf
  first := fun c hc => by
    have := path_first hc
    rcases hr.path with e | e
    · rw [e] at this; cases this
    · exact e.head c this
  last := fun c hc => by
    rcases path_last hc with rfl | this
    · decide
    · rcases hr.path with e | e
      · rw [e] at this; cases this
      · exact e.last c this

/-- What a document describes can be saved. -/
theorem writable_doc (hs : Unsigned sci) (hx : x.Ok sci) (hd : DocDescribes cwd x d) (hk : ConstraintsKnown d) (h : Storable x d) :
    Writable d where
  name := by rw [hd.name]; exact hx.name
  path := h.path
  commit := by
    rw [hd.commit]
    cases e : x.commit with
    | none => exact .inl rfl
    | some t => exact hx.commit t e
  root := by
    rcases hd.root with ⟨_, e⟩ | e
    · rw [e]; rfl
    · have : d.root ∈ x.roots := by rw [e]; simp
      exact (List.mem_filter.1 this).2
  names := by
    intro a ha
    rw [hd.attrs] at ha
    obtain ⟨o, ho, rfl⟩ := List.mem_map.1 ha
    obtain ⟨h1, h2⟩ := List.mem_filter.1 ho
    exact ⟨(option_is_ok hx h1).name, by simpa [DocOption.attr] using h2⟩
  siblings := h.siblings
  kinds := by
    intro a ha
    rw [hd.attrs] at ha
    obtain ⟨o, ho, rfl⟩ := List.mem_map.1 ha
    have hok := option_is_ok hx (List.mem_filter.1 ho).1
    unfold DocOption.attr
    simp only
    split
    · show ValuesOk _
      cases e : o.2.values with
      | none => exact ⟨⟨by decide, by decide⟩, ⟨by decide, by decide⟩⟩
      | some v => exact hok.values v e
    · trivial
  locs := by
    intro a ha r hr
    rw [hd.attrs] at ha
    obtain ⟨o, ho, rfl⟩ := List.mem_map.1 ha
    obtain ⟨r', hr', rfl⟩ := List.mem_map.1 hr
    have h1 := (List.mem_filter.1 ho).1
    exact range_writable ((option_is_ok hx h1).locs r' hr') (h.files o h1 r' hr')
  known := hk
  constraints := by
    intro z hz
    rw [hd.constraints] at hz
    simp only [List.mem_append] at hz
    have key : ∀ cl, z ∈ x.ofClass cl → ConstraintWritable z.2 := fun cl h => by
      obtain ⟨_, t, ht⟩ := constraint_is_ok hx h
      obtain ⟨h1, h2, _⟩ := parsed_readable hs ht
      exact ⟨Props.C01_parsed_names sci ht, h1, h2⟩
    rcases hz with ((hz | hz) | hz) | hz
    · obtain ⟨o, _, ho⟩ := List.mem_flatMap.1 hz
      exact .inr (option_simple ho)
    all_goals exact .inl (key _ hz)

/-- Exclusions are Boolean. -/
theorem doc_excludes (hs : Unsigned sci) (hx : x.Ok sci) (hd : DocDescribes cwd x d) {a b : Str} (h : Excludes d a b) :
    d.ofClass .boolean ≠ [] := by
  obtain ⟨k, hk⟩ := h
  intro e
  have hb : k.cls = .boolean → False := fun hb => by
    have : (k, Constraint.bin .excludes (.feature a) (.feature b)) ∈ d.ofClass .boolean := List.mem_filter.2 ⟨hk, by simpa using hb⟩
    rw [e] at this
    cases this
  rw [hd.constraints] at hk
  simp only [List.mem_append] at hk
  have key : ∀ cl, (k, Constraint.bin .excludes (.feature a) (.feature b)) ∈ x.ofClass cl → False := fun cl h => by
    obtain ⟨_, t, ht⟩ := constraint_is_ok hx h
    exact (parsed_readable hs ht).2.2.1 rfl
  rcases hk with ((hk | hk) | hk) | hk
  · obtain ⟨o, _, ho⟩ := List.mem_flatMap.1 hk
    have := (option_simple ho).1
    exact hb (by rw [show k = .boolean from this]; rfl)
  all_goals exact key _ hk

/-- Without Boolean constraints nothing is added when saving. -/
theorem doc_noneNew (hs : Unsigned sci) (hx : x.Ok sci) (hd : DocDescribes cwd x d) {gs : List (Str × RKind)}
    (hg : ∀ n k, (n, k) ∈ gs ↔ k = .alternative ∧ Exclusive d n) (hc : Calm d) : NoneNew { d with groups := gs } := by
  intro he a b
  have hx' : ¬ Excludes d a b := fun h => doc_excludes hs hx hd h he
  refine ⟨?_, hx', fun hm => hx' (mates_exclude hg hm)⟩
  rintro ⟨k, hk⟩
  by_cases hb : k.cls = .boolean
  · have : (k, Constraint.bin .implies (.feature a) (.feature b)) ∈ d.ofClass .boolean := List.mem_filter.2 ⟨hk, by simpa using hb⟩
    rw [show d.ofClass .boolean = [] from he] at this
    cases this
  · have := List.countP_eq_zero.1 (hc.own a b) _ hk
    exact this (by simpa using hb)

end Verif.Xml

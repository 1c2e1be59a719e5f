import Verif.Graph.Draw
import Verif.Graph.Labels
import Verif.Graph.Text
import Verif.Props.Clone
/-! C60, C61, C62: the graph of a model, its labels, and the text of features. -/

namespace Verif.Props
open Verif Verif.Spec

/-! ## C60 -/

/-- The graph shows the tree of the model: every feature and relationship once, in the clusters of
    its ancestors and with its shape and label, and every parent link once, with the arrow head of
    the child.  Title and name of the graph are complete quoted strings. -/
theorem C60_graph {m : FModel} (w : WF m) (b : Bound m) (hr : Registered m) (ptr : Id → Str) (self title : Str) :
    ∃ xs head name, Drawing m xs ∧ Quotable name ∧
      (title = [] → head = c!"graph_" ++ self) ∧
      (title ≠ [] → ∃ t, Quotable t ∧ head = c!"\"" ++ t ++ c!"\"") ∧
      m.writeGraph ptr self title = some (c!"digraph " ++ head ++
        c!" {\n  graph [pad=.5 nodesep=2 ranksep=2 splines=true newrank=true bgcolor=white rankdir=tb overlap=false fontname=\"CMU Typewriter\" label=\"" ++
        name ++ c!"\"];\n\n" ++ xs.flatMap (DotItem.text ptr) ++ c!"}\n") := by
  obtain ⟨xs, h1, h2⟩ := writeNodes_spec w (labelled w b hr)
  refine ⟨xs, if title = [] then c!"graph_" ++ self else c!"\"" ++ escapeDot title ++ c!"\"",
    escapeDot (c!"Feature model for " ++ m.name), h2, quotable_escape _, ?_, ?_, ?_⟩
  · intro h; rw [if_pos h]
  · intro h; rw [if_neg h]; exact ⟨_, quotable_escape _, rfl⟩
  · by_cases h : title = [] <;> simp [FModel.writeGraph, h1, FModel.writeHeader, h]

/-- The statements determine the tree: two models with the same graph have the same nodes and the
    same parents. -/
theorem C60_unambiguous {m m' : FModel} {xs : List DotItem} (h : Drawing m xs) (h' : Drawing m' xs) :
    (∀ i, Owned m i ↔ Owned m' i) ∧ ∀ c, Owned m c → m.root ≠ some c → par m c = par m' c := by
  obtain ⟨evs, e, _, a, _, b, _, _, r⟩ := h.shown
  obtain ⟨evs', e', _, a', _, b', _, _, r'⟩ := h'.shown
  rw [e] at e'
  cases e'
  refine ⟨fun i => by rw [← a, ← a'], fun c hc hr => ?_⟩
  obtain ⟨x, hx, hc⟩ := List.mem_filterMap.1 ((b c).2 ⟨hc, hr⟩)
  obtain ⟨s, st⟩ := x
  cases s with
  | edge p d at' =>
    simp only [Option.some.injEq] at hc
    subst hc
    have h1 := (r _ hx).1
    have h2 := (r' _ hx).1
    rw [h1, h2]
  | node i s l => cases hc
  | rank c' => cases hc

theorem registered_grouped : Registered grouped := by
  refine (registered_nil (by intro cl; cases cl <;> rfl)).2 ?_
  intro i f hk hf
  have hk : i ∈ [0, 2, 3, 4] := hk
  simp at hk
  rcases hk with rfl | rfl | rfl | rfl <;> (simp [data, grouped, ofNodes, featNode] at hf; subst hf; exact ⟨rfl, rfl, rfl⟩)

/-- A model with a group and a feature below a member of it. -/
example : WF grouped ∧ Bound grouped ∧ Registered grouped ∧ IsRel grouped 1 ∧ FParent grouped 2 0 ∧ FParent grouped 4 2 :=
  ⟨grouped_wf, grouped_bound, registered_grouped, ⟨_, rfl⟩, .skip rfl ⟨_, rfl⟩ (.direct rfl ⟨_, rfl⟩), .direct rfl ⟨_, rfl⟩⟩

/-! ## C61 -/

/-- The HTML text of a constraint over plain names reads as the constraint exactly if no operand
    contains `&` or an operator with `<`. -/
theorem C61_html {c : Constraint} (h : PlainNames c) :
    charData c.toHtml = some c.toStr ↔ ¬ UsesInside [.and, .equivalence, .less, .lessEqual] c := by
  have key : ∀ {c : Constraint}, PlainNames c → (charData c.toStr = some c.toStr ↔ ¬ Uses rawOps c) := by
    intro c h
    have := charData_toStr h []
    rw [List.append_nil] at this
    rw [this]
    by_cases hu : Uses rawOps c <;> simp [hu, charData]
  cases c with
  | bin op l r =>
    rw [charData_bin h.1 h.2]
    simp only [UsesInside, rawOps]
    by_cases hu : Uses [.and, .equivalence, .less, .lessEqual] l ∨ Uses [.and, .equivalence, .less, .lessEqual] r
    · simp [hu]
    · simp [hu]
  | un op c => exact key h
  | int v => exact key h
  | feature n => exact key h

/-- In the label of a feature it also must not be a disjunction, and no operand may contain `|` or
    an operator with `>`. -/
theorem C61_label_partial {c : Constraint} (h : PlainNames c) :
    charData (escapeDot c.toHtml) = some c.toStr ↔
      ¬ UsesInside [.and, .equivalence, .less, .lessEqual] c ∧
      ¬ UsesInside [.or, .implies, .excludes, .greater, .greaterEqual] c ∧
      ∀ l r, c ≠ .bin .or l r := by
  have key : ∀ {c : Constraint}, PlainNames c →
      (charData (escapeDot c.toStr) = some c.toStr ↔ ¬ Uses rawOps c ∧ ¬ Uses escapedOps c) := by
    intro c h
    have h1 := escape_toStr h []
    have h2 := charData_escStr h []
    simp only [List.append_nil, escapeDot] at h1 h2
    obtain ⟨_, l2, l3⟩ := escStr_length c
    rw [h1, h2]
    by_cases hu : Uses rawOps c
    · simp [hu]
    · by_cases hv : Uses escapedOps c
      · have := l2 hu hv
        simp only [hu, hv, if_false, charData, Option.map_some, List.append_nil, Option.some.injEq]
        refine ⟨fun he => ?_, fun he => absurd trivial he.2⟩
        rw [he] at this
        exact absurd this (Nat.lt_irrefl _)
      · simp [hu, hv, charData, l3 hu hv]
  cases c with
  | bin op l r =>
    rw [charData_escBin h.1 h.2]
    simp only [UsesInside]
    by_cases hu : Uses rawOps l ∨ Uses rawOps r
    · rw [if_pos hu]
      constructor
      · intro he; cases he
      · intro he; exact absurd hu he.1
    · rw [if_neg hu]
      have hul : ¬ Uses rawOps l := fun h => hu (.inl h)
      have hur : ¬ Uses rawOps r := fun h => hu (.inr h)
      obtain ⟨l1, l2, l3⟩ := escStr_length l
      obtain ⟨r1, r2, r3⟩ := escStr_length r
      have ho : op.text.length ≤ (if op = .or then c!"\\|" else op.text).length ∧
          (op = .or → op.text.length < (if op = .or then c!"\\|" else op.text).length) := by
        cases op <;> simp [BinOp.text]
      constructor
      · intro he
        have := congrArg List.length (Option.some.inj he)
        simp only [Constraint.toStr, List.length_append] at this
        refine ⟨hu, ?_, ?_⟩
        · rintro (hv | hv)
          · have := l2 hul hv; omega
          · have := r2 hur hv; omega
        · intro l' r' e
          cases e
          have := ho.2 rfl
          omega
      · rintro ⟨_, hv, hne⟩
        have hno : op ≠ .or := fun e => hne l r (by rw [e])
        rw [l3 hul fun h => hv (.inl h), r3 hur fun h => hv (.inr h), if_neg hno]
        rfl
  | un op c =>
    have := key (c := .un op c) h
    simp only [UsesInside]
    simp only [Uses] at this
    rw [show Constraint.toHtml (.un op c) = Constraint.toStr (.un op c) from rfl, this]
    exact ⟨fun ⟨a, b⟩ => ⟨a, b, fun _ _ e => by cases e⟩, fun ⟨a, b, _⟩ => ⟨a, b⟩⟩
  | int v =>
    have := key (c := .int v) h
    rw [show Constraint.toHtml (.int v) = Constraint.toStr (.int v) from rfl, this]
    exact ⟨fun ⟨a, b⟩ => ⟨a, b, fun _ _ e => by cases e⟩, fun ⟨a, b, _⟩ => ⟨a, b⟩⟩
  | feature n =>
    have := key (c := .feature n) h
    rw [show Constraint.toHtml (.feature n) = Constraint.toStr (.feature n) from rfl, this]
    exact ⟨fun ⟨a, b⟩ => ⟨a, b, fun _ _ e => by cases e⟩, fun ⟨a, b, _⟩ => ⟨a, b⟩⟩

/-- Plain names, output strings and locations are shown as they are. -/
theorem C61_plain {s : Str} (h : PlainText s) : charData (escapeDot s) = some s ∧ charData s = some s := by
  have h1 := escape_text h []
  have h2 := charData_text h []
  simp only [List.append_nil, escapeDot, charData, Option.map_some] at h1 h2
  exact ⟨by rw [h1, h2], h2⟩

/-- The label of a feature with `<` in its name or output string is not well-formed: the `<` is still
    there, and starts a tag. -/
theorem C61_broken {f : Feat} :
    ('<' ∈ f.attr.name → charData (escapeDot f.attr.name) = none) ∧
    ('<' ∈ f.attr.output → charData (Sxfm.trimC f.attr.output) = none) := by
  refine ⟨fun h => charData_lt (mem_escape h), fun h => charData_lt ?_⟩
  have drop : ∀ l : Str, '<' ∈ l → '<' ∈ l.dropWhile Sxfm.isSpaceC := by
    intro l
    induction l with
    | nil => exact id
    | cons c l ih =>
      intro h
      rw [List.dropWhile_cons]
      split
      · rename_i hs
        rcases List.mem_cons.1 h with rfl | h
        · exact absurd hs (by decide)
        · exact ih h
      · exact h
  unfold Sxfm.trimC
  rw [List.mem_reverse]
  exact drop _ (List.mem_reverse.2 (drop _ h))

/-- The example of a nested conjunction: `toHTML` is not well-formed, and a disjunction is shown with
    a backslash. -/
theorem C61_fails :
    (∃ c, PlainNames c ∧ charData c.toHtml = none) ∧
    ∃ c, PlainNames c ∧ charData (escapeDot c.toHtml) = some c!"(A \\| B)" ∧ c.toStr = c!"(A | B)" := by
  refine ⟨⟨.bin .implies (.feature c!"A") (.bin .and (.feature c!"B") (.feature c!"C")), ?_, by decide⟩,
    .bin .or (.feature c!"A") (.feature c!"B"), ?_, by decide, rfl⟩ <;>
  simp [PlainNames, PlainText, special]

/-- An implication between features is shown as it is. -/
example : PlainNames (.bin .implies (.feature c!"A") (.feature c!"B")) ∧
    charData (escapeDot (Constraint.toHtml (.bin .implies (.feature c!"A") (.feature c!"B")))) = some c!"(A => B)" :=
  ⟨by simp [PlainNames, PlainText, special], by decide⟩

/-! ## C62 -/

/-- The text of a feature shows its name, whether it is optional, its locations, the name of its
    parent feature, its children that are features, in order, and its values. -/
theorem C62_text_partial {m : FModel} (w : WF m) {i : Id} {f : Feat} (hk : Known m i) (hd : data m i = some (.feat f)) :
    ∃ t parent kids names, m.toText i = some t ∧ ShowsFeature m i f parent kids names t ∧
      ∀ c, c ∈ kids ↔ c ∈ edg m i ∧ IsFeat m c :=
  toText_spec w hk hd

/-- Texts that are equal show the same feature. -/
theorem C62_unambiguous {f f' : Feat} {p p' : Option Str} {k k' : List Str} (h : Tidy f p k) (h' : Tidy f' p' k')
    (he : record (featureFields f p k) = record (featureFields f' p' k')) :
    f.attr.name = f'.attr.name ∧ f.attr.opt = f'.attr.opt ∧ p = p' ∧ k = k' ∧
      (f.attr.locs.flatMap fun r => c!"[" ++ r.toStr ++ c!"]") = (f'.attr.locs.flatMap fun r => c!"[" ++ r.toStr ++ c!"]") ∧
      (∀ v, (∃ s, f.attr.kind = .numeric v s) ↔ ∃ s, f'.attr.kind = .numeric v s) := by
  have e := record_inj (featureFields_good h) (featureFields_good h') (by simp [featureFields]) (by simp [featureFields]) he
  have hopt : ∀ {a b : Bool}, (if a then c!"true" else c!"false") = (if b then c!"true" else c!"false") → a = b := by
    intro a b; cases a <;> cases b <;> simp
  have hvals : ∀ {a b : FKind}, valueFields a = valueFields b →
      ∀ v, (∃ s, a = .numeric v s) ↔ ∃ s, b = .numeric v s := by
    have hin : ∀ {a : FKind} {v}, (∃ s, a = .numeric v s) → ∀ {b : FKind}, valueFields a = valueFields b → ∃ s, b = .numeric v s := by
      rintro _ v ⟨s, rfl⟩ b hb
      cases b with
      | numeric v' s' =>
        refine ⟨s', ?_⟩
        congr 1
        cases v with
        | range lo hi =>
          cases v' with
          | range lo' hi' =>
            simp only [valueFields, List.cons.injEq, Prod.mk.injEq, true_and, and_true] at hb
            rw [intText_injective hb.1, intText_injective hb.2]
          | list vs => simp [valueFields] at hb
        | list vs =>
          cases v' with
          | range lo hi => simp [valueFields] at hb
          | list vs' =>
            simp only [valueFields, List.cons.injEq, Prod.mk.injEq, true_and, and_true] at hb
            have hc : ∀ l : List Int, ∀ x ∈ l.map intText, ',' ∉ x := by
              intro l x hx
              obtain ⟨v, _, rfl⟩ := List.mem_map.1 hx
              exact intText_not_mem (by decide) (by decide)
            have := bracketed_inj (hc vs) (hc vs') hb
            rw [List.map_inj_right (fun _ _ => intText_injective)] at this
            rw [this]
      | _ => cases v <;> simp [valueFields] at hb
    intro a b hab v
    exact ⟨fun h => hin h hab, fun h => hin h hab.symm⟩
  have hk : ∀ {a b : List Str}, (∀ x ∈ a, OneLine x ∧ ',' ∉ x) → (∀ x ∈ b, OneLine x ∧ ',' ∉ x) → bracketed a = bracketed b → a = b :=
    fun h1 h2 h => bracketed_inj (fun x hx => (h1 x hx).2) (fun x hx => (h2 x hx).2) h
  simp only [featureFields] at e
  by_cases h1 : f.attr.locs = [] <;> by_cases h2 : f'.attr.locs = [] <;> cases p <;> cases p' <;>
    simp only [h1, h2, if_true, if_false, List.cons_append, List.nil_append, List.cons.injEq, Prod.mk.injEq, true_and] at e
  all_goals first
    | (exfalso; revert e; simp; done)
    | (obtain ⟨e1, e2, e3, e4⟩ := e
       exact ⟨List.append_cancel_right e1, hopt e2, rfl, hk h.kids h'.kids e3, by simp [h1, h2], hvals e4⟩)
    | (obtain ⟨e1, e2, e3, e4, e5⟩ := e
       exact ⟨List.append_cancel_right e1, hopt e2, by rw [e3], hk h.kids h'.kids e4, by simp [h1, h2], hvals e5⟩)
    | (obtain ⟨e1, e2, e3, e4, e5⟩ := e
       exact ⟨List.append_cancel_right e1, hopt e2, rfl, hk h.kids h'.kids e4, by simpa using e3, hvals e5⟩)
    | (obtain ⟨e1, e2, e3, e4, e5, e6⟩ := e
       exact ⟨List.append_cancel_right e1, hopt e2, by rw [e4], hk h.kids h'.kids e5, by simpa using e3, hvals e6⟩)

/-- The members of a group are not among the children shown for their parent feature, although the
    text of each of them names it as the parent. -/
theorem C62_members_missing {m : FModel} (w : WF m) {i p r : Id} {n : Str} (hi : par m i = some r) (hr : IsRel m r)
    (hp : FParent m i p) (hn : (n, p) ∈ m.features) {f g : Feat} (hd : data m p = some (.feat f))
    {parent kids names t} (hs : ShowsFeature m p f parent kids names t)
    {parent' kids' names' t'} (hs' : ShowsFeature m i g parent' kids' names' t') : parent' = some n ∧ i ∉ kids := by
  refine ⟨(hs'.parent n).2 ⟨p, hp, hn⟩, fun h => ?_⟩
  have := (w.edge_par p i (.inl (List.mem_map.2 ⟨_, hn, rfl⟩)) (hs.order.subset h)).2
  rw [hi] at this
  cases this
  obtain ⟨k, hk⟩ := hr
  rw [hd] at hk
  cases hk

/-- The features A and B of `grouped` have the root as their parent, and the root shows no children. -/
theorem C62_fails :
    WF grouped ∧ FParent grouped 2 0 ∧
    grouped.toText 0 = some c!"  name: \"root\",\n  optional: false,\n  children: []" ∧
    grouped.toText 2 = some c!"  name: \"A\",\n  optional: false,\n  parent: root,\n  children: [C,]" := by
  exact ⟨grouped_wf, .skip rfl ⟨_, rfl⟩ (.direct rfl ⟨_, rfl⟩), by decide, by decide⟩

/-- `dump` prints the text of every feature once. -/
theorem C62_dump {m : FModel} (w : WF m) (E : Env) :
    ∃ (order : List (Str × Id)) (ts : List Str), order.Perm m.features ∧ order.map (fun e => m.toText e.2) = ts.map some ∧
      m.dump E = some ((ts.flatMap fun t => c!"{\n" ++ t ++ c!"\n}\n") ++ c!"\n") := by
  have key : ∀ l : List (Str × Id), (∀ e ∈ l, e ∈ m.features) →
      ∃ ts : List Str, l.map (fun e => m.toText e.2) = ts.map some ∧
        (l.mapM fun e => (m.toText e.2).map fun t => c!"{\n" ++ t ++ c!"\n}\n") =
          some (ts.map fun t => c!"{\n" ++ t ++ c!"\n}\n") := by
    intro l
    induction l with
    | nil => intro _; exact ⟨[], rfl, rfl⟩
    | cons e l ih =>
      intro h
      obtain ⟨ts, h1, h2⟩ := ih fun x hx => h x (List.mem_cons_of_mem _ hx)
      have he := h e (List.mem_cons_self ..)
      obtain ⟨f, hf, _⟩ := w.feat_ok e he
      obtain ⟨t, _, _, _, ht, _⟩ := toText_spec w (List.mem_map.2 ⟨e, he, rfl⟩) hf
      refine ⟨t :: ts, by simp [ht, h1], ?_⟩
      rw [List.mapM_cons, h2, ht]
      rfl
  obtain ⟨ts, h1, h2⟩ := key (E.mapOrder m.features) fun e he => (E.mapOrder_perm _).mem_iff.1 he
  refine ⟨_, ts, E.mapOrder_perm _, h1, ?_⟩
  unfold FModel.dump
  rw [h2]
  simp [List.flatMap]

/-- A tidy feature: two children, a parent, numeric values. -/
example : Tidy { attr := { name := c!"N", kind := .numeric (.list [1, -2]) none } } (some c!"root") [c!"A", c!"B"] where
  name := by simp [OneLine]
  parent := by intro p hp; cases hp; simp [OneLine]
  kids := by simp [OneLine]
  locs := by intro r hr; cases hr

end Verif.Props

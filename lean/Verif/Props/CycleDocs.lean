import Verif.Props.AnyEdges
import Verif.Props.Xml
import Verif.Xml.Safe
/-!
# Documents whose options are above themselves (C58)
-/

namespace Verif

namespace Spec

/-- The document says that `p` is the parent of `c`: with the child or with the parent. -/
def ParentIn (x : Doc) (p c : Str) : Prop :=
  ∃ o ∈ x.options, (o.2.parent = some p ∧ o.2.name = c) ∨ (o.2.name = p ∧ c ∈ o.2.children)

/-- A chain of parents leads from `b` up to `a`. -/
inductive AboveIn (x : Doc) (a : Str) : Str → Prop
  | parent {b} : ParentIn x a b → AboveIn x a b
  | down {b c} : AboveIn x a b → ParentIn x b c → AboveIn x a c

/-- Options of different names, each with at most one parent, which is another option or the root; no constraints. -/
structure Parented (x : Doc) : Prop where
  distinct : (x.attrs.map Attr.name).Nodup
  one : ∀ p q c, ParentIn x p c → ParentIn x q c → p = q
  known : ∀ p c, ParentIn x p c → p ≠ c ∧ (p = x.roots.getLastD c!"root" ∨ p ∈ x.attrs.map Attr.name) ∧ c ∈ x.attrs.map Attr.name
  options : ∀ o ∈ x.options, o.2.constraints = []
  constraints : ∀ cl, x.ofClass cl = []

end Spec
open Spec

theorem grouping_par {m0 m : FModel} {D : List Id} (w : Loose m0) (h : Grouping m0 m D) {i p : Id} (hi : Known m0 i)
    (hp : par m0 i = some p) : ∃ q, par m i = some q ∧ Below m p q := by
  obtain ⟨hk, he⟩ := w.par_edge i p hi hp
  by_cases hd : p ∈ D
  · obtain ⟨r, _, _, h2, h3⟩ := h.done p hk hd
    exact ⟨r, (h3 i he).1, .step h2 .refl⟩
  · exact ⟨p, (h.todo p hk hd).2 i he, .refl⟩

namespace Props
open Verif.Xml

/-- Every document with an option above itself is accepted, and the model is no tree. -/
theorem C58_any_cycle {sci : Str → Option Str} {world : FModel} (hf : ∀ i, world.heap i ≠ none → i < world.next) (E : Env)
    (cwd : Str) {x : Spec.Doc} (h : x.Ok sci) (hx : Parented x) {n : Str} (hn : AboveIn x n n) :
    ∃ m, load sci E world cwd x.toXml = .built m ∧ ¬ WF m := by
  have hedge : ∀ {p c}, .addEdge p c ∈ docCalls cwd x ↔ ParentIn x p c := docCalls_edges
  have hpv : parseVm sci cwd x.toXml = .ok (docCalls cwd x) := by
    let f : Str → Str := fun c => @dite _ (∃ p, ParentIn x p c) (Classical.propDecidable _) (fun h => Classical.choose h) (fun _ => [])
    have hfp : ∀ p c, ParentIn x p c → f c = p := by
      intro p c hp
      have he : ∃ p, ParentIn x p c := ⟨p, hp⟩
      simp only [f, dif_pos he]
      exact hx.one _ _ c (Classical.choose_spec he) hp
    exact parseVm_read cwd h (par := f) (fun o ho p hp => hfp p _ ⟨o, ho, .inl ⟨hp, rfl⟩⟩)
      (fun o ho c hc => hfp _ c ⟨o, ho, .inr ⟨rfl, hc⟩⟩)
  have hroots : ∀ r ∈ x.roots, isRootName r = true := by
    intro r hr
    unfold Doc.roots at hr
    exact (List.mem_filter.1 hr).2
  have hany : AnyEdges (docCalls cwd x) :=
    { kinds := docCalls_kinds cwd x
      distinct := by rw [docCalls_attrs]; exact hx.distinct
      root_new := by
        rw [docCalls_attrs, docCalls_roots]
        intro n hn hm
        have := (attrs_names.1 hm).1
        rcases hn with rfl | hn
        · revert this; decide
        · rw [hroots n hn] at this; cases this
      edges := by
        intro p c hp
        obtain ⟨h1, h2, h3⟩ := hx.known p c (hedge.1 hp)
        unfold rootOf
        rw [docCalls_attrs, docCalls_roots]
        exact ⟨h1, h2, .inr h3⟩
      groups := (docCalls_other cwd x).1
      constraints := by
        rw [docCalls_constraints, List.flatMap_eq_nil_iff.2 hx.options, hx.constraints, hx.constraints, hx.constraints]
        rfl }
  obtain ⟨m, r, hb, hnames, hr, hrm, hpar, _⟩ := C28_any_edges hf E hany
  have hbuilt : Built (docCalls cwd x) m := by
    rcases build_built E hf (calls := docCalls cwd x) (fun a ha => ⟨docCalls_kinds cwd x a (mem_attrsOf.2 ha), by
        have hm := mem_attrsOf.2 ha
        rw [docCalls_attrs] at hm
        have := (attrs_names.1 (List.mem_map_of_mem (f := Attr.name) hm)).1
        rintro (e | e) <;> rw [e] at this <;> revert this <;> decide⟩) (fun n hn => by
        have hm : n ∈ rootsOf (docCalls cwd x) := List.mem_filterMap.2 ⟨_, hn, rfl⟩
        rw [docCalls_roots] at hm
        have := hroots n hm
        simpa [isRootName, RootName] using this) (fun k p hk => by
        have hm : (p, k) ∈ groupsOf (docCalls cwd x) := List.mem_filterMap.2 ⟨_, hk, rfl⟩
        rw [(docCalls_other cwd x).1] at hm; cases hm) with e | ⟨m', e, hm'⟩
    · rw [hb] at e; cases e
    · rw [hb] at e; cases e; exact hm'
  obtain ⟨is, h1, h2, h3⟩ := iterate_loose hbuilt.loose E hr (by
    intro a ha
    have := (hpar _ r hrm).2 (fun p hp => by
      obtain ⟨_, _, h3⟩ := hx.known _ _ (hedge.1 hp)
      unfold rootOf at h3
      rw [docCalls_roots] at h3
      have hb := (attrs_names.1 h3).1
      cases hl : x.roots.getLast? with
      | none =>
        rw [List.getLastD_eq_getLast?, hl] at hb
        revert hb; decide
      | some y =>
        rw [List.getLastD_eq_getLast?, hl] at hb
        have := hroots y (List.mem_of_getLast? hl)
        simp only [Option.getD_some] at hb
        rw [hb] at this; cases this)
    rw [if_pos rfl] at this
    rw [this] at ha; cases ha)
  obtain ⟨ps, h4, h5, h6⟩ := altOps_def hbuilt E h3 h2
  obtain ⟨m', D, h7, h8⟩ := addRelationships_grouping hbuilt.loose E (k := .alternative) ps m [] (grouping_refl hbuilt.loose) h5
    (fun p hp => ⟨h3 p (h6 p hp), by simp⟩)
  refine ⟨m', ?_, ?_⟩
  · unfold load
    rw [hpv]
    simp only [hb]
    unfold detectAlternatives
    rw [h1]
    simp only [h4]
    rw [commitOps_loose h7 (checked_of_grouping hbuilt.loose h8)]
  · intro w
    have last : ∀ {p c}, ParentIn x p c → LastEdge (docCalls cwd x) p c := by
      intro p c hp
      obtain ⟨q, hq⟩ := lastEdge_exists ⟨p, hedge.2 hp⟩
      rw [hx.one p q c hp (hedge.1 (lastEdge_mem hq))]
      exact hq
    have up : ∀ {p c} {i j : Id}, ParentIn x p c → (p, i) ∈ m.features → (c, j) ∈ m.features →
        ∃ q, par m' j = some q ∧ Below m' i q := by
      intro p c i j hp hi hj
      obtain ⟨i', k1, k2⟩ := (hpar c j hj).1 p (last hp)
      cases hbuilt.loose.entry_unique hi k1
      exact grouping_par hbuilt.loose h8 (known_of_mem hj) k2
    have above : ∀ {a b : Str} (_ : AboveIn x a b) {i j : Id}, (a, i) ∈ m.features → (b, j) ∈ m.features →
        ∃ q, par m' j = some q ∧ Below m' i q := by
      intro a b hab
      induction hab with
      | parent hp => intro i j hi hj; exact up hp hi hj
      | @down b c _ hp ih =>
        intro i j hi hj
        obtain ⟨k, hk, _⟩ := (hpar c j hj).1 b (last hp)
        obtain ⟨q, h9, h10⟩ := up hp hk hj
        obtain ⟨q', h11, h12⟩ := ih hi hk
        exact ⟨q, h9, Below.trans (.step h11 h12) h10⟩
    have hk : ∃ i, (n, i) ∈ m.features := by
      have : ∃ q, ParentIn x q n := by
        cases hn with
        | parent hl => exact ⟨_, hl⟩
        | down _ hl => exact ⟨_, hl⟩
      obtain ⟨q, hq⟩ := this
      exact (hnames n).2 (.inr (by rw [docCalls_attrs]; exact (hx.known q n hq).2.2))
    obtain ⟨i, hi⟩ := hk
    obtain ⟨q, k1, k2⟩ := above hn hi hi
    have hi' : (n, i) ∈ m'.features := by rw [h8.features]; exact hi
    exact w.not_below_parent (.inl (known_of_mem hi')) k1 k2

/-- Three options that are above one another. -/
def ringDoc : Spec.Doc :=
  { name := c!"M", binary := [{ name := c!"A", parent := some c!"B" }, { name := c!"B", parent := some c!"C" },
      { name := c!"C", parent := some c!"A" }, { name := c!"D" }] }

example : Parented ringDoc ∧ AboveIn ringDoc c!"A" c!"A" := by
  have key : ∀ {p c}, ParentIn ringDoc p c ↔ (p, c) ∈ [(c!"B", c!"A"), (c!"C", c!"B"), (c!"A", c!"C")] := by
    intro p c
    constructor
    · rintro ⟨o, ho, h⟩
      simp only [ringDoc, Doc.options, Option.getD_none, List.map_cons, List.map_nil, List.append_nil, List.mem_cons,
        List.not_mem_nil, or_false] at ho
      rcases ho with rfl | rfl | rfl | rfl <;> rcases h with ⟨h1, h2⟩ | ⟨h1, h2⟩ <;> 
        first | (cases h2; cases h1; simp; done) | (cases h2; done) | (cases h1; done)
    · intro h
      simp only [List.mem_cons, Prod.mk.injEq, List.not_mem_nil, or_false] at h
      rcases h with ⟨rfl, rfl⟩ | ⟨rfl, rfl⟩ | ⟨rfl, rfl⟩
      · exact ⟨_, List.mem_cons_self .., .inl ⟨rfl, rfl⟩⟩
      · exact ⟨_, .tail _ (.head _), .inl ⟨rfl, rfl⟩⟩
      · exact ⟨_, .tail _ (.tail _ (.head _)), .inl ⟨rfl, rfl⟩⟩
  refine ⟨⟨by decide, ?_, ?_, by decide, by intro cl; cases cl <;> rfl⟩,
    .down (.down (.parent (b := c!"C") ?_) (c := c!"B") ?_) ?_⟩
  · intro p q c h1 h2
    rw [key] at h1 h2
    simp only [List.mem_cons, Prod.mk.injEq, List.not_mem_nil, or_false] at h1 h2
    rcases h1 with ⟨rfl, rfl⟩ | ⟨rfl, rfl⟩ | ⟨rfl, rfl⟩ <;> rcases h2 with ⟨rfl, h⟩ | ⟨rfl, h⟩ | ⟨rfl, h⟩ <;>
      first | rfl | (revert h; decide)
  · intro p c h1
    rw [key] at h1
    simp only [List.mem_cons, Prod.mk.injEq, List.not_mem_nil, or_false] at h1
    rcases h1 with ⟨rfl, rfl⟩ | ⟨rfl, rfl⟩ | ⟨rfl, rfl⟩ <;> decide
  all_goals exact key.2 (by decide)

end Props
end Verif

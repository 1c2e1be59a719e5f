import Verif.Constraint.Parser
import Verif.Constraint.GrammarSpec
/-! # Lemmas about the constraint parser -/

namespace Verif
open Spec

/-- Erase whitespace tokens. -/
def eraseWs (ts : List Tok) : List Tok := ts.filter (· ≠ .ws)

theorem prec_spec {p b op} : Infix p b op ↔ (b.prec = p ∧ b.op = op) := by
  constructor
  · intro h; cases h <;> exact ⟨rfl, rfl⟩
  · rintro ⟨rfl, rfl⟩; cases b <;> constructor

theorem prec_pos (b : BinTok) : 1 ≤ b.prec ∧ b.prec ≤ 8 := by cases b <;> decide

theorem Spec.Derives.lift {val p q ts c} (h : Derives val p ts c) (hpq : p ≤ q) : Derives val q ts c := by
  induction hpq with
  | refl => exact h
  | step _ ih => exact .looser ih

@[simp] theorem eraseWs_nil : eraseWs [] = [] := rfl
@[simp] theorem eraseWs_ws (ts) : eraseWs (.ws :: ts) = eraseWs ts := by simp [eraseWs]
theorem eraseWs_cons {t : Tok} (ts) (h : t ≠ .ws) : eraseWs (t :: ts) = t :: eraseWs ts := by
  simp [eraseWs, h]
@[simp] theorem eraseWs_append (a b) : eraseWs (a ++ b) = eraseWs a ++ eraseWs b := by
  simp [eraseWs]

/-- The tokens at which an operand parsed at nesting `n` with bound `p` ends. -/
def Stop (n p : Nat) (rest : List Tok) : Prop :=
  (∃ r, rest = .eof :: r) ∨ (n ≠ 0 ∧ ∃ r, rest = .rpar :: r) ∨
    (∃ b r, rest = .bin b :: r ∧ p ≤ b.prec)

variable (sci : Str → Option Str)

/-! ## Soundness -/

theorem sound (f : Nat) :
    (∀ n p ts c rest, parseConstraint sci f n p ts = .tree c rest →
      ∃ w, eraseWs ts = w ++ eraseWs rest ∧ Derives (parseInteger sci) (p - 1) w c ∧
        Stop n p rest) ∧
    (∀ n p lhs ts c rest, parseLoop sci f n p lhs ts = .tree c rest →
      ∀ L l, L ≤ p - 1 → Derives (parseInteger sci) L l lhs →
        (∀ b r, eraseWs ts = .bin b :: r → L ≤ b.prec) →
        ∃ w, eraseWs ts = w ++ eraseWs rest ∧ Derives (parseInteger sci) (p - 1) (l ++ w) c ∧
          Stop n p rest) ∧
    (∀ n lhs b ts c rest, parseBinary sci f n lhs b.prec (.bin b :: ts) = .tree c rest →
      ∃ w rhs, eraseWs ts = w ++ eraseWs rest ∧ Derives (parseInteger sci) (b.prec - 1) w rhs ∧
        c = .bin b.op lhs rhs ∧ Stop (n + 2) b.prec rest) ∧
    (∀ n ts c rest, parseUnary sci f n ts = .tree c rest →
      ∃ w, eraseWs ts = w ++ eraseWs rest ∧ Derives (parseInteger sci) 0 w c) := by
  induction f with
  | zero => simp [parseConstraint, parseLoop, parseBinary, parseUnary]
  | succ f ih =>
    obtain ⟨ihC, ihL, ihB, ihU⟩ := ih
    refine ⟨?_, ?_, ?_, ?_⟩
    · intro n p ts c rest h
      unfold parseConstraint at h
      split at h
      · rename_i lhs r hu
        obtain ⟨w, hw, hd⟩ := ihU _ _ _ _ hu
        obtain ⟨w2, hw2, hd2, hs⟩ := ihL _ _ _ _ _ _ h 0 w (Nat.zero_le _) hd
          (fun b _ _ => Nat.zero_le _)
        exact ⟨w ++ w2, by rw [hw, hw2]; simp, hd2, hs⟩
      · simp_all
    · intro n p lhs ts c rest h L l hL hd hop
      unfold parseLoop at h
      split at h
      · simp at h
      · simp at h
      · obtain ⟨w, h1, h2, h3⟩ := ihL _ _ _ _ _ _ h L l hL hd (by simpa using hop)
        exact ⟨w, by simpa using h1, h2, h3⟩
      · split at h
        · rename_i hn
          cases h
          exact ⟨[], by simp, by simpa using hd.lift hL, .inr (.inl ⟨hn, _, rfl⟩)⟩
        · simp at h
      · cases h
        exact ⟨[], by simp, by simpa using hd.lift hL, .inl ⟨_, rfl⟩⟩
      · rename_i b r
        split at h
        · rename_i hb
          cases h
          exact ⟨[], by simp, by simpa using hd.lift hL, .inr (.inr ⟨_, _, rfl, hb⟩)⟩
        · rename_i hb
          split at h
          · rename_i lhs' rest' hbin
            obtain ⟨w1, rhs, e1, d1, rfl, s1⟩ := ihB _ _ _ _ _ _ hbin
            have hLb : L ≤ b.prec := hop b (eraseWs r) (by rw [eraseWs_cons _ (by simp)])
            have hp := prec_pos b
            obtain ⟨q, hq⟩ : ∃ q, b.prec = q + 1 := ⟨b.prec - 1, by omega⟩
            have hd' : Derives (parseInteger sci) b.prec (l ++ .bin b :: w1) (.bin b.op lhs rhs) := by
              rw [hq]
              exact .infix (prec_spec.2 ⟨hq, rfl⟩) (hq ▸ hd.lift hLb) (by simpa [hq] using d1)
            obtain ⟨w2, e2, d2, s2⟩ := ihL _ _ _ _ _ _ h b.prec _ (by omega) hd' (by
              intro b' r' hr'
              rcases s1 with ⟨r1, rfl⟩ | ⟨_, r1, rfl⟩ | ⟨b1, r1, rfl, hb1⟩
              · rw [eraseWs_cons _ (by simp)] at hr'; simp at hr'
              · rw [eraseWs_cons _ (by simp)] at hr'; simp at hr'
              · rw [eraseWs_cons _ (by simp)] at hr'
                simp at hr'
                exact hr'.1 ▸ hb1)
            refine ⟨.bin b :: w1 ++ w2, ?_, ?_, s2⟩
            · rw [eraseWs_cons _ (by simp), e1, e2]; simp
            · simpa using d2
          · simp_all
      all_goals simp at h
    · intro n lhs b ts c rest h
      unfold parseBinary at h
      simp only at h
      split at h
      · rename_i rhs rest' hc
        cases h
        obtain ⟨w, e, d, s⟩ := ihC _ _ _ _ _ hc
        exact ⟨w, rhs, e, d, rfl, s⟩
      · simp_all
    · intro n ts c rest h
      unfold parseUnary at h
      split at h
      any_goals simp at h; done
      · obtain ⟨w, e, d⟩ := ihU _ _ _ _ h
        exact ⟨w, by simpa using e, d⟩
      · cases h
        exact ⟨[.ident _], by rw [eraseWs_cons _ (by simp)]; rfl, .ident _⟩
      · cases h
        exact ⟨[.number _], by rw [eraseWs_cons _ (by simp)]; rfl, .number _⟩
      · split at h
        · rename_i hc
          cases h
          obtain ⟨w, e, d, s⟩ := ihC _ _ _ _ _ hc
          exact ⟨.not :: w, by rw [eraseWs_cons _ (by simp), e]; rfl, .not (by simpa [minPrecedence] using d)⟩
        · simp_all
      · split at h
        · rename_i hc
          cases h
          obtain ⟨w, e, d, s⟩ := ihC _ _ _ _ _ hc
          exact ⟨.neg :: w, by rw [eraseWs_cons _ (by simp), e]; rfl, .neg (by simpa [minPrecedence] using d)⟩
        · simp_all
      · split at h
        · rename_i hc
          split at h
          · simp at h
          · cases h
            obtain ⟨w, e, d, s⟩ := ihC _ _ _ _ _ hc
            exact ⟨.lpar :: w ++ [.rpar], by
              rw [eraseWs_cons _ (by simp), e, eraseWs_cons _ (by simp)]; simp, .paren d⟩
          · simp at h
        · split at h <;> simp at h
        · simp_all

/-! ## Fuel -/

theorem mono (f : Nat) :
    (∀ n p ts, parseConstraint sci f n p ts ≠ .fuel →
      parseConstraint sci (f + 1) n p ts = parseConstraint sci f n p ts) ∧
    (∀ n p lhs ts, parseLoop sci f n p lhs ts ≠ .fuel →
      parseLoop sci (f + 1) n p lhs ts = parseLoop sci f n p lhs ts) ∧
    (∀ n lhs p ts, parseBinary sci f n lhs p ts ≠ .fuel →
      parseBinary sci (f + 1) n lhs p ts = parseBinary sci f n lhs p ts) ∧
    (∀ n ts, parseUnary sci f n ts ≠ .fuel →
      parseUnary sci (f + 1) n ts = parseUnary sci f n ts) := by
  induction f with
  | zero => simp [parseConstraint, parseLoop, parseBinary, parseUnary]
  | succ f ih =>
    obtain ⟨ihC, ihL, ihB, ihU⟩ := ih
    refine ⟨?_, ?_, ?_, ?_⟩
    · intro n p ts h
      rw [parseConstraint] at h ⊢
      rw [parseConstraint]
      have : parseUnary sci f n ts ≠ .fuel := by intro e; simp [e] at h
      rw [ihU _ _ this]
      split
      · rename_i e; simp only [e] at h; exact ihL _ _ _ _ h
      · rfl
    · intro n p lhs ts h
      rw [parseLoop.eq_def] at h ⊢
      conv => rhs; rw [parseLoop.eq_def]
      simp only at h ⊢
      split <;> try rfl
      · exact ihL _ _ _ _ h
      · split
        · rfl
        · rename_i b rest hb
          simp only [hb, if_false] at h
          have : parseBinary sci f n lhs b.prec (.bin b :: rest) ≠ .fuel := by
            intro e; simp [e] at h
          rw [ihB _ _ _ _ this]
          split
          · rename_i e; simp only [e] at h; exact ihL _ _ _ _ h
          · rfl
    · intro n lhs p ts h
      rw [parseBinary.eq_def] at h ⊢
      conv => rhs; rw [parseBinary.eq_def]
      simp only at h ⊢
      split <;> try rfl
      · exact ihB _ _ _ _ h
      · rename_i b rest
        have : parseConstraint sci f (n + 2) p rest ≠ .fuel := by intro e; simp [e] at h
        rw [ihC _ _ _ this]
    · intro n ts h
      rw [parseUnary.eq_def] at h ⊢
      conv => rhs; rw [parseUnary.eq_def]
      simp only at h ⊢
      split <;> try rfl
      · exact ihU _ _ h
      · rename_i rest
        have : parseConstraint sci f (n + 2) minPrecedence rest ≠ .fuel := by
          intro e; simp [e] at h
        rw [ihC _ _ _ this]
      · rename_i rest
        have : parseConstraint sci f (n + 2) minPrecedence rest ≠ .fuel := by
          intro e; simp [e] at h
        rw [ihC _ _ _ this]
      · rename_i rest
        have : parseConstraint sci f (n + 1) maxPrecedence rest ≠ .fuel := by
          intro e; simp [e] at h
        rw [ihC _ _ _ this]


theorem mono_le {f g} (h : f ≤ g) :
    (∀ n p ts, parseConstraint sci f n p ts ≠ .fuel →
      parseConstraint sci g n p ts = parseConstraint sci f n p ts) ∧
    (∀ n p lhs ts, parseLoop sci f n p lhs ts ≠ .fuel →
      parseLoop sci g n p lhs ts = parseLoop sci f n p lhs ts) ∧
    (∀ n lhs p ts, parseBinary sci f n lhs p ts ≠ .fuel →
      parseBinary sci g n lhs p ts = parseBinary sci f n lhs p ts) ∧
    (∀ n ts, parseUnary sci f n ts ≠ .fuel →
      parseUnary sci g n ts = parseUnary sci f n ts) := by
  induction h with
  | refl => simp
  | step _ ih =>
    obtain ⟨a, b, c, d⟩ := ih
    rename_i m _
    obtain ⟨a', b', c', d'⟩ := mono sci m
    refine ⟨?_, ?_, ?_, ?_⟩
    · intro n p ts h; rw [a' _ _ _ (by rw [a _ _ _ h]; exact h), a _ _ _ h]
    · intro n p l ts h; rw [b' _ _ _ _ (by rw [b _ _ _ _ h]; exact h), b _ _ _ _ h]
    · intro n l p ts h; rw [c' _ _ _ _ (by rw [c _ _ _ _ h]; exact h), c _ _ _ _ h]
    · intro n ts h; rw [d' _ _ (by rw [d _ _ h]; exact h), d _ _ h]

/-- Token lists that end in their only end token. -/
inductive Ended : List Tok → Prop
  | last {e} : e.isEnd = true → Ended [e]
  | cons {t ts} : t.isEnd = false → Ended ts → Ended (t :: ts)

theorem Ended.tail {t ts} (h : Ended (t :: ts)) (ht : t.isEnd = false) : Ended ts := by
  cases h with
  | last h => simp [h] at ht
  | cons _ h => exact h

/-- A result that is no UB and no fuel exhaustion, with a well-formed rest. -/
def Good (bound : Nat) : PRes → Prop
  | .null r => Ended r
  | .tree _ r => Ended r ∧ r.length < bound
  | _ => False

theorem total (f : Nat) :
    (∀ n p ts, Ended ts → 2 * ts.length + 2 ≤ f →
      Good ts.length (parseConstraint sci f n p ts)) ∧
    (∀ n p lhs ts, Ended ts → 2 * ts.length + 2 ≤ f →
      Good (ts.length + 1) (parseLoop sci f n p lhs ts)) ∧
    (∀ n lhs p ts, Ended ts → 2 * ts.length + 1 ≤ f →
      Good ts.length (parseBinary sci f n lhs p ts)) ∧
    (∀ n ts, Ended ts → 2 * ts.length + 1 ≤ f →
      Good ts.length (parseUnary sci f n ts)) := by
  induction f with
  | zero => refine ⟨?_, ?_, ?_, ?_⟩ <;> intros <;> omega
  | succ f ih =>
    obtain ⟨ihC, ihL, ihB, ihU⟩ := ih
    refine ⟨?_, ?_, ?_, ?_⟩
    · intro n p ts he hf
      rw [parseConstraint]
      have hu := ihU n ts he (by omega)
      split
      · rename_i lhs r hr
        simp only [hr, Good] at hu
        have hl := ihL n p lhs r hu.1 (by omega)
        revert hl
        cases parseLoop sci f n p lhs r <;> simp only [Good] <;> grind
      · revert hu
        cases parseUnary sci f n ts <;> simp_all [Good]
    · intro n p lhs ts he hf
      rw [parseLoop.eq_def]
      simp only
      split
      · cases he
      · exact he
      · have h' := he.tail rfl
        have hl := ihL n p lhs _ h' (by simp at hf; omega)
        revert hl
        cases parseLoop sci f n p lhs _ <;> simp only [Good] <;> grind
      · split
        · exact ⟨he, by simp⟩
        · exact he
      · exact ⟨he, by simp⟩
      · rename_i b rest
        split
        · exact ⟨he, by simp⟩
        · have hb := ihB n lhs b.prec _ he (by omega)
          split
          · rename_i l' r' hr'
            simp only [hr', Good] at hb
            have hl := ihL n p l' r' hb.1 (by omega)
            revert hl
            cases parseLoop sci f n p l' r' <;> simp only [Good] <;> grind
          · rename_i hne
            revert hb hne
            cases parseBinary sci f n lhs b.prec (.bin b :: rest) <;> intro hb hne
            · exact hb
            · exact hb
            · exact hb
            · exact absurd rfl (hne _ _)
      all_goals exact he
    · intro n lhs p ts he hf
      rw [parseBinary.eq_def]
      simp only
      split
      · cases he
      · exact he
      · exact he
      · have h' := he.tail rfl
        have hl := ihB n lhs p _ h' (by simp at hf; omega)
        revert hl
        cases parseBinary sci f n lhs p _ <;> simp only [Good] <;> grind
      · rename_i b rest
        have h' := he.tail rfl
        have hc := ihC (n + 2) p _ h' (by simp at hf; omega)
        revert hc
        cases parseConstraint sci f (n + 2) p rest <;> simp only [Good] <;> grind
      all_goals exact he
    · intro n ts he hf
      rw [parseUnary.eq_def]
      simp only
      split
      · cases he
      · exact he
      · exact he
      · have h' := he.tail rfl
        have hl := ihU n _ h' (by simp at hf; omega)
        revert hl
        cases parseUnary sci f n _ <;> simp only [Good] <;> grind
      · exact he
      · exact he
      · exact ⟨he.tail rfl, by simp⟩
      · exact ⟨he.tail rfl, by simp⟩
      · rename_i rest
        have h' := he.tail rfl
        have hc := ihC (n + 2) minPrecedence _ h' (by simp at hf; omega)
        revert hc
        cases parseConstraint sci f (n + 2) minPrecedence rest <;> simp only [Good] <;> grind
      · rename_i rest
        have h' := he.tail rfl
        have hc := ihC (n + 2) minPrecedence _ h' (by simp at hf; omega)
        revert hc
        cases parseConstraint sci f (n + 2) minPrecedence rest <;> simp only [Good] <;> grind
      · rename_i rest
        have h' := he.tail rfl
        have hc := ihC (n + 1) maxPrecedence _ h' (by simp at hf; omega)
        revert hc
        cases parseConstraint sci f (n + 1) maxPrecedence rest with
        | ub => simp [Good]
        | fuel => simp [Good]
        | null r =>
          intro hr
          change Ended r at hr
          cases hr with
          | last h => rename_i e; cases e <;> simp_all [Good, Tok.isEnd] <;> exact .last rfl
          | @cons t ts h1 h2 =>
            cases t <;> first | exact h2 | exact .cons h1 h2
        | tree c r =>
          intro hr
          obtain ⟨hr, hlen⟩ : Ended r ∧ r.length < rest.length := hr
          cases hr with
          | last h => rename_i e; cases e <;> simp_all [Good, Tok.isEnd] <;> exact .last rfl
          | @cons t ts h1 h2 =>
            have : ts.length < (Tok.lpar :: rest).length := by simp at hlen ⊢; omega
            cases t <;> first | exact ⟨h2, this⟩ | exact .cons h1 h2

/-! ## Completeness -/

/-- Drop leading whitespace tokens. -/
def dropWs : List Tok → List Tok
  | .ws :: ts => dropWs ts
  | ts => ts

theorem loop_dropWs {n p lhs} (ts : List Tok) {r : PRes} (hr : r ≠ .fuel)
    (h : ∃ f, parseLoop sci f n p lhs ts = r) : ∃ f, parseLoop sci f n p lhs (dropWs ts) = r := by
  induction ts with
  | nil => exact h
  | cons t ts ih =>
    by_cases ht : t = .ws
    · subst ht
      apply ih
      obtain ⟨f, hf⟩ := h
      cases f with
      | zero => simp [parseLoop] at hf; exact absurd hf.symm hr
      | succ f => exact ⟨f, by simpa [parseLoop] using hf⟩
    · have : dropWs (t :: ts) = t :: ts := by cases t <;> simp_all [dropWs]
      rw [this]; exact h

theorem loop_skip {n p lhs} (ws ts : List Tok) {r : PRes} (hws : ∀ t ∈ ws, t = .ws)
    (h : ∃ f, parseLoop sci f n p lhs ts = r) :
    ∃ f, parseLoop sci f n p lhs (ws ++ ts) = r := by
  induction ws with
  | nil => exact h
  | cons t ws ih =>
    obtain ⟨f, hf⟩ := ih (fun t ht => hws t (by simp [ht]))
    have := hws t (by simp)
    subst this
    exact ⟨f + 1, by simpa [parseLoop] using hf⟩

theorem unary_skip {n} (ws ts : List Tok) {r : PRes} (hws : ∀ t ∈ ws, t = .ws)
    (h : ∃ f, parseUnary sci f n ts = r) : ∃ f, parseUnary sci f n (ws ++ ts) = r := by
  induction ws with
  | nil => exact h
  | cons t ws ih =>
    obtain ⟨f, hf⟩ := ih (fun t ht => hws t (by simp [ht]))
    have := hws t (by simp)
    subst this
    exact ⟨f + 1, by simpa [parseUnary] using hf⟩

theorem constraint_of_unary {n p ts lhs rest} {r : PRes} (hr : r ≠ .fuel)
    (hu : ∃ f, parseUnary sci f n ts = .tree lhs rest)
    (hl : ∃ f, parseLoop sci f n p lhs rest = r) : ∃ f, parseConstraint sci f n p ts = r := by
  obtain ⟨f, hf⟩ := hu
  obtain ⟨g, hg⟩ := hl
  refine ⟨max f g + 1, ?_⟩
  rw [parseConstraint, (mono_le sci (Nat.le_max_left f g)).2.2.2 _ _ (by simp [hf]), hf]
  simp only
  rw [(mono_le sci (Nat.le_max_right f g)).2.1 _ _ _ _ (by rw [hg]; exact hr), hg]

/-- The first non-whitespace token ends an expression of level `p`. -/
def StopHead (p : Nat) (tail : List Tok) : Prop :=
  (∃ r, dropWs tail = .eof :: r) ∨ (∃ r, dropWs tail = .rpar :: r) ∨
    (∃ b r, dropWs tail = .bin b :: r ∧ p ≤ b.prec)

theorem dropWs_split (ts : List Tok) : ∃ ws, ts = ws ++ dropWs ts ∧ ∀ t ∈ ws, t = Tok.ws := by
  induction ts with
  | nil => exact ⟨[], rfl, by simp⟩
  | cons t ts ih =>
    by_cases ht : t = .ws
    · subst ht
      obtain ⟨ws, h1, h2⟩ := ih
      refine ⟨.ws :: ws, ?_, by simpa using h2⟩
      simp only [dropWs, List.cons_append]
      rw [← h1]
    · have : dropWs (t :: ts) = t :: ts := by cases t <;> simp_all [dropWs]
      exact ⟨[], by simp [this], by simp⟩

theorem loop_stops {n p lhs tail} (hn : n ≠ 0) (h : StopHead p tail) :
    ∃ f, parseLoop sci f n p lhs tail = .tree lhs (dropWs tail) := by
  obtain ⟨ws, e, hws⟩ := dropWs_split tail
  have : ∃ f, parseLoop sci f n p lhs (dropWs tail) = .tree lhs (dropWs tail) := by
    refine ⟨1, ?_⟩
    rcases h with ⟨r, hr⟩ | ⟨r, hr⟩ | ⟨b, r, hr, hb⟩
    · simp [hr, parseLoop]
    · simp [hr, parseLoop, hn]
    · simp [hr, parseLoop, hb]
  have := loop_skip sci ws _ hws this
  rwa [← e] at this

theorem StopHead.mono {p q tail} (h : StopHead p tail) (hq : q ≤ p) : StopHead q tail := by
  rcases h with h | h | ⟨b, r, h1, h2⟩
  · exact .inl h
  · exact .inr (.inl h)
  · exact .inr (.inr ⟨b, r, h1, by omega⟩)

theorem dropWs_append {ws ts : List Tok} {t} (hws : ∀ x ∈ ws, x = Tok.ws) (ht : t ≠ .ws) :
    dropWs (ws ++ t :: ts) = t :: ts := by
  induction ws with
  | nil => cases t <;> simp_all [dropWs]
  | cons x ws ih =>
    have := hws x (by simp)
    subst this
    exact ih (fun t ht => hws t (by simp [ht]))

theorem erase_cons {u : List Tok} {t w} (h : eraseWs u = t :: w) :
    ∃ ws u', u = ws ++ t :: u' ∧ (∀ x ∈ ws, x = Tok.ws) ∧ eraseWs u' = w := by
  unfold eraseWs at h
  rw [List.filter_eq_cons_iff] at h
  obtain ⟨l1, l2, e, h1, h2, h3⟩ := h
  exact ⟨l1, l2, e, by simpa using h1, h3⟩

theorem binary_of {n lhs b rest rhs rest'}
    (h : ∃ f, parseConstraint sci f (n + 2) b.prec rest = .tree rhs rest') :
    ∃ f, parseBinary sci f n lhs b.prec (.bin b :: rest) = .tree (.bin b.op lhs rhs) rest' := by
  obtain ⟨f, hf⟩ := h
  exact ⟨f + 1, by simp [parseBinary, hf]⟩

theorem complete {p w c} (h : Derives (parseInteger sci) p w c) :
    ∀ u tail n P r, eraseWs u = w → (p < P ∨ p = 0) → StopHead p tail → r ≠ PRes.fuel →
      (∃ f, parseLoop sci f n P c tail = r) →
      ∃ f, parseConstraint sci f n P (u ++ tail) = r := by
  induction h with
  | ident s =>
    intro u tail n P r hu _ _ hr hl
    obtain ⟨ws, u', rfl, hws, hu'⟩ := erase_cons hu
    have hu'' : ∀ t ∈ u', t = Tok.ws := by
      simpa [eraseWs] using hu'
    simp only [List.append_assoc, List.cons_append]
    refine constraint_of_unary sci hr (unary_skip sci ws _ hws ⟨1, by simp [parseUnary]; exact ⟨rfl, rfl⟩⟩) ?_
    exact loop_skip sci u' _ hu'' hl
  | number s =>
    intro u tail n P r hu _ _ hr hl
    obtain ⟨ws, u', rfl, hws, hu'⟩ := erase_cons hu
    have hu'' : ∀ t ∈ u', t = Tok.ws := by
      simpa [eraseWs] using hu'
    simp only [List.append_assoc, List.cons_append]
    refine constraint_of_unary sci hr (unary_skip sci ws _ hws ⟨1, by simp [parseUnary]; exact ⟨rfl, rfl⟩⟩) ?_
    exact loop_skip sci u' _ hu'' hl
  | @not ts c _ ih =>
    intro u tail n P r hu _ hs hr hl
    obtain ⟨ws, u', rfl, hws, hu'⟩ := erase_cons hu
    simp only [List.append_assoc, List.cons_append]
    have h1 := ih u' tail (n + 2) minPrecedence (.tree c (dropWs tail)) hu' (.inr rfl) hs (by simp)
      (loop_stops sci (by omega) hs)
    refine constraint_of_unary sci hr (lhs := .un .not c) (rest := dropWs tail)
      (unary_skip sci ws _ hws ?_) (loop_dropWs sci tail hr hl)
    obtain ⟨f, hf⟩ := h1
    exact ⟨f + 1, by simp [parseUnary, hf]⟩
  | @neg ts c _ ih =>
    intro u tail n P r hu _ hs hr hl
    obtain ⟨ws, u', rfl, hws, hu'⟩ := erase_cons hu
    simp only [List.append_assoc, List.cons_append]
    have h1 := ih u' tail (n + 2) minPrecedence (.tree c (dropWs tail)) hu' (.inr rfl) hs (by simp)
      (loop_stops sci (by omega) hs)
    refine constraint_of_unary sci hr (lhs := .un .neg c) (rest := dropWs tail)
      (unary_skip sci ws _ hws ?_) (loop_dropWs sci tail hr hl)
    obtain ⟨f, hf⟩ := h1
    exact ⟨f + 1, by simp [parseUnary, hf]⟩
  | @paren ts c _ ih =>
    intro u tail n P r hu _ hs hr hl
    rw [List.cons_append] at hu
    obtain ⟨ws, u', rfl, hws, hu'⟩ := erase_cons hu
    unfold eraseWs at hu'
    rw [List.filter_eq_append_iff] at hu'
    obtain ⟨u1, u2, rfl, hu1, hu2⟩ := hu'
    obtain ⟨ws2, u3, rfl, hws2, hu3⟩ := erase_cons hu2
    have hu3' : ∀ t ∈ u3, t = Tok.ws := by simpa [eraseWs] using hu3
    have hdrop : dropWs (ws2 ++ Tok.rpar :: (u3 ++ tail)) = .rpar :: (u3 ++ tail) :=
      dropWs_append hws2 (by simp)
    have hstop : ∀ q, StopHead q (ws2 ++ Tok.rpar :: (u3 ++ tail)) :=
      fun q => .inr (.inl ⟨u3 ++ tail, hdrop⟩)
    have h1 := ih u1 (ws2 ++ Tok.rpar :: (u3 ++ tail)) (n + 1) maxPrecedence
      (.tree c (.rpar :: (u3 ++ tail))) hu1 (.inl (by decide)) (hstop _) (by simp) (by
        have := loop_stops sci (n := n + 1) (p := maxPrecedence) (lhs := c) (by omega) (hstop maxPrecedence)
        rwa [hdrop] at this)
    refine constraint_of_unary sci hr (lhs := c) (rest := u3 ++ tail) ?_ (loop_skip sci u3 _ hu3' hl)
    simp only [List.append_assoc, List.cons_append] at h1 ⊢
    refine unary_skip sci ws _ hws ?_
    obtain ⟨f, hf⟩ := h1
    exact ⟨f + 1, by simp [parseUnary, hf]⟩
  | @looser p ts c _ ih =>
    intro u tail n P r hu hp hs hr hl
    exact ih u tail n P r hu (.inl (by omega)) (hs.mono (by omega)) hr hl
  | @«infix» p b op l rr a c hop _ _ ihl ihr =>
    intro u tail n P r hu hp hs hr hl
    obtain ⟨hb1, hb2⟩ := prec_spec.1 hop
    unfold eraseWs at hu
    rw [List.filter_eq_append_iff] at hu
    obtain ⟨u1, u2, rfl, hu1, hu2⟩ := hu
    obtain ⟨ws2, u3, rfl, hws2, hu3⟩ := erase_cons hu2
    have hdrop : dropWs (ws2 ++ Tok.bin b :: (u3 ++ tail)) = .bin b :: (u3 ++ tail) :=
      dropWs_append hws2 (by simp)
    simp only [List.append_assoc, List.cons_append]
    refine ihl u1 (ws2 ++ Tok.bin b :: (u3 ++ tail)) n P r hu1 hp
      (.inr (.inr ⟨b, _, hdrop, by omega⟩)) hr ?_
    apply loop_skip sci ws2 _ hws2
    have h1 := ihr u3 tail (n + 2) b.prec (.tree c (dropWs tail)) hu3 (.inl (by omega))
      (hs.mono (by omega)) (by simp) (loop_stops sci (by omega) (by rw [hb1]; exact hs))
    obtain ⟨f, hf⟩ := binary_of sci (lhs := a) h1
    obtain ⟨g, hg⟩ := loop_dropWs sci tail hr hl
    refine ⟨max f g + 1, ?_⟩
    rw [parseLoop]
    have hlt : ¬ (b.prec ≥ P) := by omega
    rw [if_neg hlt, (mono_le sci (Nat.le_max_left f g)).2.2.1 _ _ _ _ (by simp [hf]), hf]
    simp only
    rw [hb2, (mono_le sci (Nat.le_max_right f g)).2.1 _ _ _ _ (by rw [hg]; exact hr), hg]

end Verif

import Verif.Constraint.HeapModel
/-!
# What a constraint object stands for
-/

namespace Verif.Spec
open Verif

/-- The object at `i`, with what is below it, is the tree. -/
inductive Reads (nm : Nat → Option Str) (s : CState) : Nat → Constraint → Prop
  | bin {i op l r p a b} : s.objs i = some ⟨.bin op l r, p⟩ → Reads nm s l a → Reads nm s r b → Reads nm s i (.bin op a b)
  | un {i op c p a} : s.objs i = some ⟨.un op c, p⟩ → Reads nm s c a → Reads nm s i (.un op a)
  | int {i v p} : s.objs i = some ⟨.int v, p⟩ → Reads nm s i (.int v)
  | feature {i f n p} : s.objs i = some ⟨.feature f, p⟩ → f.name nm = some n → Reads nm s i (.feature n)

/-- The same where the parent pointer of `i` is the given one, those below lead to the object above, and the
    objects are those listed. -/
inductive Held (nm : Nat → Option Str) (s : CState) : Option Nat → Nat → Constraint → List Nat → Prop
  | bin {p i op l r a b la lb} : s.objs i = some ⟨.bin op l r, p⟩ → Held nm s (some i) l a la → Held nm s (some i) r b lb →
      Held nm s p i (.bin op a b) (i :: (la ++ lb))
  | un {p i op c a la} : s.objs i = some ⟨.un op c, p⟩ → Held nm s (some i) c a la → Held nm s p i (.un op a) (i :: la)
  | int {p i v} : s.objs i = some ⟨.int v, p⟩ → Held nm s p i (.int v) [i]
  | feature {p i f n} : s.objs i = some ⟨.feature f, p⟩ → f.name nm = some n → Held nm s p i (.feature n) [i]

/-- Addresses from `next` on are unused. -/
def Fresh (s : CState) : Prop := ∀ k, s.next ≤ k → s.objs k = none

/-- The feature references of the objects are own features, no pointers. -/
def OwnLeaves (s : CState) (l : List Nat) : Prop := ∀ k ∈ l, ∀ f p, s.objs k = some ⟨.feature f, p⟩ → ∃ n, f = .own n

/-- `s` holds exactly these trees: (root, tree, objects). -/
structure OwnedTrees (nm : Nat → Option Str) (s : CState) (ts : List (Nat × Constraint × List Nat)) : Prop where
  fresh : Fresh s
  held : ∀ t ∈ ts, Held nm s none t.1 t.2.1 t.2.2
  apart : (ts.flatMap fun t => t.2.2).Nodup

/-- What a program can do with constraints it owns: the trees are handed over by `std::unique_ptr`, so a root
    is used once. -/
inductive CStep (nm : Nat → Option Str) (lf : Nat → Bool) : CState × List Nat → CState × List Nat → Prop
  | int {s rs} (v : Int) : CStep nm lf (s, rs) ((s.alloc (.int v)).1, (s.alloc (.int v)).2 :: rs)
  | feature {s rs} (f : FRef) (n : Str) : f.name nm = some n →
      CStep nm lf (s, rs) ((s.alloc (.feature f)).1, (s.alloc (.feature f)).2 :: rs)
  | un {s rs rs' s' i c} (op : UnOp) : rs.Perm (c :: rs') → s.newUn op c = some (s', i) → CStep nm lf (s, rs) (s', i :: rs')
  | bin {s rs rs' s' i l r} (op : BinOp) : rs.Perm (l :: r :: rs') → s.newBin op l r = some (s', i) →
      CStep nm lf (s, rs) (s', i :: rs')
  | clone {s rs s' fuel i j c} : Reads nm s i c → CState.clone nm lf fuel s i = some (s', j) → CStep nm lf (s, rs) (s', j :: rs)
  | setFeature {s rs s' i f n} : nm f = some n → s.setFeature i f = some s' → CStep nm lf (s, rs) (s', rs)
  | drop {s rs rs' c} : rs.Perm (c :: rs') → CStep nm lf (s, rs) (s, rs')

/-- Any number of steps. -/
inductive CSteps (nm : Nat → Option Str) (lf : Nat → Bool) : CState × List Nat → CState × List Nat → Prop
  | nil {x} : CSteps nm lf x x
  | cons {x y z} : CStep nm lf x y → CSteps nm lf y z → CSteps nm lf x z

end Verif.Spec

import Verif.Model.RaceParts
import Verif.Spec.Entries
import Verif.Spec.Map
/-
What a goroutine is told when it is alone, and when goroutines work in different parts of a trie.
-/
namespace Verif
namespace Parts
variable {α : Type} [Inhabited α]

/-- What a single goroutine is told that makes the calls on the trie, one after the other. -/
def seq (v : View) : Tree α → List (Act α) → List (Out α)
  | _, [] => []
  | t, .get p :: r => match v.query t p with
    | .ok a => .got a :: seq v t r
    | .error _ => []
  | t, .set p x :: r => .stored :: seq v (v.set t p x).1 r
  | t, .remove p :: r => match v.remove t p with
    | .ok (t', b) => .removed b :: seq v t' r
    | .error _ => []

/-- The full path that a call is about. -/
def Act.key (v : View) : Act α → Str
  | .get p | .remove p => v.full p
  | .set p _ => View.dash (v.full p)

/-- Goroutine `k` keeps below the node with the path `us k`; none of these nodes is above another. -/
structure Apart (t : Tree α) (ps : List (View × List (Act α))) (us : Nat → Str) : Prop where
  node : ∀ k, k < ps.length → ∃ N, (us k, N) ∈ t.root.nodes []
  apart : ∀ i j, i < ps.length → j < ps.length → i ≠ j → ¬ us i <+: us j
  below : ∀ (k : Nat) v as a, ps[k]? = some (v, as) → a ∈ as → us k <+: a.key v ∧ us k ≠ a.key v

end Parts
end Verif

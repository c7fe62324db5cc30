import Verif.Spec.RaceFresh
/-
What some of the calls of `Remove` take away.
-/
namespace Verif
namespace Parts
variable {α : Type}

/-- The path is at or below the node that one of the calls of `Remove` with the numbers `D` removes. -/
def Fell (v : View) (t : Tree α) (as : List (Act α)) (D : Nat → Prop) (q : Str) : Prop :=
  ∃ k p P y u, D k ∧ as[k]? = some (.remove p) ∧ Prune.Takes v t (.remove p) P y ∧ (u, P) ∈ t.root.nodes [] ∧ u ++ y.path <+: q

end Parts
end Verif

import Verif.Model.RaceDup
import Verif.Spec.RaceMix
/-
What a copy made beside `Set` is to contain.
-/
namespace Verif
namespace Parts
variable {α : Type} [Inhabited α]

/-- When the goroutines have run as in `S`, `b` is right for the question whether the key `q` has a value, if it was `b0` at the beginning: it is `b0`, and
nobody has returned from a `Set` for that key; or it is true, and a `Set` for that key has begun. -/
def FlagAt (v : View) (t : Tree α) (as : List (Act α)) (q : Str) (b0 b : Bool) (S : List Nat) : Prop :=
  b = b0 ∧ (∀ (j : Nat) p z, as[j]? = some (.set p z) → View.dash (v.full p) = q → ((runs t (each v as) S).gs j).outs = []) ∨
  b = true ∧ ∃ (j : Nat) (p : Str) (x : α), as[j]? = some (.set p x) ∧ View.dash (v.full p) = q ∧ ((runs t (each v as) S).gs j).todo = []

end Parts
end Verif

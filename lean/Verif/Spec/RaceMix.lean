import Verif.Spec.RaceParts
import Verif.Lemmas.Tree
import Verif.Spec.RaceRemove
/-
`Set` for keys that are in the trie, beside `Remove`.
-/
namespace Verif
namespace Parts
variable {α : Type} [Inhabited α]

/-- Every goroutine has the same store and makes one of the calls. -/
def each (v : View) (as : List (Act α)) : List (View × List (Act α)) := as.map fun a => (v, [a])

/-- The calls, with a lookup in the place of every `Set`. -/
def calls (as : List (Act α)) : List Prune.Call := as.map fun
  | .get p | .set p _ => .get p
  | .remove p => .remove p

/-- The trie when the calls of `Set` are made one after the other. -/
def sets (v : View) : Tree α → List (Act α) → Tree α
  | t, [] => t
  | t, .set p x :: r => sets v (v.set t p x).1 r
  | t, _ :: r => sets v t r

/-- Every `Set` is for a path at which there is a node, no two are for the same, and no `Remove` gets into the way
of a `Set`. -/
structure Spared (v : View) (t : Tree α) (as : List (Act α)) : Prop where
  stored : ∀ p x, .set p x ∈ as → t.contents (View.dash (v.full p)) ≠ none
  apart : ∀ (i j : Nat) p x p' x', as[i]? = some (.set p x) → as[j]? = some (.set p' x') →
    View.dash (v.full p) = View.dash (v.full p') → i = j
  spares : ∀ c P y p x, c ∈ calls as → Prune.Takes v t c P y → .set p x ∈ as → Prune.Spares t P y (View.dash (v.full p))

/-- What the goroutine is to be told. -/
def told : Act α → Option (Out α)
  | .get _ => none
  | .set _ _ => some .stored
  | .remove _ => some (.removed true)

/-- The schedule `S` has a moment, after the first step of goroutine `k`, at which it makes another one, and at which `a` is the answer for the
key `q`: it is `a0`, and nobody has returned from a `Set` for that key; or it is `a0` with the value of a `Set` for that key that has begun. -/
def AtMoment (v : View) (t : Tree α) (as : List (Act α)) (k : Nat) (q : Str) (a0 a : View.Ans α) (S : List Nat) : Prop :=
  ∃ S₁ S₂, S = S₁ ++ k :: S₂ ∧ k ∈ S₁ ∧
    (a = a0 ∧ (∀ (j : Nat) p x, as[j]? = some (.set p x) → View.dash (v.full p) = q → ((runs t (each v as) S₁).gs j).outs = []) ∨
    ∃ (j : Nat) (p : Str) (x : α), as[j]? = some (.set p x) ∧ View.dash (v.full p) = q ∧ a = { a0 with data := x } ∧
      ((runs t (each v as) S₁).gs j).todo = [])

/-- When the goroutines have run as in `S`, the value `x` is right for the key `q`, which had the value `y` at the beginning: it is `y`, and nobody has
returned from a `Set` for that key; or it is the value of a `Set` for that key that has begun. -/
def ValueAt (v : View) (t : Tree α) (as : List (Act α)) (q : Str) (y x : α) (S : List Nat) : Prop :=
  x = y ∧ (∀ (j : Nat) p z, as[j]? = some (.set p z) → View.dash (v.full p) = q → ((runs t (each v as) S).gs j).outs = []) ∨
  ∃ (j : Nat) (p : Str), as[j]? = some (.set p x) ∧ View.dash (v.full p) = q ∧ ((runs t (each v as) S).gs j).todo = []

end Parts
end Verif

import Verif.Spec.RaceMix
/-
`Set` for new keys beside `Remove`.
-/
namespace Verif
namespace Parts
variable {α : Type} [Inhabited α]

/-- The key is not in the trie, and `w` is what is left of it below the node `A`, which has no child that begins like it: `Set` will
add a child to `A`. -/
def Leaves (t : Tree α) (q : Str) (A : Node α) (w : Str) : Prop :=
  ∃ a, (a, A) ∈ t.root.nodes [] ∧ q = a ++ w ∧ w ≠ [] ∧ ∀ e ∈ A.kids, e.path.head? ≠ w.head?

/-- Every `Set` is for a path at which there is a node, or for one that adds a child to a node. No two are for the same
path, and no two add children to the same node. No `Remove` takes a child from a node to which one is added, or gets into the
way of a `Set`. -/
structure Joins (v : View) (t : Tree α) (as : List (Act α)) : Prop where
  keys : ∀ p x, .set p x ∈ as → t.contents (View.dash (v.full p)) ≠ none ∨ ∃ A w, Leaves t (View.dash (v.full p)) A w
  apart : ∀ (i j : Nat) p x p' x', as[i]? = some (.set p x) → as[j]? = some (.set p' x') →
    View.dash (v.full p) = View.dash (v.full p') → i = j
  sites : ∀ (i j : Nat) p x p' x' A w A' w', as[i]? = some (.set p x) → as[j]? = some (.set p' x') →
    Leaves t (View.dash (v.full p)) A w → Leaves t (View.dash (v.full p')) A' w' → A.id = A'.id → i = j
  still : ∀ c P y p x A w, c ∈ calls as → Prune.Takes v t c P y → .set p x ∈ as → Leaves t (View.dash (v.full p)) A w → P.id ≠ A.id
  spares : ∀ c P y p x, c ∈ calls as → Prune.Takes v t c P y → .set p x ∈ as → Prune.Spares t P y (View.dash (v.full p))

/-- The path is one that a `Remove` takes away: it is at or below the node that is removed. -/
def Gone (v : View) (t : Tree α) (as : List (Act α)) (q : Str) : Prop :=
  ∃ c P y u, c ∈ calls as ∧ Prune.Takes v t c P y ∧ (u, P) ∈ t.root.nodes [] ∧ u ++ y.path <+: q

/-- What is at a path after a `Set`: what was there, with the value, or a new leaf. -/
def held (q : Str) (x : α) : Option (Core α) → Core α
  | some c => { c with hasData := true, data := x }
  | none => { Core.zero with pathS := utf8 q, leaf := true, hasData := true, data := x }

end Parts
end Verif

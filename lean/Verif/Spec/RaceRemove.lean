import Verif.Model.RaceRemove
import Verif.Spec.Entries
import Verif.Spec.Map
/-
When goroutines that remove keys do not get into each other's way, and when a lookup beside them is not disturbed.
-/
namespace Verif
namespace Prune
variable {α : Type} [Inhabited α]

/-- The call removes `x` from the children of `P` (when it is made alone). -/
def Takes (v : View) (t : Tree α) (c : Call) (P x : Node α) : Prop :=
  ∃ p t', c = .remove p ∧ v.removeEx t p = .ok (t', some (x, P))

/-- The way to the key `q` does not lead through the child `x` of `P`, nor through another child of `P` which stands
behind `x`, unless that is the last one. -/
def Spares (t : Tree α) (P x : Node α) (q : Str) : Prop :=
  ∀ u A c C, (u, P) ∈ t.root.nodes [] → P.kids = A ++ c :: C → u ++ c.path <+: q →
    c.id ≠ x.id ∧ (C = [] ∨ x.id ∈ C.map Node.id)

/-- Every `Remove` among the calls has something to remove; no two of them from the same node; and each spares the
ways of the others. -/
structure Tidy (v : View) (t : Tree α) (cs : List Call) : Prop where
  takes : ∀ p, .remove p ∈ cs → ∃ P x, Takes v t (.remove p) P x
  apart : ∀ (i j : Nat) c c' P x P' x', i ≠ j → cs[i]? = some c → cs[j]? = some c' → Takes v t c P x → Takes v t c' P' x' →
    P.id ≠ P'.id
  spares : ∀ (i j : Nat) c c' P x P' x' q, i ≠ j → cs[i]? = some c → cs[j]? = some c' → Takes v t c P x → Takes v t c' P' x' →
    (q, x) ∈ t.root.nodes [] → Spares t P' x' q

/-- The trie when the removals among the calls are made one after the other. -/
def after (v : View) : Tree α → List Call → Tree α
  | t, [] => t
  | t, .get _ :: cs => after v t cs
  | t, .remove p :: cs => match v.remove t p with
    | .ok (t', _) => after v t' cs
    | .error _ => after v t cs

/-- All removals among the calls have returned. -/
def Returned (cs : List Call) (W : World α) : Prop := ∀ k p, cs[k]? = some (.remove p) → ∃ b, W.pcs k = .gone b

end Prune
end Verif

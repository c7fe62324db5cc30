import Verif.Spec.Race
import Verif.Model.RaceRead
/-
When a lookup may run beside goroutines that set keys.
-/
namespace Verif
namespace Race
variable {α : Type} [Inhabited α]

/-- The goroutines that return during a schedule, in the order in which they do. -/
def finishes (Js : Nat → Job α) : World α → List Nat → List Nat
  | _, [] => []
  | W, k :: S =>
    (if W.pcs k ≠ .done ∧ (W.tick Js k).pcs k = .done then [k] else []) ++ finishes Js (W.tick Js k) S

/-- The keys and values of some of the goroutines. -/
def pick (kvs : List (Str × α)) (L : List Nat) : List (Str × α) := L.map fun k => kvs[k]?.getD default

/-- The steps of the writers in a schedule. -/
def writers (S : List (Option Nat)) : List Nat := S.filterMap id

/-- The keys and values of the goroutines that have returned. -/
def returned (kvs : List (Str × α)) (W : World α) : List (Str × α) :=
  (kvs.zipIdx.filter fun e => W.pcs e.2 == .done).map (·.1)

/-- Every goroutine is to replace a value that is there. -/
def Replaces (t : Tree α) (kvs : List (Str × α)) : Prop :=
  ∀ kv ∈ kvs, ∃ c, t.contents kv.1 = some c ∧ c.hasData = true

/-- The keys that the goroutines set leave the way to `q` alone. -/
def Beside (t : Tree α) (kvs : List (Str × α)) (w q : Str) (c : Core α) : Prop :=
  ∀ kv ∈ kvs, (kv.1 = q ∧ c.hasData = true) ∨ (kv.1 ≠ q ∧ Free t w kv.1)

end Race
end Verif

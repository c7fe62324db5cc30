import Verif.Spec.RaceRead
import Verif.Model.RaceStore
/-
What there is to say about goroutines that set keys of a store with handlers.
-/
namespace Verif
namespace Race
variable {α : Type} [Inhabited α]

/-- The goroutines whose value comes into the trie during a schedule, in the order in which they do. -/
def stored (d : Char) (isNil : α → Bool) (Js : Nat → Job α) : Sys α → List Nat → List Nat
  | _, [] => []
  | s, k :: S =>
    (if s.base.pcs k ≠ .done ∧ (s.tick d isNil Js k).base.pcs k = .done then [k] else []) ++ stored d isNil Js (s.tick d isNil Js k) S

def Event.key : Event α → Str
  | .created k _ => k
  | .changed k _ _ => k

def Event.val : Event α → α
  | .created _ x => x
  | .changed _ x _ => x

/-- What a handler copies into a store of its own: the keys and values that it is told, in that order. -/
def mirror (log : List (Nat × Event α)) : List (Str × α) := log.map fun e => (e.2.key, e.2.val)

/-- There is a value at the key, or nothing at all, also not a section of that name. -/
def Fits (d : Char) (t : Tree α) (key : Str) : Prop :=
  (∃ c, t.contents key = some c ∧ c.hasData = true) ∨ resolve d t.contents key = none

/-- The value of a path, if it has one. -/
def value (t : Tree α) (q : Str) : Option α := (t.contents q).bind fun c => if c.hasData then some c.data else none

end Race
end Verif

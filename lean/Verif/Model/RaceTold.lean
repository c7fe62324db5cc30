import Verif.Model.RaceRemove
/-
store.go:392-401 as a program with a program counter: several goroutines call `Remove` of one store, which has handlers.
-/
namespace Verif
namespace Prune
variable {α : Type} [Inhabited α]

/-- Where a goroutine stands in `Remove` of the store. (store.go:392-401.) -/
inductive Ph (α : Type) where
  /-- store.go:394 `RemoveEx`; `item` is the node that its search has found, radix/trie.go:575 -/
  | run (item : Option Nat)
  /-- 397 `rmn.Data()` -/
  | data (item : Option Nat)
  /-- 398 `tryOnDelete` -/
  | tell (val : α)
  /-- `Remove` has returned -/
  | back (removed : Bool)
deriving DecidableEq

/-- The goroutines, and what the handlers have been told so far and by whom, the oldest first: the key and the value.
`base` is the trie and where the goroutines stand in `RemoveEx`. (store.go:392-401.) -/
structure Hub (α : Type) where
  base : World α
  phase : Nat → Ph α
  log : List (Nat × Str × α)

/-- store.go:394-395: a step of `RemoveEx`, and whether it has returned. -/
def Ph.next (item : Option Nat) (old new : Pc α) : Ph α :=
  match new with
  | .gone true => .data item
  | .gone false => .back false
  | _ => .run (match old with
    | .pick _ i => some i
    | _ => item)

/-- Goroutine `k` makes a step. Simplified: a call of the handlers is one step; no load is going on; a nil node is read as the
zero value (there is none, see the theorems). (store.go:392-401.) -/
def Hub.tick (d : Char) (cs : List Call) (s : Hub α) (k : Nat) : Hub α :=
  let go := fun (p : Ph α) (l : Nat) => if l = k then p else s.phase l
  match s.phase k with
  | .run item =>
    let W := s.base.tick d cs k
    { s with base := W, phase := go (.next item (s.base.pcs k) (W.pcs k)) }
  | .data item => { s with phase := go (.tell (item.elim default fun i => (s.base.mem i).core.data)) }
  | .tell a => { s with phase := go (.back true), log := s.log ++ [(k, (cs[k]?.getD (.get [])).path, a)] }
  | .back _ => s

/-- The goroutines run as the scheduler decides. (store.go:392-401.) -/
def Hub.run (d : Char) (cs : List Call) (s : Hub α) : List Nat → Hub α
  | [] => s
  | k :: S => Hub.run d cs (s.tick d cs k) S

/-- Goroutine `k` is about to make the `k`-th of the calls. (store.go:392-401.) -/
def hub (v : View) (t : Tree α) (cs : List Call) : Hub α := { base := start v t cs, phase := fun _ => .run none, log := [] }

end Prune
end Verif

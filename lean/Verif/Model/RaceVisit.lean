import Verif.Model.RaceParts
import Verif.Model.RaceSweep
/-
radix/node.go:582-591 as a program with a program counter: a goroutine walks over the trie while others set, remove and look up keys.
-/
namespace Verif
namespace Parts
variable {α : Type} [Inhabited α]
open Prune (Mem Turn)

/-- Where a goroutine stands in `Walk("", cb)`; `stk` are the loops that are still running, the innermost first. (radix/node.go:582-591.) -/
inductive Wk where
  /-- radix/node.go:587: `s.pathS` is read -/
  | visit (i : Nat) (stk : List Turn)
  /-- 587: `s.path` is read and `cb` is called -/
  | call (i : Nat) (p : List UInt8) (stk : List Turn)
  /-- 588: `range s.children` is evaluated -/
  | kids (i : Nat) (stk : List Turn)
  /-- 588: the next turn of a loop: an element of the array is read -/
  | next (stk : List Turn)
  | done
deriving DecidableEq

/-- One step; none of them changes the memory of the trie. The second component are the calls of `cb`, the oldest first: path, fragment and node. Simplified: reading a
string or a slice is one step; `cb` does nothing but note its arguments. (radix/node.go:586-591.) -/
def wstep (M : Mem α) : Wk × List (Str × Str × Nat) → Wk × List (Str × Str × Nat)
  | (.visit i stk, out) => (.call i (M i).core.pathS stk, out)
  | (.call i p stk, out) => (.kids i stk, out ++ [(runes p, (M i).path, i)])
  | (.kids i stk, out) => (.next (⟨i, (M i).len, 0⟩ :: stk), out)
  | (.next [], out) => (.done, out)
  | (.next (L :: stk), out) =>
    if L.next < L.len then (.visit ((M L.node).arr.getD L.next 0) ({ L with next := L.next + 1 } :: stk), out)
    else (.next stk, out)
  | (.done, out) => (.done, out)

/-- The walking goroutine and the others run as the scheduler decides; `none` is a step of the former. (radix/node.go:582-591.) -/
def walking (root gap : Nat) : World α × Wk × List (Str × Str × Nat) → List (Option Nat) → World α × Wk × List (Str × Str × Nat)
  | s, [] => s
  | (W, e), none :: S => walking root gap (W, wstep W.mem e) S
  | (W, e), some k :: S => walking root gap (W.tick root gap k, e) S

/-- What comes of a `Walk("", cb)` over the trie `t` that begins when the goroutines have run as in `S0`, and goes on as in `S`. (radix/trie.go:861-868,
radix/node.go:582-591.) -/
def walks (t : Tree α) (ps : List (View × List (Act α))) (S0 : List Nat) (S : List (Option Nat)) : Wk × List (Str × Str × Nat) :=
  (walking t.root.id (2 * ps.length) (runs t ps S0, .visit t.root.id [], []) S).2

/-- The same from the node `i` on: `node.Walk(cb)` of a node that the goroutine holds. (radix/node.go:582-591.) -/
def walksAt (t : Tree α) (ps : List (View × List (Act α))) (i : Nat) (S0 : List Nat) (S : List (Option Nat)) : Wk × List (Str × Str × Nat) :=
  (walking t.root.id (2 * ps.length) (runs t ps S0, .visit i [], []) S).2

end Parts
end Verif

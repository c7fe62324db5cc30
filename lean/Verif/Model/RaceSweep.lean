import Verif.Model.RaceRemove
import Verif.Model.Export
/-
radix/cvter.go:411-445 and radix/node.go:582-591 as a program with a program counter: a goroutine exports the trie
while others remove keys.
-/
namespace Verif
namespace Prune
variable {α : Type} [Inhabited α]

/-- A running loop at radix/node.go:588: the node, the length of its slice when the loop began, and the next index. -/
structure Turn where
  node : Nat
  len : Nat
  next : Nat
  deriving DecidableEq

/-- Where a goroutine stands in `GetM("")`; `stk` are the loops that are still running. (radix/cvter.go:411-445, radix/node.go:582-591.) -/
inductive Ex where
  /-- radix/node.go:587: `s.pathS` is read -/
  | visit (i : Nat) (stk : List Turn)
  /-- radix/cvter.go:428, in the callback, with the path as read before -/
  | test (i : Nat) (p : List UInt8) (stk : List Turn)
  /-- 435 or 437: `node.Data()` is read and put into the map -/
  | data (i : Nat) (p : List UInt8) (stk : List Turn)
  /-- radix/node.go:588: `range s.children` is evaluated -/
  | kids (i : Nat) (stk : List Turn)
  /-- the next turn of a loop: an element of the array is read -/
  | next (stk : List Turn)
  | done
deriving DecidableEq

/-- One step; none of them changes the memory of the trie. The second component is what has been put into the map, the
oldest first. Simplified: the trie has no prefix and there are no options; reading a string or a slice is one step. (radix/cvter.go:411-445,
radix/node.go:582-591.) -/
def estep (d : Char) (M : Mem α) : Ex × List (Str × α) → Ex × List (Str × α)
  | (.visit i stk, out) => (.test i (M i).core.pathS stk, out)
  | (.test i p stk, out) =>
    if (p = [] || !simpleEndsWith p d) && !(M i).core.isBranch then (.data i p stk, out) else (.kids i stk, out)
  | (.data i p stk, out) => (.kids i stk, out ++ [(runes p, (M i).core.data)])
  | (.kids i stk, out) => (.next (⟨i, (M i).len, 0⟩ :: stk), out)
  | (.next [], out) => (.done, out)
  | (.next (L :: stk), out) =>
    if L.next < L.len then (.visit ((M L.node).arr.getD L.next 0) ({ L with next := L.next + 1 } :: stk), out)
    else (.next stk, out)
  | (.done, out) => (.done, out)

/-- The exporting goroutine and the others run as the scheduler decides; `none` is a step of the former. (radix/cvter.go:411-445,
radix/node.go:582-591.) -/
def collect (d : Char) (cs : List Call) :
    World α × Ex × List (Str × α) → List (Option Nat) → World α × Ex × List (Str × α)
  | s, [] => s
  | (W, e), none :: S => collect d cs (W, estep d W.mem e) S
  | (W, e), some k :: S => collect d cs (W.tick d cs k, e) S

end Prune
end Verif

import Verif.Model.Race
import Verif.Model.Export
/-
radix/cvter.go:411-445 and radix/node.go:582-591 as a program with a program counter: a goroutine exports the trie
while others insert.
-/
namespace Verif
namespace Race
variable {α : Type} [Inhabited α]

/-- Where a goroutine stands in `GetM("")`; `stk` are the loops at radix/node.go:588 that are still running: the
children not yet walked. -/
inductive Ex where
  /-- radix/node.go:587: `s.pathS` is read -/
  | visit (i : Nat) (stk : List (List Nat))
  /-- radix/cvter.go:428, in the callback, with the path as read before -/
  | test (i : Nat) (p : List UInt8) (stk : List (List Nat))
  /-- 435 or 437: `node.Data()` is read and put into the map -/
  | data (i : Nat) (p : List UInt8) (stk : List (List Nat))
  /-- radix/node.go:588: `range s.children` is evaluated -/
  | kids (i : Nat) (stk : List (List Nat))
  /-- the next turn of a loop -/
  | next (stk : List (List Nat))
  | done
deriving DecidableEq

/-- One step; none of them changes the memory of the trie. The second component is what has been put into the map, the
oldest first. Simplified: the trie has no prefix and there are no options; reading a string or a slice is one step
(`pathS`, `children`), so that the words of its header are never from different writes. (radix/cvter.go:411-445, radix/node.go:582-591.) -/
def estep (d : Char) (M : Mem α) : Ex × List (Str × α) → Ex × List (Str × α)
  | (.visit i stk, out) => (.test i (M i).core.pathS stk, out)
  | (.test i p stk, out) =>
    if (p = [] || !simpleEndsWith p d) && !(M i).core.isBranch then (.data i p stk, out) else (.kids i stk, out)
  | (.data i p stk, out) => (.kids i stk, out ++ [(runes p, (M i).core.data)])
  | (.kids i stk, out) => (.next ((M i).kids :: stk), out)
  | (.next [], out) => (.done, out)
  | (.next ([] :: stk), out) => (.next stk, out)
  | (.next ((j :: js) :: stk), out) => (.visit j (js :: stk), out)
  | (.done, out) => (.done, out)

/-- The exporting goroutine and the writers run as the scheduler decides; `none` is a step of the former. (radix/cvter.go:411-445,
radix/node.go:582-591.) -/
def collect (d : Char) (Js : Nat → Job α) : World α × Ex × List (Str × α) → List (Option Nat) → World α × Ex × List (Str × α)
  | s, [] => s
  | (W, e), none :: S => collect d Js (W, estep d W.mem e) S
  | (W, e), some k :: S => collect d Js (W.tick Js k, e) S

end Race
end Verif

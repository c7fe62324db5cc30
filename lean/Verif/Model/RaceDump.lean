import Verif.Model.RaceParts
import Verif.Model.RaceSweep
import Verif.Model.Dump
/-
radix/node.go:490-556 (`dumpR`) as a program with a program counter: a goroutine dumps the trie while others set, remove and look up keys.
-/
namespace Verif
namespace Parts
variable {α : Type} [Inhabited α]
open Prune (Mem Turn)

/-- Where a goroutine stands in `Dump`; `stk` are the loops that are still running, the innermost first; their number is `lvl`. (radix/node.go:490-556.) -/
inductive Du where
  /-- radix/node.go:492-503: `s.path` and the kind of the node are read -/
  | visit (i : Nat) (stk : List Turn)
  /-- 522: `s.hasData()` -/
  | flag (i : Nat) (p : Str) (leaf : Bool) (stk : List Turn)
  /-- 523-543: the data and the other fields are read -/
  | text (i : Nat) (p : Str) (leaf has : Bool) (stk : List Turn)
  /-- 550: `range s.children` is evaluated -/
  | kids (i : Nat) (stk : List Turn)
  /-- 550: the next turn of a loop: an element of the array is read -/
  | next (stk : List Turn)
  | done
deriving DecidableEq

/-- One step; none of them changes the memory of the trie. The second component is the text so far. Simplified: the path and the kind are read in one step, and the data, the
full path and the other fields too; the line is written at once (the `strings.Builder` belongs to the goroutine). The lock of 521 is not there (the field is never set).
(radix/node.go:490-556.) -/
def ustep (F : DumpFmt α) (nc : Bool) (M : Mem α) : Du × List UInt8 → Du × List UInt8
  | (.visit i stk, out) => (.flag i (M i).path (M i).core.leaf stk, out)
  | (.flag i p l stk, out) => (.text i p l (M i).core.hasData stk, out)
  | (.text i p l b stk, out) => (.kids i stk, out ++ dumpLine F nc stk.length (.mk i p { (M i).core with leaf := l, hasData := b } []))
  | (.kids i stk, out) => (.next (⟨i, (M i).len, 0⟩ :: stk), out)
  | (.next [], out) => (.done, out)
  | (.next (L :: stk), out) =>
    if L.next < L.len then (.visit ((M L.node).arr.getD L.next 0) ({ L with next := L.next + 1 } :: stk), out)
    else (.next stk, out)
  | (.done, out) => (.done, out)

/-- The dumping goroutine and the others run as the scheduler decides; `none` is a step of the former. (radix/node.go:490-556.) -/
def dumping (F : DumpFmt α) (nc : Bool) (root gap : Nat) : World α × Du × List UInt8 → List (Option Nat) → World α × Du × List UInt8
  | s, [] => s
  | (W, e), none :: S => dumping F nc root gap (W, ustep F nc W.mem e) S
  | (W, e), some k :: S => dumping F nc root gap (W.tick root gap k, e) S

/-- What comes of a `Dump` of the trie `t` that begins when the goroutines have run as in `S0`, and goes on as in `S`. (radix/trie.go:851-852, radix/node.go:472-556.) -/
def dumps (F : DumpFmt α) (nc : Bool) (t : Tree α) (ps : List (View × List (Act α))) (S0 : List Nat) (S : List (Option Nat)) : Du × List UInt8 :=
  (dumping F nc t.root.id (2 * ps.length) (runs t ps S0, .visit t.root.id [], []) S).2

end Parts
end Verif

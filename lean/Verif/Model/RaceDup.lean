import Verif.Model.RaceParts
/-
radix/node.go:559-579 (`Dup`) as a program with a program counter: a goroutine copies the trie while others set, remove and look up keys.
-/
namespace Verif
namespace Parts
variable {α : Type} [Inhabited α]
open Prune (Mem)

/-- A call of `Dup` that has not returned: the node, its copy so far (with the identity `id`), the length of the slice of children when the loop
began, and the next index. (radix/node.go:559-579.) -/
structure Half (α : Type) where
  node : Nat
  id : Nat
  path : Str
  core : Core α
  len : Nat
  next : Nat
  kids : List (Node α)

/-- Where the goroutine stands in `Dup`; `stk` are the calls that have not returned, the innermost first. (radix/node.go:559-579.) -/
inductive Dp (α : Type) where
  /-- radix/node.go:560-564: the new node is made -/
  | visit (i : Nat) (stk : List (Half α))
  /-- 566-567: `range s.children` is evaluated -/
  | kids (h : Half α) (stk : List (Half α))
  /-- 567-569: the next turn of the loop; after the last one, the data is read (571) -/
  | next (stk : List (Half α))
  /-- the copy is complete -/
  | done (n : Node α)

/-- A copy is handed to the call that waits for it. (radix/node.go:568.) -/
def Dp.push (n : Node α) : List (Half α) → Dp α
  | [] => .done n
  | h :: stk => .next ({ h with kids := h.kids ++ [n] } :: stk)

/-- One step of `Dup`; it does not change the memory of the trie. The second component is the next unused identity. Simplified: `path`, `pathS` and `nType` are read
in one step; `evendeep.MakeClone` returns an equal value. (radix/node.go:559-579.) -/
def dstep (M : Mem α) : Dp α × Nat → Dp α × Nat
  | (.visit i stk, f) => (.kids ⟨i, f, (M i).path, { (M i).core with desc := [], comment := [], tag := none }, 0, 0, []⟩ stk, f + 1)
  | (.kids h stk, f) => (.next ({ h with len := (M h.node).len } :: stk), f)
  | (.next [], f) => (.next [], f)
  | (.next (h :: stk), f) =>
    if h.next < h.len then (.visit ((M h.node).arr.getD h.next 0) ({ h with next := h.next + 1 } :: stk), f)
    else (Dp.push (.mk h.id h.path { h.core with data := (M h.node).core.data } h.kids) stk, f)
  | (.done n, f) => (.done n, f)

/-- The goroutine in `Dup` and the others run as the scheduler decides; `none` is a step of the former. (radix/node.go:559-579.) -/
def copying (root gap : Nat) : World α × Dp α × Nat → List (Option Nat) → World α × Dp α × Nat
  | s, [] => s
  | (W, e), none :: S => copying root gap (W, dstep W.mem e) S
  | (W, e), some k :: S => copying root gap (W.tick root gap k, e) S

/-- What comes of a `Dup` of the trie `t` that begins when the goroutines have run as in `S0`, and goes on as in `S`. The new nodes have the
identities from `f` on. (radix/trie.go:855-857, radix/node.go:559-579.) -/
def copies (t : Tree α) (ps : List (View × List (Act α))) (f : Nat) (S0 : List Nat) (S : List (Option Nat)) : Dp α × Nat :=
  (copying t.root.id (2 * ps.length) (runs t ps S0, .visit t.root.id [], f) S).2

end Parts
end Verif

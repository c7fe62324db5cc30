import Verif.Model.Trie
/-
The insertion of radix/node.go once more, assignment by assignment: what another goroutine finds in the
tree while `Set` is at work (a watched store is written by the goroutine of its watcher).
-/
namespace Verif
namespace Node
variable {α : Type} [Inhabited α]

/-- radix/node.go:271-291 in `split`: the receiver after each of the assignments to its fields. -/
def splitSteps (fresh pos : Nat) : Node α → List (Node α)
  | mk i p c k =>
    let new : Node α := mk fresh (p.drop pos) c k
    let c1 := { c with pathS := c.pathS.take (c.pathS.length - (p.length - pos)) }
    let c2 := { c1 with leaf := false, hasData := false, modified := false }
    let c3 := { c2 with desc := [] }
    let c4 := { c3 with comment := [] }
    let c5 := { c4 with tag := none }
    [mk i (p.take pos) c k,          -- s.path = s.path[:pos]
     mk i (p.take pos) c1 k,         -- s.pathS = ...
     mk i (p.take pos) c1 [new],     -- s.children = ...
     mk i (p.take pos) c2 [new],     -- s.nType = NTBranch
     mk i (p.take pos) c3 [new],
     mk i (p.take pos) c4 [new],
     mk i (p.take pos) c5 [new],
     mk i (p.take pos) { c5 with data := default } [new]]

/-- radix/node.go:226-246: the children after each assignment below them; `insertAsLeaf` (296-306) makes
the leaf first and appends it in one assignment. -/
def kidSteps (ins : Node α → List (Node α)) (fresh : Nat) (word : Str) (fullPath : List UInt8) (v : α) :
    List (Node α) → List (List (Node α))
  | [] => [[newLeaf (fresh + 1) word fullPath v]]
  | c :: cs =>
    if c.path.head? = word.head? then (ins c).map (· :: cs)
    else (kidSteps ins fresh word fullPath v cs).map (c :: ·)

/-- radix/node.go:205-256 `insertInternal`: the receiver after each assignment. -/
def insSteps (fresh : Nat) (fullPath : List UInt8) (v : α) : Nat → Str → Node α → List (Node α)
  | 0, _, n => [n]
  | fuel + 1, word, n =>
    if n.path.length = 0 ∧ word.length > 0 ∧ n.kids.length = 0 then
      [mk n.id n.path n.core (n.kids ++ [newLeaf (fresh + 1) word fullPath v])]
    else
      let cpl := if n.path.length > 0 ∧ word.length > 0 then commonPrefixLen word n.path else 0
      let sp := if cpl < n.path.length then splitSteps fresh cpl n else []
      let base := if cpl < n.path.length then split fresh cpl n else n
      if cpl < word.length then
        sp ++ (kidSteps (insSteps fresh fullPath v fuel (word.drop cpl)) fresh (word.drop cpl) fullPath v base.kids).map
          (mk base.id base.path base.core)
      else
        sp ++ [mk base.id base.path { base.core with hasData := true } base.kids,
          mk base.id base.path { base.core with hasData := true, data := v } base.kids]

end Node

namespace View
variable {α : Type} [Inhabited α]

/-- What other goroutines find while `key` is being set, one tree per assignment. Simplified: their lookups
are taken to run between two assignments of the writer. (radix/node.go:205-306.) -/
def during (t : Tree α) (key : Str) (x : α) : List (Tree α) :=
  (t.root.insSteps t.next (utf8 key) x (key.length + 2) key).map (fun n => { root := n, next := t.next + 2 })

end View
end Verif

import Verif.Model.Race
import Verif.Model.RaceRemove
/-
Goroutines that call `Set`, `Remove` and `Query` one after the other, each through a store of its own on the same
trie (`WithPrefix`), while the others do the same. The memory is that of Model/RaceRemove.lean.
-/
namespace Verif
namespace Parts
variable {α : Type} [Inhabited α]
open Prune (Cell Mem)
open Race (Job)

/-- The elements of the slice `children`. (radix/node.go:22-32.) -/
def kids (s : Cell α) : List Nat := s.arr.take s.len

/-- radix/node.go:272-281: the node made by `split`; it takes over the slice. -/
def lower (pos : Nat) (s : Cell α) : Cell α := { s with path := s.path.drop pos }

/-- radix/node.go:284-292: the assignments of `split` to the receiver, in order. -/
def assign (fresh pos d : Nat) : Nat → Cell α → Cell α
  | 0, s => { s with path := s.path.take pos }
  | 1, s => { s with core := { s.core with pathS := s.core.pathS.take (s.core.pathS.length - d) } }
  | 2, s => { s with arr := [fresh], len := 1 }
  | 3, s => { s with core := { s.core with leaf := false, hasData := false, modified := false } }
  | 4, s => { s with core := { s.core with desc := [] } }
  | 5, s => { s with core := { s.core with comment := [] } }
  | 6, s => { s with core := { s.core with tag := none } }
  | _, s => { s with core := { s.core with data := default } }

/-- radix/node.go:297-302: the node made by `insertAsLeaf`. -/
def leafCell (word : Str) (J : Job α) : Cell α :=
  { path := word,
    core := { Core.zero with pathS := utf8 J.key, leaf := true, hasData := true, data := J.val }, arr := [], len := 0 }

/-- Where a goroutine stands in `Set`: as in Model/Race.lean, but the loop over the children reads them one by one. (radix/node.go:205-322.) -/
inductive SetPc where
  /-- radix/node.go:206, called with `word` for the node `i` -/
  | enter (word : Str) (i : Nat)
  /-- 272-281: `split` is about to make the new node -/
  | halve (word : Str) (i pos : Nat)
  /-- 284-292: the assignments of `split`, of which `k` have been made; `d` runes of the path are in the new node -/
  | cut (word : Str) (i pos d k : Nat)
  /-- 309: `range s.children` is evaluated -/
  | look (word : Str) (i : Nat)
  /-- 309-318: `len` is the length of the slice when the loop began and `k` the index -/
  | scan (word : Str) (i len k : Nat)
  /-- 297-304: `insertAsLeaf` makes its node and reads the children for `append` -/
  | leaf (word : Str) (i : Nat)
  /-- 304: the new slice is assigned -/
  | link (i : Nat) (kids : List Nat)
  /-- 248: the type is set -/
  | mark (i : Nat)
  /-- 249: the data is set -/
  | store (i : Nat)
  /-- the call has returned -/
  | done
  /-- a run-time panic, which ends the program -/
  | crash
  deriving DecidableEq

/-- One step of `insertInternal` (radix/node.go:205-306), as in Model/Race.lean, on slices. Simplified as there, and
`append` (304) always makes a new array. (A loop over the children reads the elements from the array that the slice has
when it reads them. That is the array with which it began unless another goroutine has given the node a new slice
meanwhile. In the theorems that happens only in C109 to C112, by `link`, and only to nodes from which nothing is removed; there the new
array has the same elements as the old one at the indices below the length with which the loop began.) -/
def insStep (J : Job α) (M : Mem α) : SetPc → Mem α × SetPc
  | .enter word i =>
    let s := M i
    if s.path.length = 0 ∧ word.length > 0 ∧ (kids s).length = 0 then (M, .leaf word i)
    else
      let cpl := Race.cplOf word s.path
      if cpl < s.path.length then (M, .halve word i cpl)
      else if cpl < word.length then (M, .look (word.drop cpl) i)
      else (M, .mark i)
  | .halve word i pos =>
    let s := M i
    if pos ≤ s.path.length then (M.set J.fresh (lower pos s), .cut word i pos (s.path.length - pos) 0)
    else (M, .crash)
  | .cut word i pos d k =>
    (M.set i (assign J.fresh pos d k (M i)),
      if k < 7 then .cut word i pos d (k + 1)
      else if pos < word.length then .look (word.drop pos) i
      else .mark i)
  | .look word i => (M, .scan word i (M i).len 0)
  | .scan word i len k =>
    (M, if k < len then
      if (M ((M i).arr.getD k 0)).path.head? = word.head? then .enter word ((M i).arr.getD k 0)
      else .scan word i len (k + 1)
    else .leaf word i)
  | .leaf word i => (M.set (J.fresh + 1) (leafCell word J), .link i (kids (M i)))
  | .link i ks => (M.set i { M i with arr := ks ++ [J.fresh + 1], len := ks.length + 1 }, .done)
  | .mark i => (M.set i { M i with core := { (M i).core with hasData := true } }, .store i)
  | .store i => (M.set i { M i with core := { (M i).core with data := J.val } }, .done)
  | .done => (M, .done)
  | .crash => (M, .crash)

/-- What a goroutine does with its store. (radix/trie.go:388-398, 568-585, 702-758, radix/node.go:183-322, 346-468.) -/
inductive Act (α : Type) where
  /-- radix/trie.go:702 `Query` (and `Get`, `Has`, which call it) -/
  | get (path : Str)
  /-- radix/trie.go:388 `Set` -/
  | set (path : Str) (x : α)
  /-- radix/trie.go:562 `Remove` -/
  | remove (path : Str)

/-- What it is told. The results of `Set` are left out. (radix/trie.go:388-398, 568-585, 702-758, radix/node.go:183-322, 346-468.) -/
inductive Out (α : Type) where
  | got (a : View.Ans α)
  | stored
  | removed (b : Bool)
  deriving DecidableEq

/-- Where a goroutine stands. (radix/trie.go:388-398, 568-585, 702-758, radix/node.go:183-322, 346-468.) -/
inductive Doing (α : Type) where
  /-- between two calls -/
  | idle
  /-- in `Query` or `Remove` -/
  | asks (c : Prune.Call) (pc : Prune.Pc α)
  /-- in `Set` -/
  | sets (J : Job α) (pc : SetPc)

/-- A goroutine: its store, what it has still to do, where it stands, what it has been told, and the next pointer that
the allocator has for it. (radix/trie.go:388-398, 568-585, 702-758, radix/node.go:183-322, 346-468.) -/
structure Gor (α : Type) where
  view : View
  todo : List (Act α)
  doing : Doing α
  outs : List (Out α)
  fresh : Nat

/-- One step of a goroutine; `root` is the root of the trie, and `gap` is the distance between the pointers that
the allocator hands out to one goroutine (so that all goroutines get different ones). (radix/trie.go:388-398, 568-585, 702-758,
radix/node.go:183-322, 346-468.) -/
def Gor.step (root gap : Nat) (M : Mem α) (g : Gor α) : Mem α × Gor α :=
  match g.doing with
  | .idle => match g.todo with
    | [] => (M, g)
    | .get p :: r => (M, { g with todo := r, doing := .asks (.get p) (.enter (g.view.full p) root none []) })
    | .remove p :: r => (M, { g with todo := r, doing := .asks (.remove p) (.enter (g.view.full p) root none []) })
    | .set p x :: r =>
      let key := View.dash (g.view.full p)
      (M, { g with todo := r, fresh := g.fresh + gap, doing := .sets ⟨key, x, g.fresh⟩ (.enter key root) })
  | .asks _ (.done a) => (M, { g with doing := .idle, outs := g.outs ++ [.got a] })
  | .asks _ (.gone b) => (M, { g with doing := .idle, outs := g.outs ++ [.removed b] })
  | .asks c pc => ((Prune.step c g.view.delim M pc).1, { g with doing := .asks c (Prune.step c g.view.delim M pc).2 })
  | .sets _ .done => (M, { g with doing := .idle, outs := g.outs ++ [.stored] })
  | .sets J pc => ((insStep J M pc).1, { g with doing := .sets J (insStep J M pc).2 })

/-- A goroutine that has panicked. (radix/node.go:183-195, 346-468.) -/
def Gor.crashed (g : Gor α) : Prop := (∃ c, g.doing = .asks c .crash) ∨ ∃ J, g.doing = .sets J .crash

/-- All goroutines. (radix/trie.go:388-398, 568-585, 702-758, radix/node.go:183-322, 346-468.) -/
structure World (α : Type) where
  mem : Mem α
  gs : Nat → Gor α

/-- Goroutine `k` makes a step. (radix/trie.go:388-398, 568-585, 702-758, radix/node.go:183-322, 346-468.) -/
def World.tick (root gap : Nat) (W : World α) (k : Nat) : World α :=
  let r := (W.gs k).step root gap W.mem
  { mem := r.1, gs := fun l => if l = k then r.2 else W.gs l }

/-- The goroutines run as the scheduler decides. (radix/trie.go:388-398, 568-585, 702-758, radix/node.go:183-322, 346-468.) -/
def World.run (root gap : Nat) (W : World α) : List Nat → World α
  | [] => W
  | k :: ks => World.run root gap (W.tick root gap k) ks

/-- Goroutine `k` has the `k`-th store and the `k`-th list of calls. (radix/trie.go:388-398, 568-585, 702-758, radix/node.go:183-322, 346-468.) -/
def start (t : Tree α) (ps : List (View × List (Act α))) : World α where
  mem := Prune.lay t.root fun _ => ⟨[], Core.zero, [], 0⟩
  gs k := { view := (ps[k]?.getD (⟨[], '.', .none⟩, [])).1, todo := (ps[k]?.getD (⟨[], '.', .none⟩, [])).2,
            doing := .idle, outs := [], fresh := t.next + 2 * k }

/-- What happens when the scheduler runs the goroutines as given. (radix/trie.go:388-398, 568-585, 702-758, radix/node.go:183-322, 346-468.) -/
def runs (t : Tree α) (ps : List (View × List (Act α))) (S : List Nat) : World α :=
  (start t ps).run t.root.id (2 * ps.length) S

end Parts
end Verif

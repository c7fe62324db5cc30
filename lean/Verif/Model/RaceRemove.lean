import Verif.Model.Trie
/-
radix/trie.go:568-585, radix/node.go:183-195 and 346-468 as programs with a program counter: goroutines remove
keys and look keys up at the same time. The children of a node are a slice here, because `remove` moves the
elements of the array under the loops of the others.
-/
namespace Verif
namespace Prune
variable {α : Type} [Inhabited α]

/-- The fields of a `nodeS` in memory (radix/node.go:23-33): `arr` is the array under `children`, `len` the length
of the slice. Simplified: the room behind the slice is left out, nobody reads it. -/
structure Cell (α : Type) where
  path : Str
  core : Core α
  arr : List Nat
  len : Nat

/-- What every pointer points at. (radix/trie.go:568-585, 702-758, radix/node.go:183-195, 346-468.) -/
abbrev Mem (α : Type) := Nat → Cell α

/-- An assignment to fields of a node. (radix/trie.go:568-585, 702-758, radix/node.go:183-195, 346-468.) -/
def Mem.set (M : Mem α) (i : Nat) (c : Cell α) : Mem α := fun j => if j = i then c else M j

/-- A running loop at radix/node.go:460: the node, the length of its slice when the loop began, the next index,
and the rest of the word. -/
structure Loop where
  node : Nat
  len : Nat
  next : Nat
  word : Str
  deriving DecidableEq

/-- Where a goroutine stands. (radix/trie.go:568-585, 702-758, radix/node.go:183-195, 346-468.) -/
inductive Pc (α : Type) where
  /-- radix/node.go:347, called with `word` for the node `i` below `par` -/
  | enter (word : Str) (i : Nat) (par : Option Nat) (stk : List Loop)
  /-- 355-361, with `l` as read at 347 and `srcMatchedL = k` -/
  | cmp (word : Str) (i : Nat) (par : Option Nat) (l k : Nat) (stk : List Loop)
  /-- 442 -/
  | tail (word : Str) (i : Nat) (par : Option Nat) (l : Nat) (stk : List Loop)
  /-- 450: `len(base.children) == 0` -/
  | kids (word : Str) (i : Nat) (par : Option Nat) (l : Nat) (stk : List Loop)
  /-- 460: `range base.children` is evaluated -/
  | range (word : Str) (i : Nat) (par : Option Nat) (l : Nat) (stk : List Loop)
  /-- a call returns `matched`, `partialMatched`, `child` and `parent` -/
  | ret (m p : Bool) (child par : Option Nat) (stk : List Loop)
  /-- radix/trie.go:709: `node.isBranch()` -/
  | branch (i : Nat)
  /-- 711: `node.endsWith(s.delimiter)` -/
  | ends (i : Nat)
  /-- 715: `node.hasData()` -/
  | has (i : Nat) (br found : Bool)
  /-- 717: `node.data` -/
  | data (i : Nat) (br found : Bool)
  /-- `Query` has returned -/
  | done (a : View.Ans α)
  /-- radix/node.go:188: `range s.children` is evaluated -/
  | pick (par item : Nat)
  /-- 188-189, `len` being the length of the slice when the loop began and `k` the index -/
  | scan (par item len k : Nat)
  /-- 190: `s.children[:k]` and `s.children[k+1:]` are evaluated -/
  | cut (par k : Nat)
  /-- 190: `append` moves `n` elements, of which `j` have been moved -/
  | move (par k n j : Nat)
  /-- `Remove` has returned -/
  | gone (removed : Bool)
  /-- a run-time panic, which ends the program -/
  | crash

/-- What a goroutine does. (radix/trie.go:568-585, 702-758, radix/node.go:183-195, 346-468.) -/
inductive Call where
  /-- radix/trie.go:702 `Query` -/
  | get (path : Str)
  /-- radix/trie.go:562 `Remove` -/
  | remove (path : Str)
  deriving DecidableEq

/-- The key of a call. (radix/trie.go:568-585, 702-758, radix/node.go:183-195, 346-468.) -/
def Call.path : Call → Str
  | get p | remove p => p

/-- radix/trie.go:737-738 and what `Query` (703-709) and `RemoveEx` (572-575) do with the result of the search. -/
def found : Call → Bool → Option Nat → Option Nat → Pc α
  | .get _, false, some i, _ => .branch i
  | .get _, _, _, _ => .done ⟨default, false, false, true⟩
  | .remove _, false, some i, some par => .pick par i
  | .remove _, _, _, _ => .gone false

/-- One step; each reads or writes the fields of one node. Simplified: the patterns at 368-433 are left out (in
the theorems there are none in the trie), and so is the recursive mode at radix/trie.go:741-754; `endsWith` reads the path
once; an element of the array is moved in one step, from the front to the back (the last element keeps its place
behind the slice as well). -/
def step (c : Call) (d : Char) (M : Mem α) : Pc α → Mem α × Pc α
  | .enter word i par stk =>
    (M, if word = [] then .ret true false (some i) par stk else .cmp word i par (M i).path.length 0 stk)
  | .cmp word i par l k stk =>
    (M, if k < min l word.length then
      match (M i).path[k]? with
      | none => .crash
      | some ch => if word[k]? = some ch then .cmp word i par l (k + 1) stk else .ret false false none none stk
    else .tail word i par l stk)
  | .tail word i par l stk =>
    (M, if word.length + 1 = l then
      match (M i).path[word.length]? with
      | none => .crash
      | some ch => if ch = d then .ret true false (some i) par stk else .ret false true (some i) par stk
    else if word.length < l then .ret false true (some i) par stk
    else if l < word.length then .kids word i par l stk
    else .ret true false (some i) par stk)
  | .kids word i par l stk =>
    (M, if (M i).len = 0 then .ret false true (if l > 0 then some i else none) (if l > 0 then par else none) stk
    else .range word i par l stk)
  | .range word i par l stk =>
    (M, if (M i).len = 0 then
      .ret (decide (l > 0)) false (if l > 0 then some i else none) (if l > 0 then par else none) stk
    else .ret false false none none (⟨i, (M i).len, 0, word.drop l⟩ :: stk))
  | .ret m p child par stk =>
    (M, if m || p then found c p child par
    else match stk with
      | [] => found c p none none
      | L :: stk =>
        if L.next < L.len then
          .enter L.word ((M L.node).arr.getD L.next 0) (some L.node) ({ L with next := L.next + 1 } :: stk)
        else .ret false false none none stk)
  | .branch i => (M, if (M i).core.isBranch then .ends i else .has i false true)
  | .ends i => (M, .has i true ((M i).path.getLast? == some d))
  | .has i br found => (M, if (M i).core.hasData then .data i br found else .done ⟨default, br, found, !found⟩)
  | .data i br found => (M, .done ⟨(M i).core.data, br, found, !found⟩)
  | .done a => (M, .done a)
  | .pick par item => (M, .scan par item (M par).len 0)
  | .scan par item len k =>
    (M, if k < len then if (M par).arr.getD k 0 = item then .cut par k else .scan par item len (k + 1)
    else .gone false)
  | .cut par k => (M, if k + 1 ≤ (M par).len then .move par k ((M par).len - (k + 1)) 0 else .crash)
  | .move par k n j =>
    if j < n then
      (M.set par { M par with arr := (M par).arr.set (k + j) ((M par).arr.getD (k + 1 + j) 0) }, .move par k n (j + 1))
    else (M.set par { M par with len := k + n }, .gone true)
  | .gone b => (M, .gone b)
  | .crash => (M, .crash)

/-- All goroutines: the memory, and where each of them stands. (radix/trie.go:568-585, 702-758, radix/node.go:183-195, 346-468.) -/
structure World (α : Type) where
  mem : Mem α
  pcs : Nat → Pc α

/-- Goroutine `k` makes a step. (radix/trie.go:568-585, 702-758, radix/node.go:183-195, 346-468.) -/
def World.tick (d : Char) (cs : List Call) (W : World α) (k : Nat) : World α :=
  let r := step (cs[k]?.getD (.get [])) d W.mem (W.pcs k)
  { mem := r.1, pcs := fun l => if l = k then r.2 else W.pcs l }

/-- The goroutines run as the scheduler decides. (radix/trie.go:568-585, 702-758, radix/node.go:183-195, 346-468.) -/
def World.run (d : Char) (cs : List Call) (W : World α) : List Nat → World α
  | [] => W
  | k :: ks => World.run d cs (W.tick d cs k) ks

mutual
/-- A tree laid out in memory. (For radix/node.go:22-32.) -/
def lay : Node α → Mem α → Mem α
  | .mk i p c k, M => (layL k M).set i { path := p, core := c, arr := k.map Node.id, len := k.length }
/-- The same for several trees. (For radix/node.go:22-32.) -/
def layL : List (Node α) → Mem α → Mem α
  | [], M => M
  | n :: ns, M => lay n (layL ns M)
end

/-- The tree below a pointer, read back (to a depth). (For radix/node.go:22-32.) -/
def read (M : Mem α) : Nat → Nat → Node α
  | 0, i => .mk i (M i).path (M i).core []
  | d + 1, i => .mk i (M i).path (M i).core (((M i).arr.take (M i).len).map (read M d))

/-- Goroutine `k` is about to make the `k`-th of the calls (radix/trie.go:569-572, 702-705: the prefix is joined,
the search begins at the root); all others have nothing to do. -/
def start (v : View) (t : Tree α) (cs : List Call) : World α where
  mem := lay t.root fun _ => ⟨[], Core.zero, [], 0⟩
  pcs k := match cs[k]? with
    | some c => .enter (v.full c.path) t.root.id none []
    | none => .done ⟨default, false, false, true⟩

end Prune
end Verif

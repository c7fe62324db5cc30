import Verif.Model.Trie
/-
radix/node.go:205-306 as a program with a program counter: several goroutines insert into one trie at the
same time, one access to a node at a time, with nothing to keep them apart (`nodeS.rw` is not taken on this
way).
-/
namespace Verif
namespace Race
variable {α : Type} [Inhabited α]

/-- The fields of a `nodeS` in memory (radix/node.go:23-33); the children are pointers. Simplified: a slice
is its list of elements (that two slices never share an array is C85). -/
structure Cell (α : Type) where
  path : Str
  core : Core α
  kids : List Nat

/-- What every pointer points at. (radix/node.go:205-306.) -/
abbrev Mem (α : Type) := Nat → Cell α

/-- An assignment to fields of a node. (radix/node.go:205-306.) -/
def Mem.set (M : Mem α) (i : Nat) (c : Cell α) : Mem α := fun j => if j = i then c else M j

/-- The arguments of one `root.insert(word, fullPath, data)` (radix/node.go:205), and the pointers its two
allocations (272, 297) return. -/
structure Job (α : Type) where
  key : Str
  val : α
  fresh : Nat

/-- Where a goroutine stands in `insertInternal`; `i` is the receiver. (radix/node.go:205-306.) -/
inductive Pc where
  /-- radix/node.go:206, entered with `word` -/
  | enter (word : Str) (i : Nat)
  /-- 269: `split` is entered -/
  | halve (word : Str) (i pos : Nat)
  /-- 283-292: the assignments of `split` from the `k`-th on; `d` is `len(s.path) - pos` as it was at 269 -/
  | cut (word : Str) (i pos d k : Nat)
  /-- 309: `range s.children` is evaluated -/
  | look (word : Str) (i : Nat)
  /-- 309-319: the children still to be compared -/
  | scan (word : Str) (i : Nat) (js : List Nat)
  /-- 297-304: the leaf is made and `s.children` read -/
  | leaf (word : Str) (i : Nat)
  /-- 304: `s.children` is assigned -/
  | link (i : Nat) (ks : List Nat)
  /-- 248: `base.nType |= NTData` -/
  | mark (i : Nat)
  /-- 249: `base.data = data` -/
  | store (i : Nat)
  | done
  /-- a run-time panic, which ends the program -/
  | crash
  deriving DecidableEq

/-- radix/node.go:216-219: `cpl` -/
def cplOf (word path : Str) : Nat :=
  if path.length > 0 ∧ word.length > 0 then Node.commonPrefixLen word path else 0

/-- radix/node.go:272-281: the node made by `split`. -/
def lower (pos : Nat) (s : Cell α) : Cell α := { s with path := s.path.drop pos }

/-- radix/node.go:284-292: the assignments of `split` to the receiver, in order. -/
def assign (fresh pos d : Nat) : Nat → Cell α → Cell α
  | 0, s => { s with path := s.path.take pos }
  | 1, s => { s with core := { s.core with pathS := s.core.pathS.take (s.core.pathS.length - d) } }
  | 2, s => { s with kids := [fresh] }
  | 3, s => { s with core := { s.core with leaf := false, hasData := false, modified := false } }
  | 4, s => { s with core := { s.core with desc := [] } }
  | 5, s => { s with core := { s.core with comment := [] } }
  | 6, s => { s with core := { s.core with tag := none } }
  | _, s => { s with core := { s.core with data := default } }

/-- radix/node.go:297-302: the node made by `insertAsLeaf`. -/
def leafCell (word : Str) (J : Job α) : Cell α :=
  { path := word,
    core := { Core.zero with pathS := utf8 J.key, leaf := true, hasData := true, data := J.val }, kids := [] }

/-- One step of a goroutine. Every step reads or writes the fields of one node (the reads at 206-219 are taken
together, and so are the reads at 269-281). Simplified: when another goroutine has made `s.path` shorter than
`pos`, `s.path[:pos]` (284) gives the short path, where Go would lengthen it again, and `s.pathS[:len(s.pathS)-d]`
(285) the empty string instead of a panic; `s.path[pos:]` (273) does panic. -/
def step (J : Job α) (M : Mem α) : Pc → Mem α × Pc
  | .enter word i =>
    let s := M i
    if s.path.length = 0 ∧ word.length > 0 ∧ s.kids.length = 0 then (M, .leaf word i)
    else
      let cpl := cplOf word s.path
      if cpl < s.path.length then (M, .halve word i cpl)
      else if cpl < word.length then (M, .look (word.drop cpl) i)
      else (M, .mark i)
  | .halve word i pos =>
    let s := M i
    if pos ≤ s.path.length then (M.set J.fresh (lower pos s), .cut word i pos (s.path.length - pos) 0)
    else (M, .crash)
  | .cut word i pos d k =>
    (M.set i (assign J.fresh pos d k (M i)),
      if k < 7 then .cut word i pos d (k + 1)
      else if pos < word.length then .look (word.drop pos) i
      else .mark i)
  | .look word i => (M, .scan word i (M i).kids)
  | .scan word i [] => (M, .leaf word i)
  | .scan word i (j :: js) => if (M j).path.head? = word.head? then (M, .enter word j) else (M, .scan word i js)
  | .leaf word i => (M.set (J.fresh + 1) (leafCell word J), .link i (M i).kids)
  | .link i ks => (M.set i { M i with kids := ks ++ [J.fresh + 1] }, .done)
  | .mark i => (M.set i { M i with core := { (M i).core with hasData := true } }, .store i)
  | .store i => (M.set i { M i with core := { (M i).core with data := J.val } }, .done)
  | .done => (M, .done)
  | .crash => (M, .crash)

/-- All goroutines: the memory, and where each of them stands. (radix/node.go:205-306.) -/
structure World (α : Type) where
  mem : Mem α
  pcs : Nat → Pc

/-- Goroutine `k` makes a step. (radix/node.go:205-306.) -/
def World.tick (Js : Nat → Job α) (W : World α) (k : Nat) : World α :=
  let r := step (Js k) W.mem (W.pcs k)
  { mem := r.1, pcs := fun l => if l = k then r.2 else W.pcs l }

/-- The goroutines run as the scheduler decides. (radix/node.go:205-306.) -/
def World.run (Js : Nat → Job α) (W : World α) : List Nat → World α
  | [] => W
  | k :: ks => World.run Js (W.tick Js k) ks

mutual
/-- A tree laid out in memory. (For radix/node.go:22-32.) -/
def lay : Node α → Mem α → Mem α
  | .mk i p c k, M => (layL k M).set i { path := p, core := c, kids := k.map Node.id }
/-- The same for several trees. (For radix/node.go:22-32.) -/
def layL : List (Node α) → Mem α → Mem α
  | [], M => M
  | n :: ns, M => lay n (layL ns M)
end

/-- The tree below a pointer, read back (to a depth). (For radix/node.go:22-32.) -/
def read (M : Mem α) : Nat → Nat → Node α
  | 0, i => .mk i (M i).path (M i).core []
  | d + 1, i => .mk i (M i).path (M i).core ((M i).kids.map (read M d))

/-- Goroutine `k` is about to call `root.insert(key, …)` with the `k`-th of the jobs; all others are done. The
allocator never hands out a pointer twice. (radix/trie.go:388-398.) -/
def jobs (t : Tree α) (kvs : List (Str × α)) (k : Nat) : Job α :=
  { key := (kvs[k]?.getD default).1, val := (kvs[k]?.getD default).2, fresh := t.next + 2 * k }

/-- All goroutines at the beginning of their calls: radix/trie.go:388-398. -/
def start (t : Tree α) (kvs : List (Str × α)) : World α :=
  { mem := lay t.root (fun _ => { path := [], core := Core.zero, kids := [] }),
    pcs := fun k => match kvs[k]? with
      | some kv => .enter kv.1 t.root.id
      | none => .done }

end Race
end Verif

import Verif.Model.Ops
/-
The memory behind a trie: nodes are cells, `children` is a Go slice, that is a window on an array which other
slices may share. `append` writes into spare room, and `remove` moves the elements of the array it was given.
-/
namespace Verif

/-- radix/node.go:23-33: a `nodeS` in memory. `arr` and `len` are the header of the slice `children` (whose
first element is always the first of the array). Simplified: the slices `path` are never written through, so
they are values here; so are strings. -/
structure Cell (α : Type) where
  path : Str
  core : Core α
  arr : Nat
  len : Nat

/-- `arr a` is the array `a` with all its room; `na` is the next unused array. (For radix/node.go:183-195, 258-306, 559-580.) -/
structure Heap (α : Type) where
  cell : Nat → Cell α
  arr : Nat → List Nat
  na : Nat

namespace Heap
variable {α : Type}

/-- Writing a cell. (For radix/node.go:183-195, 258-306, 559-580.) -/
def setCell (H : Heap α) (i : Nat) (c : Cell α) : Heap α := { H with cell := fun j => if j = i then c else H.cell j }
/-- Writing an array. (For radix/node.go:183-195, 258-306, 559-580.) -/
def setArr (H : Heap α) (a : Nat) (l : List Nat) : Heap α := { H with arr := fun b => if b = a then l else H.arr b }

/-- What `range s.children` would see now. (For radix/node.go:183-195, 258-306, 559-580.) -/
def kids (H : Heap α) (i : Nat) : List Nat := (H.arr (H.cell i).arr).take (H.cell i).len

/-- `s.children = append(s.children, j)` (radix/node.go:304, 568): in the same array if there is room, in a
new one with `grow len` unused places otherwise. -/
def append (grow : Nat → Nat) (H : Heap α) (i j : Nat) : Heap α :=
  let s := H.cell i
  if s.len < (H.arr s.arr).length then
    (H.setArr s.arr ((H.arr s.arr).set s.len j)).setCell i { s with len := s.len + 1 }
  else
    { (H.setArr H.na (H.kids i ++ j :: List.replicate (grow s.len) 0)).setCell i
        { s with arr := H.na, len := s.len + 1 } with na := H.na + 1 }

/-- `&nodeS[T]{...}` with `children` nil, or made with room for `room` children. (For radix/node.go:183-195, 258-306, 559-580.) -/
def make (H : Heap α) (i : Nat) (path : Str) (core : Core α) (room : Nat) : Heap α :=
  { (H.setArr H.na (List.replicate room 0)).setCell i ⟨path, core, H.na, 0⟩ with na := H.na + 1 }

variable [Inhabited α]

/-- radix/node.go:258-294 `split`: the new node takes over the slice, the old one gets a new one. -/
def split (H : Heap α) (fresh pos i : Nat) : Heap α :=
  let s := H.cell i
  let H1 := H.setCell fresh ⟨s.path.drop pos, s.core, s.arr, s.len⟩
  { (H1.setArr H.na [fresh]).setCell i
      ⟨s.path.take pos,
        { Core.zero with pathS := s.core.pathS.take (s.core.pathS.length - (s.path.length - pos)) }, H.na, 1⟩
    with na := H.na + 1 }

/-- radix/node.go:296-306 `insertAsLeaf`. -/
def leaf (grow : Nat → Nat) (H : Heap α) (fresh i : Nat) (word : Str) (ps : List UInt8) (v : α) : Heap α :=
  append grow (H.make (fresh + 1) word { Core.zero with pathS := ps, leaf := true, hasData := true, data := v } 0)
    i (fresh + 1)

/-- radix/node.go:205-256 `insertInternal` in memory. -/
def insert (grow : Nat → Nat) (fresh : Nat) (ps : List UInt8) (v : α) : Nat → Str → Nat → Heap α → Heap α
  | 0, _, _, H => H
  | fuel + 1, word, i, H =>
    let s := H.cell i
    if s.path.length = 0 ∧ word.length > 0 ∧ s.len = 0 then H.leaf grow fresh i word ps v
    else
      let cpl := if s.path.length > 0 ∧ word.length > 0 then Node.commonPrefixLen word s.path else 0
      let H1 := if cpl < s.path.length then H.split fresh cpl i else H
      if cpl < word.length then
        let word := word.drop cpl
        match (H1.kids i).find? (fun j => (H1.cell j).path.head? = word.head?) with
        | some j => insert grow fresh ps v fuel word j H1
        | none => H1.leaf grow fresh i word ps v
      else H1.setCell i { H1.cell i with core := { (H1.cell i).core with hasData := true, data := v } }

/-- radix/node.go:183-195 `remove`: `append(s.children[:i], s.children[i+1:]...)` moves the elements behind
the removed one within the array; the last place keeps what it had. -/
def remove (H : Heap α) (par item : Nat) : Heap α :=
  let s := H.cell par
  match (H.kids par).findIdx? (fun j => j = item) with
  | none => H
  | some k =>
    let a := H.arr s.arr
    (H.setArr s.arr (a.take k ++ (H.kids par).drop (k + 1) ++ a.drop (s.len - 1))).setCell par
      { s with len := s.len - 1 }

/-- Writing to fields of a node. (radix/node.go:77-154.) -/
def write (H : Heap α) (i : Nat) (f : Core α → Core α) : Heap α :=
  H.setCell i { H.cell i with core := f (H.cell i).core }

mutual
/-- radix/node.go:559-579 `Dup`, `f` being the first unused identity: the copy, and the next unused one. -/
def dup (grow : Nat → Nat) : Nat → Nat → Nat → Heap α → Heap α × Nat
  | 0, f, _, H => (H, f)
  | fuel + 1, f, i, H =>
    let s := H.cell i
    dupKids grow fuel (f + 1) f (H.kids i)
      (H.make f s.path { s.core with desc := [], comment := [], tag := none } s.len)
/-- its loop; `f'` is the copy of the parent (radix/node.go:559-580.) -/
def dupKids (grow : Nat → Nat) : Nat → Nat → Nat → List Nat → Heap α → Heap α × Nat
  | 0, f, _, _, H => (H, f)
  | _, f, _, [], H => (H, f)
  | fuel + 1, f, f', j :: js, H =>
    let r := dup grow fuel f j H
    dupKids grow fuel r.2 f' js (append grow r.1 f' f)
end

/-- The node that a reader starting at `i` finds, down to the depth `fuel`. (For radix/node.go:183-195, 258-306, 559-580.) -/
def read (H : Heap α) : Nat → Nat → Node α
  | 0, i => .mk i (H.cell i).path (H.cell i).core []
  | fuel + 1, i => .mk i (H.cell i).path (H.cell i).core ((H.kids i).map (read H fuel))

mutual
/-- radix/node.go:586-591 `walk` with a callback that may do anything to the memory (`none`: not finished
after `fuel` calls). The visited nodes, and the memory at the end. -/
def walk (cb : Nat → Heap α → Heap α) : Nat → Nat → Heap α → Option (Heap α × List Nat)
  | 0, _, _ => none
  | fuel + 1, i, H =>
    let H1 := cb i H
    (range cb fuel (H1.cell i).arr (H1.cell i).len 0 H1).map (fun r => (r.1, i :: r.2))
/-- The loop of 588: the header of the slice is read once, its elements when their turn comes. -/
def range (cb : Nat → Heap α → Heap α) : Nat → Nat → Nat → Nat → Heap α → Option (Heap α × List Nat)
  | 0, _, _, _, _ => none
  | fuel + 1, a, len, k, H =>
    if k < len then
      match walk cb fuel ((H.arr a).getD k 0) H with
      | none => none
      | some r => (range cb fuel a len (k + 1) r.1).map (fun q => (q.1, r.2 ++ q.2))
    else some (H, [])
end

end Heap

/-- The changes of memory that the writing methods are made of. (For radix/node.go:183-195, 258-306, 559-580.) -/
inductive Prim (α : Type) where
  | insert (key : Str) (x : α)
  | remove (par item : Nat)
  | write (i : Nat) (f : Core α → Core α)

namespace Prim
variable {α : Type} [Inhabited α]

/-- As a change of the tree. (For radix/node.go:183-195, 258-306, 559-580.) -/
def run : Prim α → Tree α → Tree α
  | insert key x, t => (View.insertAt t key x).1
  | remove par item, t => { t with root := t.root.modify par (Node.removeChild item) }
  | write i f, t => View.writeCore t i f

/-- A sequence of changes. (For radix/node.go:183-195, 258-306, 559-580.) -/
def runs (ps : List (Prim α)) (t : Tree α) : Tree α := ps.foldl (fun t p => p.run t) t

end Prim

/-- What the writing calls do to the memory, as far as it depends on what they found in the trie before:
radix/trie.go:388-474 and 562-600. -/
def Op.prims {α : Type} [Inhabited α] : Op α → Tree α → Go (List (Prim α))
  | .set v p x, _ => .ok [.insert (View.dash (v.full p)) x]
  | .setEx v p x, _ => .ok [.insert (v.full p) x]
  | .setNode v p x _ ds, t =>
    let hit := (View.insertAt t (v.full p) x).2.hit.id
    .ok (.insert (v.full p) x :: match ds with
      | [] => []
      | [a] => [.write hit (fun c => { c with desc := a })]
      | a :: bs => [.write hit (fun c => { c with desc := a, comment := joinWith '\n' bs })])
  | .setEmpty v p, t => .ok [.insert (v.full p) default, .write (View.insertAt t (v.full p) default).2.hit.id emptyCore]
  | .update v p cb, t =>
    let r := (View.insertAt t (v.full p) default).2
    .ok [.insert (v.full p) default, .write r.hit.id (fun c => NodeOp.runs (cb c r.old) c)]
  | .setComment v p d c, t =>
    match v.search t (v.full p) with
    | .error e => .error e
    | .ok (some n, _, _, _) => .ok [.write n.id (fun x => { x with desc := d, comment := c })]
    | .ok (none, _, _, _) => .ok []
  | .setTag v p tag, t =>
    match v.search t (v.full p) with
    | .error e => .error e
    | .ok (some n, _, _, _) => .ok [.write n.id (fun x => { x with tag := tag })]
    | .ok (none, _, _, _) => .ok []
  | .remove v p, t =>
    match v.search t (v.full p) with
    | .error e => .error e
    | .ok (some n, some q, false, _) => .ok (if q.kids.any (fun k => k.id = n.id) then [.remove q.id n.id] else [])
    | .ok _ => .ok []
  | .node i o, _ => .ok [.write i o.app]

/-- The memory with several tries in it. `next` is the first identity not used for a node so far. (radix/trie.go:244-256, 855-859: views share a
root, copies do not.) -/
structure Mem (α : Type) where
  heap : Heap α
  roots : List Nat
  next : Nat

/-- The same, as trees. (radix/trie.go:244-256, 855-859.) -/
structure Grove (α : Type) where
  trees : List (Node α)
  next : Nat

/-- One call on the `k`-th trie (radix/trie.go), `Dup` of it (radix/trie.go:855-857), or a method of a node to
which someone kept a pointer. -/
inductive Act (α : Type) where
  | op (k : Nat) (o : Op α)
  | dup (k : Nat)
  | node (i : Nat) (o : NodeOp α)

namespace Mem
variable {α : Type} [Inhabited α]

/-- One trie without entries (radix/trie.go:19-32). -/
def new : Mem α := { heap := { cell := fun _ => ⟨[], Core.zero, 0, 0⟩, arr := fun _ => [], na := 1 }, roots := [0], next := 1 }

/-- What readers find. (radix/trie.go:244-256, 855-859.) -/
def grove (M : Mem α) : Grove α := { trees := M.roots.map (M.heap.read M.next), next := M.next }

/-- A change of the trie with the root `root`. (For radix/node.go:183-195, 258-306, 559-580.) -/
def step (grow : Nat → Nat) (root : Nat) (M : Mem α) : Prim α → Mem α
  | .insert key x => { M with heap := M.heap.insert grow M.next (utf8 key) x (key.length + 2) key root, next := M.next + 2 }
  | .remove par item => { M with heap := M.heap.remove par item }
  | .write i f => { M with heap := M.heap.write i f }

/-- A call of one of the writing methods: radix/trie.go:19-37, 379-492, 562-588, 855-859. -/
def act (grow : Nat → Nat) (M : Mem α) : Act α → Go (Mem α)
  | .op k o =>
    match M.roots[k]? with
    | none => .ok M
    | some i => (o.prims { root := M.heap.read M.next i, next := M.next }).map (fun ps => ps.foldl (step grow i) M)
  | .dup k =>
    match M.roots[k]? with
    | none => .ok M
    | some i =>
      let r := M.heap.dup grow (2 * M.next) M.next i
      .ok { heap := r.1, roots := M.roots ++ [M.next], next := r.2 }
  | .node i o => .ok { M with heap := M.heap.write i o.app }

/-- A sequence of calls: radix/trie.go:19-37, 379-492, 562-588, 855-859. -/
def acts (grow : Nat → Nat) : List (Act α) → Mem α → Go (Mem α)
  | [], M => .ok M
  | a :: as, M => match M.act grow a with
    | .error e => .error e
    | .ok M' => acts grow as M'

end Mem

namespace Grove
variable {α : Type} [Inhabited α]

/-- One new trie: radix/trie.go:19-37. -/
def new : Grove α := { trees := [(Tree.new : Tree α).root], next := (Tree.new : Tree α).next }

/-- The same calls on trees. (A call of one of the writing methods: radix/trie.go:19-37, 379-492, 562-588, 855-859.) -/
def act (g : Grove α) : Act α → Go (Grove α)
  | .op k o =>
    match g.trees[k]? with
    | none => .ok g
    | some n => (o.run { root := n, next := g.next }).map (fun t => { trees := g.trees.set k t.root, next := t.next })
  | .dup k =>
    match g.trees[k]? with
    | none => .ok g
    | some n => .ok { trees := g.trees ++ [(n.dup g.next).1], next := (n.dup g.next).2 }
  | .node i o => .ok { g with trees := g.trees.map (Node.modify i (Node.mapCore o.app)) }

/-- A sequence of calls: radix/trie.go:19-37, 379-492, 562-588, 855-859. -/
def acts : List (Act α) → Grove α → Go (Grove α)
  | [], g => .ok g
  | a :: as, g => match g.act a with
    | .error e => .error e
    | .ok g' => acts as g'

end Grove
end Verif

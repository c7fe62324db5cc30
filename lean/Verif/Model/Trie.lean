import Verif.Model.Node
/-
radix/trie.go and the view part of radix/load.go.
-/
namespace Verif

/-- radix/trie.go:50-56 `RecusiveMode`. -/
inductive Mode
  | none | up | down
  deriving DecidableEq, Repr

/-- The part of `trieS` (radix/trie.go:34-41) that all views of a trie share: the root node. `next`
is the allocation counter that provides node identities. TTL state is in `Model/TTL.lean`. -/
structure Tree (α : Type) where
  root : Node α
  next : Nat

/-- The part of `trieS` that is private to a view. (radix/trie.go:34-41.) -/
structure View where
  pre : Str
  delim : Char
  mode : Mode
  deriving DecidableEq, Repr

/-- radix/trie.go:19-26 `NewTrie`, `NewTrieBy`. -/
def Tree.new {α : Type} [Inhabited α] : Tree α := { root := .mk 0 [] Core.zero [], next := 1 }
/-- A new trie has no prefix: radix/trie.go:19-37. -/
def View.new (d : Char) : View := { pre := [], delim := d, mode := .none }

/-- The methods of `Node[T]` that write (radix/radix.go:150-165). -/
inductive NodeOp (α : Type) where
  | setData (x : α)
  | setEmpty
  | setComment (desc comment : Str)
  | setTag (tag : Option α)
  | setModified (b : Bool)
  | toggleModified

/-- radix/node.go:127-136 `nodeS.SetEmpty`: data and tag, but not the data bit. -/
def emptyCore {α : Type} [Inhabited α] (c : Core α) : Core α := { c with data := default, tag := none }

/-- radix/node.go:77-83 SetModified, 86-93 ToggleModified, 111-119 SetData, 127-136 SetEmpty,
139-144 SetComment, 149-154 SetTag. -/
def NodeOp.app {α : Type} [Inhabited α] : NodeOp α → Core α → Core α
  | setData x, c => { c with data := x, hasData := true }
  | setEmpty, c => emptyCore c
  | setComment d m, c => { c with desc := d, comment := m }
  | setTag tag, c => { c with tag := tag }
  | setModified b, c => { c with modified := b }
  | toggleModified, c => { c with modified := !c.modified }

/-- Several of these, one after the other: radix/node.go:77-154. -/
def NodeOp.runs {α : Type} [Inhabited α] (os : List (NodeOp α)) (c : Core α) : Core α :=
  os.foldl (fun c o => o.app c) c

namespace View

/-- radix/trie.go:353-361: the writing loop of `Join`, after at least one part has been written. -/
def joinRest (d : Char) : List Str → Str
  | [] => []
  | it :: its => if it ≠ [] then d :: it ++ joinRest d its else joinRest d its

/-- radix/trie.go:340-377 `Join`. The Go code writes `byte(delimiter)`; the model writes the
delimiter itself, which is the same for delimiters below 128. -/
def join (d : Char) : List Str → Str
  | [] => []
  | [a] => a
  | a :: rest => if a = [] then join d rest else a ++ joinRest d rest

/-- radix/trie.go:316-338 `join1`. -/
def join1 (d : Char) (pre : Str) (args : List Str) : Str :=
  if pre = [] then join d args
  else if args.length = 0 then pre
  else pre ++ joinRest d args

/-- The preamble of every method: `if s.prefix != "" { path = s.Join(s.prefix, path) }`. (radix/trie.go:379-725.) -/
def full (v : View) (path : Str) : Str :=
  if v.pre ≠ [] then join v.delim [v.pre, path] else path

/-- radix/load.go:15-21 `WithPrefix`. -/
def withPrefix (v : View) (ps : List Str) : View := { v with pre := join1 v.delim v.pre ps }

/-- radix/load.go:26-32 `WithPrefixReplaced`, also 35-37 `SetPrefix`. -/
def withPrefixReplaced (v : View) (ps : List Str) : View := { v with pre := join v.delim ps }

/-- radix/load.go:41-57 `N`, `R`, `BR`. -/
def withMode (v : View) (m : Mode) : View := { v with mode := m }

variable {α : Type}

/-- radix/trie.go:742-753: the retry loop of `RecusiveUp`: drop the component before the last one
and search again. Fuel: the number of components shrinks. -/
def retryUp (d : Char) (root : Node α) : Nat → Str → KV → Go (Option (MR α) × KV)
  | 0, _, kv => .ok (none, kv)
  | fuel + 1, w, kv =>
    let a := splitOn d w
    if a.length > 2 then
      let w := joinWith d (a.take (a.length - 2) ++ a.drop (a.length - 1))
      match root.matchR d w false none kv with
      | .error e => .error e
      | .ok (r, kv) => if r.matched || r.part then .ok (some r, kv) else retryUp d root fuel w kv
    else .ok (none, kv)

/-- radix/trie.go:731-758 `search`: (found, parent, partialMatched) and the captures. -/
def search (v : View) (t : Tree α) (word : Str) :
    Go (Option (Node α) × Option (Node α) × Bool × KV) :=
  match t.root.matchR v.delim word false none [] with
  | .error e => .error e
  | .ok (r, kv) =>
    if r.matched || r.part then .ok (r.child, r.parent, r.part, kv)
    else if v.mode = .up ∧ v.delim ∈ word then
      match retryUp v.delim t.root (word.length + 1) word kv with
      | .error e => .error e
      | .ok (some r, kv) => .ok (r.child, r.parent, r.part, kv)
      | .ok (none, kv) => .ok (none, none, false, kv)
    else .ok (none, none, false, kv)

variable [Inhabited α]

/-- radix/trie.go:392-394: spaces become dashes (only in `Set`). -/
def dash (p : Str) : Str := p.map (fun c => if c = ' ' then '-' else c)

/-- The common insertion: allocate and run `root.insert`. (radix/trie.go:388-398.) -/
def insertAt (t : Tree α) (key : Str) (x : α) : Tree α × Node.Ins α :=
  let r := t.root.insert t.next key x
  ({ root := r.tree, next := t.next + 2 }, r)

/-- radix/trie.go:388-396 `Set` (and 379 `Insert`). -/
def set (v : View) (t : Tree α) (path : Str) (x : α) : Tree α × Node.Ins α :=
  insertAt t (dash (v.full path)) x

/-- radix/trie.go:400-406 `SetEx`: the callback invocations are in `Ins.cbs`. -/
def setEx (v : View) (t : Tree α) (path : Str) (x : α) : Tree α × Node.Ins α :=
  insertAt t (v.full path) x

/-- Write through a node pointer. (radix/trie.go:409-475.) -/
def writeCore (t : Tree α) (id : Nat) (f : Core α → Core α) : Tree α :=
  { t with root := t.root.modify id (Node.mapCore f) }

/-- radix/trie.go:409-426 `SetNode`; the `tag` argument is ignored by the code.
More than two descriptions are joined by newlines. -/
def setNode (v : View) (t : Tree α) (path : Str) (x : α) (_tag : Option α) (ds : List Str) :
    Tree α × Node.Ins α :=
  let r := insertAt t (v.full path) x
  let t' := match ds with
    | [] => r.1
    | [a] => writeCore r.1 r.2.hit.id (fun c => { c with desc := a })
    | a :: bs => writeCore r.1 r.2.hit.id
        (fun c => { c with desc := a, comment := joinWith '\n' bs })
  (t', r.2)

/-- radix/trie.go:429-437 `SetEmpty`. -/
def setEmpty (v : View) (t : Tree α) (path : Str) : Tree α × Option α :=
  let r := insertAt t (v.full path) default
  (writeCore r.1 r.2.hit.id emptyCore, r.2.old)

/-- radix/trie.go:439-446 `Update`. The callback receives the node and the old data; what it does
with the node is a list of node methods. -/
def update (v : View) (t : Tree α) (path : Str) (cb : Core α → Option α → List (NodeOp α)) : Tree α :=
  let r := insertAt t (v.full path) default
  writeCore r.1 r.2.hit.id (fun c => NodeOp.runs (cb c r.2.old) c)

/-- radix/trie.go:451-460 `SetComment`. -/
def setComment (v : View) (t : Tree α) (path desc comment : Str) : Go (Tree α × Bool) :=
  match v.search t (v.full path) with
  | .error e => .error e
  | .ok (some n, _, _, _) =>
    .ok (writeCore t n.id (fun c => { c with desc := desc, comment := comment }), true)
  | .ok (none, _, _, _) => .ok (t, false)

/-- radix/trie.go:465-474 `SetTag`. -/
def setTag (v : View) (t : Tree α) (path : Str) (tag : Option α) : Go (Tree α × Bool) :=
  match v.search t (v.full path) with
  | .error e => .error e
  | .ok (some n, _, _, _) => .ok (writeCore t n.id (fun c => { c with tag := tag }), true)
  | .ok (none, _, _, _) => .ok (t, false)

/-- radix/trie.go:534-541 `Has`, 494-501 `Search`. -/
def has (v : View) (t : Tree α) (path : Str) : Go Bool :=
  match v.search t (v.full path) with
  | .error e => .error e
  | .ok (n, _, pm, _) => .ok (n.isSome && !pm)

/-- radix/trie.go:504-515 `Locate`: (node, branch, partialMatched, found). -/
def locate (v : View) (t : Tree α) (path : Str) : Go (Option (Node α) × Bool × Bool × Bool) :=
  match v.search t (v.full path) with
  | .error e => .error e
  | .ok (some n, _, pm, _) => .ok (some n, n.core.isBranch, pm, !pm)
  | .ok (none, _, pm, _) => .ok (none, false, pm, false)

/-- radix/trie.go:546-556 `HasPart`. -/
def hasPart (v : View) (t : Tree α) (path : Str) : Go Bool :=
  match v.search t (v.full path) with
  | .error e => .error e
  | .ok (some n, _, true, _) => .ok ((utf8 (v.full path)).isPrefixOf n.core.pathS)
  | .ok (n, _, pm, _) => .ok (n.isSome || pm)

/-- radix/trie.go:568-585 `RemoveEx` (562-565 `Remove` is its last result). -/
def removeEx (v : View) (t : Tree α) (path : Str) :
    Go (Tree α × Option (Node α × Node α)) :=
  match v.search t (v.full path) with
  | .error e => .error e
  | .ok (some n, some p, false, _) =>
    if p.kids.any (fun k => k.id = n.id) then
      .ok ({ t with root := t.root.modify p.id (Node.removeChild n.id) }, some (n, p))
    else .ok (t, none)
  | .ok _ => .ok (t, none)

/-- radix/trie.go:562-565 `Remove`. -/
def remove (v : View) (t : Tree α) (path : Str) : Go (Tree α × Bool) :=
  match v.removeEx t path with
  | .error e => .error e
  | .ok (t', r) => .ok (t', r.isSome)

/-- Result of `Query`: (data, branch, found); `err` is NotFound exactly when `found` is false
(radix/trie.go:724). -/
structure Ans (α : Type) where
  data : α
  branch : Bool
  found : Bool
  notFoundErr : Bool
  deriving DecidableEq, Repr

/-- radix/trie.go:702-726 `Query` with the captures. -/
def queryKV (v : View) (t : Tree α) (path : Str) : Go (Ans α × KV) :=
  match v.search t (v.full path) with
  | .error e => .error e
  | .ok (some n, _, false, kv) =>
    let found := !(n.core.isBranch && !n.endsWith v.delim)
    .ok (⟨if n.core.hasData then n.core.data else default, n.core.isBranch, found, !found⟩, kv)
  | .ok (_, _, _, kv) => .ok (⟨default, false, false, true⟩, kv)

/-- radix/trie.go:702-726 `Query`. -/
def query (v : View) (t : Tree α) (path : Str) : Go (Ans α) :=
  match v.queryKV t path with
  | .error e => .error e
  | .ok (a, _) => .ok a

/-- radix/trie.go:590-597 `MustGet`. -/
def mustGet (v : View) (t : Tree α) (path : Str) : Go α :=
  match v.query t path with
  | .error e => .error e
  | .ok a => .ok (if !a.found && !a.branch then default else a.data)

/-- radix/trie.go:600-603 `Get`. -/
def get (v : View) (t : Tree α) (path : Str) : Go (α × Bool) :=
  match v.query t path with
  | .error e => .error e
  | .ok a => .ok (a.data, a.found)

/-- radix/trie.go:612-636 `getNode` (used by `GetEx` 605-610): node, data, branch, err == nil.
The `kvpair` it passes down is the nil map, so nothing is captured. -/
def getNode (v : View) (t : Tree α) (path : Str) : Go (Option (Node α) × α × Bool × Bool) :=
  match v.search t (v.full path) with
  | .error e => .error e
  | .ok (some n, _, false, _) =>
    .ok (some n, if n.core.hasData then n.core.data else default, n.core.isBranch,
      !(n.core.isBranch && !n.endsWith v.delim))
  | .ok (n, _, _, _) => .ok (n, default, false, false)

/-- radix/trie.go:638-655 `getNodeFast`: the node if err == nil. -/
def getNodeFast (v : View) (t : Tree α) (path : Str) : Go (Option (Node α)) :=
  match v.search t (v.full path) with
  | .error e => .error e
  | .ok (some n, _, false, _) =>
    .ok (if n.core.isBranch && !n.endsWith v.delim then none else some n)
  | .ok _ => .ok none

/-- radix/trie.go:657-694 `GetDesc`, `GetTag`, `GetComment`: `none` is the NotFound error. -/
def getDesc (v : View) (t : Tree α) (path : Str) : Go (Option Str) :=
  match v.getNodeFast t path with
  | .error e => .error e
  | .ok n => .ok (n.map (·.core.desc))
/-- radix/trie.go:683-689 `GetComment`. -/
def getComment (v : View) (t : Tree α) (path : Str) : Go (Option Str) :=
  match v.getNodeFast t path with
  | .error e => .error e
  | .ok n => .ok (n.map (·.core.comment))
/-- radix/trie.go:670-676 `GetTag`. -/
def getTag (v : View) (t : Tree α) (path : Str) : Go (Option (Option α)) :=
  match v.getNodeFast t path with
  | .error e => .error e
  | .ok n => .ok (n.map (·.core.tag))

/-- radix/trie.go:861-876 `Walk`: the nodes seen by the callback, in order. -/
def walk (v : View) (t : Tree α) (path : Str) : Go (List (Node α)) :=
  if path = [] then .ok t.root.walk
  else match v.search t path with
    | .error e => .error e
    | .ok (n, p, pm, _) =>
      let root := if pm then some t.root
        else if path.getLast? = some v.delim then n else p
      .ok (match root with | some r => r.walk | none => [])

/-- radix/trie.go:855-857 `Dup`: a new tree (with its own identities). -/
def dupTree (t : Tree α) : Tree α :=
  let r := t.root.dup t.next
  { root := r.1, next := r.2 }

end View
end Verif

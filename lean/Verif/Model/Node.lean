import Verif.Model.Basic
/-
radix/node.go: the radix tree.
-/
namespace Verif

/-- The fields of `nodeS` that belong to the entry rather than to its position in the tree
(radix/node.go:23-33). `pathS` is a Go string cut by *byte* count in `split`, so it is kept as bytes.
`nType` (13-21) is its three bits: `leaf` = NTLeaf, `hasData` = NTData, `modified` = NTModified.
The `rw` mutex is not modelled. -/
structure Core (α : Type) where
  pathS : List UInt8
  data : α
  desc : Str
  comment : Str
  tag : Option α
  leaf : Bool
  hasData : Bool
  modified : Bool
  deriving DecidableEq, Repr

/-- radix/node.go:23-33 `nodeS`. `id` is the pointer identity, `path` the fragment. -/
inductive Node (α : Type) where
  | mk (id : Nat) (path : Str) (core : Core α) (kids : List (Node α))

namespace Node
variable {α : Type}

/-- Which node it is: nodes are pointers in radix/node.go:22-32. -/
def id : Node α → Nat | mk i _ _ _ => i
/-- radix/node.go:22-32, the field `path`. -/
def path : Node α → Str | mk _ p _ _ => p
/-- radix/node.go:22-32, the other fields. -/
def core : Node α → Core α | mk _ _ c _ => c
/-- radix/node.go:22-32, the field `children`. -/
def kids : Node α → List (Node α) | mk _ _ _ k => k

@[simp] theorem id_mk (i p) (c : Core α) (k) : (mk i p c k).id = i := rfl
@[simp] theorem path_mk (i p) (c : Core α) (k) : (mk i p c k).path = p := rfl
@[simp] theorem core_mk (i p) (c : Core α) (k) : (mk i p c k).core = c := rfl
@[simp] theorem kids_mk (i p) (c : Core α) (k) : (mk i p c k).kids = k := rfl

end Node

/-- A fresh `&nodeS[T]{}`: all fields zero (NTBranch = 0). (radix/node.go:22-32.) -/
def Core.zero {α : Type} [Inhabited α] : Core α :=
  { pathS := [], data := default, desc := [], comment := [], tag := none,
    leaf := false, hasData := false, modified := false }

/-- radix/node.go:39,49 -/
def Core.isBranch {α : Type} (c : Core α) : Bool := !c.leaf

namespace Node
variable {α : Type} [Inhabited α]

/-- radix/node.go:171-177 `endsWith` (also EndsWith 163-169). -/
def endsWith (n : Node α) (ch : Char) : Bool :=
  match n.path.getLast? with
  | none => false
  | some c => c == ch

/-- radix/node.go:197-203 `findCommonPrefixLength`. -/
def commonPrefixLen : Str → Str → Nat
  | a :: as, b :: bs => if a = b then commonPrefixLen as bs + 1 else 0
  | _, _ => 0

/-- radix/node.go:258-294 `split`: the receiver keeps its identity and becomes the branch; the new
node (identity `fresh`) receives the entry. The `tip`/`assert` calls are no-ops in normal builds. -/
def split (fresh : Nat) (pos : Nat) : Node α → Node α
  | mk i p c k =>
    let d := p.length - pos
    let newNode : Node α := mk fresh (p.drop pos) c k
    mk i (p.take pos)
      { Core.zero with pathS := c.pathS.take (c.pathS.length - d) } [newNode]

/-- The node built by radix/node.go:296-306 `insertAsLeaf`. -/
def newLeaf (fresh : Nat) (word : Str) (fullPath : List UInt8) (v : α) : Node α :=
  mk fresh word { Core.zero with pathS := fullPath, leaf := true, hasData := true, data := v } []

/-- What an insertion returns: the new tree, the node that received the data, the old data
(`oldData any`: `none` is nil), and the callback invocations in order. (radix/node.go:205-256.) -/
structure Ins (α : Type) where
  tree : Node α
  hit : Node α
  old : Option α
  cbs : List (Option α × Node α)

/-- The children after insertion below them, plus the other results of `Ins`. (radix/node.go:205-256.) -/
structure InsK (α : Type) where
  kids : List (Node α)
  hit : Node α
  old : Option α
  cbs : List (Option α × Node α)

/-- radix/node.go:226-246 with `matchChildren` (308-321): the first child whose first rune is the
first rune of `word` receives the insertion (`ins`), otherwise a leaf is appended (296-306).
The callback is run once more after the recursive call returns (237-239). -/
def insKids (ins : Node α → Ins α) (fresh : Nat) (word : Str) (fullPath : List UInt8) (v : α) :
    List (Node α) → InsK α
  | [] =>
    let leaf := newLeaf (fresh + 1) word fullPath v
    { kids := [leaf], hit := leaf, old := none, cbs := [(none, leaf)] }
  | c :: cs =>
    if c.path.head? = word.head? then
      let r := ins c
      { kids := r.tree :: cs, hit := r.hit, old := r.old, cbs := r.cbs ++ [(r.old, r.hit)] }
    else
      let r := insKids ins fresh word fullPath v cs
      { r with kids := c :: r.kids }

/-- radix/node.go:205-256 `insertInternal` (and radix/insert.go:6-8 `insert`, which forwards to it).
`fresh` and `fresh+1` are the identities of the node made by `split` and of the new leaf.
Fuel bounds the recursion depth; `word.length + 2` is always enough (`insert_fuel`).
In the early return (207-212) the callback is not run. -/
def insertFuel (fresh : Nat) (fullPath : List UInt8) (v : α) : Nat → Str → Node α → Ins α
  | 0, _, n => { tree := n, hit := n, old := none, cbs := [] }
  | fuel + 1, word, n =>
    if n.path.length = 0 ∧ word.length > 0 ∧ n.kids.length = 0 then
      let leaf := newLeaf (fresh + 1) word fullPath v
      { tree := mk n.id n.path n.core (n.kids ++ [leaf]), hit := leaf, old := none, cbs := [] }
    else
      let cpl := if n.path.length > 0 ∧ word.length > 0 then commonPrefixLen word n.path else 0
      let base := if cpl < n.path.length then split fresh cpl n else n
      if cpl < word.length then
        let word := word.drop cpl
        let r := insKids (insertFuel fresh fullPath v fuel word) fresh word fullPath v base.kids
        { tree := mk base.id base.path base.core r.kids, hit := r.hit, old := r.old, cbs := r.cbs }
      else
        let node := mk base.id base.path { base.core with hasData := true, data := v } base.kids
        { tree := node, hit := node, old := some base.core.data, cbs := [(some base.core.data, node)] }

/-- `s.root.insert([]rune(path), path, data, ...)`. (radix/trie.go:388-398, radix/insert.go.) -/
def insert (fresh : Nat) (key : Str) (v : α) (n : Node α) : Ins α :=
  insertFuel fresh (utf8 key) v (key.length + 2) key n

end Node

/-- Captured route identifiers (`KVPair`), in the order of assignment. (radix/node.go:340-468.) -/
abbrev KV := List (Str × Str)

/-- Results of `matchR`. (radix/node.go:346-468.) -/
structure MR (α : Type) where
  matched : Bool
  part : Bool
  child : Option (Node α)
  parent : Option (Node α)

namespace Node
variable {α : Type}

/-- radix/node.go:323-337 `extractor`: runes of `src` from `from` up to the delimiter or `to`.
Returns the text, the stop position and whether `to` was reached; `("", 0, false)` if `from ≥ to`. -/
def extractor (d : Char) (src : Str) (start to : Nat) : Str × Nat × Bool :=
  if start ≥ to then ([], 0, false)
  else
    let seg := ((src.take to).drop start).takeWhile (· ≠ d)
    if start + seg.length < to then (seg, start + seg.length, false)
    else (seg, to, true)

/-- First comparing loop of `matchR` (356-361): number of equal leading runes and the flag
"the last equal rune is the delimiter" (unchanged if there is none). -/
def cmpLoop (d : Char) : Str → Str → Bool → Nat × Bool
  | a :: as, b :: bs, f =>
    if a = b then
      let r := cmpLoop d as bs (a == d)
      (r.1 + 1, r.2)
    else (0, f)
  | _, _, f => (0, f)

/-- How the mismatch handling of `matchR` (363-435) ends. -/
inductive Retr where
  | nothing                                   -- 434 return false, false, nil, nil
  | found                                     -- 385/403 return matched base
  | out (src dst : Nat) (lrid matched part : Bool)  -- break masterLoop (407, 421, 426)
  deriving DecidableEq, Repr

/-- radix/node.go:370-429 the `retriever` loop. `ch` is the rune variable, `lrid` is
`lastRuneIsDelimiter`. Fuel counts the jumps back to `retriever`. -/
def retriever (d : Char) (path word : Str) (hasKids : Bool) :
    Nat → Char → Nat → Nat → Bool → KV → Go (Retr × KV)
  | 0, _, _, _, _, _ => .error .hang
  | fuel + 1, ch, src, dst, lrid, kv =>
    if lrid then
      if ch = '*' then
        let e := extractor d path (src + 1) path.length
        .ok (.found, kv ++ [(e.1, word.drop dst)])
      else if ch = ':' then
        let e := extractor d path (src + 1) path.length
        let x := extractor d word dst word.length
        let kv := kv ++ [(e.1, x.1)]
        if e.2.2 then
          if x.2.2 then .ok (.found, kv)
          else .ok (.out e.2.1 x.2.1 lrid false false, kv)
        else if x.2.2 then .ok (.nothing, kv)
        else
          let c := cmpLoop d (path.drop e.2.1) (word.drop x.2.1) lrid
          let src := e.2.1 + c.1
          let dst := x.2.1 + c.1
          if src = path.length ∧ dst = word.length then .ok (.out src dst c.2 true false, kv)
          else if src = path.length ∧ dst < word.length ∧ hasKids then
            .ok (.out src dst c.2 false true, kv)
          else
            -- `ch` is the rune read last by the sub-comparing loop (411); unchanged if it did not run
            let ch :=
              if src < path.length ∧ dst < word.length then path.getD src ch
              else if c.1 > 0 then path.getD (src - 1) ch
              else ch
            retriever d path word hasKids fuel ch src dst c.2 kv
      else .ok (.nothing, kv)
    else .ok (.nothing, kv)

/-- Number of distinct states of the `retriever` loop; `retriever_adequate` shows that a run that
uses up this much fuel never ends. (For radix/trie.go:316-377.) -/
def retrFuel (l wl : Nat) : Nat := 8 * (l + 2) * (wl + 2) + 1

/-- radix/node.go:442-448: the verdict on the receiver after the comparing loop. -/
def verdict (d : Char) (n : Node α) (parent : Option (Node α)) (wl src : Nat)
    (r : MR α) : MR α :=
  let l := n.path.length
  let minL := min l wl
  if src + 1 = l ∧ n.path[src]? = some d then
    { r with matched := true, child := some n, parent := parent }
  else if minL < l ∧ src = minL then
    { r with part := true, child := some n, parent := parent }
  else if minL ≥ l ∧ src = minL ∧ minL > 0 ∧ src > 0 ∧ !r.part then
    { r with matched := true, child := some n, parent := parent }
  else r

/-- How `masterLoop` (radix/node.go:355-440) ends: with a `return`, or with the loop variables
`srcMatchedL`, `dstMatchedL`, `lastRuneIsDelimiter` and the named results as they stand. -/
inductive Master (α : Type) where
  | ret (r : MR α)
  | go (src dst : Nat) (lrid : Bool) (r : MR α)

/-- radix/node.go:354-440 `masterLoop`. -/
def masterLoop (d : Char) (n : Node α) (word : Str) (lrid : Bool) (parent : Option (Node α))
    (kv : KV) : Go (Master α × KV) :=
  let minL := min n.path.length word.length
  let c := cmpLoop d n.path word lrid
  if c.1 < minL then
    match retriever d n.path word (!n.kids.isEmpty) (retrFuel n.path.length word.length)
        (n.path.getD c.1 d) c.1 c.1 c.2 kv with
    | .error e => .error e
    | .ok (.nothing, kv) => .ok (.ret ⟨false, false, none, none⟩, kv)
    | .ok (.found, kv) => .ok (.ret ⟨true, false, some n, parent⟩, kv)
    | .ok (.out src dst f m p, kv) =>
      .ok (.go src dst f (if m then ⟨true, p, some n, parent⟩ else ⟨false, p, none, none⟩), kv)
  else .ok (.go minL 0 c.2 ⟨false, false, none, none⟩, kv)

mutual
/-- radix/node.go:346-468 `matchR`. -/
def matchR (d : Char) : Node α → Str → Bool → Option (Node α) → KV → Go (MR α × KV)
  | mk i path core kids, word, lrid, parent, kv =>
    if word = [] then .ok (⟨true, false, some (mk i path core kids), parent⟩, kv)
    else
      match masterLoop d (mk i path core kids) word lrid parent kv with
      | .error e => .error e
      | .ok (.ret r, kv) => .ok (r, kv)
      | .ok (.go src dst f r, kv) =>
        let r := verdict d (mk i path core kids) parent word.length src r
        if min path.length word.length < word.length then
          if kids.isEmpty then .ok ({ r with matched := false, part := true }, kv)
          else
            let dst := if dst = 0 then min path.length word.length else dst
            matchKids d (mk i path core kids) kids (word.drop dst) f kv
        else .ok (r, kv)
/-- radix/node.go:460-465: the loop over the children; the last child's answer is returned when
none matches. -/
def matchKids (d : Char) (self : Node α) : List (Node α) → Str → Bool → KV → Go (MR α × KV)
  | [], _, _, kv => .ok (⟨false, false, none, none⟩, kv)
  | k :: ks, rest, f, kv =>
    match matchR d k rest f (some self) kv with
    | .error e => .error e
    | .ok (r, kv) =>
      if r.matched || r.part then .ok (r, kv)
      else match ks with
        | [] => .ok (r, kv)
        | _ :: _ => matchKids d self ks rest f kv
end

mutual
/-- radix/node.go:582-591 `Walk`/`walk`: the nodes in the order in which the callback sees them. -/
def walk : Node α → List (Node α)
  | mk i p c k => mk i p c k :: walkL k
/-- radix/node.go:586-591: the loop over the children. -/
def walkL : List (Node α) → List (Node α)
  | [] => []
  | n :: ns => walk n ++ walkL ns
end

mutual
/-- radix/node.go:559-579 `Dup`: path, pathS, nType, children and a deep clone of the data;
description, comment and tag stay empty. The clones get fresh identities `f, f+1, ...` in the order
in which the Go code allocates them (receiver first). `evendeep.MakeClone` is taken to return an
equal value. -/
def dup (f : Nat) : Node α → Node α × Nat
  | mk _ p c k =>
    let r := dupL (f + 1) k
    (mk f p { c with desc := [], comment := [], tag := none } r.1, r.2)
/-- radix/node.go:559-580: the loop over the children. -/
def dupL (f : Nat) : List (Node α) → List (Node α) × Nat
  | [] => ([], f)
  | n :: ns =>
    let r := dup f n
    let rs := dupL r.2 ns
    (r.1 :: rs.1, rs.2)
end

mutual
/-- Writing through a node pointer: apply `g` to the node(s) with identity `i`. (For radix/node.go:77-154.) -/
def modify (i : Nat) (g : Node α → Node α) : Node α → Node α
  | mk j p c k =>
    let n := mk j p c (modifyL i g k)
    if j = i then g n else n
/-- The same for the children of a node. (For radix/node.go:77-154.) -/
def modifyL (i : Nat) (g : Node α → Node α) : List (Node α) → List (Node α)
  | [] => []
  | n :: ns => modify i g n :: modifyL i g ns
end

/-- Field update of the entry part. (For radix/node.go:77-154.) -/
def mapCore (f : Core α → Core α) : Node α → Node α
  | mk i p c k => mk i p (f c) k

/-- radix/node.go:183-195 `remove`: drop the first child that is the same pointer. -/
def removeChild (item : Nat) : Node α → Node α
  | mk i p c k => mk i p c (k.eraseP (fun n => n.id = item))

end Node
end Verif

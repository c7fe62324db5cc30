import Verif.Model.Trie
/-
What lookups and insertions touch: `matchR`, `search` and `insertInternal` of radix/node.go and
radix/trie.go once more, this time keeping a record of the nodes they look at and of the rune pairs
they compare. `Props/Cost.lean` shows that the answers are those of `Model/Node.lean` and
`Model/Trie.lean`.
-/
namespace Verif
namespace Node
variable {α : Type}

/-- Rune pairs read by the comparing loops of radix/node.go:356-361 and 197-203: the equal leading
runes and the first unequal pair. -/
def compared : Str → Str → Nat
  | a :: as, b :: bs => if a = b then compared as bs + 1 else 1
  | _, _ => 0

mutual
/-- radix/node.go:346-468 `matchR` with the receivers of all the calls, in order, and the rune pairs
each call compares in its first loop. (What the `retriever` loop of a route pattern reads on top of
that is not counted.) -/
def matchRT (d : Char) : Node α → Str → Bool → Option (Node α) → KV →
    Go (MR α × KV) × List (Node α × Nat)
  | mk i path core kids, word, lrid, parent, kv =>
    if word = [] then (.ok (⟨true, false, some (mk i path core kids), parent⟩, kv), [(mk i path core kids, 0)])
    else
      match masterLoop d (mk i path core kids) word lrid parent kv with
      | .error e => (.error e, [(mk i path core kids, compared path word)])
      | .ok (.ret r, kv) => (.ok (r, kv), [(mk i path core kids, compared path word)])
      | .ok (.go src dst f r, kv) =>
        let r := verdict d (mk i path core kids) parent word.length src r
        if min path.length word.length < word.length then
          if kids.isEmpty then
            (.ok ({ r with matched := false, part := true }, kv), [(mk i path core kids, compared path word)])
          else
            let dst := if dst = 0 then min path.length word.length else dst
            let t := matchKidsT d (mk i path core kids) kids (word.drop dst) f kv
            (t.1, (mk i path core kids, compared path word) :: t.2)
        else (.ok (r, kv), [(mk i path core kids, compared path word)])
/-- radix/node.go:460-465. -/
def matchKidsT (d : Char) (self : Node α) : List (Node α) → Str → Bool → KV →
    Go (MR α × KV) × List (Node α × Nat)
  | [], _, _, kv => (.ok (⟨false, false, none, none⟩, kv), [])
  | k :: ks, rest, f, kv =>
    let a := matchRT d k rest f (some self) kv
    match a.1 with
    | .error e => (.error e, a.2)
    | .ok (r, kv) =>
      if r.matched || r.part then (.ok (r, kv), a.2)
      else match ks with
        | [] => (.ok (r, kv), a.2)
        | _ :: _ =>
          let b := matchKidsT d self ks rest f kv
          (b.1, a.2 ++ b.2)
end

/-- What one insertion does: the calls of `insertInternal`, the children whose first rune it reads
(`matchChildren`), the rune pairs it compares (`findCommonPrefixLength`). (radix/node.go:205-322.) -/
structure InsCost where
  calls : Nat
  looks : Nat
  pairs : Nat

variable [Inhabited α]

/-- radix/node.go:226-246 with `matchChildren` (308-321). -/
def insKidsT (ins : Node α → Ins α × InsCost) (fresh : Nat) (word : Str) (fullPath : List UInt8) (v : α) :
    List (Node α) → InsK α × InsCost
  | [] =>
    let leaf := newLeaf (fresh + 1) word fullPath v
    ({ kids := [leaf], hit := leaf, old := none, cbs := [(none, leaf)] }, ⟨0, 0, 0⟩)
  | c :: cs =>
    if c.path.head? = word.head? then
      let r := ins c
      ({ kids := r.1.tree :: cs, hit := r.1.hit, old := r.1.old, cbs := r.1.cbs ++ [(r.1.old, r.1.hit)] },
        { r.2 with looks := r.2.looks + 1 })
    else
      let r := insKidsT ins fresh word fullPath v cs
      ({ r.1 with kids := c :: r.1.kids }, { r.2 with looks := r.2.looks + 1 })

/-- radix/node.go:205-256 `insertInternal`. -/
def insertFuelT (fresh : Nat) (fullPath : List UInt8) (v : α) : Nat → Str → Node α → Ins α × InsCost
  | 0, _, n => ({ tree := n, hit := n, old := none, cbs := [] }, ⟨0, 0, 0⟩)
  | fuel + 1, word, n =>
    if n.path.length = 0 ∧ word.length > 0 ∧ n.kids.length = 0 then
      let leaf := newLeaf (fresh + 1) word fullPath v
      ({ tree := mk n.id n.path n.core (n.kids ++ [leaf]), hit := leaf, old := none, cbs := [] }, ⟨1, 0, 0⟩)
    else
      let cpl := if n.path.length > 0 ∧ word.length > 0 then commonPrefixLen word n.path else 0
      let pairs := if n.path.length > 0 ∧ word.length > 0 then compared word n.path else 0
      let base := if cpl < n.path.length then split fresh cpl n else n
      if cpl < word.length then
        let word := word.drop cpl
        let r := insKidsT (insertFuelT fresh fullPath v fuel word) fresh word fullPath v base.kids
        ({ tree := mk base.id base.path base.core r.1.kids, hit := r.1.hit, old := r.1.old, cbs := r.1.cbs },
          ⟨r.2.calls + 1, r.2.looks, r.2.pairs + pairs⟩)
      else
        let node := mk base.id base.path { base.core with hasData := true, data := v } base.kids
        ({ tree := node, hit := node, old := some base.core.data, cbs := [(some base.core.data, node)] },
          ⟨1, 0, pairs⟩)

/-- `s.root.insert([]rune(path), path, data, ...)`. (radix/trie.go:388-398.) -/
def insertT (fresh : Nat) (key : Str) (v : α) (n : Node α) : Ins α × InsCost :=
  insertFuelT fresh (utf8 key) v (key.length + 2) key n

end Node

namespace View
variable {α : Type}

/-- radix/trie.go:742-753: the retry loop of `RecusiveUp`. -/
def retryUpT (d : Char) (root : Node α) : Nat → Str → KV → Go (Option (MR α) × KV) × List (Node α × Nat)
  | 0, _, kv => (.ok (none, kv), [])
  | fuel + 1, w, kv =>
    let a := splitOn d w
    if a.length > 2 then
      let w := joinWith d (a.take (a.length - 2) ++ a.drop (a.length - 1))
      let m := root.matchRT d w false none kv
      match m.1 with
      | .error e => (.error e, m.2)
      | .ok (r, kv) =>
        if r.matched || r.part then (.ok (some r, kv), m.2)
        else
          let b := retryUpT d root fuel w kv
          (b.1, m.2 ++ b.2)
    else (.ok (none, kv), [])

/-- radix/trie.go:731-758 `search`. -/
def searchT (v : View) (t : Tree α) (word : Str) :
    Go (Option (Node α) × Option (Node α) × Bool × KV) × List (Node α × Nat) :=
  let m := t.root.matchRT v.delim word false none []
  match m.1 with
  | .error e => (.error e, m.2)
  | .ok (r, kv) =>
    if r.matched || r.part then (.ok (r.child, r.parent, r.part, kv), m.2)
    else if v.mode = .up ∧ v.delim ∈ word then
      let b := retryUpT v.delim t.root (word.length + 1) word kv
      (match b.1 with
        | .error e => .error e
        | .ok (some r, kv) => .ok (r.child, r.parent, r.part, kv)
        | .ok (none, kv) => .ok (none, none, false, kv), m.2 ++ b.2)
    else (.ok (none, none, false, kv), m.2)

/-- The nodes a lookup of `path` looks at (radix/trie.go `Has`, `Get`, `MustGet`, `Query`, `Remove`
and the typed getters all begin with one `search`). -/
def visits (v : View) (t : Tree α) (path : Str) : List (Node α) := (v.searchT t (v.full path)).2.map (·.1)

/-- The rune pairs it compares. (radix/node.go:346-468.) -/
def pairs (v : View) (t : Tree α) (path : Str) : Nat := ((v.searchT t (v.full path)).2.map (·.2)).sum

end View
end Verif

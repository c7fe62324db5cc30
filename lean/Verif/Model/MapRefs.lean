import Verif.Model.Export
/-
radix/cvter.go:342-673 once more, with maps as what they are in Go: references to memory. A map that a user
stores is not copied by `Set`, nor by an export.
-/
namespace Verif

/-- An opaque value, or a `map[string]any`, which is a reference. (radix/cvter.go:342-673.) -/
inductive RVal (α : Type) where
  | val (a : α)
  | ref (r : Nat)

instance {α : Type} [Inhabited α] : Inhabited (RVal α) := ⟨.val default⟩

section
variable {α κ : Type}

/-- The map that a value is, if it is one. (In this file no value is a `.map`.) (radix/cvter.go:342-673.) -/
def asRef : Any (RVal α) κ → Option Nat
  | .atom (.ref r) => some r
  | _ => none

/-- The maps in memory; `next` is the first unused address. (radix/cvter.go:342-673.) -/
structure MapHeap (α κ : Type) where
  maps : Nat → SMap (RVal α) κ
  next : Nat

namespace MapHeap

/-- `m[k] = v`. (radix/cvter.go:342-673.) -/
def put (H : MapHeap α κ) (r : Nat) (k : Str) (v : Any (RVal α) κ) : MapHeap α κ :=
  { H with maps := fun i => if i = r then mput (H.maps r) k v else H.maps i }

/-- `make(map[string]any)`, filled with `m`. (radix/cvter.go:342-673.) -/
def alloc (H : MapHeap α κ) (m : SMap (RVal α) κ) : MapHeap α κ :=
  ⟨fun i => if i = H.next then m else H.maps i, H.next + 1⟩

/-- radix/cvter.go:504-523 `submap`, 652-673 `putKeys`. (`submap` attaches the new map after filling it,
`putKeys` before; nobody else sees the difference.) -/
def submap (H : MapHeap α κ) (r : Nat) : List Str → Any (RVal α) κ → MapHeap α κ
  | [], _ => H
  | [k], v => H.put r k v
  | k :: k2 :: rest, v =>
    match mget (H.maps r) k with
    | some x => match asRef x with
      | some r2 => H.submap r2 (k2 :: rest) v
      | none => H
    | none => ((H.alloc []).put r k (.atom (.ref H.next))).submap H.next (k2 :: rest) v

/-- A sequence of these. (radix/cvter.go:342-673.) -/
def submaps (H : MapHeap α κ) (r : Nat) (F : List (List Str × Any (RVal α) κ)) : MapHeap α κ :=
  F.foldl (fun H a => H.submap r a.1 a.2) H

/-- radix/cvter.go:652 `putKeys`, if the node is to be put anywhere. -/
def putNode (H : MapHeap α κ) (r : Nat) (ks : Option (List Str)) (v : Any (RVal α) κ) : MapHeap α κ :=
  match ks with
  | some ks => H.submap r ks v
  | none => H

/-- radix/cvter.go:491-502 `splitCompactKeys`: `m` is the content of `in`, in the order of the iteration. The
new map is at the address `H.next`. -/
def split (d : Char) (H : MapHeap α κ) (m : SMap (RVal α) κ) : MapHeap α κ :=
  m.foldl (fun H' a => if d ∈ a.1 then H'.submap H.next (splitOn d a.1) a.2 else H'.put H.next a.1 a.2) (H.alloc [])

end MapHeap

/-- radix/cvter.go:460-479 and 632-650 `put`: the keys under which `GetM(path)` puts a node. -/
def pathKeys (d : Char) (p npre : Nat) (o : MOpts (RVal α) κ) (n : Node (Any (RVal α) κ)) : Option (List Str) :=
  let put (keys : List Str) : List Str :=
    if npre ≤ keys.length then
      if (keys.drop npre).length > 0 then keys.drop npre else keys.drop (npre - 1)
    else keys
  if !simpleEndsWith n.core.pathS d && !n.core.isBranch then
    if !o.pass n then none
    else if o.keepPrefix then some (splitOn d (runes n.core.pathS))
    else if p + 1 = n.core.pathS.length then some (put (splitOn d n.path))
    else if p < n.core.pathS.length then some (put (splitOn d (runes (n.core.pathS.drop (p + 1)))))
    else none
  else none

namespace View

/-- radix/cvter.go:411-484 `GetM`: the memory afterwards, and the address of the returned map (`none`: nil).
`ord` is the order in which the loop in `splitCompactKeys` goes through the map. -/
def getMR (v : View) (t : Tree (Any (RVal α) κ)) (path : Str) (o : MOpts (RVal α) κ)
    (ord : SMap (RVal α) κ → SMap (RVal α) κ) (H : MapHeap α κ) : Go (MapHeap α κ × Option Nat) :=
  let l := (utf8 v.pre).length
  if path = [] ∨ path = ".".toList ∨ path = "(root)".toList then
    match foldGo (rootStep v.delim l o) [] t.root.walk with
    | .error e => .error e
    | .ok ret =>
      let H1 := H.alloc ret
      if o.noFlatten then .ok (H1.split v.delim (ord ret), some H1.next) else .ok (H1, some H.next)
  else match v.locate t path with
    | .error e => .error e
    | .ok (n, _, pm, found) =>
      if found || pm then
        match n with
        | none => .error .panic
        | some n =>
          let p := if l = 0 then (utf8 path).length - 1 else l + 1 + (utf8 path).length
          let npre := (splitOn v.delim (join v.delim [v.pre, path])).length
          let H1 := n.walk.foldl (fun H' n => H'.putNode H.next (pathKeys v.delim p npre o n) n.core.data) (H.alloc [])
          if o.noFlatten then .ok (H1.split v.delim (ord (H1.maps H.next)), some H1.next) else .ok (H1, some H.next)
      else .ok (H, none)

/-- radix/cvter.go:342-402 `GetR`: only the returned map is written. -/
def getRR (v : View) (t : Tree (Any (RVal α) κ)) (path : Str) (H : MapHeap α κ) : Go (MapHeap α κ × Option Nat) :=
  match v.getR t path with
  | .error e => .error e
  | .ok none => .ok (H, none)
  | .ok (some ret) => .ok (H.alloc ret, some H.next)

/-- radix/cvter.go:555-576 `To`: the map that evendeep gets to copy to the holder. -/
def toR (v : View) (t : Tree (Any (RVal α) κ)) (path : Str) (o : MOpts (RVal α) κ)
    (ord : SMap (RVal α) κ → SMap (RVal α) κ) (H : MapHeap α κ) : Go (MapHeap α κ × Option Nat) :=
  match v.getMR t path o ord H with
  | .error e => .error e
  | .ok (H1, some r) => .ok (H1.split v.delim (ord (H1.maps r)), some H1.next)
  | .ok (H1, none) =>
    match v.getRR t path H1 with
    | .error e => .error e
    | .ok (H2, some r) => .ok (H2.split v.delim (ord (H2.maps r)), some H2.next)
    | .ok (H2, none) => .ok (H2, none)

end View
end
end Verif

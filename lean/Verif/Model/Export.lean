import Verif.Model.Store
import Verif.Spec.Map
/-
radix/cvter.go:326-673: exporting a trie as a map.
-/
namespace Verif

/-- `[]rune(s)` / `string(bytes)` as runes: UTF-8 decoding, an invalid byte gives U+FFFD. (radix/cvter.go:326-673.) -/
def runesFuel : Nat → List UInt8 → Str
  | 0, _ => []
  | _ + 1, [] => []
  | n + 1, b :: bs =>
    match ByteArray.utf8DecodeChar? (b :: bs).toByteArray 0 with
    | some c => c :: runesFuel n ((b :: bs).drop c.utf8Size)
    | none => '�' :: runesFuel n bs

/-- The same with enough steps (radix/cvter.go:326-673). -/
def runes (bs : List UInt8) : Str := runesFuel bs.length bs

section
variable {α κ : Type}

/-- Reading and assigning a key of a Go map. (radix/cvter.go:326-673.) -/
def mget (m : SMap α κ) (k : Str) : Option (Any α κ) := assoc m k

/-- `m[k] = v` on a Go map (radix/cvter.go:326-673). -/
def mput (m : SMap α κ) (k : Str) (v : Any α κ) : SMap α κ :=
  match m with
  | [] => [(k, v)]
  | (k', v') :: r => if k' = k then (k, v) :: r else (k', v') :: mput r k v

/-- radix/cvter.go:504-523 `submap`, 652-673 `putKeys` (the same algorithm). The Go code updates nested
maps in place; if such a map is one that the user stored as a value, it is changed in the store too, which
this model does not show (Model/MapRefs.lean does). -/
def submap (m : SMap α κ) : List Str → Any α κ → SMap α κ
  | [], _ => m
  | [k], v => mput m k v
  | k :: k2 :: rest, v =>
    match mget m k with
    | some (.map m2) => mput m k (.map (submap m2 (k2 :: rest) v))
    | some _ => m
    | none => mput m k (.map (submap [] (k2 :: rest) v))

/-- radix/cvter.go:491-502 `splitCompactKeys`, for one iteration order of the input. -/
def splitCompactKeys (d : Char) (m : SMap α κ) : SMap α κ :=
  m.foldl (fun out a => if d ∈ a.1 then submap out (splitOn d a.1) a.2 else mput out a.1 a.2) []

/-- radix/cvter.go:625-630 `prefixPutter` as filled by the options (598-619). -/
structure MOpts (α κ : Type) where
  keepPrefix : Bool
  noFlatten : Bool
  filter : Option (Node (Any α κ) → Bool)

/-- No options: radix/cvter.go:326-410. -/
def MOpts.default : MOpts α κ := ⟨false, false, none⟩

/-- The filter of the options: radix/cvter.go:326-445. -/
def MOpts.pass (o : MOpts α κ) (n : Node (Any α κ)) : Bool :=
  match o.filter with
  | some f => f n
  | none => true

/-- radix/trie.go:826-832 `simpleEndsWith`. -/
def simpleEndsWith (s : List UInt8) (d : Char) : Bool := (runes s).getLast? == some d

/-- radix/cvter.go:427, 462: which nodes are exported. -/
def exportable (d : Char) (n : Node (Any α κ)) : Bool :=
  (n.core.pathS = [] || !simpleEndsWith n.core.pathS d) && !n.core.isBranch

/-- radix/cvter.go:426-440: the callback of the walk in `GetM("")`; `l` is the byte length of the prefix. -/
def rootStep (d : Char) (l : Nat) (o : MOpts α κ) (ret : SMap α κ) (n : Node (Any α κ)) : Go (SMap α κ) :=
  if exportable d n then
    if !o.pass n then .ok ret
    else if o.keepPrefix || l = 0 then .ok (mput ret (runes n.core.pathS) n.core.data)
    else if l + 1 ≤ n.core.pathS.length then
      if l + 2 ≤ n.core.pathS.length then .ok (mput ret (runes (n.core.pathS.drop (l + 2))) n.core.data)
      else .error .panic
    else .ok ret
  else .ok ret

/-- A loop whose body may panic, for the loops of radix/cvter.go:411-673. -/
def foldGo {β γ : Type} (f : β → γ → Go β) : β → List γ → Go β
  | b, [] => .ok b
  | b, x :: xs => match f b x with
    | .error e => .error e
    | .ok b => foldGo f b xs

/-- radix/cvter.go:632-650 `put`. -/
def putPrefixed (keepPrefix : Bool) (npre : Nat) (m : SMap α κ) (keys : List Str) (v : Any α κ) : SMap α κ :=
  if keepPrefix then submap m keys v
  else if npre ≤ keys.length then
    if (keys.drop npre).length > 0 then submap m (keys.drop npre) v
    else submap m (keys.drop (npre - 1)) v
  else submap m keys v

/-- radix/cvter.go:460-479: the callback of the walk in `GetM(path)`; `p` is the value of `prelen`. -/
def pathStep (d : Char) (p npre : Nat) (o : MOpts α κ) (ret : SMap α κ) (n : Node (Any α κ)) : SMap α κ :=
  if !simpleEndsWith n.core.pathS d && !n.core.isBranch then
    if !o.pass n then ret
    else if o.keepPrefix then putPrefixed true npre ret (splitOn d (runes n.core.pathS)) n.core.data
    else if p + 1 = n.core.pathS.length then putPrefixed false npre ret (splitOn d n.path) n.core.data
    else if p < n.core.pathS.length then
      putPrefixed false npre ret (splitOn d (runes (n.core.pathS.drop (p + 1)))) n.core.data
    else ret
  else ret

namespace View

/-- radix/cvter.go:411-484 `GetM`: `none` is the nil map. `prelen` is -1 without prefix, else length
plus one; in the second half it becomes `len(path)-1`, or `len(prefix)+1+len(path)`. (`prelen = -1`
only for the empty path, which takes the first half.) -/
def getM (v : View) (t : Tree (Any α κ)) (path : Str) (o : MOpts α κ) : Go (Option (SMap α κ)) :=
  let l := (utf8 v.pre).length
  if path = [] ∨ path = ".".toList ∨ path = "(root)".toList then
    match foldGo (rootStep v.delim l o) [] t.root.walk with
    | .error e => .error e
    | .ok ret => .ok (some (if o.noFlatten then splitCompactKeys v.delim ret else ret))
  else match v.locate t path with
    | .error e => .error e
    | .ok (n, _, pm, found) =>
      if found || pm then
        match n with
        | none => .error .panic
        | some n =>
          let p := if l = 0 then (utf8 path).length - 1 else l + 1 + (utf8 path).length
          let npre := (splitOn v.delim (join v.delim [v.pre, path])).length
          let ret := n.walk.foldl (pathStep v.delim p npre o) []
          .ok (some (if o.noFlatten then splitCompactKeys v.delim ret else ret))
      else .ok none

/-- radix/cvter.go:342-402 `GetR` (without defaults). -/
def getR (v : View) (t : Tree (Any α κ)) (path : Str) : Go (Option (SMap α κ)) :=
  if path = [] ∨ path = ".".toList ∨ path = "(root)".toList then
    .ok (some (t.root.walk.foldl (fun ret n =>
      if exportable v.delim n then mput ret (runes n.core.pathS) n.core.data else ret) []))
  else match v.locate t path with
    | .error e => .error e
    | .ok (n, _, pm, found) =>
      if found || pm then
        match n with
        | none => .error .panic
        | some n => .ok (some (n.walk.foldl (fun ret n =>
            if exportable v.delim n then mput ret (runes n.core.pathS) n.core.data else ret) []))
      else .ok none

end View

/-- The map that load.go:608-640 `trySave` hands to the codec. -/
def Store.saveMap (s : Store α κ) : Go (Option (SMap α κ)) :=
  s.view.getM s.tree [] ⟨false, true, some (fun n => n.core.modified)⟩

end
end Verif

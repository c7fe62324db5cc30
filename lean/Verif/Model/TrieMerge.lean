import Verif.Model.Store
/-
radix/trie.go:476-483 and radix/load.go:59-97: merging a nested map into a trie (without a store). The element type is
`any`.
-/
namespace Verif
variable {α κ : Type}

namespace View

mutual
/-- radix/load.go:68-97 `loadMapByValueType`. The assertion `v.(T)` panics for a nil value even if `T` is `any`. `byte` of the
delimiter (load.go:75) is modelled for delimiters below 128. -/
def loadTVal (v : View) (t : Tree (Any α κ)) (k : Str) : Any α κ → Go (Tree (Any α κ))
  | .map m => loadTMap (v.withPrefixReplaced [k]) t m
  | .maps l => loadTMaps v t k 0 l
  | .list l => loadTList v t k 0 l
  | .nil => .error .panic
  | .atom x => .ok (v.set t k (.atom x)).1
  | .amap m => .ok (v.set t k (.amap m)).1
  | .amaps l => .ok (v.set t k (.amaps l)).1
  | .pkg x => .ok (v.set t k (.pkg x)).1
/-- radix/load.go:59-66 `loadMap`, for one iteration order. -/
def loadTMap (v : View) (t : Tree (Any α κ)) : List (Str × Any α κ) → Go (Tree (Any α κ))
  | [] => .ok t
  | (k, x) :: m => match loadTVal v t k x with
    | .error e => .error e
    | .ok t => loadTMap v t m
/-- radix/load.go:72-80: the elements of a `[]map[string]any`. -/
def loadTMaps (v : View) (t : Tree (Any α κ)) (k : Str) (i : Nat) : List (List (Str × Any α κ)) → Go (Tree (Any α κ))
  | [] => .ok t
  | m :: l => match loadTMap (v.withPrefix [Store.elemKey v.delim k i]) t m with
    | .error e => .error e
    | .ok t => loadTMaps v t k (i + 1) l
/-- radix/load.go:81-93: the elements of a `[]any`. -/
def loadTList (v : View) (t : Tree (Any α κ)) (k : Str) (i : Nat) : List (Any α κ) → Go (Tree (Any α κ))
  | [] => .ok t
  | x :: l => match loadTVal v t (if v.pre ≠ [] then v.pre ++ v.delim :: Store.elemKey v.delim k i else Store.elemKey v.delim k i) x with
    | .error e => .error e
    | .ok t => loadTList v t k (i + 1) l
end

/-- radix/trie.go:477-483 `Merge`. -/
def merge (v : View) (t : Tree (Any α κ)) (pathAt : Str) (m : SMap α κ) : Go (Tree (Any α κ)) :=
  loadTMap (v.withPrefix [pathAt]) t m

end View
end Verif

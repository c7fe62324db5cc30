import Verif.Model.Export
/-
internal/cvt/cvt.go: Normalize and Deflate.
-/
namespace Verif

/-- Index of the first occurrence: `strings.Index`. (For `strings.Split`, called at internal/cvt/cvt.go:70-98.) -/
def indexOf (sep : Str) : Str → Option Nat
  | [] => if sep = [] then some 0 else none
  | c :: s => if sep.isPrefixOf (c :: s) then some 0 else (indexOf sep s).map (· + 1)

/-- The loop of `strings.Split` (called at internal/cvt/cvt.go:70-98). -/
def splitFuel (sep : Str) : Nat → Str → List Str
  | 0, s => [s]
  | n + 1, s => match indexOf sep s with
    | none => [s]
    | some i => s.take i :: splitFuel sep n (s.drop (i + sep.length))

/-- `strings.Split(s, sep)`: an empty separator splits into runes (and "" into nothing). (Called at internal/cvt/cvt.go:70-98.) -/
def splitStr (sep s : Str) : List Str :=
  if sep = [] then s.map (fun c => [c]) else splitFuel sep s.length s

section
variable {α κ : Type}

/-- internal/cvt/cvt.go:80-95: placing one value. If the value at an intermediate key is not a map, the
code stays where it is and goes on with the next key. -/
def deflate1 (m : SMap α κ) : List Str → Any α κ → SMap α κ
  | [], _ => m
  | [k], v => mput m k v
  | k :: k2 :: rest, v =>
    match mget m k with
    | some (.map m2) => mput m k (.map (deflate1 m2 (k2 :: rest) v))
    | some _ => deflate1 m (k2 :: rest) v
    | none => mput m k (.map (deflate1 [] (k2 :: rest) v))

/-- internal/cvt/cvt.go:69-98 `Deflate`, for one iteration order of the input. `keys[:len(keys)-1]` panics when there
are no keys: empty delimiter and empty key. Maps stored as values are shared with the input in Go and may
be changed in place; that is not shown here. -/
def deflate (sep : Str) (m : SMap α κ) : Go (SMap α κ) :=
  foldGo (fun out a => if splitStr sep a.1 = [] then .error .panic else .ok (deflate1 out (splitStr sep a.1) a.2)) [] m

mutual
/-- internal/cvt/cvt.go:25-67 `normalize`: the value stored under the key afterwards. `str` is `fmt.Sprintf("%v")`.
The worker callback is not modelled. Go converts a `map[any]any` first and then normalises the values of the new
map; here the values are normalised while it is built, in one iteration order. Only the types in the type
switch are descended into: `[]map[string]any`, `[]map[any]any` and slices within slices are left as they are. -/
def normV (str : κ → Str) : Any α κ → Any α κ
  | .amap z => .map ((normA str z).foldl (fun m a => mput m a.1 a.2) [])
  | .list l => .list (normL str l)
  | .map m => .map (normM str m)
  | .nil => .nil
  | .atom x => .atom x
  | .maps l => .maps l
  | .amaps l => .amaps l
  | .pkg v => .pkg v
/-- internal/cvt/cvt.go:39-59: an element of a slice. -/
def normE (str : κ → Str) : Any α κ → Any α κ
  | .amap z => .map ((normA str z).foldl (fun m a => mput m a.1 a.2) [])
  | .map m => .map (normM str m)
  | .list l => .list l
  | .nil => .nil
  | .atom x => .atom x
  | .maps l => .maps l
  | .amaps l => .amaps l
  | .pkg v => .pkg v
/-- internal/cvt/cvt.go:25-68 `normalize`: the elements of a slice. -/
def normL (str : κ → Str) : List (Any α κ) → List (Any α κ)
  | [] => []
  | v :: l => normE str v :: normL str l
/-- internal/cvt/cvt.go:18-23 `Normalize`. -/
def normM (str : κ → Str) : List (Str × Any α κ) → List (Str × Any α κ)
  | [] => []
  | (k, v) :: m => (k, normV str v) :: normM str m
/-- internal/cvt/cvt.go:25-68 `normalize`: the pairs of a `map[any]any`. -/
def normA (str : κ → Str) : List (κ × Any α κ) → List (Str × Any α κ)
  | [] => []
  | (k, v) :: m => (str k, normV str v) :: normA str m
end

end
end Verif

import Mathlib.Data.List.Basic
/-
codecs/hjson: `UnmarshalEx`, which keeps the comments of a document. The parser (hjson-go) is not modelled: a document is the tree of nodes it gives.
-/
namespace Verif
namespace Hjson

/-- The comments of a node (`hjson.Comments`), the ones that are used. (codecs/hjson/hjson.go:52-109.) -/
structure Cm where
  before : String
  key : String
  after : String
  deriving DecidableEq, Repr

/-- `hjson.Node.Value`. `other` stands for a number or a boolean. (codecs/hjson/hjson.go:52-109.) -/
inductive Doc
  | null
  | str (s : String)
  | other (n : Nat)
  | obj (fields : List (String × Cm × Doc))
  | arr (elems : List (Cm × Doc))

/-- `store.ValPkg` (new.go:332-337) without `Tag`, which is always nil here, and its value: a value of the document as it is or a map of packages. A map is a
list with the latest entry first. -/
inductive Val
  | raw (d : Doc)
  | sub (m : List (String × String × String × Val))

/-- The `map[string]store.ValPkg` that `UnmarshalEx` gives: codecs/hjson/hjson.go:52-109. -/
abbrev Map := List (String × String × String × Val)

/-- `data[k] = store.ValPkg{Value: v, Desc: cm.Before, Comment: cm.Key + cm.After, Tag: nil}`. (codecs/hjson/hjson.go:52-109.) -/
def Map.put (m : Map) (k : String) (cm : Cm) (v : Val) : Map := (k, cm.before, cm.key ++ cm.after, v) :: m

/-- `data[k]`: codecs/hjson/hjson.go:52-109. -/
def Map.get (m : Map) (k : String) : Option (String × String × Val) := (m.find? (·.1 == k)).map (·.2)

mutual
/-- codecs/hjson/hjson.go:83-106: the value stored for a node. -/
def value (flattenSlice : Bool) : Doc → Val
  | .obj fields => .sub (putFields flattenSlice [] fields)
  | .arr elems => if flattenSlice then .sub (putElems flattenSlice [] elems) else .raw (.arr elems)
  | d => .raw d

/-- codecs/hjson/hjson.go:74-108 on an object. `AtIndex` gives the key and the value of a field. -/
def putFields (flattenSlice : Bool) (m : Map) : List (String × Cm × Doc) → Map
  | [] => m
  | (k, cm, d) :: rest => putFields flattenSlice (m.put k cm (value flattenSlice d)) rest

/-- codecs/hjson/hjson.go:74-108 on an array. `AtIndex` gives the empty key for an element. -/
def putElems (flattenSlice : Bool) (m : Map) : List (Cm × Doc) → Map
  | [] => m
  | (cm, d) :: rest => putElems flattenSlice (m.put "" cm (value flattenSlice d)) rest
end

/-- codecs/hjson/hjson.go:52-72: the document with its own comments. -/
def unmarshalEx (flattenSlice : Bool) (cm : Cm) : Doc → Map
  | .null => []
  | .str s => Map.put [] s cm (.raw (.str s))
  | .other _ => []
  | .obj fields => putFields flattenSlice [] fields
  | .arr elems => putElems flattenSlice [] elems

end Hjson
end Verif

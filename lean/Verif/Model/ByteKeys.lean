import Verif.Model.Ops
import Verif.Model.Export
/-
Keys as Go strings, that is, as any bytes: radix/trie.go:340-377 `Join`, 388-396 `Set`, 727-757 `search`. The rest of the model has keys of runes.
-/
namespace Verif

/-- radix/trie.go:353-361 on the byte level, where the delimiter is written by
`bb.WriteByte(byte(s.delimiter))`. -/
def joinRestBytes (d : Char) : List (List UInt8) → List UInt8
  | [] => []
  | it :: its => if it ≠ [] then UInt8.ofNat d.toNat :: it ++ joinRestBytes d its else joinRestBytes d its

/-- radix/trie.go:340-377 `Join` on the byte level. -/
def joinBytes (d : Char) : List (List UInt8) → List UInt8
  | [] => []
  | [a] => a
  | a :: rest => if a = [] then joinBytes d rest else a ++ joinRestBytes d rest

/-- A trie with its prefix as the code has it (radix/trie.go:28-36): a string of any bytes. -/
structure BView where
  pre : List UInt8
  delim : Char
  mode : Mode
  deriving DecidableEq, Repr

/-- radix/trie.go:389-391 and the same lines of the other operations: `if s.prefix != "" { path = s.Join(s.prefix, path) }`. -/
def BView.full (v : BView) (path : List UInt8) : List UInt8 := if v.pre ≠ [] then joinBytes v.delim [v.pre, path] else path

/-- The same trie without its prefix, with keys of runes. (radix/trie.go:34-41: the fields of `trieS`.) -/
def BView.root (v : BView) : View := ⟨[], v.delim, v.mode⟩

section
variable {α : Type} [Inhabited α]

/-- radix/trie.go:392-394: `strings.ReplaceAll(path, " ", "-")`. -/
def dashBytes (path : List UInt8) : List UInt8 := path.map (fun b => if b = 32 then 45 else b)

/-- radix/trie.go:388-396 `Set`: the path goes to the tree as `[]rune(path)`. Simplified: the leaf's `pathS`, which no reading by key looks at, is the
encoding of these runes here and the bytes of `path` in the code. -/
def BView.set (v : BView) (t : Tree α) (path : List UInt8) (x : α) : Tree α × Node.Ins α :=
  View.insertAt t (runes (dashBytes (v.full path))) x

/-- `Get`, `MustGet`, `Has` (radix/trie.go:601-702): `search` (734) turns the joined path into runes. -/
def BView.get (v : BView) (t : Tree α) (path : List UInt8) := v.root.get t (runes (v.full path))
/-- radix/trie.go:590-598 `MustGet`. -/
def BView.mustGet (v : BView) (t : Tree α) (path : List UInt8) := v.root.mustGet t (runes (v.full path))
/-- radix/trie.go:534-544 `Has`. -/
def BView.has (v : BView) (t : Tree α) (path : List UInt8) := v.root.has t (runes (v.full path))

/-- radix/trie.go:562-585 `Remove`, `RemoveEx`. -/
def BView.remove (v : BView) (t : Tree α) (path : List UInt8) := v.root.remove t (runes (v.full path))
end

end Verif

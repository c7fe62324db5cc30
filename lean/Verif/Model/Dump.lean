import Verif.Model.Trie
/-
radix/node.go:472-555: Dump.
-/
namespace Verif
variable {α : Type}

/-- What `dumpR` takes from other packages: `fmt.Sprint` of data and tags, the colour escapes (`ColorToDim`, `ColorToColor`; identity functions
when colours are off), `fmt`'s `%q`. (radix/node.go:490-556.) -/
structure DumpFmt (α : Type) where
  sprint : α → List UInt8
  dim : List UInt8 → List UInt8
  light : List UInt8 → List UInt8   -- FgLightGreen
  green : List UInt8 → List UInt8   -- FgGreen
  quote : List UInt8 → List UInt8

/-- A literal of radix/node.go:490-556 as bytes. -/
def ascii (s : String) : List UInt8 := utf8 s.toList

/-- The note of radix/node.go:540-542. -/
def dumpWrong (f : DumpFmt α) (n : Node α) : List UInt8 :=
  ascii " [WRONG path & pathS: " ++ f.quote (utf8 n.path) ++ ascii " / " ++ f.quote n.core.pathS ++ ascii "]"

/-- The part of radix/node.go:490-548 `dumpR` before the children. `bw` is `col1Width`. The indentation is written also for the root. -/
def dumpLine (f : DumpFmt α) (noColor : Bool) (lvl : Nat) (n : Node α) : List UInt8 :=
  List.replicate (2 * lvl) 32 ++
  if n.path = [] then (if lvl > 0 then ascii "(nil)\n" else [])
  else
    utf8 n.path ++
    (if lvl * 2 + n.path.length < 32 then List.replicate (32 - lvl * 2 - n.path.length) 32 else [32]) ++
    (let title := if n.core.isBranch then ascii "<B>" else ascii "<L>"
     if noColor then title else f.dim title) ++
    (if n.core.hasData then ascii " " ++ n.core.pathS ++ ascii " => " ++ f.dim (f.sprint n.core.data) else []) ++
    (if n.core.comment ≠ [] then f.light (ascii " // " ++ utf8 n.core.comment) else []) ++
    (match n.core.tag with
     | some x => ascii " | tag = " ++ f.green (f.sprint x)
     | none => []) ++
    (if n.core.desc ≠ [] then f.light (ascii " ~ " ++ utf8 n.core.desc) else []) ++
    (if utf8 n.path <:+ n.core.pathS then [] else dumpWrong f n) ++ ascii "\n"

namespace Node
mutual
/-- radix/node.go:490-556 `dumpR`. -/
def dumpR (f : DumpFmt α) (noColor : Bool) (lvl : Nat) : Node α → List UInt8
  | mk i p c k => dumpLine f noColor lvl (mk i p c k) ++ dumpRL f noColor (lvl + 1) k
/-- radix/node.go:550-552: the loop over the children. -/
def dumpRL (f : DumpFmt α) (noColor : Bool) (lvl : Nat) : List (Node α) → List UInt8
  | [] => []
  | n :: ns => dumpR f noColor lvl n ++ dumpRL f noColor lvl ns
end
end Node

/-- radix/trie.go:851-852 `Dump` (noColor = false) and `dump`. -/
def Tree.dump (f : DumpFmt α) (noColor : Bool) (t : Tree α) : List UInt8 := t.root.dumpR f noColor 0

end Verif

import Verif.Model.Basic
import Verif.Spec.Map
/-
internal/ctx/ctx.go: an iterable bag of named values. op.go: operation sets and their text form.
-/
namespace Verif

/-- `a <= b` of Go strings: bytewise. (For `sort.Strings`, called at internal/ctx/ctx.go:108, 128.) -/
def byteLe (a b : Str) : Bool := decide (utf8 a ≤ utf8 b)

/-- Insertion into a sorted list, for `sort.Strings` (called at internal/ctx/ctx.go:108, 128). -/
def insertSorted (k : Str) : List Str → List Str
  | [] => [k]
  | a :: l => if byteLe k a then k :: a :: l else a :: insertSorted k l

/-- `sort.Strings`. (Called at internal/ctx/ctx.go:108, 128.) -/
def sortStrings : List Str → List Str
  | [] => []
  | k :: l => insertSorted k (sortStrings l)

/-- internal/ctx/ctx.go:59-63 `ctxS`. A nil and an empty map of values behave alike; for the slice `iter` nil
is distinguished from empty. -/
structure Ctx (β : Type) where
  values : List (Str × β)
  iter : Option (List Str)
  picked : Str

namespace Ctx
variable {β : Type}

/-- internal/ctx/ctx.go:29 `TODO`. -/
def todo : Ctx β := ⟨[], none, []⟩

/-- Assignment to a key of the map of values: internal/ctx/ctx.go:84-89 `add`. -/
def put (k : Str) (v : β) : List (Str × β) → List (Str × β)
  | [] => [(k, v)]
  | (k', v') :: r => if k' = k then (k, v) :: r else (k', v') :: put k v r

/-- internal/ctx/ctx.go:82-89 `WithValue`, `add`. -/
def withValue (c : Ctx β) (name : Str) (v : β) : Ctx β := { c with values := put name v c.values }

/-- An argument of `WithValues`: does it convert to a name (a string or a `fmt.Stringer`), and its value. (internal/ctx/ctx.go:65-80.) -/
structure Arg (β : Type) where
  name : Option Str
  val : β

/-- internal/ctx/ctx.go:65-80 `WithValues`; `k` is the pending name. -/
def withValuesGo (c : Ctx β) (k : Str) : List (Arg β) → Ctx β
  | [] => c
  | t :: r =>
    if k = [] then withValuesGo c (t.name.getD k) r
    else withValuesGo (c.withValue k t.val) [] r

/-- internal/ctx/ctx.go:65-80 `WithValues`. -/
def withValues (c : Ctx β) (args : List (Arg β)) : Ctx β := withValuesGo c [] args

/-- internal/ctx/ctx.go:91-93. -/
def namesCount (c : Ctx β) : Nat := c.values.length

/-- internal/ctx/ctx.go:95-100. -/
def valueBy (c : Ctx β) (name : Str) : Option β := assoc c.values name

/-- internal/ctx/ctx.go:118-120 `Reset`. -/
def reset (c : Ctx β) : Ctx β := { c with iter := none, picked := [] }

/-- internal/ctx/ctx.go:123-129: the pending names. -/
def pending (c : Ctx β) : List Str := c.iter.getD (sortStrings (c.values.map (·.1)))

/-- internal/ctx/ctx.go:122-135 `Next`. -/
def next (c : Ctx β) : Ctx β × Bool :=
  match c.pending with
  | [] => ({ c with iter := some [] }, false)
  | k :: l => ({ c with iter := some l, picked := k }, true)

/-- internal/ctx/ctx.go:102-114 `NextName`. -/
def nextName (c : Ctx β) : Ctx β × Str :=
  match c.pending with
  | [] => ({ c with iter := some [] }, [])
  | k :: l => ({ c with iter := some l }, k)

/-- internal/ctx/ctx.go:137-142 `Entry`: `none` for the zero results. -/
def entry (c : Ctx β) : Option (Str × β) := (assoc c.values c.picked).map (fun v => (c.picked, v))

/-- The state after `n` calls of `Next`. (internal/ctx/ctx.go:122-135.) -/
def nexts : Nat → Ctx β → Ctx β
  | 0, c => c
  | n + 1, c => (nexts n c).next.1

end Ctx

/-! ## op.go -/

/-- op.go:12-19 `opStrings`. -/
def opName (op : Nat) : Option Str :=
  if op = 1 then some "create".toList
  else if op = 2 then some "modify".toList
  else if op = 8 then some "rename".toList
  else if op = 4 then some "remove".toList
  else if op = 16 then some "chmod".toList
  else if op = 0 then some "none".toList
  else none

/-- op.go:34-42 `UnmarshalText` with the table op.go:21-32; `none` is the error. -/
def opParse (s : Str) : Option Nat :=
  assoc [("create".toList, 1), ("new".toList, 1), ("modify".toList, 2), ("write".toList, 2), ("rename".toList, 8),
    ("remove".toList, 4), ("delete".toList, 4), ("rm".toList, 4), ("chmod".toList, 16), ("none".toList, 0)] s

/-- op.go:44-50 `MarshalText`. For other values the code formats the pointer, not the value: `ptr` is the text
it gives. -/
def opText (ptr : Str) (op : Nat) : Str :=
  match opName op with
  | some s => s.map Char.toUpper
  | none => "Op(".toList ++ ptr ++ ")".toList

end Verif

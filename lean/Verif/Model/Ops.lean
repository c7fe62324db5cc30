import Verif.Model.Trie
/-
Histories: sequences of the writing methods of a trie, each through some view of it.
-/
namespace Verif

/-- One writing call. The view carries prefix, delimiter and recursive mode of the receiver, so one
history can mix calls on a trie and on any views of it (`WithPrefix`, `SetPrefix`, `R`, `BR`, ...).
`node` is a call of a `Node[T]` method through a pointer obtained earlier (by identity; a pointer to a
removed node no longer reaches the tree). Callbacks passed to `SetEx` are represented by the calls
they make, as later elements of the history. (radix/trie.go:379-492, 562-588.) -/
inductive Op (α : Type) where
  | set (v : View) (path : Str) (x : α)
  | setEx (v : View) (path : Str) (x : α)
  | setNode (v : View) (path : Str) (x : α) (tag : Option α) (ds : List Str)
  | setEmpty (v : View) (path : Str)
  | update (v : View) (path : Str) (cb : Core α → Option α → List (NodeOp α))
  | setComment (v : View) (path desc comment : Str)
  | setTag (v : View) (path : Str) (tag : Option α)
  | remove (v : View) (path : Str)
  | node (id : Nat) (o : NodeOp α)

namespace Op
variable {α : Type} [Inhabited α]

/-- Effect of a call on the shared tree. (radix/trie.go:379-492, 562-588.) -/
def run : Op α → Tree α → Go (Tree α)
  | set v p x, t => .ok (v.set t p x).1
  | setEx v p x, t => .ok (v.setEx t p x).1
  | setNode v p x tag ds, t => .ok (v.setNode t p x tag ds).1
  | setEmpty v p, t => .ok (v.setEmpty t p).1
  | update v p cb, t => .ok (v.update t p cb)
  | setComment v p d c, t => (v.setComment t p d c).map (·.1)
  | setTag v p tag, t => (v.setTag t p tag).map (·.1)
  | remove v p, t => (v.remove t p).map (·.1)
  | node i o, t => .ok (View.writeCore t i o.app)

/-- The full path a call inserts, if it inserts. (radix/trie.go:379-492, 562-588.) -/
def key : Op α → Option Str
  | set v p _ => some (View.dash (v.full p))
  | setEx v p _ | setNode v p _ _ _ | setEmpty v p | update v p _ => some (v.full p)
  | setComment .. | setTag .. | remove .. | node .. => none

end Op

/-- Trees reachable from the empty trie by histories whose inserted full paths satisfy `P`. (radix/trie.go:379-492, 562-588.) -/
inductive Reach {α : Type} [Inhabited α] (P : Str → Prop) : Tree α → Prop
  | new : Reach P Tree.new
  | step {t t' : Tree α} (o : Op α) (h : Reach P t) (hk : ∀ k, o.key = some k → P k)
      (e : o.run t = .ok t') : Reach P t'

end Verif

/-
Basic vocabulary of the model: how Go values are represented.
-/
namespace Verif

/-- Go `string`/`[]rune` holding valid UTF-8, as the list of its runes. (radix/node.go:22-32: `path []rune`; radix/trie.go:379-411: `path string`.) -/
abbrev Str := List Char

/-- Ways in which a Go call fails to return a value. (For all of the model: panics of run-time checks and of radix/node.go, and fatal errors of the
run time.) -/
inductive Stop
  | panic  -- run-time panic
  | hang   -- the call never returns
  deriving DecidableEq, Repr

/-- Result of a Go call. (For all of the model.) -/
abbrev Go (β : Type) := Except Stop β

instance {β : Type} [DecidableEq β] : DecidableEq (Go β) := fun a b =>
  match a, b with
  | .ok x, .ok y => if h : x = y then isTrue (by rw [h]) else isFalse (by intro h'; injection h'; contradiction)
  | .error x, .error y => if h : x = y then isTrue (by rw [h]) else isFalse (by intro h'; injection h'; contradiction)
  | .ok _, .error _ => isFalse (by intro h; cases h)
  | .error _, .ok _ => isFalse (by intro h; cases h)

/-- UTF-8 bytes of a string: what `len`, slicing and `strings.HasPrefix` see in Go. (radix/node.go:303, radix/trie.go:316-377.) -/
def utf8 (s : Str) : List UInt8 := s.flatMap String.utf8EncodeChar

/-- All runes below 128. -/
def Ascii (s : Str) : Prop := ∀ c ∈ s, c.toNat < 128

/-- `strings.Split(s, string(d))` for a single-rune separator. (Called at radix/trie.go:744, radix/cvter.go:450, 495, 633.) -/
def splitOn (d : Char) : Str → List Str
  | [] => [[]]
  | c :: cs =>
    if c = d then [] :: splitOn d cs
    else match splitOn d cs with
      | [] => [[c]]
      | w :: ws => (c :: w) :: ws

/-- `strings.Join(parts, string(d))` for a single-rune separator. (Called at radix/trie.go:747.) -/
def joinWith (d : Char) : List Str → Str
  | [] => []
  | [w] => w
  | w :: ws => w ++ d :: joinWith d ws

end Verif

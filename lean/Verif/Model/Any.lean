import Verif.Model.Basic
/-
Go values of type `any`, as far as load.go and internal/cvt/cvt.go distinguish them.
-/
namespace Verif

/-- A Go value of type `any`. `α` are the values the code treats as opaque (numbers, strings, structs,
...), `κ` the keys of a `map[any]any`. A Go map is an association list, read as one iteration order of
the map: a statement about all lists is a statement about all iteration orders. (load.go:147-298 and internal/cvt/cvt.go:11-98 switch on these
types.) -/
inductive Any (α κ : Type) where
  | nil
  | atom (x : α)
  | map (m : List (Str × Any α κ))           -- map[string]any
  | amap (m : List (κ × Any α κ))            -- map[any]any
  | list (l : List (Any α κ))                -- []any
  | maps (l : List (List (Str × Any α κ)))   -- []map[string]any
  | amaps (l : List (List (κ × Any α κ)))    -- []map[any]any
  | pkg (v : Any α κ)                        -- ValPkg (new.go:332-337); only `Value` is read

instance {α κ : Type} : Inhabited (Any α κ) := ⟨.nil⟩

/-- A `map[string]any`. (The argument of `Merge`, store.go:290, and the result of `GetM`, radix/cvter.go:411.) -/
abbrev SMap (α κ : Type) := List (Str × Any α κ)

/-- `x == nil` for an interface value. (store.go:247, 350-371; radix/cvter.go:411-445.) -/
def Any.isNil {α κ : Type} : Any α κ → Bool
  | .nil => true
  | _ => false

/-- `strconv.AppendInt(buf, int64(i), 10)` for a slice index. -/
def itoa (i : Nat) : Str := Nat.toDigits 10 i

end Verif

import Verif.Model.Any
/-
What a nested value contains: its leaves and the keys that lead to them.
-/
namespace Verif
variable {α κ : Type}

/-- Put a key in front of every path. -/
def under (k : Str) (l : List (List Str × Any α κ)) : List (List Str × Any α κ) := l.map (fun a => (k :: a.1, a.2))

mutual
/-- The leaves of a value with the keys leading to them. `fl`: slices are opened too, the key of an
element is its decimal index; otherwise a slice is a leaf. `str` turns the keys of a `map[any]any` into
strings. Packages are transparent. -/
def leaves (fl : Bool) (str : κ → Str) : Any α κ → List (List Str × Any α κ)
  | .pkg v => leaves fl str v
  | .map m => leavesM fl str m
  | .amap m => leavesA fl str m
  | .maps l => if fl then leavesMs fl str 0 l else [([], .maps l)]
  | .amaps l => if fl then leavesAs fl str 0 l else [([], .amaps l)]
  | .list l => if fl then leavesL fl str 0 l else [([], .list l)]
  | .nil => [([], .nil)]
  | .atom x => [([], .atom x)]
def leavesM (fl : Bool) (str : κ → Str) : List (Str × Any α κ) → List (List Str × Any α κ)
  | [] => []
  | (k, v) :: m => under k (leaves fl str v) ++ leavesM fl str m
def leavesA (fl : Bool) (str : κ → Str) : List (κ × Any α κ) → List (List Str × Any α κ)
  | [] => []
  | (k, v) :: m => under (str k) (leaves fl str v) ++ leavesA fl str m
def leavesMs (fl : Bool) (str : κ → Str) (i : Nat) : List (List (Str × Any α κ)) → List (List Str × Any α κ)
  | [] => []
  | m :: l => under (itoa i) (leavesM fl str m) ++ leavesMs fl str (i + 1) l
def leavesAs (fl : Bool) (str : κ → Str) (i : Nat) : List (List (κ × Any α κ)) → List (List Str × Any α κ)
  | [] => []
  | m :: l => under (itoa i) (leavesA fl str m) ++ leavesAs fl str (i + 1) l
def leavesL (fl : Bool) (str : κ → Str) (i : Nat) : List (Any α κ) → List (List Str × Any α κ)
  | [] => []
  | v :: l => under (itoa i) (leaves fl str v) ++ leavesL fl str (i + 1) l
end

mutual
/-- No map key in the value is the empty string. -/
def keysNE (str : κ → Str) : Any α κ → Prop
  | .pkg v => keysNE str v
  | .map m => keysNEM str m
  | .amap m => keysNEA str m
  | .maps l => keysNEMs str l
  | .amaps l => keysNEAs str l
  | .list l => keysNEL str l
  | .nil => True
  | .atom _ => True
def keysNEM (str : κ → Str) : List (Str × Any α κ) → Prop
  | [] => True
  | (k, v) :: m => k ≠ [] ∧ keysNE str v ∧ keysNEM str m
def keysNEA (str : κ → Str) : List (κ × Any α κ) → Prop
  | [] => True
  | (k, v) :: m => str k ≠ [] ∧ keysNE str v ∧ keysNEA str m
def keysNEMs (str : κ → Str) : List (List (Str × Any α κ)) → Prop
  | [] => True
  | m :: l => keysNEM str m ∧ keysNEMs str l
def keysNEAs (str : κ → Str) : List (List (κ × Any α κ)) → Prop
  | [] => True
  | m :: l => keysNEA str m ∧ keysNEAs str l
def keysNEL (str : κ → Str) : List (Any α κ) → Prop
  | [] => True
  | v :: l => keysNE str v ∧ keysNEL str l
end

end Verif

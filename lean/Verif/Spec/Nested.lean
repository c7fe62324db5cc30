import Verif.Model.Export
/-
Reading a nested map along a list of keys.
-/
namespace Verif
variable {α κ : Type}

def Any.isMap : Any α κ → Bool
  | .map _ => true
  | _ => false

/-- What is at the end of a list of keys: `none` nothing, `some none` a map, `some (some x)` a value `x` that is no map. -/
def status (m : SMap α κ) : List Str → Option (Option (Any α κ))
  | [] => some none
  | k :: ks =>
    match mget m k with
    | none => none
    | some (.map m2) => status m2 ks
    | some x => if ks = [] then some (some x) else none

/-- Same nested map (Go maps are unordered: compare by lookups). -/
def SameMap (m m' : SMap α κ) : Prop := ∀ ks, status m ks = status m' ks

end Verif

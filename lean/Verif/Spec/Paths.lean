import Verif.Model.Any
import Verif.Spec.Map
/-
Looking into a value along a path.
-/
namespace Verif
variable {α κ : Type}

/-- Following string keys through `map[string]any`s. -/
def look : Any α κ → List Str → Option (Any α κ)
  | a, [] => some a
  | .map m, k :: ks => (assoc m k).bind (fun a => look a ks)
  | _, _ :: _ => none

/-- A step into a value: a map key (as text) or a slice index. -/
inductive Step where
  | key (k : Str)
  | idx (i : Nat)

/-- The key-value pairs of a `map[any]any` with the keys as text. -/
def texts (str : κ → Str) (m : List (κ × Any α κ)) : List (Str × Any α κ) := m.map (fun a => (str a.1, a.2))

/-- Following keys and indexes through maps of both kinds and through slices of all three kinds. -/
def lookS (str : κ → Str) : Any α κ → List Step → Option (Any α κ)
  | a, [] => some a
  | .map m, .key k :: ps => (assoc m k).bind (fun a => lookS str a ps)
  | .amap m, .key k :: ps => (assoc (texts str m) k).bind (fun a => lookS str a ps)
  | .list l, .idx i :: ps => (l[i]?).bind (fun a => lookS str a ps)
  | .maps l, .idx i :: ps => (l[i]?).bind (fun m => lookS str (.map m) ps)
  | .amaps l, .idx i :: ps => (l[i]?).bind (fun m => lookS str (.amap m) ps)
  | _, _ :: _ => none

/-- What a value is, up to the kind of its maps. -/
inductive Shape (α : Type) where
  | nil | atom (x : α) | map | list | pkg

def shape : Any α κ → Shape α
  | .nil => .nil
  | .atom x => .atom x
  | .map _ | .amap _ => .map
  | .list _ | .maps _ | .amaps _ => .list
  | .pkg _ => .pkg

end Verif

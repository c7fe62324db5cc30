import Verif.Model.Any
/-
codecs/hcl/hcl.go:199-214: maps that the HCL decoder gives.
-/
namespace Verif
namespace Hcl
variable {α κ : Type}

mutual
/-- The two loops of codecs/hcl/hcl.go:201-213 for one value: a list of a single map becomes the map, and maps are entered. The loops handle
each key by itself, so that they are one pass here (`flatM_loops` in Props/Hcl.lean restores them). -/
def flatV : Any α κ → Any α κ
  | .map m => .map (flatM m)
  | .maps [m] => .map (flatM m)
  | x => x
/-- codecs/hcl/hcl.go:201-214 `flattenHCL`; the map after the call. -/
def flatM : List (Str × Any α κ) → List (Str × Any α κ)
  | [] => []
  | (k, v) :: m => (k, flatV v) :: flatM m
end

/-- codecs/hcl/hcl.go:33-57 `Unmarshal`; `dec` is the result of `hclsimple.Decode` (`none`: an error). -/
def unmarshal (flattenSlices : Bool) (dec : Option (SMap α κ)) : Option (SMap α κ) :=
  dec.map (fun m => if flattenSlices then flatM m else m)

end Hcl
end Verif

import Verif.Model.Cvt
/-
providers/maps/maps.go: the provider that imports a map.
-/
namespace Verif
variable {α κ : Type}

/-- providers/maps/maps.go:15-38 `New` and 107-109 `Read`: what the provider hands to `Load`, for one iteration order.
`cvt.Copy` (evendeep) is taken to return an equal map. `str` is `fmt.Sprintf("%v")`. -/
def mapsNew (str : κ → Str) (m : SMap α κ) (sep : Str) : Go (List (Str × ValPkg α κ)) :=
  let cp := normM str m
  match (if sep ≠ [] then deflate sep cp else .ok cp) with
  | .error e => .error e
  | .ok cp => .ok (cp.map (fun a => (a.1, ⟨a.2, [], [], .nil⟩)))

end Verif

import Verif.Model.Node
import Verif.Model.Export
/-
What `Walk` tells about a node (C116).
-/
namespace Verif
namespace Parts

/-- The arguments of the call of `cb` for a node: the path, the fragment and the node. -/
def shownAs {α : Type} (m : Node α) : Str × Str × Nat := (runes m.core.pathS, m.path, m.id)

end Parts
end Verif

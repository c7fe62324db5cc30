import Verif.Spec.RaceRead
import Verif.Model.RaceExport
/-
When a trie may be exported beside goroutines that set keys.
-/
namespace Verif
namespace Race
variable {α : Type}

/-- The entry belongs to the export of the trie: a leaf whose path does not end with the delimiter. -/
def Exported (d : Char) (t : Tree α) (q : Str) (x : α) : Prop :=
  ∃ c, t.contents q = some c ∧ c.leaf = true ∧ endsW d q = false ∧ c.data = x

/-- Writing `k` cuts no path: there is an entry at `k`, or `k` goes on where a stored path ends, and has with no
stored path more in common. -/
def Grows (t : Tree α) (k : Str) : Prop :=
  (t.contents k).isSome ∨
    ∃ s, (t.contents s).isSome ∧ s <+: k ∧ ∀ s' z, (t.contents s').isSome → z <+: s' → z <+: k → z <+: s

end Race
end Verif

import Verif.Model.MapRefs
import Verif.Spec.Nested
import Verif.Lemmas.Tree
/-
What C87 is about: tries that hold references to maps, and what is found by following keys.
-/
namespace Verif
variable {α κ : Type}

namespace MapHeap

/-- What is found by following keys from a value. -/
def follow (H : MapHeap α κ) : Any (RVal α) κ → List Str → Option (Any (RVal α) κ)
  | x, [] => some x
  | x, k :: ks => match asRef x with
    | none => none
    | some r => match mget (H.maps r) k with
      | none => none
      | some y => H.follow y ks

/-- Maps refer to maps in use. -/
def Closed (H : MapHeap α κ) : Prop := ∀ r e, r < H.next → e ∈ H.maps r → ∀ r', asRef e.2 = some r' → r' < H.next

end MapHeap

/-- A trie whose values may refer to maps in `H`. -/
structure Stored (t : Tree (Any (RVal α) κ)) (H : MapHeap α κ) : Prop where
  closed : H.Closed
  val : ∀ k c, t.contents k = some c → c.data.isMap = false
  ref : ∀ k c, t.contents k = some c → ∀ r, asRef c.data = some r → r < H.next

/-- No entry that holds a map lies above another entry. -/
def Apart (d : Char) (t : Tree (Any (RVal α) κ)) : Prop :=
  ∀ k c k' c', t.contents k = some c → c.leaf = true → (asRef c.data).isSome = true → t.contents k' = some c' → c'.leaf = true →
    ¬ (k ++ [d]) <+: k'

/-- No map that existed is changed. -/
def Kept (H H' : MapHeap α κ) : Prop := H.next ≤ H'.next ∧ ∀ r, r < H.next → H'.maps r = H.maps r

/-- The condition under which an export leaves the stored maps alone: there are none, or none lies above another entry and
the export uses full paths. -/
def Harmless (v : View) (t : Tree (Any (RVal α) κ)) (path : Str) (o : MOpts (RVal α) κ) : Prop :=
  (∀ k c, t.contents k = some c → asRef c.data = none) ∨
  (Apart v.delim t ∧ (o.keepPrefix = true ∨ ((path = [] ∨ path = ".".toList ∨ path = "(root)".toList) ∧ v.pre = [])))

end Verif

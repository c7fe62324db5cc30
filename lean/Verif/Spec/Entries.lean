import Verif.Model.Node
/-
What a tree contains: the list of its nodes together with their full paths.
-/
namespace Verif
namespace Node
variable {α : Type}

mutual
/-- All nodes with their full path (`u` is the path of the parent), in preorder. -/
def nodes (u : Str) : Node α → List (Str × Node α)
  | mk i p c k => (u ++ p, mk i p c k) :: nodesL (u ++ p) k
def nodesL (u : Str) : List (Node α) → List (Str × Node α)
  | [] => []
  | n :: ns => nodes u n ++ nodesL u ns
end

/-- The entries: full path and entry fields. -/
def entries (u : Str) (n : Node α) : List (Str × Core α) := (nodes u n).map (fun x => (x.1, x.2.core))
def entriesL (u : Str) (k : List (Node α)) : List (Str × Core α) :=
  (nodesL u k).map (fun x => (x.1, x.2.core))

/-- The full paths. -/
def keys (u : Str) (n : Node α) : List Str := (nodes u n).map (·.1)
def keysL (u : Str) (k : List (Node α)) : List Str := (nodesL u k).map (·.1)

/-- The identities. -/
def ids (n : Node α) : List Nat := (nodes [] n).map (·.2.id)

mutual
/-- Radix invariant: below every node the children have non-empty fragments with pairwise distinct
first runes. -/
def WF : Node α → Prop
  | mk _ _ _ k => (k.map (fun c => c.path.head?)).Nodup ∧ WFL k
def WFL : List (Node α) → Prop
  | [] => True
  | n :: ns => n.path ≠ [] ∧ WF n ∧ WFL ns
end

end Node

/-- No route pattern: the delimiter is never followed by ':' or '*'. -/
def NoRoute (d : Char) (p : Str) : Prop :=
  ∀ u c v, p = u ++ d :: c :: v → c ≠ ':' ∧ c ≠ '*'

/-- `u` ends with the delimiter. -/
def endsW (d : Char) (u : Str) : Bool := u.getLast? == some d

/-- Going along the path `w`, the key `q` is not left at a route marker: where `w` differs from `q` for the first time right behind a
delimiter, `q` has neither ':' nor '*'. -/
def Misses (d : Char) (w q : Str) : Prop :=
  ∀ s a x b y, q = s ++ a :: x → w = s ++ b :: y → a ≠ b → endsW d s = true → a ≠ ':' ∧ a ≠ '*'

end Verif

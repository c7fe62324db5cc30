import Verif.Spec.Entries
/-
The abstract view of a trie: a finite map from full path to entry, and how a path is resolved in it.
-/
namespace Verif

/-- Lookup in an association list. -/
def assoc {β : Type} : List (Str × β) → Str → Option β
  | [], _ => none
  | (k, b) :: r, q => if k = q then some b else assoc r q

/-- The entry a path refers to: the entry with that path, else the one whose path is the given path
plus one delimiter. The empty path only refers to the root. -/
def resolve {β : Type} (d : Char) (m : Str → Option β) (p : Str) : Option (Str × β) :=
  match m p with
  | some c => some (p, c)
  | none => if p = [] then none else (m (p ++ [d])).map (fun c => (p ++ [d], c))

/-- The last value assigned to `k` in a history of assignments (oldest first). -/
def lastWrite {α : Type} : List (Str × α) → Str → Option α
  | [], _ => none
  | (k, v) :: h, q => match lastWrite h q with
    | some x => some x
    | none => if k = q then some v else none

/-- Longest common prefix. -/
def lcp : Str → Str → Str
  | a :: as, b :: bs => if a = b then a :: lcp as bs else []
  | _, _ => []

end Verif

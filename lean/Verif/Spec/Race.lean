import Verif.Model.Race
import Verif.Lemmas.Tree
/-
When several goroutines may set their keys at the same time.
-/
namespace Verif
namespace Race
variable {α : Type}

/-- Writing `l` does not get in the way of writing `k`: either there is a value at `l` to be replaced and it
is not the one at `k`, or `l` goes some way along a stored path on which `k` has left it before. -/
def Free (t : Tree α) (k l : Str) : Prop :=
  ((t.contents l).isSome ∧ l ≠ k) ∨
    ∃ s z, (t.contents s).isSome ∧ z <+: s ∧ z <+: l ∧ ¬ z <+: k

/-- None of the keys gets in the way of another. -/
def Apart (t : Tree α) (ks : List Str) : Prop :=
  ∀ i j : Nat, i ≠ j → ∀ k l, ks[i]? = some k → ks[j]? = some l → Free t k l

/-- Every goroutine has finished. -/
def World.Done (W : World α) : Prop := ∀ k, W.pcs k = .done

/-- The tree after the jobs have been done one after the other. -/
def after [Inhabited α] (t : Tree α) (kvs : List (Str × α)) : Tree α := kvs.foldl (fun t kv => (View.insertAt t kv.1 kv.2).1) t

end Race
end Verif

import Verif.Model.RaceParts
import Verif.Model.RaceSweep
/-
radix/cvter.go:411-445 and radix/node.go:582-591 as a program with a program counter (`Prune.estep`): a goroutine exports the
trie while others set, remove and look up keys.
-/
namespace Verif
namespace Parts
variable {α : Type} [Inhabited α]

/-- The exporting goroutine and the others run as the scheduler decides; `none` is a step of the former. (radix/cvter.go:411-445,
radix/node.go:582-591.) -/
def gather (d : Char) (root gap : Nat) :
    World α × Prune.Ex × List (Str × α) → List (Option Nat) → World α × Prune.Ex × List (Str × α)
  | s, [] => s
  | (W, e), none :: S => gather d root gap (W, Prune.estep d W.mem e) S
  | (W, e), some k :: S => gather d root gap (W.tick root gap k, e) S

/-- What comes of an export by the view `v` of the trie `t` that begins when the goroutines with one call each have run as in
`S0`, and goes on as in `S`. (radix/cvter.go:411-445, radix/node.go:582-591.) -/
def gathers (v : View) (t : Tree α) (ps : List (View × List (Act α))) (S0 : List Nat) (S : List (Option Nat)) : Prune.Ex × List (Str × α) :=
  (gather v.delim t.root.id (2 * ps.length) (runs t ps S0, .visit t.root.id [], []) S).2

end Parts
end Verif

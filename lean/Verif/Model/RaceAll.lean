import Verif.Model.RaceParts
import Verif.Model.RaceTold
/-
store.go:246-260, 329-375 and 392-401 as programs with a program counter: several goroutines call `Set`, `Remove` and `Get` of
one store, which has handlers, at the same time. The memory is that of Model/RaceParts.lean.
-/
namespace Verif
namespace Parts
variable {α : Type} [Inhabited α]
open Prune (Mem Pc Ph)

/-- The key of a call. (store.go:246-260, 329-375, 392-401.) -/
def Act.path : Act α → Str
  | .get p | .set p _ | .remove p => p

/-- The value of a `Set`. (store.go:246-260, 329-375, 392-401.) -/
def Act.val : Act α → α
  | .set _ x => x
  | _ => default

/-- What a handler is told (store.go:348-390): `onNew(path, data)`, `onChange(path, data, oldData)` or `onDelete(path, oldData)`. -/
inductive News (α : Type) where
  | created (key : Str) (val : α)
  | changed (key : Str) (val : α) (old : Option α)
  | deleted (key : Str) (val : α)
deriving DecidableEq

/-- store.go:334-336 and 351: which handlers are called by `Set`. `isNil` says which values are nil; `old` is `none` if there was
no node. -/
def news (isNil : α → Bool) (p : Str) (x : α) (absent : Bool) (old : Option α) : News α :=
  if absent && old.all isNil then .created p x else .changed p x old

/-- Where a goroutine stands. (store.go:246-260, 329-375, 392-401.) -/
inductive Spot (α : Type) where
  /-- in `Query`, called by `Get` (store.go:241) or by `Set` (247) -/
  | ask (pc : Pc α)
  /-- 330 `Trie.Set`; `absent` is `createOrModify` -/
  | put (absent : Bool) (pc : SetPc)
  /-- radix/node.go:249: `base.data` of the node `i` has been read and is about to be assigned -/
  | took (absent : Bool) (i : Nat) (old : α)
  /-- store.go:344 `tryOnSet`; `old` is `oldData` -/
  | tell (absent : Bool) (old : Option α)
  /-- `Set` or `Get` has returned -/
  | back
  /-- in `Remove`, as in Model/RaceTold.lean; `pc` is where `RemoveEx` stands -/
  | drop (ph : Ph α) (pc : Pc α)

/-- A run-time panic, which ends the program. (radix/node.go:183-195, 346-468.) -/
def Spot.crashed : Spot α → Bool
  | .ask .crash | .put _ .crash | .drop _ .crash => true
  | _ => false

/-- The trie, the goroutines, and what the handlers have been told so far and by whom, the oldest first. (store.go:246-260, 329-375, 392-401.) -/
structure Team (α : Type) where
  mem : Mem α
  spot : Nat → Spot α
  log : List (Nat × News α)

/-- Goroutine `k`, which has the call `a`, makes a step. Simplified: the flag `modified` (store.go:342) is left out; a call of the
handlers is one step, as all of them are told the same; no load is going on. -/
def Team.step (v : View) (t : Tree α) (isNil : α → Bool) (s : Team α) (k : Nat) (a : Act α) : Team α :=
  let go := fun (p : Spot α) (l : Nat) => if l = k then p else s.spot l
  let J : Race.Job α := ⟨View.dash (v.full a.path), a.val, t.next + 2 * k⟩
  match s.spot k with
  | .ask (.done r) => { s with spot := go (match a with
      | .set _ _ => .put (!r.found) (.enter J.key t.root.id)
      | _ => .back) }
  | .ask pc =>
    let r := Prune.step (.get a.path) v.delim s.mem pc
    { s with mem := r.1, spot := go (.ask r.2) }
  | .put ab (.store i) => { s with spot := go (.took ab i (s.mem i).core.data) }
  | .put ab .done => { s with spot := go (.tell ab none) }
  | .put ab pc =>
    let r := insStep J s.mem pc
    { s with mem := r.1, spot := go (.put ab r.2) }
  | .took ab i old => { s with mem := (insStep J s.mem (.store i)).1, spot := go (.tell ab (some old)) }
  | .tell ab old => { s with spot := go .back, log := s.log ++ [(k, news isNil a.path a.val ab old)] }
  | .back => s
  | .drop (.run it) pc =>
    let r := Prune.step (.remove a.path) v.delim s.mem pc
    { s with mem := r.1, spot := go (.drop (.next it pc r.2) r.2) }
  | .drop (.data it) pc => { s with spot := go (.drop (.tell (it.elim default fun i => (s.mem i).core.data)) pc) }
  | .drop (.tell x) pc => { s with spot := go (.drop (.back true) pc), log := s.log ++ [(k, .deleted a.path x)] }
  | .drop (.back _) _ => s

/-- Goroutine `k` makes a step, if there is one. (store.go:246-260, 329-375, 392-401.) -/
def Team.tick (v : View) (t : Tree α) (isNil : α → Bool) (as : List (Act α)) (s : Team α) (k : Nat) : Team α :=
  match as[k]? with
  | some a => s.step v t isNil k a
  | none => s

/-- The goroutines run as the scheduler decides. (store.go:246-260, 329-375, 392-401.) -/
def Team.run (v : View) (t : Tree α) (isNil : α → Bool) (as : List (Act α)) (s : Team α) : List Nat → Team α
  | [] => s
  | k :: S => Team.run v t isNil as (s.tick v t isNil as k) S

/-- Goroutine `k` is about to make the `k`-th of the calls. (store.go:246-260, 329-375, 392-401.) -/
def team (v : View) (t : Tree α) (as : List (Act α)) : Team α where
  mem := Prune.lay t.root fun _ => ⟨[], Core.zero, [], 0⟩
  spot k := match as[k]? with
    | some (.remove p) => .drop (.run none) (.enter (v.full p) t.root.id none [])
    | some a => .ask (.enter (v.full a.path) t.root.id none [])
    | none => .back
  log := []

/-- What has come of the calls when the scheduler runs the goroutines as given. (store.go:246-260, 329-375, 392-401.) -/
def hears (v : View) (t : Tree α) (isNil : α → Bool) (as : List (Act α)) (S : List Nat) : Team α := (team v t as).run v t isNil as S

end Parts
end Verif

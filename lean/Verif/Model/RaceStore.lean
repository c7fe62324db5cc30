import Verif.Model.RaceRead
/-
store.go:246-260 and 329-375 as a program with a program counter: several goroutines call `Set` of one store, which has
handlers.
-/
namespace Verif
namespace Race
variable {α : Type} [Inhabited α]

/-- What a handler is told (store.go:348-375): `onNew(path, data)` or `onChange(path, data, oldData)`. -/
inductive Event (α : Type) where
  | created (key : Str) (val : α)
  | changed (key : Str) (val : α) (old : Option α)
deriving DecidableEq

/-- Where a goroutine stands in `Set` of the store; `absent` is `createOrModify`, `old` is `oldData`, `none` if there was no
node. (store.go:246-260, 329-375.) -/
inductive Phase (α : Type) where
  /-- store.go:247 `Query` -/
  | ask (r : Rd α)
  /-- 330 `Trie.Set` -/
  | set (absent : Bool)
  /-- radix/node.go:249: `base.data` has been read and is about to be assigned -/
  | took (absent : Bool) (old : Option α)
  /-- store.go:344 `tryOnSet` -/
  | tell (absent : Bool) (old : Option α)
  | done

/-- The goroutines, and what the handlers have been told so far and by whom, the oldest first. `base` is the trie and where the
goroutines stand in `insertInternal`. (store.go:246-260, 329-375.) -/
structure Sys (α : Type) where
  base : World α
  phase : Nat → Phase α
  log : List (Nat × Event α)

/-- store.go:334-336 and 351: which handlers are called. `isNil` says which values are nil. -/
def event (isNil : α → Bool) (J : Job α) (absent : Bool) (old : Option α) : Event α :=
  if absent && old.all isNil then .created J.key J.val else .changed J.key J.val old

/-- Goroutine `k` makes a step. Simplified: a store without a prefix; keys without blanks; the lookup as in `rstep`; the flag
`modified` (342) is left out; a call of the handlers is one step; no load is going on. (store.go:246-260, 329-375.) -/
def Sys.tick (d : Char) (isNil : α → Bool) (Js : Nat → Job α) (s : Sys α) (k : Nat) : Sys α :=
  let go := fun (p : Phase α) (l : Nat) => if l = k then p else s.phase l
  match s.phase k with
  | .ask (.done a) => { s with phase := go (.set (!a.found)) }
  | .ask r => { s with phase := go (.ask (rstep d s.base.mem r)) }
  | .set ab => match s.base.pcs k with
    | .store i => { s with phase := go (.took ab (some (s.base.mem i).core.data)) }
    | .done => { s with phase := go (.tell ab none) }
    | _ => { s with base := s.base.tick Js k }
  | .took ab old => { s with base := s.base.tick Js k, phase := go (.tell ab old) }
  | .tell ab old => { s with phase := go .done, log := s.log ++ [(k, event isNil (Js k) ab old)] }
  | .done => s

/-- The goroutines run as the scheduler decides. (store.go:246-260, 329-375.) -/
def Sys.run (d : Char) (isNil : α → Bool) (Js : Nat → Job α) (s : Sys α) : List Nat → Sys α
  | [] => s
  | k :: S => Sys.run d isNil Js (s.tick d isNil Js k) S

/-- Goroutine `k` is about to call `Set` with the `k`-th key and value. (store.go:246-260, 329-375.) -/
def sets (t : Tree α) (kvs : List (Str × α)) : Sys α :=
  { base := start t kvs,
    phase := fun k => match kvs[k]? with
      | some kv => .ask (.enter kv.1 t.root.id [])
      | none => .done,
    log := [] }

end Race
end Verif

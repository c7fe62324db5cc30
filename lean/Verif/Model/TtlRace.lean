import Mathlib.Data.List.Basic
/-
radix/trie.go:71-188, 212-240: one trie and its TTL object, with SetTTL (SetTTLFast) and Close called by any number of goroutines. Every access to the
fields `ttlpresent` and `ttls` and every communication is a step of its own (sequential consistency is assumed; the Go memory model promises less).
What the jobs do once they are accepted is Model/TTL.lean.
-/
namespace Verif
namespace TtlRace

/-- The calls: radix/trie.go:71-188, 212-240. -/
inductive Call
  | setTTL | close
  deriving DecidableEq, Repr

/-- Where a goroutine is in its call.
`SetTTL` (radix/trie.go:212-227, of a path that is found; 229-240 `SetTTLFast`): `start`: before the CompareAndSwap; `make`: it succeeded; `load`: before
reading `s.ttls`; `send τ`: in `s.adder <- job` (136) of object `τ`.
`Close` (182-188): `start`; `check`: before `s.ttls != nil`; `stop`: before `s.ttls.Close()`. `panic`: nil dereference (`s.adder` of a nil `TTL`). -/
inductive PC
  | start (c : Call) | make | load | send (τ : Nat) | check | stop | done | panic
  deriving DecidableEq, Repr

/-- A `TTL` object (71-84): whether `done` is closed, whether the goroutine `run` (139-180) has returned, and how many jobs it accepted. -/
structure Obj where
  closed : Bool
  exited : Bool
  accepted : Nat
  deriving DecidableEq, Repr

/-- The fields `ttlpresent` and `ttls`, the TTL objects made so far, and the goroutines: radix/trie.go:71-188, 212-240. -/
structure State where
  present : Bool
  ttls : Option Nat
  objs : List Obj
  threads : List PC
  deriving DecidableEq, Repr

/-- A new trie: radix/trie.go:19-37. -/
def State.new : State := ⟨false, none, [], []⟩

/-- One step of goroutine `i`; `none`: it cannot go on. Sending needs a receiver: the channel is unbuffered (109). (radix/trie.go:71-188, 212-240.) -/
def State.go (s : State) (i : Nat) : Option State :=
  let mv := fun (s : State) (p : PC) => { s with threads := s.threads.set i p }
  match s.threads[i]? with
  | some (.start .setTTL) =>
    if s.present then some (mv s .load) else some (mv { s with present := true } .make)
  | some .make => some (mv { s with ttls := some s.objs.length, objs := s.objs ++ [⟨false, false, 0⟩] } .load)
  | some .load => match s.ttls with
    | none => some (mv s .panic)
    | some τ => some (mv s (.send τ))
  | some (.send τ) => match s.objs[τ]? with
    | none => none
    | some o => if o.exited then none else some (mv { s with objs := s.objs.set τ { o with accepted := o.accepted + 1 } } .done)
  | some (.start .close) =>
    if s.present then some (mv { s with present := false } .check) else some (mv s .done)
  | some .check => match s.ttls with
    | none => some (mv s .done)
    | some _ => some (mv s .stop)
  | some .stop => match s.ttls with
    | none => some (mv s .panic)
    | some τ => match s.objs[τ]? with
      | none => none
      | some o => some (mv { s with objs := s.objs.set τ { o with closed := true } } .done)
  | _ => none

/-- `run` takes the case `<-s.done` and returns. (radix/trie.go:139-180.) -/
def State.exit (s : State) (τ : Nat) : Option State :=
  match s.objs[τ]? with
  | none => none
  | some o => if o.closed && !o.exited then some { s with objs := s.objs.set τ { o with exited := true } } else none

/-- What may happen: radix/trie.go:71-188, 212-240. -/
inductive Act
  | call (c : Call)
  | go (i : Nat)
  | exit (τ : Nat)
  deriving DecidableEq, Repr

/-- One of these: radix/trie.go:71-188, 212-240. -/
def State.act (s : State) : Act → Option State
  | .call c => some { s with threads := s.threads ++ [.start c] }
  | .go i => s.go i
  | .exit τ => s.exit τ

/-- Several, one after the other; `none` if one of them cannot happen: radix/trie.go:71-188, 212-240. -/
def State.run : State → List Act → Option State
  | s, [] => some s
  | s, a :: as => match s.act a with
    | none => none
    | some s' => State.run s' as

end TtlRace
end Verif

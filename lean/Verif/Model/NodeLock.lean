import Mathlib.Data.List.Basic
/-
radix/node.go:53-71, 100-137 and radix/trie.go:132-137, 612-632, 703-722: the lock of a node, which exists from the first SetTTL on. Goroutines are
interleaved step by step; every access to `s.rw` is a step of its own (sequential consistency is assumed; the Go memory model promises less).
-/
namespace Verif
namespace NodeLock

/-- Calls that touch the `data` field of one node, and `Add`, which makes its lock.
* `data`: radix/node.go:101-108 `Data`, with the read lock;
* `query`: the reading part of `Query` (radix/trie.go:715-719) and `getNode` (625-629), with the write lock;
* `setData`, `setEmpty`: radix/node.go:111-118, 128-137, with the write lock (`setEmpty` is also what a timer does, radix/trie.go:157-161);
* `set`: the overwriting branch of `insertInternal` (radix/node.go:247-250), without any lock;
* `add`: radix/trie.go:132-137. -/
inductive Call
  | data | query | setData | setEmpty | set | add
  deriving DecidableEq, Repr

/-- Does the call write the field? (radix/node.go:101-137, 247-250.) -/
def Call.writes : Call → Bool
  | .setData | .setEmpty | .set => true
  | _ => false

/-- Where a goroutine is in its call. `checked`: past `s.rw != nil`; `wait m`: `s.rw` is evaluated, and the goroutine is in `Lock`/`RLock` of mutex `m`;
`inside locked`: in the body; `assign`: `Add` past `nd.rw == nil`; `fatal`: Go aborts the program on unlocking an unlocked mutex.
(radix/node.go:53-71, 100-137, radix/trie.go:132-137, 612-632, 702-722.) -/
inductive PC
  | start (c : Call) | checked (c : Call) | wait (c : Call) (m : Nat) | inside (c : Call) (locked : Bool) | assign | done | fatal
  deriving DecidableEq, Repr

/-- A `sync.RWMutex`: how often it is read-locked, and whether it is locked. (radix/trie.go:132-137 makes it.) -/
structure Mutex where
  readers : Nat
  writer : Bool
  deriving DecidableEq, Repr

/-- `rw` is the field of the node; mutexes are numbered in the order they are made. (radix/node.go:53-71, 100-137, radix/trie.go:132-137, 612-632,
702-722.) -/
structure State where
  rw : Option Nat
  mutexes : List Mutex
  threads : List PC
  deriving DecidableEq, Repr

/-- A node without a timer: radix/node.go:296-306 `insertAsLeaf` leaves `rw` nil. -/
def State.new : State := ⟨none, [], []⟩

/-- `RLock`/`Lock`, when the call need not wait (that a waiting writer keeps new readers out is not modelled: it only removes steps).
(radix/node.go:53-71.) -/
def Mutex.lock (c : Call) (x : Mutex) : Option Mutex :=
  if c = .data then (if x.writer then none else some { x with readers := x.readers + 1 })
  else if x.writer || x.readers != 0 then none else some { x with writer := true }

/-- `RUnlock`/`Unlock`; `none` is the fatal error. (radix/node.go:53-71.) -/
def Mutex.unlock (c : Call) (x : Mutex) : Option Mutex :=
  if c = .data then (if x.readers = 0 then none else some { x with readers := x.readers - 1 })
  else if x.writer then some { x with writer := false } else none

/-- One step of goroutine `i`; `none`: it cannot go on (it waits, or has ended). (radix/node.go:53-71, 100-137, radix/trie.go:132-137, 612-632,
702-722.) -/
def State.go (s : State) (i : Nat) : Option State :=
  let mv := fun (s : State) (p : PC) => { s with threads := s.threads.set i p }
  match s.threads[i]? with
  | some (.start .set) => some (mv s (.inside .set false))
  | some (.start .add) => match s.rw with
    | none => some (mv s .assign)
    | some _ => some (mv s .done)
  | some .assign => some (mv { s with rw := some s.mutexes.length, mutexes := s.mutexes ++ [⟨0, false⟩] } .done)
  | some (.start c) => match s.rw with
    | none => some (mv s (.inside c false))
    | some _ => some (mv s (.checked c))
  | some (.checked c) => match s.rw with
    | none => none
    | some m => some (mv s (.wait c m))
  | some (.wait c m) => match s.mutexes[m]? with
    | none => none
    | some x => match x.lock c with
      | none => none
      | some y => some (mv { s with mutexes := s.mutexes.set m y } (.inside c true))
  | some (.inside _ false) => some (mv s .done)
  | some (.inside c true) => match s.rw with
    | none => none
    | some m => match s.mutexes[m]? with
      | none => none
      | some x => match x.unlock c with
        | none => some (mv s .fatal)
        | some y => some (mv { s with mutexes := s.mutexes.set m y } .done)
  | _ => none

/-- What may happen: a goroutine starts a call, or takes a step. (radix/node.go:53-71, 100-137, radix/trie.go:132-137, 612-632, 702-722.) -/
inductive Act
  | call (c : Call)
  | go (i : Nat)
  deriving DecidableEq, Repr

/-- One of these: radix/node.go:53-71, 100-137, radix/trie.go:132-137, 612-632, 702-722. -/
def State.act (s : State) : Act → Option State
  | .call c => some { s with threads := s.threads ++ [.start c] }
  | .go i => s.go i

/-- Several, one after the other; `none` if one of them cannot happen: radix/node.go:53-71, 100-137, radix/trie.go:132-137, 612-632, 702-722. -/
def State.run : State → List Act → Option State
  | s, [] => some s
  | s, a :: as => match s.act a with
    | none => none
    | some s' => State.run s' as

end NodeLock
end Verif

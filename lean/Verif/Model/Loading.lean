import Verif.Model.Basic
/-
The loading flag of stores under concurrency: load.go:24-29 `WithinLoading`, load.go:91-132 `Load`, store.go:138-147 `dupS`.
-/
namespace Verif.Loading

/-- One flag per store object (store.go:98 `loading int32`), and per goroutine the stack of the bodies it is executing: the objects whose
`Load` or `WithinLoading` it has entered and not left. The bodies themselves are arbitrary; they may call again. -/
structure Sys where
  flag : List Bool
  stack : Nat → List Nat

/-- A fresh store and goroutines that have called nothing. (store.go:13-22.) -/
def Sys.init : Sys := ⟨[false], fun _ => []⟩

/-- What a goroutine may do: load.go:24-29, 91-132, store.go:138-147. -/
inductive Act where
  | call (g h : Nat)  -- goroutine g calls Load or WithinLoading on object h
  | ret (g : Nat)     -- goroutine g leaves its innermost body (normally or by a panic)
  | dup (h : Nat)     -- any goroutine makes a copy of object h: WithPrefix, WithPrefixReplaced, N, R, BR, Dup

/-- The stack of one goroutine replaced. (For the calls of load.go:24-29 that are nested in each other.) -/
def setStack (f : Nat → List Nat) (g : Nat) (l : List Nat) : Nat → List Nat := fun x => if x = g then l else f x

/-- What a call did. (load.go:24-29, 91-132.) -/
inductive Res where
  | entered  -- the body runs
  | skipped  -- the call returned at once, with a nil error
  | none
  deriving DecidableEq

/-- load.go:25-28 and 92-93: `CompareAndSwapInt32(&s.loading, 0, 1)` guards the body, the deferred function runs
`CompareAndSwapInt32(&s.loading, 1, 0)`. store.go:138-147: the copy gets the flag of the original. Each is one atomic step
(the copy reads the flag without synchronisation in Go). -/
def Sys.step (s : Sys) : Act → Option (Sys × Res)
  | .call g h =>
    match s.flag[h]? with
    | some false => some (⟨s.flag.set h true, setStack s.stack g (h :: s.stack g)⟩, .entered)
    | some true => some (s, .skipped)
    | none => none
  | .ret g =>
    match s.stack g with
    | h :: r => some (⟨s.flag.set h false, setStack s.stack g r⟩, .none)
    | [] => none
  | .dup h =>
    match s.flag[h]? with
    | some b => some (⟨s.flag ++ [b], s.stack⟩, .none)
    | none => none

/-- The states reachable by any interleaving. (load.go:24-29, 91-132.) -/
inductive Sys.Run : Sys → Sys → Prop
  | refl (s) : Sys.Run s s
  | step {s s' s'' : Sys} {a : Act} {r : Res} : Sys.Run s s' → s'.step a = some (s'', r) → Sys.Run s s''

end Verif.Loading

import Verif.Model.Basic
/-
Watchers of loaded files: load.go:300-311 `startWatch`, store.go:218-224 `Close`, providers/file/file.go:117-234.
-/
namespace Verif.Watch

/-- Where a goroutine running providers/file/file.go:153-233 `watchRunner` is. -/
inductive Runner where
  | fresh   -- spawned by `Watch` (143), has not run yet
  | check   -- about to test `watching` (165)
  | select  -- waits for an event (166)
  | done
  deriving DecidableEq, Repr

/-- A file provider: `watching` (56), its goroutines, the number of calls of the callback so far. (providers/file/file.go:51-58.) -/
structure Prov where
  watching : Bool
  runners : List Runner
  calls : Nat
  deriving DecidableEq, Repr

/-- Providers and the `closers` of the store (store.go:99). -/
structure Sys where
  provs : List Prov
  closers : List Nat
  deriving DecidableEq, Repr

/-- `n` providers, with nothing loaded. (providers/file/file.go:17-23.) -/
def Sys.init (n : Nat) : Sys := ⟨List.replicate n ⟨false, [], 0⟩, []⟩

/-- What comes out of the select (166-228). -/
inductive Ev where
  | ignored    -- an event for another file, a repeated event, neither write nor create: `continue`
  | change     -- `cb(lastChange, nil)`
  | failed     -- removal of the file, an error, a closed channel: `cb(nil, err)`, then `break loop`
  | cancelled  -- `ctx.Done()`: return
  deriving DecidableEq, Repr

/-- What may happen: load.go:300-311, store.go:218-224, providers/file/file.go:117-233. -/
inductive Act where
  | load (p : Nat) (prefixed : Bool)   -- a successful Load of provider p that starts watching, with or without WithStorePrefix
  | start (p i : Nat)                  -- goroutine i of provider p begins: 157-159
  | check (p i : Nat)
  | event (p i : Nat) (e : Ev)
  | close                              -- Store.Close
  deriving DecidableEq, Repr

/-- load.go:300-311: `Watch` spawns a goroutine; the provider is appended to `closers` of the loader's store, which is a copy of the store
if a prefix was given (load.go:443-447). -/
def Prov.spawn (q : Prov) : Prov := { q with runners := q.runners ++ [.fresh] }

/-- providers/file/file.go:157-159: `CompareAndSwapInt32(&s.watching, 0, 1)`, else return. -/
def Prov.start (q : Prov) (i : Nat) : Option Prov :=
  match q.runners[i]? with
  | some .fresh => some (if q.watching then { q with runners := q.runners.set i .done }
      else { q with watching := true, runners := q.runners.set i .check })
  | _ => none

/-- providers/file/file.go:165: the loop condition. -/
def Prov.check (q : Prov) (i : Nat) : Option Prov :=
  match q.runners[i]? with
  | some .check => some { q with runners := q.runners.set i (if q.watching then .select else .done) }
  | _ => none

/-- providers/file/file.go:166-228. -/
def Prov.event (q : Prov) (i : Nat) (e : Ev) : Option Prov :=
  match q.runners[i]? with
  | some .select => some (match e with
    | .ignored => { q with runners := q.runners.set i .check }
    | .change => { q with runners := q.runners.set i .check, calls := q.calls + 1 }
    | .failed => { q with runners := q.runners.set i .done, calls := q.calls + 1 }
    | .cancelled => { q with runners := q.runners.set i .done })
  | _ => none

/-- providers/file/file.go:117-119 `Close`. -/
def Prov.close (q : Prov) : Prov := { q with watching := false }

/-- A change of provider `p`: providers/file/file.go:117-233. -/
def Sys.upd (s : Sys) (p : Nat) (f : Prov → Option Prov) : Option Sys :=
  match s.provs[p]? with
  | none => none
  | some q => (f q).map (fun q' => { s with provs := s.provs.set p q' })

/-- One of them: load.go:300-311, store.go:218-224, providers/file/file.go:117-233. -/
def Sys.step (s : Sys) : Act → Option Sys
  | .load p pre => (s.upd p (fun q => some q.spawn)).map (fun s' => if pre then s' else { s' with closers := s'.closers ++ [p] })
  | .start p i => s.upd p (·.start i)
  | .check p i => s.upd p (·.check i)
  | .event p i e => s.upd p (·.event i e)
  | .close => some { s with provs := s.provs.mapIdx (fun p q => if p ∈ s.closers then q.close else q) }

/-- Any interleaving of the listed steps. (load.go:300-311, store.go:218-224, providers/file/file.go:117-233.) -/
def Sys.run (s : Sys) : List Act → Option Sys
  | [] => some s
  | a :: as => (s.step a).bind (fun s' => s'.run as)

end Verif.Watch

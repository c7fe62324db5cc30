import Verif.Model.Store
/-
What a file provider tells the store about events: providers/file/file.go:153-233 `watchRunner` (the loop body; starting and stopping are
in Model/Watch.lean), providers/file/change.go, load.go:313-322 `applyExternalChanges`.
-/
namespace Verif.FileWatch
open Verif (Store Event Any Go)

/-- An event of fsnotify: name (here after `filepath.Clean`), operations as bits, `String()`, and the time in milliseconds at which it is
received. The texts and bits come from outside. (providers/file/file.go:153-233.) -/
structure FsEvent where
  name : Str
  op : Nat
  text : Str
  time : Nat
  deriving DecidableEq, Repr

/-- fsnotify's `Create`, `Write`, `Remove`. (providers/file/file.go:153-233, providers/file/change.go:20-33.) -/
def fsCreate : Nat := 1
/-- fsnotify's `Write` (providers/file/file.go:153-233). -/
def fsWrite : Nat := 2
/-- fsnotify's `Remove` (providers/file/file.go:153-233). -/
def fsRemove : Nat := 4
/-- fsnotify's `Event.Has` (providers/file/file.go:153-233). -/
def FsEvent.has (e : FsEvent) (o : Nat) : Bool := e.op &&& o != 0

/-- providers/file/change.go:9-18 `changeS`, without the provider. `lastTime` is none for the zero time. -/
structure ChangeS where
  realPath : Str
  idx : Nat
  lastOp : Nat
  lastEvent : Str
  lastTime : Option Nat
  deriving DecidableEq, Repr

/-- providers/file/file.go:154 `changeS{provider: s}`. -/
def ChangeS.zero : ChangeS := ⟨[], 0, 0, [], none⟩

/-- What can be received in the select (166-228). `cur` is the result of `EvalSymlinks(s.file)` at that moment, none for an error. -/
inductive In where
  | event (e : FsEvent) (cur : Option Str)
  | eventsClosed
  | error            -- an error, or a closed error channel
  deriving DecidableEq, Repr

/-- The argument of the callback: `cb(lastChange, nil)` passes the struct, not its address; `cb(nil, err)`. (providers/file/file.go:153-233.) -/
inductive Arg where
  | change (c : ChangeS)
  | pointer (c : ChangeS)   -- what `&lastChange` would be; the code never passes it
  | err
  deriving DecidableEq, Repr

/-- providers/file/file.go:176: the same text less than 5 ms after the last event. -/
def repeated (c : ChangeS) (e : FsEvent) : Bool :=
  e.text == c.lastEvent && match c.lastTime with
    | some t => decide (e.time - t < 5)
    | none => false

/-- One round of the loop: the state, the calls of the callback, and whether the loop goes on. `file` is `s.file`, `real` the path that
`Watch` found (127-131). -/
def round (file real : Str) (c : ChangeS) : In → ChangeS × List Arg × Bool
  | .eventsClosed => (c, [.err], false)
  | .error => (c, [.err], false)
  | .event e cur =>
    if repeated c e then (c, [], true)
    else
      let c := { c with lastEvent := e.text, lastTime := some e.time }
      if e.name ≠ real ∧ e.name ≠ file then (c, [], true)
      else if e.has fsRemove then (c, [.err], false)
      else match cur with
        | none => (c, [.err], false)
        | some cp =>
          let c := { c with realPath := cp }
          if !(e.has fsWrite || e.has fsCreate) then (c, [], true)
          else (c, [.change c], true)

/-- The loop over what arrives: all calls of the callback. (providers/file/file.go:153-233.) -/
def loop (file real : Str) (c : ChangeS) : List In → List Arg
  | [] => []
  | i :: is =>
    let r := round file real c i
    r.2.1 ++ if r.2.2 then loop file real r.1 is else []

/-- `event.(Change)` (load.go:319): all methods of `changeS` have pointer receivers (providers/file/change.go:20-33), so the struct does not implement
the interface, its address does. -/
def isChange : Arg → Option ChangeS
  | .change _ => none
  | .pointer c => some c
  | .err => none

variable {α κ : Type}

/-- The pairs of `Next` (providers/file/change.go:25-31): one, while `idx` is 0. -/
def ChangeS.toChange (txt : Str → α) (c : ChangeS) : Store.Change α κ :=
  ⟨c.lastOp, if c.idx = 0 then [(c.realPath, .atom (txt c.realPath))] else []⟩

/-- load.go:313-322 `applyExternalChanges`. -/
def applyExternal (txt : Str → α) (s : Store α κ) (a : Arg) : Go (Store α κ × List (Event (Any α κ))) :=
  match a with
  | .err => .ok (s, [])
  | a => match isChange a with
    | some c => s.applyChanges (c.toChange txt)
    | none => .ok (s, [])

/-- The store while the watcher reports. (load.go:313-322.) -/
def applyAll (txt : Str → α) (s : Store α κ) : List Arg → Go (Store α κ × List (Event (Any α κ)))
  | [] => .ok (s, [])
  | a :: as =>
    match applyExternal txt s a with
    | .error e => .error e
    | .ok (s', ev) =>
      match applyAll txt s' as with
      | .error e => .error e
      | .ok (s'', ev') => .ok (s'', ev ++ ev')

end Verif.FileWatch

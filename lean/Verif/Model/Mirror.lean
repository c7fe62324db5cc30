import Verif.Model.Remote
import Verif.Model.Store
/-
providers/etcd: reading a range of a database into a store and following its changes. The etcd server is modelled by its
specification: a map from keys to values with revisions, and an event for every change.
-/
namespace Verif
namespace Etcd
open Remote

/-- An etcd database: the current revision, and for each key its value and the revision of its creation. (For providers/etcd/etcd.go:169-257.) -/
structure Db where
  rev : Nat
  kv : List (Str × List UInt8 × Nat)
  deriving DecidableEq, Repr

/-- The value and the creation revision of a key. (For providers/etcd/etcd.go:169-204.) -/
def Db.get (d : Db) (k : Str) : Option (List UInt8 × Nat) := (d.kv.find? (fun a => a.1 == k)).map (·.2)

/-- A change of the database by any client. (For providers/etcd/etcd.go:228-257.) -/
inductive Cmd
  | put (k : Str) (v : List UInt8)
  | del (k : Str)
  deriving DecidableEq, Repr

/-- The key that a change is about. (For providers/etcd/etcd.go:228-257.) -/
def Cmd.key : Cmd → Str
  | .put k _ => k
  | .del k => k

/-- One change: the database afterwards and the events that watchers receive. A deletion's event carries neither a value nor a creation
revision. Deleting a missing key is no change. (For providers/etcd/etcd.go:228-257.) -/
def Db.exec (d : Db) : Cmd → Db × List EtcdEvent
  | .put k v =>
    let c := match d.get k with | some a => a.2 | none => d.rev + 1
    (⟨d.rev + 1, (k, v, c) :: d.kv.filter (fun a => a.1 != k)⟩, [⟨false, k, v, c, d.rev + 1⟩])
  | .del k =>
    match d.get k with
    | none => (d, [])
    | some _ => (⟨d.rev + 1, d.kv.filter (fun a => a.1 != k)⟩, [⟨true, k, [], 0, d.rev + 1⟩])

/-- A sequence of changes. (For providers/etcd/etcd.go:228-257.) -/
def Db.run : Db → List Cmd → Db × List EtcdEvent
  | d, [] => (d, [])
  | d, c :: l =>
    let r := d.exec c
    let r' := r.1.run l
    (r'.1, r.2 ++ r'.2)

/-- providers/etcd/etcd.go:23-37 `pvdr`: the fields used here. -/
structure Pvdr where
  cfg : Cfg
  pos : Str            -- storePrefix
  prefixOrKey : Bool

/-- The keys that `Get` and `Watch` ask for (providers/etcd/etcd.go:174-191, 241-247): those with the prefix `storePrefix`, or that key. -/
def Pvdr.inScope (p : Pvdr) (k : Str) : Bool := if p.prefixOrKey then p.pos.isPrefixOf k else p.pos == k

variable {α κ : Type}

/-- providers/etcd/etcd.go:169-205 `Read`, without a limit. `txt` makes a Go string of the bytes. The code collects the pairs in a map:
of keys with the same normal form one is kept, which is not modelled. -/
def Pvdr.read (p : Pvdr) (txt : List UInt8 → α) (d : Db) : Store.Source α κ :=
  .read ((d.kv.filter (fun a => p.inScope a.1)).map (fun a => (p.cfg.normalizeKey a.1, ⟨.atom (txt a.2.1), [], [], .nil⟩)))

/-- The `Change` passed to the store (providers/etcd/change.go:22-51): its operation and the pairs of its `Next`. -/
def Pvdr.change (p : Pvdr) (txt : List UInt8 → α) (e : EtcdEvent) : Store.Change α κ :=
  ⟨e.op, ((List.range 2).filterMap (e.next p.cfg)).map (fun a => (a.1, .atom (txt a.2)))⟩

/-- providers/etcd/etcd.go:241-257 `Watch` with load.go:313-322 `applyExternalChanges`: every event in scope is applied, in order. -/
def Pvdr.follow (p : Pvdr) (txt : List UInt8 → α) (s : Store α κ) : List EtcdEvent → Go (Store α κ × List (Event (Any α κ)))
  | [] => .ok (s, [])
  | e :: l =>
    if p.inScope e.key then
      match s.applyChanges (p.change txt e) with
      | .error x => .error x
      | .ok (s', ev) => match p.follow txt s' l with
        | .error x => .error x
        | .ok (s'', ev') => .ok (s'', ev ++ ev')
    else p.follow txt s l

/-- load.go:126-128, 300-311, 440-444: the store object whose `applyExternalChanges` is the callback. Without `WithStorePrefix` it is the
store itself, whose loading flag is cleared when `Load` returns. With it, it is the copy that newLoader has made during the loading
(store.go:138-147 `dupS`): it shares the tree, has no handlers, and its loading flag stays set. -/
def watcher (s : Store α κ) : Option Str → Store α κ
  | none => s
  | some q => ({ s with loading := true } : Store α κ).withPrefixReplaced [q]

/-- `Load(WithProvider(etcd), …)`, then changes of the database: the watching store object afterwards and the handler calls made by
the watching. (load.go:91-145, 300-365, providers/etcd/etcd.go:169-257.) -/
def loadAndFollow (str : κ → Str) (txt : List UInt8 → α) (p : Pvdr) (s : Store α κ) (prefix' : Option Str) (d : Db) (cs : List Cmd) :
    Go (Store α κ × List (Event (Any α κ))) :=
  p.follow txt (watcher (s.load str prefix' none (p.read txt d)).1 prefix') (d.run cs).2

end Etcd
end Verif

import Verif.Model.Mirror
/-
providers/consul: reading the keys under a prefix into a store and following their changes. The consul server is modelled by its
specification: pairs with creation and modification indices, and a blocking query that returns after every change under the prefix.
-/
namespace Verif
namespace Consul
open Remote

/-- A consul key-value store: the current index and the pairs. (For providers/consul/consul.go:152-240.) -/
structure Db where
  idx : Nat
  kv : List Pair
  deriving DecidableEq, Repr

/-- The pair of a key. (For providers/consul/consul.go:152-240.) -/
def Db.get (d : Db) (k : Str) : Option Pair := d.kv.find? (fun p => p.key == k)

/-- A change by any client (`Etcd.Cmd` has the same two commands). Deleting a missing key is no change. (For providers/consul/consul.go:277-323.) -/
def Db.exec (d : Db) : Etcd.Cmd → Db
  | .put k v =>
    let c := match d.get k with | some p => p.create | none => d.idx + 1
    ⟨d.idx + 1, ⟨k, v, c, d.idx + 1⟩ :: d.kv.filter (fun p => p.key != k)⟩
  | .del k =>
    match d.get k with
    | none => d
    | some _ => ⟨d.idx + 1, d.kv.filter (fun p => p.key != k)⟩

/-- `kv.List(position)`. (Called at providers/consul/consul.go:152-203.) -/
def Db.list (d : Db) (pos : Str) : List Pair := d.kv.filter (fun p => pos.isPrefixOf p.key)

/-- The results of the plan's blocking queries: one per change under the prefix, with the index of that change. (A server may also
return once for several changes.) (providers/consul/consul.go:277-323.) -/
def Db.snaps (pos : Str) : Db → List Etcd.Cmd → List (Nat × Val)
  | _, [] => []
  | d, c :: l =>
    if pos.isPrefixOf c.key && decide (d.exec c ≠ d) then ((d.exec c).idx, .pairs ((d.exec c).list pos)) :: (d.exec c).snaps pos l
    else (d.exec c).snaps pos l

/-- A sequence of changes. (For providers/consul/consul.go:277-323.) -/
def Db.run : Db → List Etcd.Cmd → Db
  | d, [] => d
  | d, c :: l => (d.exec c).run l

variable {α κ : Type}

/-- providers/consul/consul.go:153-203 `Read` in the recursive mode, without meta data. `txt` makes a Go string of the bytes. -/
def read (cfg : Cfg) (pos : Str) (txt : List UInt8 → α) (d : Db) : Store.Source α κ :=
  .read ((d.list pos).map (fun p => (cfg.normalizeKey p.key, ⟨.atom (txt p.value), [], [], .nil⟩)))

/-- providers/consul/consul.go:275-323 `Watch` with load.go:313-322 `applyExternalChanges`. The values of the change are the bytes
themselves (providers/consul/change.go:43, 51): `raw` makes a value of them. -/
def follow (raw : List UInt8 → α) (c : Change) (s : Store α κ) : List (Nat × Val) → Go (Store α κ × List (Event (Any α κ)))
  | [] => .ok (s, [])
  | (i, v) :: l =>
    let h := c.handle i v
    match s.applyChanges ⟨h.2.1, h.2.2.map (fun a => (a.1, .atom (raw a.2)))⟩ with
    | .error e => .error e
    | .ok (s', ev) => match follow raw h.1 s' l with
      | .error e => .error e
      | .ok (s'', ev') => .ok (s'', ev ++ ev')

/-- `Load(WithProvider(consul), …)` with watching, then changes. The plan's first query returns at once, with some index `i0`. (load.go:91-145,
300-365, providers/consul/consul.go:152-323.) -/
def loadAndFollow (str : κ → Str) (txt raw : List UInt8 → α) (cfg : Cfg) (pos : Str) (s : Store α κ) (prefix' : Option Str) (d : Db)
    (i0 : Nat) (cs : List Etcd.Cmd) : Go (Store α κ × List (Event (Any α κ))) :=
  follow raw (Change.start true cfg) (Etcd.watcher (s.load str prefix' none (read cfg pos txt d)).1 prefix')
    ((i0, .pairs (d.list pos)) :: d.snaps pos cs)

end Consul
end Verif

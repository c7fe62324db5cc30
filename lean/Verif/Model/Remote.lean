import Verif.Model.Basic
/-
providers/consul and providers/etcd: key normalisation and change events.
-/
namespace Verif
namespace Remote

/-- The fields of `pvdr` (providers/consul/consul.go:27-43, providers/etcd/etcd.go) used by `NormalizeKey`. -/
structure Cfg where
  strip : Str
  prepend : Str
  delim : Str

/-- `strings.TrimPrefix`. (Called at providers/consul/consul.go:242-253, providers/etcd/etcd.go:156-167.) -/
def trimPrefix (p s : Str) : Str := if p.isPrefixOf s then s.drop p.length else s

/-- `strings.ReplaceAll(s, "/", d)`. (Called at providers/consul/consul.go:242-253, providers/etcd/etcd.go:156-167.) -/
def replaceSlash (d s : Str) : Str := s.flatMap (fun c => if c = '/' then d else [c])

/-- providers/consul/consul.go:242-253, providers/etcd/etcd.go:156-167 `NormalizeKey` (the same code). -/
def Cfg.normalizeKey (c : Cfg) (key : Str) : Str :=
  let key := if c.strip ≠ [] then trimPrefix (c.strip ++ ['/']) key else key
  let key := if c.prepend ≠ [] then c.prepend ++ c.delim ++ key else key
  if c.delim ≠ [] then replaceSlash c.delim key else key

/-- `api.KVPair`, the fields used. (providers/consul/change.go:61-124.) -/
structure Pair where
  key : Str
  value : List UInt8
  create : Nat
  modify : Nat
  deriving DecidableEq, Repr

/-- What the consul watch plan passes to its handler: the pairs under a prefix, one pair, or nil. (providers/consul/change.go:61-113.) -/
inductive Val
  | pairs (l : List Pair)
  | pair (p : Pair)
  | nil
  deriving DecidableEq, Repr

/-- op.go:60 `OpCreate`. -/
def opCreate : Nat := 1
/-- op.go:64 `OpWrite`. -/
def opWrite : Nat := 2
/-- op.go:69 `OpRemove`. -/
def opRemove : Nat := 4

/-- providers/consul/change.go:12-23 `changeS` and the provider's `recursive` flag and key configuration. -/
structure Change where
  recursive : Bool
  cfg : Cfg
  val : Val
  idx : Nat
  index : Nat
  lastOp : Nat

namespace Change

/-- providers/consul/change.go:115-124 `checkOpIndex`. -/
def checkOpIndex (s : Change) (p : Pair) : Change × Bool :=
  if p.create = s.index then ({ s with lastOp := opCreate }, true)
  else if p.modify = s.index then ({ s with lastOp := opWrite }, true)
  else (s, false)

/-- providers/consul/change.go:72-79: the first pair that carries the index. -/
def findPair (s : Change) : List Pair → Change × Bool
  | [] => (s, false)
  | p :: l => match s.checkOpIndex p with
    | (s', true) => (s', true)
    | (s', false) => findPair s' l

/-- providers/consul/change.go:85-98: the pairs of the previous value whose key is not among the new pairs. A value of another
type cannot occur in the recursive mode (the assertion would panic). -/
def removed (old : Val) (pairs : List Pair) : List Pair :=
  match old with
  | .pairs l => l.filter (fun p => !pairs.any (fun q => p.key == q.key))
  | _ => []

/-- providers/consul/change.go:61-113 `Set`, `findOpIndex`: the state when the callback runs, and the value that the deferred
function stores afterwards, if there is one. -/
def set (s : Change) (val : Val) (index : Nat) : Change × Option Val :=
  let s := { s with index := index, idx := 0 }
  if s.recursive then
    match val with
    | .pairs l =>
      match s.findPair l with
      | (s', true) => ({ s' with val := val }, none)
      | (s', false) => ({ s' with lastOp := opRemove, val := .pairs (removed s'.val l) }, some val)
    | _ => (s, none)
  else
    match val with
    | .pair p =>
      match s.checkOpIndex p with
      | (s', true) => ({ s' with val := val }, none)
      | (s', false) => ({ s' with lastOp := opRemove }, some val)
    | _ => (s, none)

/-- providers/consul/change.go:36-47: the search for the next pair from position `idx` on. -/
def nextPair (s : Change) : List Pair → Change × Option (Str × List UInt8)
  | [] => (s, none)
  | p :: l =>
    if s.lastOp = opRemove then ({ s with idx := s.idx + 1 }, some (s.cfg.normalizeKey p.key, p.value))
    else match s.checkOpIndex p with
      | (s', true) => ({ s' with idx := s'.idx + 1 }, some (s'.cfg.normalizeKey p.key, p.value))
      | (s', false) => nextPair { s' with idx := s'.idx + 1 } l

/-- providers/consul/change.go:33-57 `Next`. -/
def next (s : Change) : Change × Option (Str × List UInt8) :=
  if s.recursive then
    match s.val with
    | .pairs l => s.nextPair (l.drop s.idx)
    | _ => (s, none)
  else
    match s.val with
    | .pair p =>
      if s.idx = 0 then
        match s.checkOpIndex p with
        | (s', true) => ({ s' with idx := s'.idx + 1 }, some (s'.cfg.normalizeKey p.key, p.value))
        | (s', false) => ({ s' with idx := s'.idx + 1 }, none)
      else (s, none)
    | _ => (s, none)

/-- The callback's loop (load.go:330-347): `Next` until it reports no more. `n` bounds the number of calls. -/
def drain : Nat → Change → Change × List (Str × List UInt8)
  | 0, s => (s, [])
  | n + 1, s => match s.next with
    | (s', none) => (s', [])
    | (s', some kv) => match drain n s' with
      | (s'', l) => (s'', kv :: l)

/-- The number of `Next` calls after which the loop has ended. (providers/consul/change.go:28-59.) -/
def size (s : Change) : Nat :=
  match s.val with
  | .pairs l => l.length + 1
  | _ => 2

/-- providers/consul/consul.go:300-303: the plan's handler with a callback that reads all pairs; the operation that the callback
sees, the pairs, and the state afterwards. -/
def handle (s : Change) (index : Nat) (val : Val) : Change × Nat × List (Str × List UInt8) :=
  let r := s.set val index
  let d := drain r.1.size r.1
  (match r.2 with | none => d.1 | some v => { d.1 with val := v }, r.1.lastOp, d.2)

/-- providers/consul/consul.go:292: the state when watching begins. -/
def start (recursive : Bool) (cfg : Cfg) : Change := ⟨recursive, cfg, .nil, 0, 0, 0⟩

/-- The events of a sequence of snapshots. (providers/consul/change.go:61-113.) -/
def events : Change → List (Nat × Val) → List (Nat × List (Str × List UInt8))
  | _, [] => []
  | s, (i, v) :: r => (s.handle i v).2 :: events (s.handle i v).1 r

end Change

/-! ## etcd -/

/-- `clientv3.Event`: a put or a delete of a key-value pair with its revisions. (providers/etcd/change.go:23-52.) -/
structure EtcdEvent where
  delete : Bool
  key : Str
  value : List UInt8
  createRev : Nat
  modRev : Nat

/-- providers/etcd/change.go:37-51 `Set`, with `IsCreate` and `IsModify` of clientv3. -/
def EtcdEvent.op (e : EtcdEvent) : Nat :=
  (if !e.delete && e.createRev == e.modRev then opCreate else 0) |||
  (if !e.delete && e.createRev != e.modRev then opWrite else 0) |||
  (if e.delete && e.createRev != e.modRev then opRemove else 0)

/-- providers/etcd/change.go:27-36 `Next`: result for the call number `idx`. The value is the text of the bytes. -/
def EtcdEvent.next (c : Cfg) (e : EtcdEvent) (idx : Nat) : Option (Str × List UInt8) :=
  if idx = 0 then some (c.normalizeKey e.key, e.value) else none

end Remote
end Verif

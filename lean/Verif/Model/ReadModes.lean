import Verif.Model.Store
import Verif.Model.Remote
/-
providers/consul and providers/etcd: the options of `New` and `Read` in all its modes. The servers are modelled by the answers to
the requests that `Read` makes. Text is given as runes; `txt` makes a value of a Go string.
-/
namespace Verif
namespace ReadModes
open Remote
variable {α κ : Type}

/-- `m[k] = v` on a Go map, given by its pairs in the order of the first insertion. (providers/consul/consul.go:152-240,
providers/etcd/etcd.go:169-204.) -/
def put {β : Type} (m : List (Str × β)) (k : Str) (v : β) : List (Str × β) :=
  if m.any (fun a => a.1 == k) then m.map (fun a => if a.1 == k then (k, v) else a) else m ++ [(k, v)]

/-- `m[k]`. (providers/consul/consul.go:152-240, providers/etcd/etcd.go:169-204.) -/
def at? {β : Type} (m : List (Str × β)) (k : Str) : Option β := (m.find? (fun a => a.1 == k)).map (·.2)

/-! ## consul -/

/-- `api.KVPair` of the consul client. (providers/consul/consul.go:152-240.) -/
structure KV where
  key : Str
  value : Str
  create : Nat
  modify : Nat
  lock : Nat
  flags : Nat
  session : Str
  deriving DecidableEq, Repr

/-- providers/consul/consul.go:27-43 `pvdr`: the fields that `Read` reads, and `storePrefix`. -/
structure Consul where
  position : Str
  storePrefix : Str
  recursive : Bool
  processMeta : Bool
  watchEnabled : Bool
  cfg : Cfg

/-- providers/consul/consul.go:45-104: the options (without the codec and the client's configuration). -/
inductive COpt
  | position (p : Str)      -- 51-55
  | watchEnabled (b : Bool) -- 57-61
  | recursive (b : Bool)    -- 63-67
  | processMeta (b : Bool)  -- 69-73
  | pre (p : Str)           -- 75-79 WithPrefix
  | strip (p : Str)         -- 81-85
  | prepend (p : Str)       -- 87-91
  | delimiter (d : Str)     -- 93-97

/-- providers/consul/consul.go:45-103: the options. -/
def COpt.apply (s : Consul) : COpt → Consul
  | .position p => { s with position := p }
  | .watchEnabled b => { s with watchEnabled := b }
  | .recursive b => { s with recursive := b }
  | .processMeta b => { s with processMeta := b }
  | .pre p => { s with storePrefix := p }
  | .strip p => { s with cfg := { s.cfg with strip := p } }
  | .prepend p => { s with cfg := { s.cfg with prepend := p } }
  | .delimiter d => { s with cfg := { s.cfg with delim := d } }

/-- providers/consul/consul.go:17-24 `New`. -/
def Consul.new (opts : List COpt) : Consul :=
  opts.foldl COpt.apply ⟨[], [], true, true, false, ⟨[], [], []⟩⟩

/-- The server's answers: `none` for a failing request. `kv.Get` of a missing key answers a nil pair and no error. (For
providers/consul/consul.go:152-240.) -/
structure CServer where
  list : Str → Option (List KV)
  get : Str → Option (Option KV)

/-- The map of providers/consul/consul.go:175-187 and 213-225. -/
def metaTag (txt : Str → α) (p : KV) : Any α κ :=
  .map [("CreateIndex".toList, .atom (txt (itoa p.create))), ("Flags".toList, .atom (txt (itoa p.flags))),
    ("LockIndex".toList, .atom (txt (itoa p.lock))), ("ModifyIndex".toList, .atom (txt (itoa p.modify))),
    ("Session".toList, .atom (txt (if p.session = [] then ['-'] else p.session))), ("Value".toList, .atom (txt p.value))]

/-- providers/consul/consul.go:189-194, 198-200, 227-236: what is delivered for a pair. -/
def Consul.pkg (s : Consul) (txt : Str → α) (p : KV) : ValPkg α κ :=
  if s.processMeta then ⟨.atom (txt p.value), [], [], metaTag txt p⟩ else ⟨.atom (txt p.value), [], [], .nil⟩

/-- providers/consul/consul.go:173-202: the two loops. -/
def Consul.collect (s : Consul) (txt : Str → α) : List (Str × ValPkg α κ) → List KV → List (Str × ValPkg α κ)
  | m, [] => m
  | m, p :: l => s.collect txt (put m (s.cfg.normalizeKey p.key) (s.pkg txt p)) l

/-- providers/consul/consul.go:152-240 `Read`: the data, or `none` for an error. The pair of line 207 is dereferenced without a check. -/
def Consul.read (s : Consul) (srv : CServer) (txt : Str → α) : Go (Option (List (Str × ValPkg α κ))) :=
  if s.recursive then
    match srv.list s.position with
    | none => .ok none
    | some l => .ok (some (s.collect txt [] l))
  else
    match srv.get s.position with
    | none => .ok none
    | some none => .error .panic
    | some (some p) => .ok (some (put [] (s.cfg.normalizeKey p.key) (s.pkg txt p)))

/-! ## etcd -/

/-- providers/etcd/etcd.go:24-37 `pvdr`. -/
structure Etcd where
  storePrefix : Str
  prefixOrKey : Bool
  limit : Bool
  maxLimit : Int
  processMeta : Bool
  watchEnabled : Bool
  cfg : Cfg

/-- providers/etcd/etcd.go:39-115: the options (without the codec and the client's configuration). -/
inductive EOpt
  | position (p : Str)      -- 45-49
  | watchEnabled (b : Bool) -- 51-55
  | processMeta (b : Bool)  -- 57-61
  | recursive (b : Bool)    -- 63-67
  | storePrefix (p : Str)   -- 87-91
  | delimiter (d : Str)     -- 93-97
  | strip (p : Str)         -- 99-103
  | prepend (p : Str)       -- 105-109
  | key (k : Str)           -- 111-115

/-- providers/etcd/etcd.go:39-117: the options. -/
def EOpt.apply (s : Etcd) : EOpt → Etcd
  | .position p => { s with storePrefix := p }
  | .watchEnabled b => { s with watchEnabled := b }
  | .processMeta b => { s with processMeta := b }
  | .recursive b => { s with prefixOrKey := b }
  | .storePrefix p => { s with storePrefix := p, prefixOrKey := true }
  | .delimiter d => { s with cfg := { s.cfg with delim := d } }
  | .strip p => { s with cfg := { s.cfg with strip := p } }
  | .prepend p => { s with cfg := { s.cfg with prepend := p } }
  | .key k => { s with storePrefix := k, prefixOrKey := false }

/-- providers/etcd/etcd.go:13-20 `New`. -/
def Etcd.new (opts : List EOpt) : Etcd :=
  opts.foldl EOpt.apply ⟨[], false, false, 0, false, false, ⟨[], [], []⟩⟩

/-- A `Get` request (providers/etcd/etcd.go:176, 181, 187): the key, `WithPrefix`, `WithLimit`. -/
structure EReq where
  key : Str
  pre : Bool
  limit : Option Int
  deriving DecidableEq, Repr

/-- providers/etcd/etcd.go:169-192: the request that `Read` makes. -/
def Etcd.request (s : Etcd) : EReq :=
  if s.prefixOrKey then
    if s.limit then ⟨s.storePrefix, true, some s.maxLimit⟩ else ⟨s.storePrefix, true, none⟩
  else ⟨s.storePrefix, false, none⟩

/-- What an etcd server with the pairs `kv` (keys are unique) answers: the pair of the key or the pairs under the prefix, at most
`limit` of them if it is positive. (etcd rejects the empty key without `WithPrefix`; that is the `none` of `Etcd.read`.) (For
providers/etcd/etcd.go:169-204.) -/
def EReq.answer (r : EReq) (kv : List (Str × Str)) : List (Str × Str) :=
  let l := kv.filter (fun a => if r.pre then r.key.isPrefixOf a.1 else a.1 == r.key)
  match r.limit with
  | some n => if 0 < n then l.take n.toNat else l
  | none => l

/-- providers/etcd/etcd.go:194-202: the loop. -/
def Etcd.collect (s : Etcd) (txt : Str → α) : List (Str × ValPkg α κ) → List (Str × Str) → List (Str × ValPkg α κ)
  | m, [] => m
  | m, p :: l => s.collect txt (put m (s.cfg.normalizeKey p.1) ⟨.atom (txt p.2), [], [], .nil⟩) l

/-- providers/etcd/etcd.go:169-205 `Read`; `kv` is `none` if the request fails. -/
def Etcd.read (s : Etcd) (kv : Option (List (Str × Str))) (txt : Str → α) : Option (List (Str × ValPkg α κ)) :=
  match kv with
  | none => none
  | some kv => some (s.collect txt [] (s.request.answer kv))

end ReadModes
end Verif

import Verif.Model.Trie
import Verif.Model.Any
/-
store.go and load.go: the store above the trie.
-/
namespace Verif

/-- Change handlers registered with a store (store.go:98-100): `none` is a nil func. The handlers
themselves are opaque; their invocations are recorded as events. Handlers that call back into the
store are in Model/Reenter.lean. -/
structure Handlers where
  onNew : List (Option Nat)
  onChange : List (Option Nat)
  onDelete : List (Option Nat)
  deriving DecidableEq, Repr

/-- One handler invocation: handler, arguments (store.go:165-167). -/
inductive Event (β : Type) where
  | new (h : Nat) (path : Str) (value : β) (merging : Bool)
  | change (h : Nat) (path : Str) (value old : β) (merging : Bool)
  | delete (h : Nat) (path : Str) (value : β) (merging : Bool)

/-- store.go:92-113 `storeS`. `saving` and `closers` do nothing observable here; `parent` is never
assigned in the code base, so it is always nil; `allowWatch` only gates `startWatch`. -/
structure Store (α κ : Type) where
  tree : Tree (Any α κ)
  view : View
  loading : Bool
  flatten : Bool
  hs : Handlers

/-- new.go:332-337 `ValPkg`, at the top level of what a provider's `Read` returns. -/
structure ValPkg (α κ : Type) where
  value : Any α κ
  desc : Str
  comment : Str
  tag : Any α κ

namespace Store
variable {α κ : Type}

/-- store.go:13-30 `New` with default options. -/
def new (d : Char) (flatten : Bool) (hs : Handlers) : Store α κ :=
  { tree := Tree.new, view := View.new d, loading := false, flatten := flatten, hs := hs }

/-- store.go:138-147 `dupS`: handlers and parent are not copied, `loading` is. -/
def dupS (s : Store α κ) (v : View) : Store α κ :=
  { tree := s.tree, view := v, loading := s.loading, flatten := s.flatten, hs := ⟨[], [], []⟩ }

/-- store.go:463-465 `WithPrefix`, 476-478 `WithPrefixReplaced`. The result shares the tree; here that
is a copy, and callers copy the tree back. -/
def withPrefix (s : Store α κ) (ps : List Str) : Store α κ := s.dupS (s.view.withPrefix ps)
/-- store.go:476-479 `WithPrefixReplaced`. -/
def withPrefixReplaced (s : Store α κ) (ps : List Str) : Store α κ := s.dupS (s.view.withPrefixReplaced ps)

/-- store.go:348-375 `tryOnSet` (with `parent` nil). -/
def tryOnSet (s : Store α κ) (path : Str) (user : Bool) (old x : Any α κ) (create : Bool) :
    List (Event (Any α κ)) :=
  if create then s.hs.onNew.filterMap (fun cb => cb.map (fun h => .new h path x user))
  else s.hs.onChange.filterMap (fun cb => cb.map (fun h => .change h path x old user))

/-- store.go:377-390 `tryOnDelete`. -/
def tryOnDelete (s : Store α κ) (path : Str) (user : Bool) (old : Any α κ) : List (Event (Any α κ)) :=
  s.hs.onDelete.filterMap (fun cb => cb.map (fun h => .delete h path old user))

/-- store.go:329-346 `setKV`: store afterwards, handler calls, old data. `onSet` is the list of node
methods the callback calls. -/
def setKV (s : Store α κ) (path : Str) (x : Any α κ) (create : Bool) (onSet : List (NodeOp (Any α κ))) :
    Store α κ × List (Event (Any α κ)) × Any α κ :=
  let r := s.view.set s.tree path x
  let old := r.2.old.getD .nil
  let user := !s.loading
  let create := if user && !old.isNil then false else create
  let t := if user then View.writeCore r.1 r.2.hit.id (NodeOp.runs (onSet ++ [.setModified true])) else r.1
  ({ s with tree := t }, s.tryOnSet path user old x create, old)

/-- store.go:246-260 `Set`. -/
def set (s : Store α κ) (path : Str) (x : Any α κ) : Go (Store α κ × List (Event (Any α κ)) × Any α κ) :=
  match s.view.query s.tree path with
  | .error e => .error e
  | .ok a => .ok (s.setKV path x (!a.found) [])

/-- store.go:227-237 `MustGet`; unlike `Trie.MustGet` it looks at the error too. -/
def mustGet (s : Store α κ) (path : Str) : Go (Any α κ) :=
  match s.view.query s.tree path with
  | .error e => .error e
  | .ok a => .ok (if !a.found then (if a.notFoundErr || !a.branch then .nil else a.data) else a.data)

/-- store.go:240-243 `Get`. -/
def get (s : Store α κ) (path : Str) : Go (Any α κ × Bool) := s.view.get s.tree path

/-- store.go:392-411 `Remove`, `RemoveEx`: the removed flag. -/
def remove (s : Store α κ) (path : Str) : Go (Store α κ × List (Event (Any α κ)) × Bool) :=
  match s.view.removeEx s.tree path with
  | .error e => .error e
  | .ok (t, some (n, _)) => .ok ({ s with tree := t }, s.tryOnDelete path (!s.loading) n.core.data, true)
  | .ok (t, none) => .ok ({ s with tree := t }, [], false)

/-- load.go:24-29 `WithinLoading`. -/
def withinLoading (s : Store α κ) (fn : Store α κ → Go (Store α κ × List (Event (Any α κ)))) :
    Go (Store α κ × List (Event (Any α κ))) :=
  if s.loading then .ok (s, [])
  else match fn { s with loading := true } with
    | .error e => .error e
    | .ok (s', ev) => .ok ({ s' with loading := false }, ev)

/-- load.go:178-182 `privateSetter`: a temporary copy with replaced prefix; its `loading` flag is
cleared, but the copy is dropped. -/
def privateSetter (s : Store α κ) (position k : Str) (x : Any α κ) (create : Bool)
    (onSet : List (NodeOp (Any α κ))) : Store α κ × List (Event (Any α κ)) :=
  let r := (s.withPrefixReplaced [position]).setKV k x create onSet
  ({ s with tree := r.1.tree }, r.2.1)

/-- The key of element `i` of a flattened slice: load.go:197-199 and the like. -/
def elemKey (d : Char) (k : Str) (i : Nat) : Str := k ++ d :: itoa i

mutual
/-- load.go:184-265 `loadMapByValueType`. `str` is evendeep's `Cvt.String`. -/
def loadVal (str : κ → Str) (create : Bool) (onSet : List (NodeOp (Any α κ))) (s : Store α κ)
    (position k : Str) : Any α κ → Store α κ × List (Event (Any α κ))
  | .pkg v => loadVal str create onSet s position k v
  | .map m => loadMap str create onSet s (View.join s.view.delim [position, k]) m
  | .amap m => loadMapAny str create onSet s (View.join s.view.delim [position, k]) m
  | .maps l =>
    if s.flatten then loadMaps str create onSet s position k 0 l
    else privateSetter s position k (.maps l) create onSet
  | .amaps l =>
    if s.flatten then loadMapsAny str create onSet s position k 0 l
    else privateSetter s position k (.amaps l) create onSet
  | .list l =>
    if s.flatten then loadList str create onSet s position k 0 l
    else privateSetter s position k (.list l) create onSet
  | .nil => privateSetter s position k .nil create onSet
  | .atom x => privateSetter s position k (.atom x) create onSet
/-- load.go:169-176 `loadMap`. -/
def loadMap (str : κ → Str) (create : Bool) (onSet : List (NodeOp (Any α κ))) (s : Store α κ) (position : Str) :
    List (Str × Any α κ) → Store α κ × List (Event (Any α κ))
  | [] => (s, [])
  | (k, v) :: m =>
    let r := loadVal str create onSet s position k v
    let r' := loadMap str create onSet r.1 position m
    (r'.1, r.2 ++ r'.2)
/-- load.go:159-167 `loadMapAny`. -/
def loadMapAny (str : κ → Str) (create : Bool) (onSet : List (NodeOp (Any α κ))) (s : Store α κ) (position : Str) :
    List (κ × Any α κ) → Store α κ × List (Event (Any α κ))
  | [] => (s, [])
  | (k, v) :: m =>
    let r := loadVal str create onSet s position (str k) v
    let r' := loadMapAny str create onSet r.1 position m
    (r'.1, r.2 ++ r'.2)
/-- load.go:193-204: a flattened `[]map[string]any`. -/
def loadMaps (str : κ → Str) (create : Bool) (onSet : List (NodeOp (Any α κ))) (s : Store α κ) (position k : Str)
    (i : Nat) : List (List (Str × Any α κ)) → Store α κ × List (Event (Any α κ))
  | [] => (s, [])
  | m :: l =>
    let r := loadMap str create onSet s (View.join s.view.delim [position, elemKey s.view.delim k i]) m
    let r' := loadMaps str create onSet r.1 position k (i + 1) l
    (r'.1, r.2 ++ r'.2)
/-- load.go:213-224: a flattened `[]map[any]any`. -/
def loadMapsAny (str : κ → Str) (create : Bool) (onSet : List (NodeOp (Any α κ))) (s : Store α κ) (position k : Str)
    (i : Nat) : List (List (κ × Any α κ)) → Store α κ × List (Event (Any α κ))
  | [] => (s, [])
  | m :: l =>
    let r := loadMapAny str create onSet s (View.join s.view.delim [position, elemKey s.view.delim k i]) m
    let r' := loadMapsAny str create onSet r.1 position k (i + 1) l
    (r'.1, r.2 ++ r'.2)
/-- load.go:233-247: a flattened `[]any`. -/
def loadList (str : κ → Str) (create : Bool) (onSet : List (NodeOp (Any α κ))) (s : Store α κ) (position k : Str)
    (i : Nat) : List (Any α κ) → Store α κ × List (Event (Any α κ))
  | [] => (s, [])
  | v :: l =>
    let r := loadVal str create onSet s position (elemKey s.view.delim k i) v
    let r' := loadList str create onSet r.1 position k (i + 1) l
    (r'.1, r.2 ++ r'.2)
end

/-- store.go:290-304 `Merge`. -/
def merge (str : κ → Str) (s : Store α κ) (pathAt : Str) (m : SMap α κ) : Store α κ × List (Event (Any α κ)) :=
  loadMap str false [] s pathAt m

/-- load.go:147-157 `loadMapDedicated`. -/
def loadDedicated (str : κ → Str) (create : Bool) (s : Store α κ) (position : Str) :
    List (Str × ValPkg α κ) → Store α κ × List (Event (Any α κ))
  | [] => (s, [])
  | (k, p) :: m =>
    let r := loadVal str create [.setComment p.desc p.comment, .setTag (some p.tag)] s position k p.value
    let r' := loadDedicated str create r.1 position m
    (r'.1, r.2 ++ r'.2)

/-- load.go:517-527: the loop over a `StreamProvider`. -/
def setAll (s : Store α κ) (create : Bool) : List (Str × Any α κ) → Store α κ × List (Event (Any α κ))
  | [] => (s, [])
  | (k, v) :: l =>
    let r := s.setKV k v create []
    let r' := setAll r.1 create l
    (r'.1, r.2.1 ++ r'.2)

/-- What the provider and the codec give to load.go:501-545 `tryLoad`. `dec` is the result of
`codec.Unmarshal` (or of the JSON fallback), `none` an error. -/
inductive Source (α κ : Type) where
  | none                                                          -- no provider
  | read (m : List (Str × ValPkg α κ))                            -- Read() succeeds
  | once (dec : Option (SMap α κ))                                -- ReadBytes() succeeds
  | stream (kvs : List (Str × Any α κ)) (dec : Option (SMap α κ)) -- Next()/MustValue(); decoding nil bytes
  | fail                                                          -- any error before decoding

/-- load.go:91-132 `Load`: the store afterwards, handler calls, and whether err is nil. `prefix'` is the
argument of `WithStorePrefix` (load.go:443-447) if given, `flat` the one of `WithStoreFlattenSlice`
(458-462): the latter writes to the loader's store, which is the store itself without
`WithStorePrefix`. The options are applied in this order. Watching is not modelled. -/
def load (str : κ → Str) (s : Store α κ) (prefix' : Option Str) (flat : Option Bool) (src : Source α κ) :
    Store α κ × List (Event (Any α κ)) × Bool :=
  if s.loading then (s, [], true)
  else
    let s1 := { s with loading := true }
    let l := match prefix' with
      | some p => s1.withPrefixReplaced [p]
      | none => s1
    let l := match flat with
      | some b => { l with flatten := b }
      | none => l
    let (l', ev, ok) := match src with
      | .none => (l, [], true)
      | .read m => let r := loadDedicated str true l l.view.pre m; (r.1, r.2, true)
      | .once (some m) => let r := loadMap str true [] l l.view.pre m; (r.1, r.2, true)
      | .once none => (l, [], false)
      | .stream kvs dec =>
        let r := l.setAll true kvs
        match dec with
        | some m => let r' := loadMap str true [] r.1 l.view.pre m; (r'.1, r.2 ++ r'.2, true)
        | none => (r.1, r.2, false)
      | .fail => (l, [], false)
    ({ s with tree := l'.tree, flatten := if prefix'.isNone then flat.getD s.flatten else s.flatten }, ev, ok)

/-- load.go:282-298 `Change`: the operations (op.go:58-83 as bits) and the pairs `Next` yields. -/
structure Change (α κ : Type) where
  op : Nat
  pairs : List (Str × Any α κ)

/-- op.go:60 `OpCreate`. -/
def opCreate : Nat := 1
/-- op.go:64 `OpWrite`. -/
def opWrite : Nat := 2
/-- op.go:69 `OpRemove`. -/
def opRemove : Nat := 4
/-- op.go:73 `OpRename`. -/
def opRename : Nat := 8
/-- op.go:80 `OpChmod`. -/
def opChmod : Nat := 16

/-- `Has` of all providers (providers/file/change.go:22, providers/etcd/change.go:25, providers/consul/change.go:30). -/
def Change.has (ev : Change α κ) (o : Nat) : Bool := ev.op &&& o != 0

/-- The removals of load.go:324-359 `applyChanges`, key by key. -/
def removeAll (s : Store α κ) : List (Str × Any α κ) → Go (Store α κ × List (Event (Any α κ)))
  | [] => .ok (s, [])
  | (k, _) :: l =>
    match s.remove k with
    | .error e => .error e
    | .ok (s', ev, _) =>
      match removeAll s' l with
      | .error e => .error e
      | .ok (s'', ev') => .ok (s'', ev ++ ev')

/-- The create/write loop of load.go:324-359: after each write the debug log reads the key back
(load.go:336), which may hang on route patterns. -/
def applyWrites (s : Store α κ) (create : Bool) : List (Str × Any α κ) → Go (Store α κ × List (Event (Any α κ)))
  | [] => .ok (s, [])
  | (k, v) :: l =>
    let r := s.setKV k v create []
    match r.1.mustGet k with
    | .error e => .error e
    | .ok _ =>
      match applyWrites r.1 create l with
      | .error e => .error e
      | .ok (s'', ev') => .ok (s'', r.2.1 ++ ev')

/-- load.go:324-359 `applyChanges`. -/
def applyChanges (s : Store α κ) (ev : Change α κ) : Go (Store α κ × List (Event (Any α κ))) :=
  if ev.has opCreate || ev.has opWrite then applyWrites s (ev.has opCreate) ev.pairs
  else if ev.has opRemove then removeAll s ev.pairs
  else .ok (s, [])

end Store
end Verif

import Verif.Model.Ops
import Verif.Model.Export
/-
radix/trie.go:71-256: expiry of entries. The run-time part (channels, timers, goroutines) is a transition system whose steps
may occur in any order.
-/
namespace Verif

/-- A `trieS` value (radix/trie.go:34-41): the tree it points to, its private part, and its `TTL` object (`none`: `ttlpresent` is 0). -/
structure Handle where
  tree : Nat
  view : View
  ttl : Option Nat
  deriving DecidableEq, Repr

/-- A `TTL` object (radix/trie.go:71-84): the trie `treevec[0]`, and whether `done` is closed. -/
structure Ttl where
  target : Nat
  closed : Bool
  deriving DecidableEq, Repr

/-- Where the goroutine of a job is (radix/trie.go:152-168): not yet in the `select`; waiting in it; past `<-timer.C`; ended.
A goroutine that waits in a `select` takes the case of the first channel that becomes ready; one that enters a `select` with
both channels ready takes either. -/
inductive Phase
  | starting | parked | ringing | over
  deriving DecidableEq, Repr

/-- A job accepted by `run` (radix/trie.go:139-171). `branch` and `pathS` are the fields of the node it points to, which
remain readable after the node was removed from its tree. -/
structure Job where
  ttl : Nat
  tree : Nat
  node : Nat
  branch : Bool
  pathS : List UInt8
  expired : Bool
  phase : Phase
  deriving DecidableEq, Repr

/-- All tries and views of a program, their trees and their jobs. (radix/trie.go:71-256.) -/
structure Sys (α : Type) where
  trees : Nat → Tree α
  nTrees : Nat
  handles : List Handle
  ttls : List Ttl
  jobs : List Job

/-- Steps. `op` is a writing call on a tree (through any view); `derive` makes a view (radix/load.go:15-57 through `dupS`), `dup`
is `Dup`; `enter`, `ring` are steps of the goroutine of a job, `expire` is its timer. A callback given to SetTTL (154-156) runs
before the clearing: its calls are `op` steps before `ring`. -/
inductive Sys.Step (α : Type) where
  | op (k : Nat) (o : Op α)
  | derive (h : Nat) (v : View)
  | dup (h : Nat)
  | setPrefix (h : Nat) (pre : Str)
  | setTTL (h : Nat) (path : Str) (ns : Int)
  | setTTLFast (h k id : Nat) (ns : Int)
  | close (h : Nat)
  | expire (j : Nat)
  | enter (j : Nat) (timerFirst : Bool)
  | ring (j : Nat)

namespace Sys
variable {α : Type} [Inhabited α]

/-- One new trie: radix/trie.go:19-37. -/
def new (d : Char) : Sys α :=
  { trees := fun _ => Tree.new, nTrees := 1, handles := [⟨0, View.new d, none⟩], ttls := [], jobs := [] }

/-- The state with tree `k` replaced (nodes are written in place: radix/trie.go:379-492). -/
def setTree (s : Sys α) (k : Nat) (t : Tree α) : Sys α :=
  { s with trees := fun x => if x = k then t else s.trees x }

/-- The node with an identity. (For the pointers that radix/trie.go:132-180 keeps.) -/
def byId (t : Tree α) (i : Nat) : Option (Node α) := t.root.walk.find? (fun n => n.id = i)

/-- What a job sees of its node: the fields change with the tree as long as the node is in it. (For radix/trie.go:139-180.) -/
def refresh (k : Nat) (t : Tree α) (j : Job) : Job :=
  if j.tree = k then
    match byId t j.node with
    | some n => { j with branch := n.core.isBranch, pathS := n.core.pathS }
    | none => j
  else j

/-- Replacing tree `k`. (radix/trie.go:379-492, 562-588.) -/
def write (s : Sys α) (k : Nat) (t : Tree α) : Sys α :=
  { s.setTree k t with jobs := s.jobs.map (refresh k t) }

/-- radix/trie.go:244-256 `dupS` (the TTL part): a copy of a trie that has a TTL object gets one of its own, with the same
`treevec[0]` (114-124). -/
def addHandle (s : Sys α) (src : Handle) (tree : Nat) (v : View) : Sys α :=
  match src.ttl with
  | none => { s with handles := s.handles ++ [⟨tree, v, none⟩] }
  | some τ =>
    { s with handles := s.handles ++ [⟨tree, v, some s.ttls.length⟩],
             ttls := s.ttls ++ [⟨match s.ttls[τ]? with | some o => o.target | none => 0, false⟩] }

/-- radix/trie.go:222-225, 231-234: the TTL object is made on first use (102-112). -/
def arm (s : Sys α) (h : Nat) (a : Handle) : Sys α × Nat :=
  match a.ttl with
  | some τ => (s, τ)
  | none =>
    ({ s with handles := s.handles.set h { a with ttl := some s.ttls.length }, ttls := s.ttls ++ [⟨h, false⟩] }, s.ttls.length)

/-- radix/trie.go:132-171 `Add` and the acceptance of a job by `run`: durations below 200 ns are dropped. -/
def add (s : Sys α) (h : Nat) (a : Handle) (k : Nat) (n : Node α) (ns : Int) : Sys α :=
  let r := s.arm h a
  if ns < 200 then r.1
  else { r.1 with jobs := r.1.jobs ++ [⟨r.2, k, n.id, n.core.isBranch, n.core.pathS, false, .starting⟩] }

/-- radix/trie.go:212-227 `SetTTL`. -/
def setTTL (s : Sys α) (h : Nat) (path : Str) (ns : Int) : Go (Sys α × Int) :=
  match s.handles[h]? with
  | none => .ok (s, -1)
  | some a =>
    match a.view.search (s.trees a.tree) (a.view.full path) with
    | .error e => .error e
    | .ok (some n, _, false, _) => .ok (s.add h a a.tree n ns, 0)
    | .ok _ => .ok (s, -1)

/-- radix/trie.go:182-188 `Close`, 126-128: closing `done` releases the goroutines that wait. -/
def close (s : Sys α) (h : Nat) : Sys α :=
  match s.handles[h]? with
  | some ⟨k, v, some τ⟩ =>
    { s with handles := s.handles.set h ⟨k, v, none⟩,
             ttls := s.ttls.modify τ (fun o => { o with closed := true }),
             jobs := s.jobs.map (fun j => if j.ttl = τ ∧ j.phase = .parked then { j with phase := .over } else j) }
  | _ => s

/-- The timer of a job expires. (radix/trie.go:139-180.) -/
def expire (j : Job) : Job :=
  { j with expired := true, phase := if j.phase = .parked then .ringing else j.phase }

/-- radix/trie.go:152-168: the goroutine reaches the `select`. -/
def enter (closed timerFirst : Bool) (j : Job) : Job :=
  if j.phase = .starting then
    { j with phase :=
        if j.expired && closed then (if timerFirst then .ringing else .over)
        else if j.expired then .ringing
        else if closed then .over
        else .parked }
  else j

/-- radix/trie.go:157-162: what happens to the trees when a job rings. -/
def fire (s : Sys α) (j : Job) : Go (Sys α) :=
  if j.branch then
    match s.ttls[j.ttl]? with
    | none => .ok s
    | some o =>
      match s.handles[o.target]? with
      | none => .ok s
      | some a =>
        match a.view.remove (s.trees a.tree) (runes j.pathS) with
        | .error e => .error e
        | .ok (t, _) => .ok (s.write a.tree t)
  else .ok (s.write j.tree (View.writeCore (s.trees j.tree) j.node emptyCore))

/-- A step; a step that is not possible changes nothing. (radix/trie.go:71-256.) -/
def step (s : Sys α) : Step α → Go (Sys α)
  | .op k o =>
    if k < s.nTrees then
      match o.run (s.trees k) with
      | .error e => .error e
      | .ok t => .ok (s.write k t)
    else .ok s
  | .derive h v =>
    match s.handles[h]? with
    | none => .ok s
    | some a => .ok (s.addHandle a a.tree { a.view with pre := v.pre, mode := v.mode })
  | .dup h =>
    match s.handles[h]? with
    | none => .ok s
    | some a =>
      .ok ({ s.setTree s.nTrees (View.dupTree (s.trees a.tree)) with nTrees := s.nTrees + 1 }.addHandle a s.nTrees a.view)
  | .setPrefix h p =>
    match s.handles[h]? with
    | none => .ok s
    | some a => .ok { s with handles := s.handles.set h { a with view := { a.view with pre := p } } }
  | .setTTL h p ns => (s.setTTL h p ns).map (·.1)
  | .setTTLFast h k i ns =>
    match s.handles[h]?, byId (s.trees k) i with
    | some a, some n => if k < s.nTrees then .ok (s.add h a k n ns) else .ok s
    | _, _ => .ok s
  | .close h => .ok (s.close h)
  | .expire i => .ok { s with jobs := s.jobs.modify i expire }
  | .enter i b =>
    match s.jobs[i]? with
    | none => .ok s
    | some j =>
      let closed := match s.ttls[j.ttl]? with | some o => o.closed | none => false
      .ok { s with jobs := s.jobs.set i (enter closed b j) }
  | .ring i =>
    match s.jobs[i]? with
    | none => .ok s
    | some j =>
      if j.phase = .ringing then
        { s with jobs := s.jobs.set i { j with phase := .over } }.fire j
      else .ok s

/-- Executions. `P` restricts the full paths that are inserted. (radix/trie.go:71-256.) -/
inductive Run (P : Str → Prop) : Sys α → Sys α → Prop
  | refl (s) : Run P s s
  | step {s s' s'' : Sys α} (x : Step α) (h : Run P s s') (hk : ∀ k o q, x = .op k o → o.key = some q → P q)
      (e : s'.step x = .ok s'') : Run P s s''

end Sys
end Verif

import Verif.Model.Basic
/-
The goroutines that follow an etcd or a consul server: providers/etcd/etcd.go:221-257 `Close`, `Watch`; providers/consul/consul.go:270-323
`Close`, `Watch`; load.go:300-311 `startWatch`; store.go:218-224 `Close`. One provider, loaded into one store; what is reported is in
Model/Remote.lean, here only how often and until when. The client libraries are modelled by what they document: etcd's `Client.Close`
closes the channels of all watches and a closed channel is always ready with a zero response; consul's `Plan.Run` queries in a loop until
`Plan.Stop`.
-/
namespace Verif.RemoteWatch

/-! ## etcd -/

/-- Where a goroutine of providers/etcd/etcd.go:238-253 is. -/
inductive Stage where
  | fresh             -- spawned (241), has not run yet
  | select            -- in the select (249)
  | busy (n : Nat)    -- in the loop over the events of a response (253-256), `n` events left
  | done
  deriving DecidableEq, Repr

/-- A goroutine: the context of its `Load`, the events that the client library holds for its watch, and where it is.
(providers/etcd/etcd.go:228-257.) -/
structure Runner where
  ctx : Nat
  pending : Nat
  stage : Stage
  deriving DecidableEq, Repr

/-- The provider: whether its client was closed; whether it is among the `closers` of the store; the cancelled contexts; the goroutines;
the number of calls of the callback. (providers/etcd/etcd.go:221-257, store.go:218-224.) -/
structure Etcd where
  closed : Bool
  registered : Bool
  cancelled : List Nat
  runners : List Runner
  calls : Nat
  deriving DecidableEq, Repr

/-- Before the first `Load`. (providers/etcd/etcd.go:13-20.) -/
def Etcd.init : Etcd := ⟨false, false, [], [], 0⟩

/-- What may happen: providers/etcd/etcd.go:221-257, load.go:300-311, store.go:218-224. -/
inductive EAct where
  | load (pre : Bool) (ctx : Nat)  -- Store.Load with or without WithStorePrefix, watching enabled
  | start (i : Nat)                -- goroutine i calls `Client.Watch` (242-246)
  | change                         -- a change on the server in the range of the watch
  | take (i n : Nat)               -- goroutine i receives a response with n events (252)
  | report (i : Nat)               -- one round of the loop over the events (254-255)
  | next (i : Nat)                 -- end of that loop
  | spin (i : Nat)                 -- goroutine i receives the zero response of a closed channel
  | leave (i : Nat)                -- goroutine i finds its context done (250-251)
  | close                          -- Store.Close
  | cancel (c : Nat)               -- the context c is cancelled
  deriving DecidableEq, Repr

/-- A watch has been made: by `Client.Watch` with the background context (243, 245), so it lasts until the client is closed. -/
def Runner.watching (r : Runner) : Bool :=
  match r.stage with
  | .fresh => false
  | _ => true

/-- A change reaches every watch. (providers/etcd/etcd.go:228-257.) -/
def Runner.receive (r : Runner) : Runner := if r.watching then { r with pending := r.pending + 1 } else r

/-- The client library drops what it holds. (providers/etcd/etcd.go:221-225.) -/
def Runner.drop (r : Runner) : Runner := { r with pending := 0 }

/-- A step of goroutine `i`: providers/etcd/etcd.go:228-257. -/
def Etcd.upd (s : Etcd) (i : Nat) (f : Runner → Option (Runner × Nat)) : Option Etcd :=
  match s.runners[i]? with
  | none => none
  | some r => (f r).map (fun x => { s with runners := s.runners.set i x.1, calls := s.calls + x.2 })

/-- One step. A `Load` from a closed client fails in `Read`, before watching starts (load.go:99-102). The store's `closers` has the
provider only if no prefix was given (see Model/Watch.lean). -/
def Etcd.step (s : Etcd) : EAct → Option Etcd
  | .load pre c => some (if s.closed then s else { s with runners := s.runners ++ [⟨c, 0, .fresh⟩], registered := s.registered || !pre })
  | .start i => s.upd i (fun r => if r.stage = .fresh then some ({ r with stage := .select }, 0) else none)
  | .change => some (if s.closed then s else { s with runners := s.runners.map Runner.receive })
  | .take i n => s.upd i (fun r => if r.stage = .select ∧ s.closed = false ∧ n ≤ r.pending
      then some ({ r with pending := r.pending - n, stage := .busy n }, 0) else none)
  | .report i => s.upd i (fun r => match r.stage with
      | .busy (n + 1) => some ({ r with stage := .busy n }, 1)
      | _ => none)
  | .next i => s.upd i (fun r => if r.stage = .busy 0 then some ({ r with stage := .select }, 0) else none)
  | .spin i => s.upd i (fun r => if r.stage = .select ∧ s.closed = true then some (r, 0) else none)
  | .leave i => s.upd i (fun r => if r.stage = .select ∧ r.ctx ∈ s.cancelled then some ({ r with stage := .done }, 0) else none)
  | .close => some (if s.registered then { s with closed := true, runners := s.runners.map Runner.drop } else s)
  | .cancel c => some { s with cancelled := c :: s.cancelled }

/-- Any interleaving of the listed steps. (providers/etcd/etcd.go:221-257, load.go:300-311, store.go:218-224.) -/
def Etcd.run (s : Etcd) : List EAct → Option Etcd
  | [] => some s
  | a :: as => (s.step a).bind (fun s' => s'.run as)

/-! ## consul -/

/-- Where a goroutine of providers/consul/consul.go:309-320 is; `p` is the number of the plan it runs. -/
inductive CStage where
  | fresh               -- spawned, has not read `s.plan` yet (315)
  | loop (p : Nat)      -- `Plan.Run` is about to test whether the plan was stopped
  | query (p : Nat)     -- it waits for the answer of the server
  | handler (p : Nat)   -- it is about to call the plan's handler (300-303)
  | done
  deriving DecidableEq, Repr

/-- The provider: for each plan made so far whether it was stopped; the field `plan`; whether the store has the provider among its `closers`;
goroutines; calls of the callback. (providers/consul/consul.go:270-323, store.go:218-224.) -/
structure Consul where
  stopped : List Bool
  plan : Option Nat
  registered : Bool
  runners : List CStage
  calls : Nat
  deriving DecidableEq, Repr

/-- Before the first `Load`. (providers/consul/consul.go:17-43.) -/
def Consul.init : Consul := ⟨[], none, false, [], 0⟩

/-- What may happen: providers/consul/consul.go:270-323, load.go:300-311, store.go:218-224. -/
inductive CAct where
  | load (pre : Bool)              -- Store.Load, watching enabled: 292-320
  | start (i : Nat)                -- goroutine i reads `s.plan` and calls `Run` (315)
  | loop (i : Nat)                 -- it tests the plan's stop flag
  | reply (i : Nat) (new : Bool)   -- the query ends: with a new result, or an error or an old one
  | handle (i : Nat)               -- the handler calls back (300-303)
  | close                          -- Store.Close
  | cancel                         -- the context of any Load is cancelled: `Watch` does not look at it (312-313)
  deriving DecidableEq, Repr

/-- Was plan `p` stopped? (providers/consul/consul.go:270-275.) -/
def Consul.isStopped (s : Consul) (p : Nat) : Bool := (s.stopped[p]?).getD false

/-- A step of goroutine `i`: providers/consul/consul.go:277-323. -/
def Consul.upd (s : Consul) (i : Nat) (f : CStage → Option (CStage × Nat)) : Option Consul :=
  match s.runners[i]? with
  | none => none
  | some r => (f r).map (fun x => { s with runners := s.runners.set i x.1, calls := s.calls + x.2 })

/-- One step. `Plan.Run` tests the flag before each query and after it. providers/consul/consul.go:270-275 `Close` stops the plan in the field `plan`. -/
def Consul.step (s : Consul) : CAct → Option Consul
  | .load pre => some { s with stopped := s.stopped ++ [false], plan := some s.stopped.length, registered := s.registered || !pre, runners := s.runners ++ [.fresh] }
  | .start i => s.upd i (fun r => match r, s.plan with
      | .fresh, some p => some (.loop p, 0)
      | _, _ => none)
  | .loop i => s.upd i (fun r => match r with
      | .loop p => some (if s.isStopped p then .done else .query p, 0)
      | _ => none)
  | .reply i new => s.upd i (fun r => match r with
      | .query p => some (if s.isStopped p then .done else if new then .handler p else .loop p, 0)
      | _ => none)
  | .handle i => s.upd i (fun r => match r with
      | .handler p => some (.loop p, 1)
      | _ => none)
  | .close => some (match s.registered, s.plan with
      | true, some p => { s with stopped := s.stopped.set p true }
      | _, _ => s)
  | .cancel => some s

/-- Any interleaving of the listed steps: providers/consul/consul.go:270-323, load.go:300-311, store.go:218-224. -/
def Consul.run (s : Consul) : List CAct → Option Consul
  | [] => some s
  | a :: as => (s.step a).bind (fun s' => s'.run as)

end Verif.RemoteWatch

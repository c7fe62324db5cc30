import Verif.Model.Basic
/-
radix/trie.go:290-377, 760-774 and store.go:174-216: the `sync.Pool`s behind `Join` and `search`. Goroutines are interleaved step by step; an object
taken from the pool is known by its number, so that two goroutines could hold the same one.
-/
namespace Verif
namespace Pool

/-- What one kind of pool is used for: `body c` is the work of call `c` — either an answer found without the pool, or the list of writes to the object,
one after the other; `fresh` is what `New` makes and `reset` what happens to an object before it is put back. (radix/trie.go:290-377, 760-774,
store.go:174-216.) -/
structure Kind (κ α : Type) where
  body : κ → α ⊕ List (α → α)
  fresh : α
  reset : α → α

/-- Where a goroutine is. `hold c b todo seen`: it has object `b`, still has the writes `todo` to do, and `seen` are the values the object had after each
write; `read`: all writes are done, the answer is copied next; `clean`: `reset` comes next; `put`: `Put` comes next. (radix/trie.go:290-377, 760-774,
store.go:174-216.) -/
inductive Thread (κ α : Type)
  | start (c : κ)
  | hold (c : κ) (b : Nat) (todo : List (α → α)) (seen : List α)
  | read (c : κ) (b : Nat) (seen : List α)
  | clean (c : κ) (b : Nat) (seen : List α) (ret : α)
  | put (c : κ) (b : Nat) (seen : List α) (ret : α)
  | done (c : κ) (seen : List α) (ret : α)

/-- `objs`: all objects ever made, by number; `free`: the numbers of those in the pool. (radix/trie.go:290-377, 760-774, store.go:174-216.) -/
structure State (κ α : Type) where
  objs : List α
  free : List Nat
  threads : List (Thread κ α)

/-- A new pool: radix/trie.go:290-377, 760-774, store.go:174-216. -/
def State.new {κ α : Type} : State κ α := ⟨[], [], []⟩

variable {κ α : Type}

/-- One step of goroutine `i`. `choice` is what `sync.Pool` (and the capacity test of radix/trie.go:306-308) decide: on `Get`, `some j` takes the
`j`-th object of the pool and `none` makes a new one; on `Put`, `none` forgets the object. -/
def State.go (k : Kind κ α) (s : State κ α) (i : Nat) (choice : Option Nat) : Option (State κ α) :=
  let mv := fun (s : State κ α) (p : Thread κ α) => { s with threads := s.threads.set i p }
  match s.threads[i]? with
  | some (.start c) => match k.body c with
    | .inl r => some (mv s (.done c [] r))
    | .inr ops => match choice with
      | none => some (mv { s with objs := s.objs ++ [k.fresh] } (.hold c s.objs.length ops []))
      | some j => match s.free[j]? with
        | none => none
        | some b => some (mv { s with free := s.free.eraseIdx j } (.hold c b ops []))
  | some (.hold c b [] seen) => some (mv s (.read c b seen))
  | some (.hold c b (f :: todo) seen) => match s.objs[b]? with
    | none => none
    | some x => some (mv { s with objs := s.objs.set b (f x) } (.hold c b todo (seen ++ [f x])))
  | some (.read c b seen) => match s.objs[b]? with
    | none => none
    | some x => some (mv s (.clean c b seen x))
  | some (.clean c b seen r) => match s.objs[b]? with
    | none => none
    | some x => some (mv { s with objs := s.objs.set b (k.reset x) } (.put c b seen r))
  | some (.put c b seen r) => match choice with
    | none => some (mv s (.done c seen r))
    | some _ => some (mv { s with free := b :: s.free } (.done c seen r))
  | some (.done _ _ _) => none
  | none => none

/-- A call begins; a goroutine goes on; the garbage collector empties a place of the pool. (radix/trie.go:290-377, 760-774, store.go:174-216.) -/
inductive Act (κ : Type)
  | call (c : κ)
  | go (i : Nat) (choice : Option Nat)
  | drop (j : Nat)

/-- One step: radix/trie.go:290-377, 760-774, store.go:174-216. -/
def State.act (k : Kind κ α) (s : State κ α) : Act κ → State κ α
  | .call c => { s with threads := s.threads ++ [.start c] }
  | .go i choice => (s.go k i choice).getD s
  | .drop j => { s with free := s.free.eraseIdx j }

/-- All that happens to a pool: radix/trie.go:290-377, 760-774, store.go:174-216. -/
def run (k : Kind κ α) (acts : List (Act κ)) : State κ α := acts.foldl (State.act k) .new

/-! ## The buffers of `Join` -/

/-- What is in a `bytes.Buffer`: radix/trie.go:290-377, 760-774, store.go:174-216. -/
abbrev Bytes := List UInt8

/-- radix/trie.go:354-362 and store.go:202-213, the loop: `n` counts the parts written so far. -/
def loop (d : Char) : Nat → List Bytes → List (Bytes → Bytes)
  | _, [] => []
  | n, it :: its =>
    if it ≠ [] then (if n > 0 then [(· ++ [UInt8.ofNat d.toNat])] else []) ++ (· ++ it) :: loop d (n + 1) its
    else loop d n its

/-- radix/trie.go:340-363 `Join`; store.go:189-216 `join` is the same text with the other pool. -/
def join (d : Char) : List Bytes → Bytes ⊕ List (Bytes → Bytes)
  | [] => .inl []
  | [a] => .inl a
  | a :: b :: rest => if a = [] then join d (b :: rest) else .inr (loop d 0 (a :: b :: rest))

/-- radix/trie.go:328-334, the loop of `join1`. -/
def loop1 (d : Char) : List Bytes → List (Bytes → Bytes)
  | [] => []
  | it :: its => if it ≠ [] then (· ++ [UInt8.ofNat d.toNat]) :: (· ++ it) :: loop1 d its else loop1 d its

/-- radix/trie.go:314-338 `join1`. -/
def join1 (d : Char) (pre : Bytes) (args : List Bytes) : Bytes ⊕ List (Bytes → Bytes) :=
  if pre = [] then join d args
  else if args = [] then .inl pre
  else .inr ((· ++ pre) :: loop1 d args)

/-- Calls that use the buffers, each with the delimiter of its own view. (radix/trie.go:290-377, 760-774, store.go:174-216.) -/
inductive Call
  | join (d : Char) (args : List Bytes)
  | join1 (d : Char) (pre : Bytes) (args : List Bytes)
  deriving DecidableEq, Repr

/-- What the call does with its buffer: radix/trie.go:316-377, store.go:191-216. -/
def Call.body : Call → Bytes ⊕ List (Bytes → Bytes)
  | .join d args => Pool.join d args
  | .join1 d pre args => Pool.join1 d pre args

/-- radix/trie.go:295-309: `New` makes an empty buffer, `Reset` empties one. A buffer is the list of its bytes; `String` copies. -/
def buffers : Kind Call Bytes := ⟨Call.body, [], fun _ => []⟩

/-! ## The match contexts of `search` -/

/-- radix/trie.go:771-774 `matchCtx`. -/
structure Ctx where
  fullPath : Bytes
  delimiter : Char
  deriving DecidableEq, Repr

/-- One `search` (radix/trie.go:727-757): the word, the delimiter of the view, and the shorter words of the retries. -/
structure Search where
  word : Bytes
  delimiter : Char
  retries : List Bytes
  deriving DecidableEq, Repr

/-- radix/trie.go:760-768: `getMatchCtx` sets both fields of whatever it got, the retries set `fullPath`, `putBack` clears nothing. -/
def contexts : Kind Search Ctx :=
  ⟨fun q => .inr ((fun _ => ⟨q.word, q.delimiter⟩) :: q.retries.map (fun w x => { x with fullPath := w })), ⟨[], Char.ofNat 0⟩, id⟩

end Pool
end Verif

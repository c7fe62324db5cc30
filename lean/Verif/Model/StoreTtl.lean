import Verif.Model.TTL
import Verif.Model.Store
/-
store.go:218-224, 246-283: a store whose entries have timers. The trie of the store is handle 0 of a system of tries
(Model/TTL.lean), its tree is tree 0.
-/
namespace Verif

/-- store.go:92-113 `storeS`, with its trie in a system of tries and timers; `closers` are the peripherals that load.go:308
collected, by number. -/
structure TStore (α κ : Type) where
  sys : Sys (Any α κ)
  loading : Bool
  flatten : Bool
  hs : Handlers
  closers : List Nat

/-- What the program outside sees happen: a call of a handler, a call of `Close` on a peripheral. (store.go:218-283.) -/
inductive TStore.Out (α κ : Type) where
  | ev (e : Event (Any α κ))
  | closed (p : Nat)

/-- Calls on the store, and steps of its timers. `trieClose` is `s.Trie.Close()`, the method of the embedded trie, which
`storeS.Close` hides. (store.go:218-283, radix/trie.go:139-188.) -/
inductive TStore.Act (α κ : Type) where
  | set (p : Str) (x : Any α κ)
  | remove (p : Str)
  | setTTL (p : Str) (ns : Int)
  | close
  | trieClose
  | expire (j : Nat)
  | enter (j : Nat) (timerFirst : Bool)
  | ring (j : Nat)

namespace TStore
variable {α κ : Type}

/-- store.go:13-30 `New`. -/
def new (d : Char) (flatten : Bool) (hs : Handlers) (closers : List Nat) : TStore α κ :=
  { sys := Sys.new d, loading := false, flatten := flatten, hs := hs, closers := closers }

/-- The store as the functions of Model/Store.lean see it, through the view `v` of its trie. (store.go:94-112: the fields of a store.) -/
def at_ (s : TStore α κ) (v : View) : Store α κ :=
  { tree := s.sys.trees 0, view := v, loading := s.loading, flatten := s.flatten, hs := s.hs }

/-- The view of handle 0. (store.go:94-112.) -/
def view (s : TStore α κ) : View :=
  match s.sys.handles[0]? with
  | some a => a.view
  | none => View.new '.'

/-- The store itself. (store.go:94-112.) -/
def store (s : TStore α κ) : Store α κ := s.at_ s.view

/-- store.go:246-260 `Set` and 392-411 `Remove` write the tree of the trie; 281-283 `SetTTL` calls that of the trie;
218-224 `Close` closes the peripherals, and does nothing to the trie. -/
def step (s : TStore α κ) : Act α κ → Go (TStore α κ × List (Out α κ))
  | .set p x =>
    match s.store.set p x with
    | .error e => .error e
    | .ok (st, ev, _) => .ok ({ s with sys := s.sys.write 0 st.tree }, ev.map .ev)
  | .remove p =>
    match s.store.remove p with
    | .error e => .error e
    | .ok (st, ev, _) => .ok ({ s with sys := s.sys.write 0 st.tree }, ev.map .ev)
  | .setTTL p ns => (s.sys.setTTL 0 p ns).map fun r => ({ s with sys := r.1 }, [])
  | .close => .ok (s, s.closers.map .closed)
  | .trieClose => .ok ({ s with sys := s.sys.close 0 }, [])
  | .expire i => (s.sys.step (.expire i)).map fun r => ({ s with sys := r }, [])
  | .enter i b => (s.sys.step (.enter i b)).map fun r => ({ s with sys := r }, [])
  | .ring i => (s.sys.step (.ring i)).map fun r => ({ s with sys := r }, [])

/-- Steps in sequence, with all that was seen. (store.go:218-283, radix/trie.go:139-188.) -/
def runs (s : TStore α κ) : List (Act α κ) → Go (TStore α κ × List (Out α κ))
  | [] => .ok (s, [])
  | a :: l =>
    match s.step a with
    | .error e => .error e
    | .ok (s', o) => (s'.runs l).map fun r => (r.1, o ++ r.2)

end TStore
end Verif

import Verif.Model.Store
/-
store.go:246-411: handlers that call back into the store.
-/
namespace Verif
namespace Store
variable {α κ : Type}

/-- What code using a store does: `Set` and `Remove` (the code goes on with their results), and any use of the reading functions. (store.go:246-260,
329-411.) -/
inductive Prog (α κ : Type) where
  | done
  | set (p : Str) (x : Any α κ) (k : Any α κ → Prog α κ)
  | remove (p : Str) (k : Bool → Prog α κ)
  | look (k : Store α κ → Prog α κ)

/-- A change of the store by `Set` or `Remove`. (store.go:246-260, 329-411.) -/
inductive Op (α κ : Type) where
  | set (p : Str) (x : Any α κ)
  | remove (p : Str)

/-- What happened: a change; a handler begins and finds this store; it ends. (store.go:246-260, 329-411.) -/
inductive Log (α κ : Type) where
  | did (o : Op α κ)
  | enter (e : Event (Any α κ)) (seen : Store α κ)
  | leave

/-- What comes of it; `none`: it takes too many nested calls. (store.go:246-260, 329-411.) -/
abbrev Outcome (α κ : Type) := Option (Go (Store α κ × List (Log α κ)))

/-- The loops of store.go:353-357, 367-370, 381-385 over the handlers, which run the code `H e` when called with `e` (handlers have no other
state). `r` runs code one level deeper. -/
def callAll (H : Event (Any α κ) → Prog α κ) (r : Store α κ → Prog α κ → Outcome α κ) : Store α κ → List (Event (Any α κ)) → Outcome α κ
  | s, [] => some (.ok (s, []))
  | s, e :: es =>
    match r s (H e) with
    | none => none
    | some (.error x) => some (.error x)
    | some (.ok (s', l)) =>
      match callAll H r s' es with
      | none => none
      | some (.error x) => some (.error x)
      | some (.ok (s'', l')) => some (.ok (s'', .enter e s :: l ++ .leave :: l'))

/-- Code with handlers: the trie is changed first (store.go:330, 394), then the handlers are called (344, 398), then the code goes on. -/
def runWith (H : Event (Any α κ) → Prog α κ) (r : Store α κ → Prog α κ → Outcome α κ) : Prog α κ → Store α κ → Outcome α κ
  | .done, s => some (.ok (s, []))
  | .look k, s => runWith H r (k s) s
  | .set p x k, s =>
    match s.set p x with
    | .error e => some (.error e)
    | .ok (s', ev, old) =>
      match callAll H r s' ev with
      | none => none
      | some (.error e) => some (.error e)
      | some (.ok (s'', l)) =>
        match runWith H r (k old) s'' with
        | none => none
        | some (.error e) => some (.error e)
        | some (.ok (s3, l')) => some (.ok (s3, .did (.set p x) :: l ++ l'))
  | .remove p k, s =>
    match s.remove p with
    | .error e => some (.error e)
    | .ok (s', ev, b) =>
      match callAll H r s' ev with
      | none => none
      | some (.error e) => some (.error e)
      | some (.ok (s'', l)) =>
        match runWith H r (k b) s'' with
        | none => none
        | some (.error e) => some (.error e)
        | some (.ok (s3, l')) => some (.ok (s3, .did (.remove p) :: l ++ l'))

/-- With at most `n` nested handler calls; `none` if more are needed. (store.go:246-260, 329-411.) -/
def run (H : Event (Any α κ) → Prog α κ) : Nat → Store α κ → Prog α κ → Outcome α κ
  | 0, s, P => runWith H (fun _ _ => none) P s
  | n + 1, s, P => runWith H (run H n) P s

end Store
end Verif

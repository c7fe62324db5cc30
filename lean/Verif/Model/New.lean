import Verif.Model.Store
/-
store.go:13-83, 428-488, new.go:19: making stores, with options and from other stores.
-/
namespace Verif

/-- store.go:28-83: the options of `New`. Handlers are numbered; `none` is a nil func. -/
inductive NewOpt where
  | delimiter (d : Char)
  | pre (p : Str)
  | onChange (l : List (Option Nat))
  | onNew (l : List (Option Nat))
  | onDelete (l : List (Option Nat))
  | flatten (b : Bool)
  | watch (b : Bool)
  deriving DecidableEq, Repr

/-- A `storeS` with its flag `allowWatch` (store.go:112), which `Store` leaves out. -/
structure StoreW (α κ : Type) where
  st : Store α κ
  watch : Bool

namespace StoreW
variable {α κ : Type}

/-- The effect of an option: store.go:28-32 (radix/trie.go:824 `SetDelimiter`), 35-39 (481-483, radix/load.go:35-37 `SetPrefix`),
42-46, 49-53, 56-60, 71-75, 79-83. -/
def apply (s : StoreW α κ) : NewOpt → StoreW α κ
  | .delimiter d => { s with st := { s.st with view := { s.st.view with delim := d } } }
  | .pre p => { s with st := { s.st with view := s.st.view.withPrefixReplaced [p] } }
  | .onChange l => { s with st := { s.st with hs := { s.st.hs with onChange := s.st.hs.onChange ++ l } } }
  | .onNew l => { s with st := { s.st with hs := { s.st.hs with onNew := s.st.hs.onNew ++ l } } }
  | .onDelete l => { s with st := { s.st with hs := { s.st.hs with onDelete := s.st.hs.onDelete ++ l } } }
  | .flatten b => { s with st := { s.st with flatten := b } }
  | .watch b => { s with watch := b }

/-- new.go:19 `New`, store.go:13-22 `newStore`. The delimiter of a new trie is a dot (radix/trie.go:19-26). -/
def new (opts : List NewOpt) : StoreW α κ := opts.foldl apply ⟨Store.new '.' false ⟨[], [], []⟩, false⟩

/-- store.go:138-147 `dupS`. -/
def dupS (s : StoreW α κ) (v : View) : StoreW α κ := ⟨s.st.dupS v, s.watch⟩

/-- store.go:428-441 `Clone`, `Dup`. -/
def dup (s : StoreW α κ) : StoreW α κ :=
  let s' := s.dupS s.st.view
  { s' with st := { s'.st with tree := View.dupTree s.st.tree } }

/-- store.go:463-478, 485-487 `WithPrefix`, `WithPrefixReplaced`, `N`, `R`, `BR`. -/
inductive Derive where
  | prefix (ps : List Str)
  | replace (ps : List Str)
  | mode (m : Mode)

/-- Making a store from another: store.go:428-488. -/
def derive (s : StoreW α κ) : Derive → StoreW α κ
  | .prefix ps => s.dupS (s.st.view.withPrefix ps)
  | .replace ps => s.dupS (s.st.view.withPrefixReplaced ps)
  | .mode m => s.dupS (s.st.view.withMode m)

end StoreW
end Verif

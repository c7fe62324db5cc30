import Verif.Model.Export
/-
load.go: options, providers and codecs of `Load`, `Save` and `SaveAs`.
-/
namespace Verif

/-- Errors of a provider, as far as load.go tells them apart (`errors.Is(err, ErrNotImplemented)`). -/
inductive PErr where
  | notImpl
  | other
  deriving DecidableEq, Repr

/-- `[]byte`, as codecs and providers have it: new.go:326-412. -/
abbrev Bytes := List UInt8

/-- new.go:409-412 `Codec`. `dec`: `none` is an error, `some none` a nil map. `enc`: `none` is an error. -/
structure Codec (α κ : Type) where
  dec : Bytes → Option (Option (SMap α κ))
  enc : SMap α κ → Option Bytes

/-- new.go:345-350: what a `OnceProvider` adds. -/
structure Once where
  readBytes : Bytes × Option PErr
  write : Bytes → Option PErr

/-- new.go:326-386: a provider: `Read` (data, `none` for nil, and error), what it implements, and its own codec.
`once` and `writer` (an `io.Writer`) exclude each other in Go, as their `Write` methods differ in type; the code only looks at `writer` if
`Write` of the former is missing or not implemented. `stream` lists what `Next` and `MustValue` yield. -/
structure Provider (α κ : Type) where
  data : Option (List (Str × ValPkg α κ))
  err : Option PErr
  once : Option Once
  stream : Option (List (Str × Any α κ))
  writer : Option (Bytes → Option PErr)
  codec : Option (Codec α κ)

/-- load.go:407-462, the options of `Load`. `WithLoaderCopy` and `WithPosition` do not influence what is stored. -/
inductive LoadOpt (α κ : Type) where
  | provider (p : Provider α κ)
  | codec (c : Codec α κ)
  | storePrefix (p : Str)
  | flatten (b : Bool)
  | position (p : Str)
  | skip                       -- a nil option

/-- load.go:398-405 `Loader`. `self` is the store `Load` was called on, `st` is the loader's `storeS`: the same object until `WithStorePrefix`
replaces it by a copy (`own`). -/
structure Loader (α κ : Type) where
  self : Store α κ
  st : Store α κ
  own : Bool
  codec : Option (Codec α κ)
  prov : Option (Provider α κ)

namespace Loader
variable {α κ : Type}

/-- One option. (load.go:411-459.) -/
def opt (l : Loader α κ) : LoadOpt α κ → Loader α κ
  | .provider p => { l with prov := some p }
  | .codec c => { l with codec := some c }
  | .storePrefix p => { l with st := l.st.withPrefixReplaced [p], own := true }
  | .flatten b =>
    if l.own then { l with st := { l.st with flatten := b } }
    else { l with st := { l.st with flatten := b }, self := { l.self with flatten := b } }
  | .position _ => l
  | .skip => l

/-- load.go:366-396 `newLoader`: without an explicit codec that of the provider is used. -/
def new (s : Store α κ) (opts : List (LoadOpt α κ)) : Loader α κ :=
  let l := opts.foldl opt ⟨s, s, false, none, none⟩
  match l.prov, l.codec with
  | some p, none => { l with codec := p.codec }
  | _, _ => l

/-- load.go:501-545 `tryLoad`: the pairs a stream provider yields (they are stored at once), and data and bin, or an error.
`json` is the fallback decoder. -/
def tryLoad (json : Bytes → Option (Option (SMap α κ))) (l : Loader α κ) :
    List (Str × Any α κ) × Option (Option (List (Str × ValPkg α κ)) × Option (SMap α κ)) :=
  match l.prov with
  | none => ([], some (none, none))
  | some p =>
    match p.err with
    | none => ([], some (p.data, none))
    | some .other => ([], none)
    | some .notImpl =>
      let (b, kvs, err) : Bytes × List (Str × Any α κ) × Option PErr :=
        match p.once, p.stream with
        | some o, _ => (o.readBytes.1, [], o.readBytes.2)
        | none, some kvs => ([], kvs, none)
        | none, none => ([], [], some .notImpl)
      if err.isSome then (kvs, none)
      else match l.codec with
        | some c => (kvs, (c.dec b).map (fun bin => (p.data, bin)))
        | none => if p.data.isNone then (kvs, (json b).map (fun bin => (p.data, bin))) else (kvs, some (p.data, none))

/-- load.go:547-640: the common part of `SaveAs` and `trySave` after the export: bytes written to the provider, and whether err is nil. -/
def write (c : Option (Codec α κ)) (p : Option (Provider α κ)) (m : Option (SMap α κ)) : Option Bytes × Bool :=
  match c, p, m with
  | some c, some p, some m =>
    if m = [] then (none, true)
    else match c.enc m with
      | none => (none, false)
      | some b =>
        match p.once with
        | some o =>
          match o.write b with
          | some .notImpl =>
            match p.writer with
            | some w => (some b, (w b).isNone)
            | none => (none, false)
          | some .other => (none, false)
          | none => (some b, true)
        | none =>
          match p.writer with
          | some w => (some b, (w b).isNone)
          | none => (none, false)
  | _, _, _ => (none, true)

/-- load.go:607-640 `Save`: exports the modified entries of the loader's store, whose tree is `t` by now. -/
def save (l : Loader α κ) (t : Tree (Any α κ)) : Go (Option Bytes × Bool) :=
  match l.codec, l.prov with
  | some c, some p =>
    match ({ l.st with tree := t } : Store α κ).saveMap with
    | .error e => .error e
    | .ok m => .ok (write (some c) (some p) m)
  | _, _ => .ok (none, true)

/-- load.go:547-605 `Loader.SaveAs` with the given provider and codec: exports all entries. -/
def saveAs (l : Loader α κ) (t : Tree (Any α κ)) (c : Option (Codec α κ)) (p : Option (Provider α κ)) : Go (Option Bytes × Bool) :=
  match p with
  | none => .ok (none, true)
  | some p =>
    match (if c.isNone then p.codec else c) with
    | none => .ok (none, true)
    | some c =>
      match l.st.view.getM t [] ⟨false, true, none⟩ with
      | .error e => .error e
      | .ok m => .ok (write (some c) (some p) m)

end Loader

namespace Store
variable {α κ : Type}

/-- Result of `Load`. (load.go:91-145.) -/
structure Loaded (α κ : Type) where
  store : Store α κ                  -- the store afterwards
  events : List (Event (Any α κ))
  ok : Bool                          -- err == nil
  wr : Option (Loader α κ)           -- the Writeable

/-- load.go:91-132 `Load`. -/
def loadWith (json : Bytes → Option (Option (SMap α κ))) (str : κ → Str) (s : Store α κ) (opts : List (LoadOpt α κ)) : Loaded α κ :=
  if s.loading then ⟨s, [], true, none⟩
  else
    let l := Loader.new { s with loading := true } opts
    let (kvs, res) := l.tryLoad json
    let r := l.st.setAll true kvs
    match res with
    | none => ⟨{ l.self with tree := r.1.tree, loading := false }, r.2, false, none⟩
    | some (data, bin) =>
      let r1 := match data with
        | some m => loadDedicated str true r.1 l.st.view.pre m
        | none => (r.1, [])
      let r2 := match bin with
        | some m => loadMap str true [] r1.1 l.st.view.pre m
        | none => (r1.1, [])
      ⟨{ l.self with tree := r2.1.tree, loading := false }, r.2 ++ r1.2 ++ r2.2, true,
        if data.isSome || bin.isSome then some { l with self := { l.self with tree := r2.1.tree, loading := false } } else none⟩

end Store
end Verif

import Mathlib.Data.List.Basic
/-
codecs/*: codec objects around external encoders, which are parameters here, and the table of codecs by file suffix.
-/
namespace Verif
namespace Codecs
variable {M B : Type}

/-- An external library: encoding and decoding, `none` being an error. (codecs/json/json.go, codecs/yaml/yaml.go, codecs/toml/toml.go,
codecs/hjson/hjson.go, codecs/hcl/hcl.go and codecs/nestext/nestext.go wrap one each.) -/
structure Lib (M B : Type) where
  enc : M → Option B
  dec : B → Option M

/-- What Go returns: the data (`none`: nil) and whether there is an error. (new.go:409-412 `Codec`.) -/
structure Res (X : Type) where
  data : Option X
  err : Bool
  deriving DecidableEq, Repr

/-- The result of a call that returns what the library returned. On an error nothing is said about the data: it is taken to be nil. (new.go:409-412
`Codec`.) -/
def Res.ofLib {X : Type} : Option X → Res X
  | some x => ⟨some x, false⟩
  | none => ⟨none, true⟩

/-- A codec object (`store.Codec`, new.go:409-412) with its fields `σ`; calls may change them. -/
structure Codec (σ M B : Type) where
  unmarshal : σ → B → Res M × σ
  marshal : σ → M → Res B × σ

/-- codecs/yaml/yaml.go:11-26, codecs/toml/toml.go:9-24, codecs/hjson/hjson.go:38-46: plain wrappers. The fields of hjson are not used by them. -/
def wrapper (σ : Type) (l : Lib M B) : Codec σ M B where
  unmarshal s b := (.ofLib (l.dec b), s)
  marshal s m := (.ofLib (l.enc m), s)

/-- codecs/json/json.go:10-37: `pretty` is true by default. -/
structure JsonOpts where
  flattenSlice : Bool
  pretty : Bool
  deriving DecidableEq, Repr

/-- codecs/json/json.go: the object that `New` makes without options. -/
def JsonOpts.new : JsonOpts := ⟨false, true⟩

/-- codecs/json/json.go:39-50. The result of `MarshalIndent` is thrown away. -/
def json (l : Lib M B) (indent : M → Option B) : Codec JsonOpts M B where
  unmarshal s b := (.ofLib (l.dec b), s)
  marshal s m :=
    let _ := if s.pretty then indent m else none
    (.ofLib (l.enc m), s)

/-- codecs/nestext/nestext.go:25-52: what the parser gives must be a map. -/
def nestext {D : Type} (parse : B → Option D) (dict : D → Option M) (enc : M → Option B) : Codec Unit M B where
  unmarshal s b :=
    match parse b with
    | none => (⟨none, true⟩, s)
    | some d => (.ofLib (dict d), s)
  marshal s m := (.ofLib (enc m), s)

/-- encoding/gob works on streams: `Decode` takes a value off the bytes that are left, `Encode` appends one to a buffer (and remembers which types it has
sent). (codecs/gob/gob.go.) -/
structure Gob (M B ε : Type) where
  decode : B → Option M × B
  new : ε
  encode : ε → M → Bool × ε

/-- codecs/gob/gob.go:20-24: the decoder with the bytes it has left, and the encoder with its buffer. -/
structure GobState (B ε : Type) where
  dec : Option B
  enc : Option ε

/-- codecs/gob/gob.go: the object that `New` makes. -/
def GobState.new {ε : Type} : GobState B ε := ⟨none, none⟩

/-- codecs/gob/gob.go:26-43. `Marshal` writes to a buffer of its own and returns `data` as it was: nil. -/
def gob {ε : Type} (g : Gob M B ε) : Codec (GobState B ε) M B where
  unmarshal s b :=
    let r := g.decode (match s.dec with | none => b | some rest => rest)
    (.ofLib r.1, { s with dec := some r.2 })
  marshal s m :=
    let r := g.encode (match s.enc with | none => g.new | some e => e) m
    (⟨none, !r.1⟩, { s with enc := some r.2 })

/-- A call of a method of a codec: new.go:409-412 `Codec`. -/
inductive Call (M B : Type)
  | unmarshal (b : B)
  | marshal (m : M)

/-- Its result: new.go:409-412 `Codec`. -/
inductive Answer (M B : Type)
  | map (r : Res M)
  | bytes (r : Res B)
  deriving DecidableEq

/-- One call on a codec object: new.go:409-412 `Codec`. -/
def Codec.call {σ : Type} (c : Codec σ M B) (s : σ) : Call M B → Answer M B × σ
  | .unmarshal b => (.map (c.unmarshal s b).1, (c.unmarshal s b).2)
  | .marshal m => (.bytes (c.marshal s m).1, (c.marshal s m).2)

/-- The answers of one object to a list of calls. (new.go:409-412 `Codec`.) -/
def Codec.run {σ : Type} (c : Codec σ M B) : σ → List (Call M B) → List (Answer M B)
  | _, [] => []
  | s, x :: xs => (c.call s x).1 :: Codec.run c (c.call s x).2 xs

/-- codecs/all/all.go:15-28: the table, as a list with the latest entry first; `none` stands for a deleted key. -/
abbrev Table (K C : Type) := List (K × Option C)

/-- codecs/all/all.go:30-36. -/
inductive TableOp (K C : Type)
  | register (ext : K) (c : C)
  | deregister (ext : K)

/-- A call on the table of codecs: codecs/all/all.go. -/
def Table.step {K C : Type} (t : Table K C) : TableOp K C → Table K C
  | .register e c => (e, some c) :: t
  | .deregister e => (e, none) :: t

/-- codecs/all/all.go:40-47 `Codec`, `MustCodec`. -/
def Table.codec {K C : Type} [DecidableEq K] : Table K C → K → Option C
  | [], _ => none
  | (k, c) :: t, e => if k = e then c else Table.codec t e

end Codecs
end Verif

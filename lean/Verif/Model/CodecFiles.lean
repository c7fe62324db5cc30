import Verif.Model.Codecs
import Verif.Model.Basic
/-
The methods `Load` and `Save` of the codecs, which work on files: codecs/json/json.go:52-65, codecs/yaml/yaml.go:28-53,
codecs/toml/toml.go:26-41, codecs/hjson/hjson.go:111-126, codecs/hcl/hcl.go:182-197, codecs/nestext/nestext.go:54-69. They are
not part of the interface `store.Codec`; a program reaches them by a type assertion.
-/
namespace Verif
namespace CodecFiles
open Codecs (Res)
variable {M B : Type}

/-- Files by name, and the names of the files that the program has opened and not closed. (A file that is no longer
referenced may be closed by the garbage collector at some later time; here it stays open.) (For codecs/json/json.go:52-65, codecs/yaml/yaml.go:28-53,
codecs/toml/toml.go:26-41, codecs/hjson/hjson.go:111-126, codecs/hcl/hcl.go:182-197, codecs/nestext/nestext.go:54-69.) -/
structure Disk (B : Type) where
  files : Str → Option B
  opened : List Str

/-- How a call ends. (For codecs/json/json.go:52-65, codecs/yaml/yaml.go:28-53, codecs/toml/toml.go:26-41, codecs/hjson/hjson.go:111-126,
codecs/hcl/hcl.go:182-197, codecs/nestext/nestext.go:54-69.) -/
inductive End (X : Type) where
  | ret (r : Res X)
  | panic

/-- `os.Open`: fails if there is no such file. (Called by the `Load` methods, for example at codecs/json/json.go:57.) -/
def Disk.openFile (k : Disk B) (f : Str) : Option (B × Disk B) :=
  (k.files f).map fun b => (b, { k with opened := f :: k.opened })

/-- `os.Create`: the file is there and empty. (Taken to succeed: no directories and permissions here.) (Called at codecs/yaml/yaml.go:43-53.) -/
def Disk.create (k : Disk B) (empty : B) (f : Str) : Disk B :=
  { files := fun g => if g = f then some empty else k.files g, opened := f :: k.opened }

/-- Writing to a file that is open: codecs/yaml/yaml.go:43-53 `Save`. -/
def Disk.write (k : Disk B) (f : Str) (b : B) : Disk B :=
  { k with files := fun g => if g = f then some b else k.files g }

/-- codecs/json/json.go:52-65. `first` is `json.Decoder.Decode`: it takes the first value from the stream and does not look at
what follows. -/
def jsonLoad (first : B → Option M) (k : Disk B) (f : Str) : Disk B × End M :=
  match k.openFile f with
  | none => (k, .ret ⟨none, true⟩)
  | some (b, k') => (k', .ret (.ofLib (first b)))

/-- The first document of a YAML stream. (codecs/yaml/yaml.go:28-53.) -/
inductive YDoc (M : Type) where
  /-- not well-formed -/
  | bad
  /-- there is none -/
  | eof
  | null
  | map (m : M)
  /-- a list or a scalar -/
  | other

/-- codecs/yaml/yaml.go:18-21 `Unmarshal`, with the library as it documents itself: `data` stays nil unless there is a map. -/
def yamlUnmarshal (doc : B → YDoc M) (b : B) : Res M :=
  match doc b with
  | .bad | .other => ⟨none, true⟩
  | .eof | .null => ⟨none, false⟩
  | .map m => ⟨some m, false⟩

/-- codecs/yaml/yaml.go:28-41. Line 37 gives `Decode` the nil map itself and not a pointer to it. For a document that is a map, the
library makes a map and stores it in its argument (`reflect.Value.Set`), which panics because that is not addressable. An end of
file is an error of `Decode`. -/
def yamlLoad (doc : B → YDoc M) (k : Disk B) (f : Str) : Disk B × End M :=
  match k.openFile f with
  | none => (k, .ret ⟨none, true⟩)
  | some (b, k') => (k', match doc b with
    | .bad | .other | .eof => .ret ⟨none, true⟩
    | .null => .ret ⟨none, false⟩
    | .map _ => .panic)

/-- codecs/yaml/yaml.go:43-53 `Save`. `enc` is the library: the bytes, or that it fails (an error, or a panic for values like
functions: here an error). -/
def yamlSave (empty : B) (enc : M → Option B) (k : Disk B) (f : Str) (m : M) : Disk B × End Unit :=
  let k := k.create empty f
  match enc m with
  | none => (k, .ret ⟨none, true⟩)
  | some b => (k.write f b, .ret ⟨some (), false⟩)

/-- codecs/toml/toml.go:26-41, codecs/hjson/hjson.go:111-126, codecs/hcl/hcl.go:182-197, codecs/nestext/nestext.go:54-69: not
implemented. -/
def noLoad (k : Disk B) (_f : Str) : Disk B × End M := (k, .ret ⟨none, true⟩)

/-- Several calls, one after the other, by a program that recovers from panics. (For codecs/json/json.go:52-65, codecs/yaml/yaml.go:28-53,
codecs/toml/toml.go:26-41, codecs/hjson/hjson.go:111-126, codecs/hcl/hcl.go:182-197, codecs/nestext/nestext.go:54-69.) -/
def loads (load : Disk B → Str → Disk B × End M) (k : Disk B) : List Str → Disk B
  | [] => k
  | f :: fs => loads load (load k f).1 fs

end CodecFiles
end Verif

import Verif.Model.Provider
/-
providers/file/file.go: provider objects over a file system, used by `Load`, `Save` and `SaveAs` (load.go).
-/
namespace Verif
namespace Files
variable {α κ : Type}

/-- providers/file/file.go:51-58 `pvdr` (without the state of the watcher). -/
structure FileP (α κ : Type) where
  file : Str
  watch : Bool
  writable : Bool
  codec : Option (Codec α κ)
  pos : Str

/-- providers/file/file.go:25-47: the options. -/
inductive Opt (α κ : Type)
  | codec (c : Codec α κ)
  | position (p : Str)
  | watch (b : Bool)
  | writeBack (b : Bool)

/-- providers/file/file.go:25-47. -/
def Opt.apply (s : FileP α κ) : Opt α κ → FileP α κ
  | .codec c => { s with codec := some c }
  | .position p => { s with pos := p }
  | .watch b => { s with watch := b }
  | .writeBack b => { s with writable := b }

/-- providers/file/file.go:17-23 `New`. -/
def FileP.new (file : Str) (opts : List (Opt α κ)) : FileP α κ := opts.foldl Opt.apply ⟨file, false, false, none, []⟩

/-- Files by name. (For providers/file/file.go:75-112.) -/
abbrev FS := Str → Option Bytes

/-- providers/file/file.go:60-117, as load.go sees it: `Read` is not implemented (95-98), `ReadBytes` reads the file (100-103), `Write` is
refused unless enabled (105-112); writing itself is taken to succeed. -/
def FileP.provider (fs : FS) (p : FileP α κ) : Provider α κ where
  data := none
  err := some .notImpl
  once := some ⟨match fs p.file with | some b => (b, none) | none => ([], some .other),
    fun _ => if p.writable then none else some .other⟩
  stream := none
  writer := none
  codec := p.codec

/-- A file system and the provider objects of a program. (For providers/file/file.go:17-23.) -/
structure World (α κ : Type) where
  fs : FS
  obj : Nat → FileP α κ

/-- The world after a change of provider object `i` (providers/file/file.go:51-58). -/
def World.setObj (w : World α κ) (i : Nat) (p : FileP α κ) : World α κ := { w with obj := fun j => if j = i then p else w.obj j }
/-- The world after a change of a file (providers/file/file.go:75-112). -/
def World.setFile (w : World α κ) (f : Str) (b : Option Bytes) : World α κ := { w with fs := fun g => if g = f then b else w.fs g }

/-- `os.WriteFile` as part of `Write` (providers/file/file.go:107): the bytes that reached it, if any. -/
def World.wrote (w : World α κ) (i : Nat) : Option Bytes → World α κ
  | some b => w.setFile (w.obj i).file (some b)
  | none => w

/-- load.go:366-396 `newLoader` on the provider object: an explicit codec or a position that is not empty is stored in it. -/
def World.newLoader (w : World α κ) (i : Nat) (c : Option (Codec α κ)) (pos : Str) : World α κ :=
  let p := w.obj i
  let p := match c with | some c => { p with codec := some c } | none => p
  let p := if pos = [] then p else { p with pos := pos }
  w.setObj i p

/-- load.go:91-132 `Load` with the provider object `i`, and with a codec, position and store prefix if given. While the store is being
loaded nothing happens. -/
def World.load (json : Bytes → Option (Option (SMap α κ))) (str : κ → Str) (w : World α κ) (i : Nat) (s : Store α κ)
    (c : Option (Codec α κ)) (pos : Str) (prefix' : Option Str) : World α κ × Store.Loaded α κ :=
  if s.loading then (w, ⟨s, [], true, none⟩)
  else
    let w' := w.newLoader i c pos
    (w', s.loadWith json str (.provider ((w'.obj i).provider w'.fs) :: (c.map LoadOpt.codec).toList ++ [.position pos] ++
      (prefix'.map LoadOpt.storePrefix).toList))

/-- load.go:607-640 `Save` of a loader whose provider is the object `i`; the store's tree is `t` by now. -/
def World.save (w : World α κ) (i : Nat) (l : Loader α κ) (t : Tree (Any α κ)) : World α κ × Go Bool :=
  match ({ l with prov := some ((w.obj i).provider w.fs) } : Loader α κ).save t with
  | .error e => (w, .error e)
  | .ok (b, ok) => (w.wrote i b, .ok ok)

/-- load.go:547-605 `SaveAs`: the name of the output file is not used; `p` is the argument of `WithSaveAsProvider`. An explicit codec is
stored in the provider object. -/
def World.saveAs (w : World α κ) (_outfile : Str) (p : Option Nat) (c : Option (Codec α κ)) (l : Loader α κ) (t : Tree (Any α κ)) :
    World α κ × Go Bool :=
  match p with
  | none => match l.saveAs t c none with
    | .error e => (w, .error e)
    | .ok (_, ok) => (w, .ok ok)
  | some i =>
    let w := match c with
      | some c => w.setObj i { w.obj i with codec := some c }
      | none => w
    match l.saveAs t c (some ((w.obj i).provider w.fs)) with
    | .error e => (w, .error e)
    | .ok (b, ok) => (w.wrote i b, .ok ok)

/-- What can happen to a world: the calls above, for any stores and loaders, and changes of files by others. (load.go:51-145, 547-640,
providers/file/file.go:17-112.) -/
inductive Act (α κ : Type)
  | load (i : Nat) (s : Store α κ) (c : Option (Codec α κ)) (pos : Str) (prefix' : Option Str)
  | save (i : Nat) (l : Loader α κ) (t : Tree (Any α κ))
  | saveAs (outfile : Str) (p : Option Nat) (c : Option (Codec α κ)) (l : Loader α κ) (t : Tree (Any α κ))
  | other (f : Str) (b : Option Bytes)

/-- One of them: load.go:51-145, 547-640, providers/file/file.go:17-112. -/
def World.step (json : Bytes → Option (Option (SMap α κ))) (str : κ → Str) (w : World α κ) : Act α κ → World α κ
  | .load i s c pos prefix' => (w.load json str i s c pos prefix').1
  | .save i l t => (w.save i l t).1
  | .saveAs f p c l t => (w.saveAs f p c l t).1
  | .other f b => w.setFile f b

/-- Several of them, one after the other: load.go:51-145, 547-640, providers/file/file.go:17-112. -/
def World.run (json : Bytes → Option (Option (SMap α κ))) (str : κ → Str) (w : World α κ) (l : List (Act α κ)) : World α κ :=
  l.foldl (World.step json str) w

/-! ## fs.FS -/

/-- providers/fs/fs.go:22-27 `pvdr`: the file system is given to it; 79-99: it reads the file and cannot write. -/
def fsProvider (fs : FS) (path : Str) (codec : Option (Codec α κ)) : Provider α κ where
  data := none
  err := some .notImpl
  once := some ⟨match fs path with | some b => (b, none) | none => ([], some .other), fun _ => some .notImpl⟩
  stream := none
  writer := none
  codec := codec

end Files
end Verif

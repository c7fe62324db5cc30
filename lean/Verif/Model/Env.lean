import Verif.Model.Store
import Verif.Model.Remote
import Verif.Model.Ctx
import Verif.Model.Cvt
/-
providers/env/env.go and providers/flags/flags.go: environment variables and command-line flags as a provider.
-/
namespace Verif
variable {α κ : Type}

/-- providers/env/env.go:22-35 `pvdr` (providers/flags/flags.go:22-33), the configuration. `lo` is `strings.ToLower`. -/
structure EnvCfg where
  pre : Str
  stripped : Str
  storePre : Str
  cb : Option (Str → Str)
  lower : Bool
  dots : Bool
  lo : Str → Str

/-- providers/env/env.go:13 (providers/flags/flags.go:14): the defaults. -/
def EnvCfg.default (lo : Str → Str) : EnvCfg := ⟨[], [], [], none, true, false, lo⟩

/-- providers/env/env.go:51-58 (providers/flags/flags.go:49-56) `WithPrefix`; `up` is `strings.ToUpper`. -/
def EnvCfg.withPrefix (c : EnvCfg) (up : Str → Str) (p : Str) (strip : List Str) : EnvCfg :=
  { c with pre := up p, stripped := strip.getLastD c.stripped }

/-- providers/env/env.go:51-103 (providers/flags/flags.go:49-91): the options of `New`; the last of the optional arguments counts. `WithCodec`
sets a field that nothing reads. -/
inductive EnvOpt where
  | withPrefix (p : Str) (strip : List Str)
  | withStorePrefix (p : Str)
  | withKeyCB (f : Option (Str → Str))
  | withLowerCase (b : List Bool)
  | withUnderlineToDot (b : List Bool)

/-- providers/env/env.go:51-103 (providers/flags/flags.go:49-91): what an option does. -/
def EnvCfg.opt (up : Str → Str) (c : EnvCfg) : EnvOpt → EnvCfg
  | .withPrefix p strip => c.withPrefix up p strip
  | .withStorePrefix p => { c with storePre := p }
  | .withKeyCB f => { c with cb := f }
  | .withLowerCase b => { c with lower := b.getLastD true }
  | .withUnderlineToDot b => { c with dots := b.getLastD true }

/-- providers/env/env.go:12-20 (providers/flags/flags.go:13-20) `New`: the defaults, then the options in order. -/
def EnvCfg.new (up lo : Str → Str) (os : List EnvOpt) : EnvCfg := os.foldl (EnvCfg.opt up) (EnvCfg.default lo)

/-- providers/env/env.go:106, 126 (providers/flags/flags.go:95, 110): `ReplaceAllString` of `([^_]*)_([^_])` by `$1.$2`. A match is a maximal run without '_', a
'_' and one more character that is not '_'; so the scan is left to right and takes two characters when it replaces. -/
def undersToDots : Str → Str
  | [] => []
  | [c] => [c]
  | c :: e :: r =>
    if c = '_' ∧ e ≠ '_' then '.' :: e :: undersToDots r
    else c :: undersToDots (e :: r)

namespace EnvCfg

/-- providers/env/env.go:114-133 (providers/flags/flags.go:97-117): the key for a name; `none` if it is filtered out. `k[:1]` panics on the empty string. -/
def keyFor (c : EnvCfg) (k : Str) : Go (Option Str) :=
  if c.pre ≠ [] ∧ c.pre.isPrefixOf k = false then .ok none
  else
    let k := if c.lower then c.lo k else k
    let k := if c.stripped ≠ [] then Remote.trimPrefix c.stripped k else k
    match (if c.dots then
        match k with
        | [] => .error .panic
        | a :: r => .ok (a :: undersToDots r)
      else .ok k : Go Str) with
    | .error e => .error e
    | .ok k =>
      let k := match c.cb with
        | some f => f k
        | none => k
      .ok (some (if c.storePre ≠ [] then c.storePre ++ '.' :: k else k))

/-- providers/env/env.go:110-137 (providers/flags/flags.go:96-131): the loop, for named values. -/
def collect (c : EnvCfg) : List Str → List (Str × ValPkg α κ) → List (Str × ValPkg α κ) → Go (List Str × List (Str × ValPkg α κ))
  | keys, m, [] => .ok (keys, m)
  | keys, m, (k, x) :: l =>
    match c.keyFor k with
    | .error e => .error e
    | .ok none => collect c keys m l
    | .ok (some k) => collect c (keys ++ [k]) (Ctx.put k x m) l

end EnvCfg

/-- providers/env/env.go:110-113: the variables of `os.Environ`: "name=value" with a non-empty name. -/
def cutEq (s : Str) : Option (Str × Str) :=
  match indexOf ['='] s with
  | some (n + 1) => some (s.take (n + 1), s.drop (n + 2))
  | _ => none

/-- The provider after `prepare`. (providers/env/env.go:105-141, providers/flags/flags.go:93-135.) -/
structure EnvProv (α κ : Type) where
  cfg : EnvCfg
  keys : List Str
  m : List (Str × ValPkg α κ)
  pos : Nat

/-- providers/env/env.go:105-141 `prepare` (providers/flags/flags.go:93-135), for the list of named values. -/
def EnvProv.prepare (c : EnvCfg) (l : List (Str × ValPkg α κ)) : Go (EnvProv α κ) :=
  match c.collect [] [] l with
  | .error e => .error e
  | .ok (keys, m) => .ok ⟨c, sortStrings keys, m, 0⟩

/-- providers/env/env.go:107: `os.Environ` gives the variables; the values are strings (`val`). -/
def EnvProv.env (c : EnvCfg) (val : Str → α) (environ : List Str) : Go (EnvProv α κ) :=
  prepare c ((environ.filterMap cutEq).map (fun a => (a.1, ⟨.atom (val a.2), [], [], .nil⟩)))

namespace EnvProv

/-- providers/env/env.go:152-158 (providers/flags/flags.go:146-152) `Next`: (key, eol). -/
def next (s : EnvProv α κ) : Go (EnvProv α κ × Str × Bool) :=
  if s.pos < s.keys.length then .ok (s, [], true)
  else match s.keys[s.pos]? with
    | some k => .ok ({ s with pos := s.pos + 1 }, k, false)
    | none => .error .panic

/-- providers/env/env.go:143-145 and providers/flags/flags.go:137-139 `Count`. -/
def count (s : EnvProv α κ) : Nat := s.keys.length
/-- providers/env/env.go:147-150 and providers/flags/flags.go:141-144 `Has`. -/
def has (s : EnvProv α κ) (k : Str) : Bool := (assoc s.m k).isSome

/-- providers/env/env.go:165-172 and providers/flags/flags.go:159-166 `Value`. -/
def value (s : EnvProv α κ) (k : Str) : Option (Any α κ) := (assoc s.m k).map (·.value)

/-- providers/env/env.go:187-190 and providers/flags/flags.go:189-192 `Read`. -/
def read (s : EnvProv α κ) : Store.Source α κ := .read s.m

/-- providers/env/env.go:205 `WithPosition`: called by load.go:388 if the option `WithPosition` is given to `Load`. -/
def withPosition (s : EnvProv α κ) (p : Str) : EnvProv α κ := { s with cfg := { s.cfg with storePre := p } }

end EnvProv
end Verif

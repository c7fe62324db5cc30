import Mathlib.Data.List.Basic
/-
internal/times/time.go: parsing a time with a list of layouts. `time.Parse` is a parameter.
-/
namespace Verif
namespace Times
variable {L S T E : Type}

/-- The result of `time.Parse`: the time and the error, if there is one (the time is the zero time then). (internal/times/time.go:60-72.) -/
structure Out (T E : Type) where
  tm : T
  err : Option E
  deriving DecidableEq, Repr

/-- internal/times/time.go:61-66, the loop; `o` is the state of `tm` and `err` before it. -/
def tryAll (parse : L → S → Out T E) (s : S) : List L → Out T E → Out T E
  | [], o => o
  | l :: ls, _ =>
    let o := parse l s
    match o.err with
    | none => o
    | some _ => tryAll parse s ls o

/-- internal/times/time.go:69-72: the list of layouts, nil before the first use, and whether `onceFormats` has fired. -/
structure Formats (L : Type) where
  list : List L
  once : Bool

/-- internal/times/time.go:74-124 `onceInitTimeFormats`; `builtin` is the list in the code. -/
def Formats.init (builtin : List L) (f : Formats L) : Formats L :=
  if f.once then f else ⟨builtin, true⟩

/-- Calls that matter to the list of layouts: internal/times/time.go:60-72, 128-132. -/
inductive Call (L S : Type)
  | parse (s : S)
  | add (ls : List L)

/-- internal/times/time.go:60-67 `SmartParseTime`, 128-131 `AddKnownTimeFormats`. Calls are taken one at a time: `knownDateTimeFormats` has no lock. -/
def step (parse : L → S → Out T E) (zero : T) (builtin : List L) (f : Formats L) : Call L S → Formats L × Option (Out T E)
  | .parse s => (f.init builtin, some (tryAll parse s (f.init builtin).list ⟨zero, none⟩))
  | .add ls => (⟨(f.init builtin).list ++ ls, true⟩, none)

/-- The state after a list of calls, from the start of the program. (internal/times/time.go:60-132.) -/
def after (parse : L → S → Out T E) (zero : T) (builtin : List L) (calls : List (Call L S)) : Formats L :=
  calls.foldl (fun f c => (step parse zero builtin f c).1) ⟨[], false⟩

/-- What `SmartParseTime` returns after these calls. (internal/times/time.go:60-72.) -/
def answer (parse : L → S → Out T E) (zero : T) (builtin : List L) (calls : List (Call L S)) (s : S) : Out T E :=
  tryAll parse s ((after parse zero builtin calls).init builtin).list ⟨zero, none⟩

/-- internal/times/time.go:9-19 `MustSmartParseTime`, `MustSmartParseTimePtr`. -/
def mustAnswer (parse : L → S → Out T E) (zero : T) (builtin : List L) (calls : List (Call L S)) (s : S) : T :=
  (answer parse zero builtin calls s).tm

end Times
end Verif

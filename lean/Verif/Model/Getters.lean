import Verif.Model.Trie
import Verif.Model.Bytes
/-
radix/cvter.go:677-2202: the typed getters. Compared mechanically: up to the conversion function and the declaration of the
local variables, every one of them has one of the shapes below. `conv` is the conversion (`converter.Int` and so on, from an external
package, possibly panicking), `zero` the zero value of the result type.
-/
namespace Verif
variable {α β : Type} [Inhabited α]

/-- `for _, v := range defaultVal { ret = v }`. (radix/cvter.go:677-2202.) -/
def lastDefault (zero : β) (defaults : List β) : β := defaults.foldl (fun _ v => v) zero

namespace View

/-- The shape of all getters of scalars and maps: radix/cvter.go:677-691 `GetString`, 741-754 `GetInt64`, …, 2178-2190 `GetTimeMap`; (value, err != nil). -/
def getTyped (conv : α → Go β) (zero : β) (v : View) (t : Tree α) (path : Str) (defaults : List β) : Go (β × Bool) :=
  match v.query t path with
  | .error e => .error e
  | .ok a =>
    if a.found && !a.notFoundErr then
      match conv a.data with
      | .error e => .error e
      | .ok x => .ok (x, a.notFoundErr)
    else if !a.found then .ok (lastDefault zero defaults, a.notFoundErr)
    else .ok (zero, a.notFoundErr)

/-- radix/cvter.go:693-703 `MustString`, …: without the error. -/
def mustTyped (conv : α → Go β) (zero : β) (v : View) (t : Tree α) (path : Str) (defaults : List β) : Go β :=
  match v.query t path with
  | .error e => .error e
  | .ok a =>
    if a.found && !a.notFoundErr then conv a.data
    else if !a.found then .ok (lastDefault zero defaults)
    else .ok zero

/-- radix/cvter.go:705-715 `GetStringSlice`, …: the default is the whole list; `none` is the nil slice (no defaults). -/
def getSlice (conv : α → Go (List β)) (v : View) (t : Tree α) (path : Str) (defaults : List β) : Go (List β × Bool) :=
  match v.query t path with
  | .error e => .error e
  | .ok a =>
    if a.found && !a.notFoundErr then
      match conv a.data with
      | .error e => .error e
      | .ok x => .ok (x, a.notFoundErr)
    else if !a.found then .ok (defaults, a.notFoundErr)
    else .ok ([], a.notFoundErr)

/-- radix/cvter.go:717-725 `MustStringSlice`, …, 2168-2176 `MustTimeSlice`. -/
def mustSlice (conv : α → Go (List β)) (v : View) (t : Tree α) (path : Str) (defaults : List β) : Go (List β) :=
  match v.query t path with
  | .error e => .error e
  | .ok a =>
    if a.found && !a.notFoundErr then conv a.data
    else if !a.found then .ok defaults
    else .ok []

/-- radix/cvter.go:1522-1533 `GetKibiBytes`, 1608-1619 `GetKiloBytes` (`from` is `FromKibiBytes` or `FromKiloBytes`). -/
def getBytes (conv : α → Go Str) (from' : Str → Go Nat) (v : View) (t : Tree α) (path : Str) (defaults : List Nat) :
    Go (Nat × Bool) :=
  match v.getTyped conv [] t path [[]] with
  | .error e => .error e
  | .ok (sz, err) =>
    if sz = [] || err then .ok (lastDefault 0 defaults, err)
    else match from' sz with
      | .error e => .error e
      | .ok n => .ok (n, err)

end View

/-- Go's conversion of an integer to the signed type of `n` bits: `int8(x)`, `int16(x)`, `int32(x)`. (radix/cvter.go:677-2202.) -/
def intN (n : Nat) (x : Int) : Int := x.bmod (2 ^ n)

/-- `uint8(x)`, `uint16(x)`, `uint32(x)`. (radix/cvter.go:677-2202.) -/
def uintN (n : Nat) (x : Nat) : Nat := x % 2 ^ n

namespace View

/-- radix/cvter.go: `GetInt`, `GetInt32`, `GetInt16`, `GetInt8`: `intN(converter.Int(data))`. -/
def getIntN (n : Nat) (conv : α → Go Int) (v : View) (t : Tree α) (path : Str) (defaults : List Int) : Go (Int × Bool) :=
  v.getTyped (fun x => (conv x).map (intN n)) 0 t path defaults

/-- radix/cvter.go: `GetUint`, `GetUint32`, `GetUint16`, `GetUint8`: `uintN(converter.Uint(data))`. -/
def getUintN (n : Nat) (conv : α → Go Nat) (v : View) (t : Tree α) (path : Str) (defaults : List Nat) : Go (Nat × Bool) :=
  v.getTyped (fun x => (conv x).map (uintN n)) 0 t path defaults

end View
end Verif

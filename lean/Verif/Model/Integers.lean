import Verif.Model.Bytes
/-
internal/times/integers.go: integers in the notations of Go. `strconv` is not part of the repository; `ParseUint` with base 0 is in
Model/Bytes.lean.
-/
namespace Verif
namespace Bytes

/-- `strconv.ParseInt(s, 0, 64)`: the number and whether err is nil. A syntax error of `ParseUint` comes with 0, a range error with the largest
number. -/
def parseInt (s : Str) : Int × Bool :=
  let neg := s.head? == some '-'
  let body := match s with
    | c :: r => if c = '-' ∨ c = '+' then r else c :: r
    | [] => []
  match parseUint body with
  | (0, false) => (0, false)
  | (n, _) =>
    if neg = false ∧ n ≥ 2 ^ 63 then (2 ^ 63 - 1, false)
    else if neg = true ∧ n > 2 ^ 63 then (-2 ^ 63, false)
    else (if neg then -(n : Int) else n, true)

/-- internal/times/integers.go:8-11 `SmartParseInt`; 14-17 `MustSmartParseInt` drops the error. -/
def smartInt (s : Str) : Int × Bool := parseInt s
/-- internal/times/integers.go:14-18 `MustSmartParseInt`. -/
def mustSmartInt (s : Str) : Int := (parseInt s).1

/-- internal/times/integers.go:20-23 `SmartParseUint`; 26-29 `MstSmartParseUint`. -/
def smartUint (s : Str) : Nat × Bool := parseUint s
/-- internal/times/integers.go:26-30 `MstSmartParseUint`. -/
def mustSmartUint (s : Str) : Nat := (parseUint s).1

end Bytes
end Verif

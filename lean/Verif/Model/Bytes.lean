import Verif.Model.Basic
/-
radix/cvter.go:1505-1675: sizes such as "2KiB" and "8M", and strconv.ParseUint as far as it is used there.
-/
namespace Verif
namespace Bytes

/-- `unicode.IsSpace`. (Used at radix/cvter.go:1541-1674.) -/
def isSpace (c : Char) : Bool :=
  let n := c.toNat
  (9 ≤ n && n ≤ 13) || n == 0x20 || n == 0x85 || n == 0xA0 || n == 0x1680 || (0x2000 ≤ n && n ≤ 0x200a) ||
    n == 0x2028 || n == 0x2029 || n == 0x202f || n == 0x205f || n == 0x3000

/-- `strings.TrimRightFunc`. (Used at radix/cvter.go:1541-1674.) -/
def trimRight (p : Char → Bool) (s : Str) : Str := (s.reverse.dropWhile p).reverse

/-- `strings.TrimSpace`. (Used at radix/cvter.go:1541-1674.) -/
def trimSpace (s : Str) : Str := trimRight isSpace (s.dropWhile isSpace)

/-- `lower` of strconv, which `underscoreOK` and `ParseUint` call (used at radix/cvter.go:1541-1674). -/
def lower (c : Char) : Char := if 'A' ≤ c ∧ c ≤ 'Z' then Char.ofNat (c.toNat + 32) else c

/-- The value of a digit in `strconv.ParseUint`. (Called at radix/cvter.go:1541-1674.) -/
def digitVal (c : Char) : Option Nat :=
  if c.isDigit then some (c.toNat - 48)
  else if 'a' ≤ lower c ∧ lower c ≤ 'z' then some ((lower c).toNat - 97 + 10)
  else none

/-- Result of `strconv.ParseUint`: the number and whether err is nil. (Used at radix/cvter.go:1541-1674.) -/
abbrev PU := Nat × Bool

/-- The loop of `strconv.ParseUint(s, 0, 64)` after the base has been found; the overflow tests of the code (cutoff
and wrapped sum) are `n * base + d > 2^64 - 1`. Also returns whether an underscore was seen. -/
def puLoop (base : Nat) : Nat → Bool → Str → PU × Bool
  | n, us, [] => ((n, true), us)
  | n, us, c :: s =>
    if c = '_' then puLoop base n true s
    else match digitVal c with
      | none => ((0, false), us)
      | some d =>
        if d ≥ base then ((0, false), us)
        else if n * base + d > 2 ^ 64 - 1 then ((2 ^ 64 - 1, false), us)
        else puLoop base (n * base + d) us s

/-- `strconv.underscoreOK`: the loop; the state is '^' (beginning), '0' (digit), '_' or '!'. (Called by `ParseUint` at radix/cvter.go:1541-1674.) -/
def usLoop (hex : Bool) : Char → Str → Bool
  | i, [] => i != '_'
  | i, c :: s =>
    if c.isDigit || (hex && 'a' ≤ lower c && lower c ≤ 'f') then usLoop hex '0' s
    else if c = '_' then if i != '0' then false else usLoop hex '_' s
    else if i = '_' then false
    else usLoop hex '!' s

/-- `strconv.underscoreOK` (called by `ParseUint` at radix/cvter.go:1541-1674). -/
def underscoreOK (s : Str) : Bool :=
  match s with
  | '0' :: c :: r =>
    if lower c = 'b' ∨ lower c = 'o' ∨ lower c = 'x' then usLoop (lower c = 'x') '0' r else usLoop false '^' s
  | _ => usLoop false '^' s

/-- The base prefix of `strconv.ParseUint(s, 0, 64)`. -/
def baseOf (s : Str) : Nat × Str :=
  match s with
  | '0' :: c :: c2 :: r =>
    if lower c = 'b' then (2, c2 :: r)
    else if lower c = 'o' then (8, c2 :: r)
    else if lower c = 'x' then (16, c2 :: r)
    else (8, c :: c2 :: r)
  | '0' :: r => (8, r)
  | _ => (10, s)

/-- `strconv.ParseUint(s, 0, 64)`. -/
def parseUint (s : Str) : PU :=
  if s = [] then (0, false)
  else match puLoop (baseOf s).1 0 false (baseOf s).2 with
    | ((n, ok), us) => if ok && us && !underscoreOK s then (0, false) else (n, ok)

/-- The letters of the units (radix/cvter.go:1541-1674). -/
def unitChars : Str := "kmgtpezyKMGTPEZY".toList

/-- radix/cvter.go:1567-1589 `fromKibiBytes`, 1653-1674 `fromKilobytes` (base 1024 or 1000). -/
def unitTimes (base : Nat) (c : Char) : Nat :=
  if c = 'k' ∨ c = 'K' then base
  else if c = 'm' ∨ c = 'M' then base ^ 2
  else if c = 'g' ∨ c = 'G' then base ^ 3
  else if c = 't' ∨ c = 'T' then base ^ 4
  else if c = 'p' ∨ c = 'P' then base ^ 5
  else if c = 'e' ∨ c = 'E' then base ^ 6
  else 1

/-- `[]rune(sz)[len(sz)-1]`: the index is a byte count. (radix/cvter.go:1541-1674.) -/
def lastRune (sz : Str) : Go Char :=
  match sz[(utf8 sz).length - 1]? with
  | some c => .ok c
  | none => .error .panic

/-- The common part of radix/cvter.go:1541-1565 and 1627-1651, after the byte suffix has been cut off. The branch for numbers
with a point uses `strconv.ParseFloat`: `pf` is its result `f` for the text, given as the function `uint64(f * float64(unit))`
of the unit; `none` is an error. -/
def fromUnits (base : Nat) (pf : Str → Option (Nat → Nat)) (sz : Str) : Go Nat :=
  let szr := trimSpace (trimRight (fun c => unitChars.contains c) sz)
  if szr.contains '.' then
    match pf szr with
    | none => .ok 0
    | some f => match lastRune sz with
      | .error e => .error e
      | .ok r => .ok (f (unitTimes base r))
  else match parseUint szr with
    | (n, false) => .ok n
    | (n, true) => match lastRune sz with
      | .error e => .error e
      | .ok r => .ok (n * unitTimes base r % 2 ^ 64)

/-- radix/cvter.go:1541-1565 `FromKibiBytes`. -/
def fromKibi (pf : Str → Option (Nat → Nat)) (s : Str) : Go Nat :=
  fromUnits 1024 pf (trimRight (fun c => c == 'i' || c == 'b') (trimRight (fun c => c == 'i' || c == 'B') (trimSpace s)))

/-- radix/cvter.go:1627-1651 `FromKiloBytes`. -/
def fromKilo (pf : Str → Option (Nat → Nat)) (s : Str) : Go Nat :=
  fromUnits 1000 pf (trimRight (fun c => c == 'b') (trimRight (fun c => c == 'B') (trimSpace s)))

end Bytes
end Verif

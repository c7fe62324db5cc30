import Verif.Model.Basic
import Mathlib.Data.Int.Log
import Mathlib.Data.Rat.Floor
/-
internal/times/dur.go: formatting and parsing of durations. A duration is an integer number of
nanoseconds between -2^63 and 2^63-1 (`time.Duration` is `int64`).
-/
namespace Verif
namespace Dur

/-- Rounding to the nearest integer, ties to even. (For the float64 arithmetic of internal/times/dur.go:249-251, 349, 396-421.) -/
def roundEven (q : ℚ) : ℤ :=
  if q - ⌊q⌋ < 1 / 2 then ⌊q⌋
  else if q - ⌊q⌋ > 1 / 2 then ⌊q⌋ + 1
  else if ⌊q⌋ % 2 = 0 then ⌊q⌋ else ⌊q⌋ + 1

/-- The `float64` nearest to a rational (53 bits of precision, ties to even). The exponent is unbounded. The only values here that leave the range
of `float64` come from a fraction with hundreds of digits, the first of them zeros: there `scale` is +Inf in Go and the fraction 0, as here. (For
internal/times/dur.go:249-251, 349, 396-421.) -/
def f64 (q : ℚ) : ℚ := roundEven (q / 2 ^ (Int.log 2 q - 52)) * 2 ^ (Int.log 2 q - 52)

/-- `uint64(float64(f) * (float64(unit) / scale))` (internal/times/dur.go:349): every operation is rounded. -/
def fracVal (f unit : Nat) (scale : ℚ) : Nat := ⌊f64 (f64 f * f64 (f64 unit / scale))⌋.toNat

/-- internal/times/dur.go:188-223: `byte(v%10) + '0'`. -/
def digit (n : Nat) : Char := Char.ofNat (48 + n)

/-- internal/times/dur.go:210-223 `fmtInt`: the loop for v > 0 (at most 20 digits for a uint64). -/
def intLoop : Nat → Nat → Str → Str
  | 0, _, out => out
  | n + 1, v, out => if v > 0 then intLoop n (v / 10) (digit (v % 10) :: out) else out

/-- internal/times/dur.go:210-223 `fmtInt`. -/
def fmtInt (v : Nat) (out : Str) : Str := if v = 0 then '0' :: out else intLoop 20 v out

/-- internal/times/dur.go:192-200: the loop of `fmtFrac`; (output, v, printed). -/
def fracLoop : Nat → Nat → Bool → Str → Str × Nat × Bool
  | 0, v, printed, out => (out, v, printed)
  | n + 1, v, printed, out =>
    fracLoop n (v / 10) (printed || v % 10 != 0)
      (if printed || v % 10 != 0 then digit (v % 10) :: out else out)

/-- internal/times/dur.go:188-206 `fmtFrac`. -/
def fmtFrac (v prec : Nat) (out : Str) : Str × Nat :=
  match fracLoop prec v false out with
  | (out, v, printed) => (if printed then '.' :: out else out, v)

/-- `time.Microsecond`, used at internal/times/dur.go:31-186. -/
def micro : Nat := 1000
/-- `time.Millisecond`, used at internal/times/dur.go:31-186. -/
def milli : Nat := 1000 * micro
/-- `time.Second`, used at internal/times/dur.go:31-186. -/
def second : Nat := 1000 * milli
/-- `time.Minute`, used at internal/times/dur.go:31-146. -/
def minute : Nat := 60 * second
/-- `time.Hour`, used at internal/times/dur.go:31-146. -/
def hour : Nat := 60 * minute

/-- internal/times/dur.go:157-182 `fmtMsec` writing in front of `out`. -/
def fmtMsec (u : Nat) (out : Str) : Str :=
  if u = 0 then '0' :: out
  else if u < micro then
    match fmtFrac u 0 ('n' :: out) with
    | (out, u) => fmtInt u out
  else if u < milli then
    match fmtFrac u 3 ('µ' :: out) with
    | (out, u) => fmtInt u out
  else
    match fmtFrac u 6 ('m' :: out) with
    | (out, u) => fmtInt u out

/-- One of the parts `12d`, `3h`, … which is written only if it is positive. (internal/times/dur.go:31-146.) -/
def part (n : Nat) (unit out : Str) : Str := if n > 0 then fmtInt n (unit ++ out) else out

/-- The text written by `shortDurFormat` (internal/times/dur.go:31-146), before the sign. The code fills the buffer
from its end, so every step writes in front of `out`. (The guards `u >= unit` of the divisions in the non-fraction
mode are kept in `divs`.) -/
def divs (u unit : Nat) : Nat × Nat := if u ≥ unit then (u / unit, u % unit) else (0, u)

/-- internal/times/dur.go:31-146 `shortDurFormat` with `useFrac`, from one second on. -/
def fmtFracMode (u : Nat) : Str :=
  match fmtFrac u 9 ['s'] with
  | (out, u) =>
    let out := fmtInt (u % 60) out
    let u := u / 60
    if u > 0 then
      let out := fmtInt (u % 60) ('m' :: out)
      let u := u / 60
      if u > 0 then fmtInt u ('h' :: out) else out
    else out

/-- internal/times/dur.go:31-146 `shortDurFormat` without `useFrac`, from one second on. -/
def fmtParts (u : Nat) : Str :=
  let (days, u) := divs u (24 * hour)
  let (hours, u) := divs u hour
  let (minutes, u) := divs u minute
  let (seconds, u) := divs u second
  let (ms, u) := divs u milli
  let (us, u) := divs u micro
  part days ['d'] (part hours ['h'] (part minutes ['m'] (part seconds ['s']
    (part ms ['m', 's'] (part us ['µ', 's'] (part u ['n', 's'] []))))))

/-- internal/times/dur.go:31-146 `shortDurFormat` without the sign. -/
def fmtAbs (u : Nat) (frac : Bool) : Str :=
  if u < second then fmtMsec u ['s']
  else if frac then fmtFracMode u
  else fmtParts u

/-- internal/times/dur.go:23-29 `SmartDurationStringEx`: the buffer has 32 bytes; writing before its start is a run-time
panic (index or slice bound out of range). -/
def format (d : Int) (frac : Bool) : Go Str :=
  let s := if d < 0 then '-' :: fmtAbs d.natAbs frac else fmtAbs d.natAbs frac
  if (utf8 s).length ≤ 32 then .ok s else .error .panic

/-- internal/times/dur.go:373-391 `leadingInt`; `none` is the error. (Bytes in Go: the bytes of a multi-byte rune are
never digits.) -/
def leadingInt : Nat → Str → Option (Nat × Str)
  | x, [] => some (x, [])
  | x, c :: s =>
    if !c.isDigit then some (x, c :: s)
    else if x > 2 ^ 63 / 10 then none
    else if x * 10 + (c.toNat - 48) > 2 ^ 63 then none
    else leadingInt (x * 10 + (c.toNat - 48)) s

/-- internal/times/dur.go:396-422 `leadingFraction`; (x, scale, rest). `scale` is a float64. -/
def leadingFraction : Nat → ℚ → Bool → Str → Nat × ℚ × Str
  | x, scale, _, [] => (x, scale, [])
  | x, scale, overflow, c :: s =>
    if !c.isDigit then (x, scale, c :: s)
    else if overflow then leadingFraction x scale true s
    else if x > (2 ^ 63 - 1) / 10 then leadingFraction x scale true s
    else if x * 10 + (c.toNat - 48) > 2 ^ 63 then leadingFraction x scale true s
    else leadingFraction (x * 10 + (c.toNat - 48)) (f64 (scale * 10)) false s

/-- internal/times/dur.go:424-434 `unitMap`. -/
def unitOf (u : Str) : Option Nat :=
  if u = ['n', 's'] then some 1
  else if u = ['u', 's'] then some micro
  else if u = ['µ', 's'] then some micro
  else if u = ['μ', 's'] then some micro
  else if u = ['m', 's'] then some milli
  else if u = ['s'] then some second
  else if u = ['m'] then some minute
  else if u = ['h'] then some hour
  else if u = ['d'] then some (24 * hour)
  else none

/-- internal/times/dur.go:271-368 `ParseDuration`: the characters that a unit consists of. -/
def unitChar (c : Char) : Bool := !(c == '.' || c.isDigit)

/-- internal/times/dur.go:313-320: the optional fraction; (f, scale, rest, post). -/
def optFrac (s : Str) : Nat × ℚ × Str × Bool :=
  match s with
  | [] => (0, 1, [], false)
  | c :: s2 =>
    if c = '.' then
      match leadingFraction 0 1 false s2 with
      | (f, scale, s3) => (f, scale, s3, s3.length != s2.length)
    else (0, 1, c :: s2, false)

/-- internal/times/dur.go:294-359: one round of the loop, the amount added to `d` and the rest of the text. -/
def parseStep (s : Str) : Option (Nat × Str) :=
  match s with
  | [] => none
  | c :: _ =>
    if unitChar c then none
    else match leadingInt 0 s with
      | none => none
      | some (v, s1) =>
        let (f, scale, s2, post) := optFrac s1
        if s1.length = s.length && !post then none
        else
          let u := s2.takeWhile unitChar
          let rest := s2.dropWhile unitChar
          if u = [] then none
          else match unitOf u with
            | none => none
            | some unit =>
              if v > 2 ^ 63 / unit then none
              else if f > 0 then
                if (v * unit + fracVal f unit scale) % 2 ^ 64 > 2 ^ 63 then none
                else some ((v * unit + fracVal f unit scale) % 2 ^ 64, rest)
              else some (v * unit % 2 ^ 64, rest)

/-- internal/times/dur.go:294-362: the loop; each round consumes at least one rune. -/
def parseLoop : Nat → Nat → Str → Option Nat
  | _, d, [] => some d
  | 0, _, _ :: _ => none
  | n + 1, d, s@(_ :: _) =>
    match parseStep s with
    | none => none
    | some (v, rest) => if (d + v) % 2 ^ 64 > 2 ^ 63 then none else parseLoop n ((d + v) % 2 ^ 64) rest

/-- internal/times/dur.go:271-368 `ParseDuration`; `none` is an error. The loop leaves d ≤ 2^63, for which
`-time.Duration(d)` is the negated number (also for 2^63 in int64 arithmetic). -/
def parse (s : Str) : Option Int :=
  let neg := s.head? == some '-'
  let s := match s with
    | c :: r => if c = '-' ∨ c = '+' then r else c :: r
    | [] => []
  if s = ['0'] then some 0
  else if s = [] then none
  else match parseLoop s.length 0 s with
    | none => none
    | some d => if neg then some (-(d : Int)) else if d > 2 ^ 63 - 1 then none else some d

/-- internal/times/dur.go:253-261 `MustParseDuration`; an error returns the duration 0 (internal/times/dur.go:268-365). -/
def mustParse (s : Str) : Int := (parse s).getD 0

/-- `f64` for numbers of either sign. (internal/times/dur.go:249-251.) -/
def f64s (q : ℚ) : ℚ := if q < 0 then -f64 (-q) else f64 q

/-- The conversion of a float64 to an int64 cuts off the fraction. Out of range its result depends on the processor: `none`.
(internal/times/dur.go:249-251.) -/
def toInt64 (q : ℚ) : Option Int :=
  let z : Int := if q < 0 then -⌊-q⌋ else ⌊q⌋
  if -2 ^ 63 ≤ z ∧ z < 2 ^ 63 then some z else none

/-- internal/times/dur.go:249-251 `DurationFromFloat`, for the finite float64 `f`. -/
def fromFloat (f : ℚ) : Option Int := toInt64 (f64s (f * f64 second))

end Dur
end Verif

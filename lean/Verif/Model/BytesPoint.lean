import Verif.Model.Bytes
import Verif.Model.Dur
/-
radix/cvter.go:1554-1558 and 1640-1644: sizes with a decimal point, and strconv.ParseFloat as far as digits with a point go.
-/
namespace Verif
namespace Bytes

/-- The integer of the digits, as `strconv.readFloat` collects them. (Called at radix/cvter.go:1554-1558 and 1640-1644.) -/
def mantissa (s : Str) : Nat := s.foldl (fun n c => n * 10 + (c.toNat - 48)) 0

/-- `strconv.ParseFloat` before rounding, for digits with a point among them: the mantissa and the power of ten. (Called at radix/cvter.go:1554-1558
and 1640-1644.) -/
def pointVal (s : Str) : Option ℚ :=
  match s.span Char.isDigit with
  | (a, '.' :: b) => if b.all Char.isDigit ∧ (a ≠ [] ∨ b ≠ []) then some (mantissa (a ++ b) / 10 ^ b.length) else none
  | _ => none

/-- The conversion `uint64(f)` cuts off the fraction; out of range the result depends on the processor: `oob`. (radix/cvter.go:1554-1558 and
1640-1644.) -/
def toUint64 (oob : ℚ → Nat) (f : ℚ) : Nat :=
  if 0 ≤ f ∧ f < 2 ^ 64 then ⌊f⌋.toNat else oob f

/-- radix/cvter.go:1555-1557 and 1641-1643: `strconv.ParseFloat` and `uint64(if64 * float64(unit))`. `other` stands for texts that are not just
digits and a point: signs, exponents, `0x1.8p3`, errors. A number out of range is an error. A number too small to be represented is 0 in Go and
positive here; the size is 0 both ways. -/
def parsePoint (oob : ℚ → Nat) (other : Str → Option (Nat → Nat)) (s : Str) : Option (Nat → Nat) :=
  match pointVal s with
  | some q => if 2 ^ 1024 ≤ Dur.f64 q then none else some (fun unit => toUint64 oob (Dur.f64 (Dur.f64 q * Dur.f64 unit)))
  | none => other s

end Bytes
end Verif

import Verif.Model.Export
/-
internal/times/quote.go: how the error messages of `ParseDuration` show their input. Go strings are byte lists here.
-/
namespace Verif

/-- internal/times/quote.go:42: `lowerhex`. -/
def lowerhex (n : UInt8) : UInt8 := if n < 10 then 48 + n else 87 + n

/-- internal/times/quote.go:25-27: one byte as `\xhh`. -/
def hexByte (b : UInt8) : List UInt8 := [92, 120, lowerhex (b >>> 4), lowerhex (b &&& 15)]

/-- internal/times/quote.go:16-23: how many bytes are escaped; `s` is what is left of the string, `c` the rune that `range` sees.
The bytes 239, 191, 189 are `string(runeError)`. -/
def quoteWidth (c : Char) (s : List UInt8) : Nat :=
  if c = '�' then (if s.take 3 = [239, 191, 189] then 3 else 1) else c.utf8Size

/-- internal/times/quote.go:6-34: the loop `for i, c := range s`, which steps over one rune, or over one byte if there is no valid
rune. The escaped bytes are `s[i], …, s[i+width-1]`. -/
def quoteFuel : Nat → List UInt8 → List UInt8
  | 0, _ => []
  | _, [] => []
  | n + 1, b :: bs =>
    let (c, size) := match ByteArray.utf8DecodeChar? (b :: bs).toByteArray 0 with
      | some c => (c, c.utf8Size)
      | none => ('�', 1)
    (if 128 ≤ c.toNat ∨ c.toNat < 32 then ((b :: bs).take (quoteWidth c (b :: bs))).flatMap hexByte
     else (if c = '"' ∨ c = '\\' then [92] else []) ++ String.utf8EncodeChar c) ++
      quoteFuel n ((b :: bs).drop size)

/-- internal/times/quote.go:3-37 `quote`. -/
def quote (s : List UInt8) : List UInt8 := 34 :: (quoteFuel s.length s ++ [34])

end Verif

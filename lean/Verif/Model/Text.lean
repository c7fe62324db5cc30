import Verif.Model.Trie
/-
radix/trie.go:58-69, 258-280, store.go:114-132: String and MarshalJSON.
-/
namespace Verif

/-- radix/trie.go:58-69 `RecusiveMode.String` for the three modes. -/
def Mode.str : Mode → Str
  | .none => "None".toList
  | .up => "Up".toList
  | .down => "Down".toList

/-- A digit of `lowerhex` (strconv). (For `strconv.Quote`, called at radix/trie.go:273.) -/
def hexDigit (n : Nat) : Char := if n < 10 then Char.ofNat (48 + n) else Char.ofNat (87 + n)

/-- The last `k` hexadecimal digits of `n`. (For `strconv.Quote`, called at radix/trie.go:273.) -/
def hexDigits : Nat → Nat → Str
  | 0, _ => []
  | k + 1, n => hexDigits k (n / 16) ++ [hexDigit (n % 16)]

/-- `strconv.appendEscapedRune` with the quote `"`; `isPrint` is `strconv.IsPrint`. (For `strconv.Quote`, called at radix/trie.go:273.) -/
def escapeRune (isPrint : Char → Bool) (c : Char) : Str :=
  if c = '"' || c = '\\' then ['\\', c]
  else if isPrint c then [c]
  else if c.toNat = 7 then ['\\', 'a']
  else if c.toNat = 8 then ['\\', 'b']
  else if c.toNat = 12 then ['\\', 'f']
  else if c.toNat = 10 then ['\\', 'n']
  else if c.toNat = 13 then ['\\', 'r']
  else if c.toNat = 9 then ['\\', 't']
  else if c.toNat = 11 then ['\\', 'v']
  else if c.toNat < 32 || c.toNat = 127 then ['\\', 'x'] ++ hexDigits 2 c.toNat
  else if c.toNat < 0x10000 then ['\\', 'u'] ++ hexDigits 4 c.toNat
  else ['\\', 'U'] ++ hexDigits 8 c.toNat

/-- `strconv.Quote` of valid UTF-8. (Called at radix/trie.go:273.) -/
def goQuote (isPrint : Char → Bool) (s : Str) : Str := '"' :: s.flatMap (escapeRune isPrint) ++ ['"']

namespace View

/-- radix/trie.go:258-268 `String`. -/
def string (v : View) : Str :=
  "Trie{\"".toList ++ (v.pre ++ ("\", delimiter:'".toList ++ (v.delim :: ("', r:".toList ++ (v.mode.str ++ "}".toList)))))

/-- radix/trie.go:270-280 `MarshalJSON`. -/
def json (isPrint : Char → Bool) (v : View) : Str :=
  "\"trie\":{\"prefix\":".toList ++ (goQuote isPrint v.pre ++ (",\"delimiter\":\"".toList ++
    (v.delim :: ("\", \"recursive-mode\":\"".toList ++ (v.mode.str ++ "\"}".toList)))))

end View

/-- store.go:114-120 `String`. -/
def storeString (v : View) : Str := "Store{".toList ++ (v.string ++ "}".toList)

/-- store.go:122-132 `MarshalJSON`. -/
def storeJSON (isPrint : Char → Bool) (v : View) : Str := '{' :: (v.json isPrint ++ ['}'])

end Verif

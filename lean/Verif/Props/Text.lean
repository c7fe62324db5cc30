import Verif.Model.Text
import Verif.Spec.Json
/-
C61: what `String` and `MarshalJSON` say about a store.
-/
namespace Verif
open Json

/-! Helper lemmas. -/

theorem Json.string_quote (r : Str) : Json.string ('"' :: r) = some ([], r) := by simp [Json.string]

theorem Json.string_char {c : Char} (r : Str) (h1 : c ≠ '"') (h2 : c ≠ '\\') (h3 : 32 ≤ c.toNat) :
    Json.string (c :: r) = (Json.string r).map (fun x => (c :: x.1, x.2)) := by
  rw [Json.string]
  · simp [h2]; omega
  · exact h1
  · intro a b c d r h _; exact h2 h
  · intro a r h; exact absurd h h2

theorem Json.string_control {c : Char} (r : Str) (h3 : c.toNat < 32) : Json.string (c :: r) = none := by
  rw [Json.string]
  · simp [h3]
  · rintro rfl; revert h3; decide
  · rintro a b c d r rfl _; revert h3; decide
  · rintro a r rfl _; revert h3; decide

theorem Json.string_escape {c : Char} (r : Str) (h : c ≠ 'u') :
    Json.string ('\\' :: c :: r) =
      match simpleEscape c with
      | some c => (Json.string r).map (fun x => (c :: x.1, x.2))
      | none => none := by
  rw [Json.string]
  · rfl
  · intro a b c' d r' h' _; exact h h'

/-- Characters a JSON string may contain as they are. -/
def Json.plainChar (c : Char) : Bool := c ≠ '"' && c ≠ '\\' && 32 ≤ c.toNat

theorem Json.string_lit {l : Str} (r : Str) (h : l.all Json.plainChar = true) :
    Json.string (l ++ '"' :: r) = some (l, r) := by
  induction l with
  | nil => simp [Json.string_quote]
  | cons c l ih =>
    simp [Json.plainChar] at h
    rw [List.cons_append, Json.string_char _ h.1.1.1 h.1.1.2 h.1.2, ih (by simpa [Json.plainChar] using h.2)]
    rfl

theorem hexVal_hexDigit {n : Nat} (h : n < 16) : hexVal (hexDigit n) = some n := by
  revert h; revert n; decide

theorem hexDigits_four (n : Nat) :
    hexDigits 4 n = [hexDigit (n / 16 / 16 / 16 % 16), hexDigit (n / 16 / 16 % 16), hexDigit (n / 16 % 16), hexDigit (n % 16)] := by
  simp [hexDigits]

theorem Json.string_u {c : Char} (r : Str) (h : c.toNat < 0x10000) :
    Json.string (['\\', 'u'] ++ hexDigits 4 c.toNat ++ r) = (Json.string r).map (fun x => (c :: x.1, x.2)) := by
  rw [hexDigits_four]
  simp only [List.cons_append, List.nil_append, Json.string, hexVal_hexDigit (Nat.mod_lt _ (by decide : 0 < 16))]
  have e : ((c.toNat / 16 / 16 / 16 % 16 * 16 + c.toNat / 16 / 16 % 16) * 16 + c.toNat / 16 % 16) * 16 + c.toNat % 16 = c.toNat := by omega
  rw [e]
  have hv : c.toNat < 0xD800 ∨ 0xDFFF < c.toNat := by
    have := c.valid
    simp [UInt32.isValidChar, Nat.isValidChar] at this
    rcases this with h | h
    · left; exact h
    · right; exact h.1
  rw [if_neg (by omega), Char.ofNat_toNat]

/-- What is known about `strconv.IsPrint` (Go's documentation): of the ASCII characters it accepts those from space to tilde. -/
def AsciiPrint (isPrint : Char → Bool) : Prop := ∀ c, c.toNat < 128 → isPrint c = decide (32 ≤ c.toNat ∧ c.toNat < 127)

theorem AsciiPrint.ge {ip : Char → Bool} (hp : AsciiPrint ip) {c : Char} (h : ip c = true) : 32 ≤ c.toNat := by
  by_cases hc : c.toNat < 128
  · have := hp c hc; rw [h] at this; simp at this; omega
  · omega

/-- The characters whose escape by `strconv.Quote` is one of JSON: quotation mark and backslash, printable ones, five of the control characters,
and the others of the basic plane behind ASCII. -/
def jsonSafe (isPrint : Char → Bool) (c : Char) : Bool :=
  c = '"' || c = '\\' || isPrint c || c.toNat = 8 || c.toNat = 9 || c.toNat = 10 || c.toNat = 12 || c.toNat = 13 ||
    (128 ≤ c.toNat && c.toNat < 0x10000)

theorem string_simple {c e : Char} (r : Str) (h : simpleEscape e = some c) (he : e ≠ 'u') :
    Json.string (['\\', e] ++ r) = (Json.string r).map (fun x => (c :: x.1, x.2)) := by
  rw [List.cons_append, List.cons_append, List.nil_append, Json.string_escape _ he, h]

theorem string_bad {e : Char} (r : Str) (h : simpleEscape e = none) (he : e ≠ 'u') :
    Json.string ('\\' :: e :: r) = none := by
  rw [Json.string_escape _ he, h]

theorem string_safe {ip : Char → Bool} (hp : AsciiPrint ip) {c : Char} (r : Str) (h : jsonSafe ip c) :
    Json.string (escapeRune ip c ++ r) = (Json.string r).map (fun x => (c :: x.1, x.2)) := by
  have key : ∀ n : Nat, c.toNat = n → c = Char.ofNat n := by rintro n rfl; simp
  unfold escapeRune
  by_cases h1 : (c = '"' || c = '\\') = true
  · rw [if_pos h1]
    simp at h1
    rcases h1 with rfl | rfl
    · exact string_simple r (by decide) (by decide)
    · exact string_simple r (by decide) (by decide)
  rw [if_neg h1]
  simp at h1
  by_cases h2 : ip c = true
  · rw [if_pos h2]; exact Json.string_char _ h1.1 h1.2 (hp.ge h2)
  rw [if_neg h2]
  have hs : c.toNat = 8 ∨ c.toNat = 9 ∨ c.toNat = 10 ∨ c.toNat = 12 ∨ c.toNat = 13 ∨ (128 ≤ c.toNat ∧ c.toNat < 0x10000) := by
    simpa [jsonSafe, h1, h2, or_assoc] using h
  rw [if_neg (by omega)]
  by_cases h4 : c.toNat = 8
  · rw [if_pos h4]; exact string_simple r (by rw [key _ h4]; decide) (by decide)
  rw [if_neg h4]
  by_cases h5 : c.toNat = 12
  · rw [if_pos h5]; exact string_simple r (by rw [key _ h5]; decide) (by decide)
  rw [if_neg h5]
  by_cases h6 : c.toNat = 10
  · rw [if_pos h6]; exact string_simple r (by rw [key _ h6]; decide) (by decide)
  rw [if_neg h6]
  by_cases h7 : c.toNat = 13
  · rw [if_pos h7]; exact string_simple r (by rw [key _ h7]; decide) (by decide)
  rw [if_neg h7]
  by_cases h8 : c.toNat = 9
  · rw [if_pos h8]; exact string_simple r (by rw [key _ h8]; decide) (by decide)
  rw [if_neg h8, if_neg (by omega), if_neg (by simp; omega), if_pos (by omega)]
  exact Json.string_u _ (by omega)

theorem string_unsafe {ip : Char → Bool} (hp : AsciiPrint ip) {c : Char} (r : Str) (h : jsonSafe ip c = false) :
    Json.string (escapeRune ip c ++ r) = none := by
  unfold escapeRune
  simp only [jsonSafe, Bool.or_eq_false_iff] at h
  obtain ⟨⟨⟨⟨⟨⟨⟨⟨a1, a2⟩, a3⟩, a4⟩, a5⟩, a6⟩, a7⟩, a8⟩, a9⟩ := h
  simp at a1 a2 a4 a5 a6 a7 a8 a9
  rw [if_neg (by simp [a1, a2]), if_neg (by simp [a3])]
  by_cases h7 : c.toNat = 7
  · rw [if_pos h7]; exact string_bad r (by decide) (by decide)
  rw [if_neg h7, if_neg a4, if_neg a7, if_neg a6, if_neg a8, if_neg a5]
  by_cases h11 : c.toNat = 11
  · rw [if_pos h11]; exact string_bad r (by decide) (by decide)
  rw [if_neg h11]
  by_cases hx : (c.toNat < 32 || c.toNat = 127) = true
  · rw [if_pos hx]; exact string_bad _ (by decide) (by decide)
  rw [if_neg hx]
  simp at hx
  have hge : ¬ c.toNat < 128 := by
    intro hlt; have := hp c hlt; rw [a3] at this; simp at this; omega
  rw [if_neg (by omega)]
  exact string_bad _ (by decide) (by decide)

theorem string_quote_safe {ip : Char → Bool} (hp : AsciiPrint ip) (s r : Str) (h : s.all (jsonSafe ip) = true) :
    Json.string (s.flatMap (escapeRune ip) ++ '"' :: r) = some (s, r) := by
  induction s with
  | nil => simp [Json.string_quote]
  | cons c s ih =>
    simp only [List.all_cons, Bool.and_eq_true] at h
    rw [List.flatMap_cons, List.append_assoc, string_safe hp _ h.1, ih h.2]; rfl

theorem string_quote_unsafe {ip : Char → Bool} (hp : AsciiPrint ip) (s r : Str) (h : s.all (jsonSafe ip) = false) :
    Json.string (s.flatMap (escapeRune ip) ++ '"' :: r) = none := by
  induction s with
  | nil => simp at h
  | cons c s ih =>
    rw [List.flatMap_cons, List.append_assoc]
    cases hc : jsonSafe ip c with
    | true =>
      rw [string_safe hp _ hc, ih (by simpa [hc] using h)]; rfl
    | false => exact string_unsafe hp _ hc
theorem mode_plain (m : Mode) : m.str.all Json.plainChar = true := by cases m <;> decide

theorem ws_noop {c : Char} (r : Str) (h : (c = ' ' || c = '\t' || c = '\n' || c = '\r') = false) : ws (c :: r) = c :: r := by
  simp [ws, h]

theorem lit1 : "\"trie\":{\"prefix\":".toList = ['"', 't', 'r', 'i', 'e', '"', ':', '{', '"', 'p', 'r', 'e', 'f', 'i', 'x', '"', ':'] := by rfl
theorem lit2 : ",\"delimiter\":\"".toList = [',', '"', 'd', 'e', 'l', 'i', 'm', 'i', 't', 'e', 'r', '"', ':', '"'] := by rfl
theorem lit3 : "\", \"recursive-mode\":\"".toList = ['"', ',', ' ', '"', 'r', 'e', 'c', 'u', 'r', 's', 'i', 'v', 'e', '-', 'm', 'o', 'd', 'e', '"', ':', '"'] := by rfl
theorem lit4 : "\"}".toList = ['"', '}'] := by rfl
theorem lit5 : "trie".toList = ['t', 'r', 'i', 'e'] := by rfl
theorem lit6 : "prefix".toList = ['p', 'r', 'e', 'f', 'i', 'x'] := by rfl
theorem lit7 : "delimiter".toList = ['d', 'e', 'l', 'i', 'm', 'i', 't', 'e', 'r'] := by rfl
theorem lit8 : "recursive-mode".toList = ['r', 'e', 'c', 'u', 'r', 's', 'i', 'v', 'e', '-', 'm', 'o', 'd', 'e'] := by rfl

/-- The part of the text behind the opening quotation mark of the mode, of the delimiter, of the prefix. -/
def tail4 (v : View) : Str := v.mode.str ++ ['"', '}', '}']
def tail3 (v : View) : Str := v.delim :: '"' :: ',' :: ' ' :: '"' :: ("recursive-mode".toList ++ '"' :: ':' :: '"' :: tail4 v)
def tail2 (ip : Char → Bool) (v : View) : Str :=
  v.pre.flatMap (escapeRune ip) ++ '"' :: ',' :: '"' :: ("delimiter".toList ++ '"' :: ':' :: '"' :: tail3 v)

theorem storeJSON_eq (ip : Char → Bool) (v : View) :
    storeJSON ip v = '{' :: '"' :: ("trie".toList ++ '"' :: ':' :: '{' :: '"' :: ("prefix".toList ++ '"' :: ':' :: '"' :: tail2 ip v)) := by
  unfold storeJSON View.json goQuote tail2 tail3 tail4
  simp only [lit1, lit2, lit3, lit4, lit5, lit6, lit7, lit8, List.cons_append, List.nil_append, List.append_assoc]

theorem value_brace (n : Nat) (t : Str) :
    value (n + 1) ('{' :: '"' :: t) = (members n ('"' :: t)).map (fun x => (.obj x.1, x.2)) := by
  rw [value, ws_noop (c := '{') _ (by decide)]
  simp only [ws_noop (c := '"') _ (by decide)]
  rfl

theorem members_val {k t : Str} (hk : k.all Json.plainChar = true) (n : Nat) :
    members (n + 1) ('"' :: (k ++ '"' :: ':' :: t)) =
      match value n t with
      | none => none
      | some (v, r) =>
        match ws r with
        | '}' :: r => some ([(k, v)], r)
        | ',' :: r => (members n r).map (fun x => ((k, v) :: x.1, x.2))
        | _ => none := by
  rw [members, ws_noop (c := '"') _ (by decide)]
  simp only [Json.string_lit _ hk, ws_noop (c := ':') _ (by decide)]
  rfl

theorem value_str (n : Nat) (t : Str) : value (n + 1) ('"' :: t) = (Json.string t).map (fun x => (.str x.1, x.2)) := by
  rw [value, ws_noop (c := '"') _ (by decide)]
  rfl

theorem plain_keys : ("trie".toList.all Json.plainChar = true ∧ "prefix".toList.all Json.plainChar = true) ∧
    "delimiter".toList.all Json.plainChar = true ∧ "recursive-mode".toList.all Json.plainChar = true := by
  rw [lit5, lit6, lit7, lit8]; decide

theorem value_store (ip : Char → Bool) (v : View) (n : Nat) :
    value (n + 3) (storeJSON ip v) =
      (members (n + 2) ('"' :: ("trie".toList ++ '"' :: ':' :: '{' :: '"' :: ("prefix".toList ++ '"' :: ':' :: '"' :: tail2 ip v)))).map
        (fun x => (.obj x.1, x.2)) := by
  rw [storeJSON_eq, value_brace]

theorem prefix_safe {ip : Char → Bool} (hp : AsciiPrint ip) {v : View} (h : v.pre.all (jsonSafe ip) = true) (n : Nat) :
    members (n + 2) ('"' :: ("prefix".toList ++ '"' :: ':' :: '"' :: tail2 ip v)) =
      (members (n + 1) ('"' :: ("delimiter".toList ++ '"' :: ':' :: '"' :: tail3 v))).map
        (fun x => (("prefix".toList, .str v.pre) :: x.1, x.2)) := by
  rw [members_val plain_keys.1.2, value_str, tail2, string_quote_safe hp _ _ h]
  simp only [Option.map_some, ws_noop (c := ',') _ (by decide)]

theorem prefix_unsafe {ip : Char → Bool} (hp : AsciiPrint ip) {v : View} (h : v.pre.all (jsonSafe ip) = false) (n : Nat) :
    members (n + 2) ('"' :: ("prefix".toList ++ '"' :: ':' :: '"' :: tail2 ip v)) = none := by
  rw [members_val plain_keys.1.2, value_str, tail2, string_quote_unsafe hp _ _ h]
  rfl

theorem delim_safe {v : View} (h : Json.plainChar v.delim = true) (n : Nat) :
    members (n + 4) ('"' :: ("delimiter".toList ++ '"' :: ':' :: '"' :: tail3 v)) =
      some ([("delimiter".toList, .str [v.delim]), ("recursive-mode".toList, .str v.mode.str)], ['}']) := by
  rw [members_val plain_keys.2.1, value_str, tail3]
  have e := Json.string_lit (l := [v.delim]) (',' :: ' ' :: '"' :: ("recursive-mode".toList ++ '"' :: ':' :: '"' :: tail4 v)) (by simpa using h)
  rw [List.cons_append, List.nil_append] at e
  rw [e]
  simp only [Option.map_some, ws_noop (c := ',') _ (by decide)]
  have e2 : members (n + 3) (' ' :: '"' :: ("recursive-mode".toList ++ '"' :: ':' :: '"' :: tail4 v)) =
      members (n + 3) ('"' :: ("recursive-mode".toList ++ '"' :: ':' :: '"' :: tail4 v)) := by
    rw [members, members, ws, ws]; rfl
  rw [e2, members_val plain_keys.2.2, value_str, tail4, Json.string_lit _ (mode_plain _)]
  rfl

theorem delim_unsafe {v : View} (h : Json.plainChar v.delim = false) (n : Nat) :
    members (n + 4) ('"' :: ("delimiter".toList ++ '"' :: ':' :: '"' :: tail3 v)) = none := by
  rw [members_val plain_keys.2.1, value_str, tail3]
  simp only [Json.plainChar, Bool.and_eq_false_iff] at h
  rcases h with (h | h) | h
  · simp at h
    rw [h, Json.string_quote]; rfl
  · simp at h
    rw [h, lit8]
    rfl
  · simp at h
    rw [Json.string_control _ h]; rfl

theorem storeJSON_length (ip : Char → Bool) (v : View) : ∃ n, (storeJSON ip v).length + 1 = n + 8 := by
  refine ⟨(storeJSON ip v).length - 7, ?_⟩
  have : 7 ≤ (storeJSON ip v).length := by
    rw [storeJSON_eq, lit5]; simp
  omega

theorem store_none {ip : Char → Bool} {v : View} {n : Nat}
    (h : members n ('"' :: ("prefix".toList ++ '"' :: ':' :: '"' :: tail2 ip v)) = none) :
    value (n + 3) (storeJSON ip v) = none := by
  rw [value_store, members_val plain_keys.1.1, value_brace, h]
  rfl

theorem store_some {ip : Char → Bool} {v : View} {n : Nat} {l : List (Str × Json)}
    (h : members n ('"' :: ("prefix".toList ++ '"' :: ':' :: '"' :: tail2 ip v)) = some (l, ['}'])) :
    value (n + 3) (storeJSON ip v) = some (.obj [("trie".toList, .obj l)], []) := by
  rw [value_store, members_val plain_keys.1.1, value_brace, h]
  rfl

theorem parse_none {s : Str} (h : value (s.length + 1) s = none) : parse s = none := by
  unfold parse; rw [h]

theorem json_pre {ip : Char → Bool} (hp : AsciiPrint ip) {v : View} (hpre : v.pre.all (jsonSafe ip) = false) :
    parse (storeJSON ip v) = none := by
  obtain ⟨n, hn⟩ := storeJSON_length ip v
  apply parse_none
  rw [hn]
  exact store_none (prefix_unsafe hp hpre _)

theorem json_delim {ip : Char → Bool} (hp : AsciiPrint ip) {v : View} (hpre : v.pre.all (jsonSafe ip) = true)
    (hd : Json.plainChar v.delim = false) : parse (storeJSON ip v) = none := by
  obtain ⟨n, hn⟩ := storeJSON_length ip v
  apply parse_none
  rw [hn]
  apply store_none
  rw [prefix_safe hp hpre, delim_unsafe hd]
  rfl

/-! ### Statements -/

/-- What a text of the store has to say: an object with the prefix, the delimiter and the mode of the view. -/
def jsonOf (v : View) : Json :=
  .obj [("trie".toList, .obj [("prefix".toList, .str v.pre), ("delimiter".toList, .str [v.delim]), ("recursive-mode".toList, .str v.mode.str)])]

/-- Missing for the full claim: all other prefixes and delimiters, where the claim is false (`C61_json_iff`).

`MarshalJSON` of a store gives a JSON text that reads back as prefix, delimiter and mode, if the characters of the prefix are such that
Go's quoting is JSON's and the delimiter needs no escape. -/
theorem C61_json_partial {ip : Char → Bool} (hp : AsciiPrint ip) {v : View} (hpre : v.pre.all (jsonSafe ip) = true)
    (hd : Json.plainChar v.delim = true) : parse (storeJSON ip v) = some (jsonOf v) := by
  obtain ⟨n, hn⟩ := storeJSON_length ip v
  have h := store_some (ip := ip) (v := v) (n := n + 5) (by rw [prefix_safe hp hpre, delim_safe hd]; rfl)
  unfold parse
  rw [hn, h]
  rfl

/-- In every other case what it gives is not a JSON text. -/
theorem C61_json_iff {ip : Char → Bool} (hp : AsciiPrint ip) {v : View} :
    (∃ j, parse (storeJSON ip v) = some j) ↔ v.pre.all (jsonSafe ip) = true ∧ Json.plainChar v.delim = true := by
  constructor
  · rintro ⟨j, hj⟩
    cases hpre : v.pre.all (jsonSafe ip) with
    | false => exact absurd (hj.symm.trans (json_pre hp hpre)) (by simp)
    | true =>
      cases hd : Json.plainChar v.delim with
      | true => exact ⟨rfl, rfl⟩
      | false => exact absurd (hj.symm.trans (json_delim hp hpre hd)) (by simp)
  · rintro ⟨h1, h2⟩; exact ⟨_, C61_json_partial hp h1 h2⟩

/-- The text of a trie by itself is never one: it lacks the braces. -/
theorem C61_trie_fails (ip : Char → Bool) (v : View) : parse (v.json ip) = none := by
  have e : v.json ip = '"' :: ("trie".toList ++ '"' :: ':' :: '{' :: '"' :: ("prefix".toList ++ '"' :: ':' ::
      (goQuote ip v.pre ++ (",\"delimiter\":\"".toList ++
    (v.delim :: ("\", \"recursive-mode\":\"".toList ++ (v.mode.str ++ "\"}".toList))))))) := by
    unfold View.json
    simp only [lit1, lit5, lit6, List.cons_append, List.nil_append]
  unfold parse
  generalize hl : (v.json ip).length = n
  rw [e, value_str, Json.string_lit _ plain_keys.1.1]
  simp only [Option.map_some, ws_noop (c := ':') _ (by decide)]
  rfl

theorem string_inj {v w : View} (h : v.string = w.string) : v = w := by
  obtain ⟨p, d, m⟩ := v
  obtain ⟨p', d', m'⟩ := w
  unfold View.string at h
  have h := List.append_cancel_left h
  have hm : m = m' := by
    have := congrArg (fun l => l.reverse.take 2) h
    simp only [List.reverse_append, List.reverse_cons, List.append_assoc] at this
    revert this
    cases m <;> cases m' <;> simp [Mode.str]
  subst hm
  have h2 := congrArg List.reverse h
  simp only [List.reverse_append, List.reverse_cons, List.append_assoc] at h2
  have h3 := List.append_cancel_left (List.append_cancel_left (List.append_cancel_left h2))
  simp only [List.cons_append, List.nil_append, List.cons.injEq] at h3
  have h4 := List.append_cancel_left h3.2
  rw [List.reverse_inj] at h4
  rw [h4, h3.1]

/-- `String` tells stores apart: the same text means the same prefix, delimiter and mode. -/
theorem C61_string {v w : View} (h : storeString v = storeString w) : v = w := by
  unfold storeString at h
  exact string_inj (List.append_cancel_right (List.append_cancel_left h))

/-! A prefix with a quotation mark, a backslash, a line feed and a letter that is not ASCII; a prefix with a bell; a backslash or a quotation
mark as the delimiter. -/

def P0 (c : Char) : Bool := (32 ≤ c.toNat && c.toNat < 127) || (0xA1 ≤ c.toNat && c.toNat < 0x300)

theorem P0_ascii : AsciiPrint P0 := by
  intro c hc
  have : ¬ 0xA1 ≤ c.toNat := by omega
  simp [P0, this]

example : parse (storeJSON P0 ⟨"a\"\\\né".toList, '.', .up⟩) = some (jsonOf ⟨"a\"\\\né".toList, '.', .up⟩) :=
  C61_json_partial P0_ascii (by decide +kernel) (by decide +kernel)
example : (storeJSON P0 ⟨"a\"\né".toList, '.', .up⟩) =
    "{\"trie\":{\"prefix\":\"a\\\"\\né\",\"delimiter\":\".\", \"recursive-mode\":\"Up\"}}".toList := by decide +kernel
example : storeString ⟨"a.b".toList, '/', .none⟩ = "Store{Trie{\"a.b\", delimiter:'/', r:None}}".toList := by decide +kernel

theorem C61_bell_fails : parse (storeJSON P0 ⟨[Char.ofNat 7], '.', .none⟩) = none := by
  cases h : parse (storeJSON P0 ⟨[Char.ofNat 7], '.', .none⟩) with
  | none => rfl
  | some j => exact absurd ((C61_json_iff P0_ascii).mp ⟨j, h⟩).1 (by decide +kernel)
theorem C61_delim_fails : parse (storeJSON P0 (View.new '\\')) = none ∧ parse (storeJSON P0 (View.new '"')) = none := by
  constructor
  · cases h : parse (storeJSON P0 (View.new '\\')) with
    | none => rfl
    | some j => exact absurd ((C61_json_iff P0_ascii).mp ⟨j, h⟩).2 (by decide +kernel)
  · cases h : parse (storeJSON P0 (View.new '"')) with
    | none => rfl
    | some j => exact absurd ((C61_json_iff P0_ascii).mp ⟨j, h⟩).2 (by decide +kernel)

end Verif

import Verif.Model.Basic
/-
JSON texts (RFC 8259), as far as needed: strings and objects.
-/
namespace Verif

inductive Json where
  | str (s : Str)
  | obj (l : List (Str × Json))

namespace Json

def hexVal (c : Char) : Option Nat :=
  if '0' ≤ c ∧ c ≤ '9' then some (c.toNat - 48)
  else if 'a' ≤ c ∧ c ≤ 'f' then some (c.toNat - 87)
  else if 'A' ≤ c ∧ c ≤ 'F' then some (c.toNat - 55)
  else none

/-- The escapes of RFC 8259 section 7 besides `\u`. -/
def simpleEscape (c : Char) : Option Char :=
  if c = '"' then some '"' else if c = '\\' then some '\\' else if c = '/' then some '/'
  else if c = 'b' then some (Char.ofNat 8) else if c = 'f' then some (Char.ofNat 12) else if c = 'n' then some '\n'
  else if c = 'r' then some '\r' else if c = 't' then some '\t' else none

/-- A string after its opening quotation mark: its characters, and the text behind the closing one. (A surrogate half is read as a replacement
character by itself.) -/
def string : Str → Option (Str × Str)
  | [] => none
  | '"' :: r => some ([], r)
  | '\\' :: 'u' :: a :: b :: c :: d :: r =>
    match hexVal a, hexVal b, hexVal c, hexVal d with
    | some a, some b, some c, some d =>
      let n := ((a * 16 + b) * 16 + c) * 16 + d
      (string r).map (fun x => ((if 0xD800 ≤ n ∧ n < 0xE000 then Char.ofNat 0xFFFD else Char.ofNat n) :: x.1, x.2))
    | _, _, _, _ => none
  | '\\' :: c :: r =>
    match simpleEscape c with
    | some c => (string r).map (fun x => (c :: x.1, x.2))
    | none => none
  | c :: r => if c = '\\' || c.toNat < 32 then none else (string r).map (fun x => (c :: x.1, x.2))

/-- White space (section 2). -/
def ws : Str → Str
  | [] => []
  | c :: r => if c = ' ' || c = '\t' || c = '\n' || c = '\r' then ws r else c :: r

mutual
/-- A value; `n` bounds the depth of the recursion. -/
def value : Nat → Str → Option (Json × Str)
  | 0, _ => none
  | n + 1, s =>
    match ws s with
    | '"' :: r => (string r).map (fun x => (.str x.1, x.2))
    | '{' :: r =>
      match ws r with
      | '}' :: r => some (.obj [], r)
      | r => (members n r).map (fun x => (.obj x.1, x.2))
    | _ => none
/-- The members of an object, up to its closing brace. -/
def members : Nat → Str → Option (List (Str × Json) × Str)
  | 0, _ => none
  | n + 1, s =>
    match ws s with
    | '"' :: r =>
      match string r with
      | none => none
      | some (k, r) =>
        match ws r with
        | ':' :: r =>
          match value n r with
          | none => none
          | some (v, r) =>
            match ws r with
            | '}' :: r => some ([(k, v)], r)
            | ',' :: r => (members n r).map (fun x => ((k, v) :: x.1, x.2))
            | _ => none
        | _ => none
    | _ => none
end

/-- A text. -/
def parse (s : Str) : Option Json :=
  match value (s.length + 1) s with
  | some (v, r) => if ws r = [] then some v else none
  | none => none

end Json
end Verif

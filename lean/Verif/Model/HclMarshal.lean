import Verif.Model.Basic
/-
codecs/hcl/hcl.go:59-179: `Marshal` of the HCL codec, as far as the tree of blocks and attributes that hclwrite then prints.
-/
namespace Verif
namespace HclMarshal

/-- The values Go hands over, by the cases of the switches: `stringer s` has a method `String` that gives `s`, `int` are the five signed and `uint` the
five unsigned integer types, `map` is `map[string]any` (in the order in which `range` goes through it), `other` is anything else that is not a slice:
floats, nil, structs, other maps. (codecs/hcl/hcl.go:59-179.) -/
inductive Val
  | stringer (s : Str)
  | bool (b : Bool)
  | str (s : Str)
  | int (i : Int)
  | uint (n : Nat)
  | slice (l : List Val)
  | map (m : List (Str × Val))
  | other

/-- The types of cty that occur; `zero` is `cty.Type{}`. (codecs/hcl/hcl.go:59-179.) -/
inductive Ty
  | bool | str | num | zero
  | list (t : Ty)
  deriving DecidableEq, Repr

/-- `cty.Value`; `nil` is the zero value, which hclwrite prints as `null`. (codecs/hcl/hcl.go:59-179.) -/
inductive Cty
  | bool (b : Bool)
  | str (s : Str)
  | num (i : Int)
  | list (l : List Cty)
  | nil

/-- Type of a value of cty. `ListValEmpty(cty.Type{})` has elements of the zero type. (codecs/hcl/hcl.go:59-179.) -/
def Cty.ty : Cty → Ty
  | .bool _ => .bool
  | .str _ => .str
  | .num _ => .num
  | .list [] => .list .zero
  | .list (x :: _) => .list x.ty
  | .nil => .zero

/-- `cty.ListVal` panics when it gets no values or values of different types. (Called at codecs/hcl/hcl.go:59-179.) -/
def listVal : List Cty → Except Unit Cty
  | [] => .error ()
  | x :: xs => if xs.all (fun y => y.ty = x.ty) then .ok (.list (x :: xs)) else .error ()

mutual
/-- codecs/hcl/hcl.go:59-111 `ctyValue`: the value, and whether an error is returned; `.error` is a panic. The order of the cases is that of the code. -/
def ctyValue : Val → Except Unit (Cty × Bool)
  | .stringer s => .ok (.str s, false)
  | .bool b => .ok (.bool b, false)
  | .str s => .ok (.str s, false)
  | .int i => .ok (.num i, false)
  | .uint n => .ok (.num n, false)
  | .slice [] => .ok (.list [], false)
  | .slice (x :: xs) => match ctyValues (x :: xs) with
    | .error e => .error e
    | .ok vs => match listVal vs with
      | .error e => .error e
      | .ok c => .ok (c, false)
  | .map _ => .ok (.nil, true)
  | .other => .ok (.nil, true)
/-- codecs/hcl/hcl.go:93-101: the loop. The `err` assigned in it is the one of the `if`, which ends there. -/
def ctyValues : List Val → Except Unit (List Cty)
  | [] => .ok []
  | x :: xs => match ctyValue x with
    | .error e => .error e
    | .ok (c, err) => match ctyValues xs with
      | .error e => .error e
      | .ok cs => .ok (if err then cs else c :: cs)
end

/-- What a body contains. (codecs/hcl/hcl.go:59-179.) -/
inductive Item
  | attr (c : Cty)
  | block (b : List (Str × Item))

/-- The body of a block or of the file: codecs/hcl/hcl.go:59-179. -/
abbrev Body := List (Str × Item)

/-- `Body.SetAttributeValue`: replaces the value of the attribute of that name, or appends one. (Called at codecs/hcl/hcl.go:59-179.) -/
def setAttr (k : Str) (c : Cty) : Body → Body
  | [] => [(k, .attr c)]
  | (k', .attr c') :: r => if k' = k then (k, .attr c) :: r else (k', .attr c') :: setAttr k c r
  | x :: r => x :: setAttr k c r

mutual
/-- codecs/hcl/hcl.go:113-127 `fill` of one entry; the error of `ctyValue` is wrapped and dropped (`err` is not used after 123). -/
def fill1 (body : Body) (k : Str) : Val → Except Unit Body
  | .map m => match fill [] m with
    | .error e => .error e
    | .ok b => .ok (body ++ [(k, .block b)])
  | v => match ctyValue v with
    | .error e => .error e
    | .ok (c, _) => .ok (setAttr k c body)
/-- codecs/hcl/hcl.go:129-133 `fill`. -/
def fill (body : Body) : List (Str × Val) → Except Unit Body
  | [] => .ok body
  | (k, v) :: m => match fill1 body k v with
    | .error e => .error e
    | .ok body' => fill body' m
end

/-- codecs/hcl/hcl.go:136-179 `Marshal`: the body, and whether an error is returned (`err = nil`). -/
def marshal (m : List (Str × Val)) : Except Unit (Body × Bool) :=
  match fill [] m with
  | .error e => .error e
  | .ok b => .ok (b, false)

end HclMarshal
end Verif

import Verif.Model.Race
/-
radix/trie.go:702-758 and radix/node.go:346-468 as a program with a program counter: a goroutine looks up a key
while others insert. It writes to no node, so that readers do not disturb each other.
-/
namespace Verif
namespace Race
variable {α : Type} [Inhabited α]

/-- The loops over the children that are still running: the children not yet tried and the rest of the key. (radix/trie.go:702-758,
radix/node.go:346-468.) -/
abbrev Stack := List (List Nat × Str)

/-- Where a goroutine stands in `Query`. (radix/trie.go:702-758, radix/node.go:346-468.) -/
inductive Rd (α : Type) where
  /-- radix/node.go:347, called with `word` for the node `i` -/
  | enter (word : Str) (i : Nat) (stk : Stack)
  /-- 355-361, with `l` as read at 347 and `srcMatchedL = k` -/
  | cmp (word : Str) (i l k : Nat) (stk : Stack)
  /-- 442 -/
  | tail (word : Str) (i l : Nat) (stk : Stack)
  /-- 450: `len(base.children) == 0` -/
  | kids (word : Str) (i l : Nat) (stk : Stack)
  /-- 460: `range base.children` is evaluated -/
  | range (word : Str) (i l : Nat) (stk : Stack)
  /-- a call returns `matched`, `partialMatched` and `child` -/
  | ret (m p : Bool) (child : Option Nat) (stk : Stack)
  /-- radix/trie.go:709: `node.isBranch()` -/
  | branch (i : Nat)
  /-- 711: `node.endsWith(s.delimiter)` -/
  | ends (i : Nat)
  /-- 715: `node.hasData()` -/
  | has (i : Nat) (br found : Bool)
  /-- 717: `node.data` -/
  | data (i : Nat) (br found : Bool)
  | done (a : View.Ans α)
  /-- a run-time panic -/
  | crash

/-- One step; none of them changes the memory. Simplified: the patterns at 368-433 are left out (in the theorems
there are none in the trie); `endsWith` reads the path once. -/
def rstep (d : Char) (M : Mem α) : Rd α → Rd α
  | .enter word i stk => if word = [] then .ret true false (some i) stk else .cmp word i (M i).path.length 0 stk
  | .cmp word i l k stk =>
    if k < min l word.length then
      match (M i).path[k]? with
      | none => .crash
      | some ch => if word[k]? = some ch then .cmp word i l (k + 1) stk else .ret false false none stk
    else .tail word i l stk
  | .tail word i l stk =>
    if word.length + 1 = l then
      match (M i).path[word.length]? with
      | none => .crash
      | some ch => if ch = d then .ret true false (some i) stk else .ret false true (some i) stk
    else if word.length < l then .ret false true (some i) stk
    else if l < word.length then .kids word i l stk
    else .ret true false (some i) stk
  | .kids word i l stk =>
    if (M i).kids = [] then .ret false true (if l > 0 then some i else none) stk else .range word i l stk
  | .range word i l stk =>
    match (M i).kids with
    | [] => .ret (decide (l > 0)) false (if l > 0 then some i else none) stk
    | js => .ret false false none ((js, word.drop l) :: stk)
  | .ret m p child stk =>
    if m || p then
      match child, p with
      | some i, false => .branch i
      | _, _ => .done ⟨default, false, false, true⟩
    else match stk with
      | [] => .done ⟨default, false, false, true⟩
      | ([], _) :: stk => .ret false false none stk
      | (j :: js, w) :: stk => .enter w j ((js, w) :: stk)
  | .branch i => if (M i).core.isBranch then .ends i else .has i false true
  | .ends i => .has i true ((M i).path.getLast? == some d)
  | .has i br found => if (M i).core.hasData then .data i br found else .done ⟨default, br, found, !found⟩
  | .data i br found => .done ⟨(M i).core.data, br, found, !found⟩
  | .done a => .done a
  | .crash => .crash

/-- The reader and the writers run as the scheduler decides; `none` is a step of the reader. (radix/trie.go:702-758, radix/node.go:346-468.) -/
def watch (d : Char) (Js : Nat → Job α) : World α × Rd α → List (Option Nat) → World α × Rd α
  | s, [] => s
  | (W, r), none :: S => watch d Js (W, rstep d W.mem r) S
  | (W, r), some k :: S => watch d Js (W.tick Js k, r) S

end Race
end Verif

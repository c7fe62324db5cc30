import Verif.Model.Export
/-
radix/cvter.go:551-576: `To` and `GetSectionFrom`.
-/
namespace Verif
variable {α κ : Type}

/-- radix/cvter.go:555-576 `To`, 551-553 `GetSectionFrom`. `copy` is what evendeep's `CopyTo` (542-548 `reloadIntoStruct`) makes of the
holder, and whether it succeeds. The result is the holder afterwards and whether err is nil. -/
def View.to {H : Type} (copy : SMap α κ → H → H × Bool) (v : View) (t : Tree (Any α κ)) (path : Str) (holder : Option H) (o : MOpts α κ) :
    Go (Option H × Bool) :=
  match holder with
  | none => .ok (none, true)
  | some h =>
    match v.getM t path o with
    | .error e => .error e
    | .ok (some ret) =>
      let r := copy (splitCompactKeys v.delim ret) h
      .ok (some r.1, r.2)
    | .ok none =>
      match v.getR t path with
      | .error e => .error e
      | .ok (some ret) =>
        let r := copy (splitCompactKeys v.delim ret) h
        .ok (some r.1, r.2)
      | .ok none => .ok (some h, true)

end Verif

import Verif.Lemmas.RaceDumpNew
import Verif.Props.RaceDump
/-
C117: dumping the trie after all calls have returned, also of `Remove`.
-/
namespace Verif
namespace Parts
variable {α : Type} [Inhabited α]
open Prune (Cell Mem Up)

section
variable {K : Str → Prop} {v : View} {t : Tree α} {as : List (Act α)}

/-- **C117** If all calls of `Set` and `Remove` have returned when the dumping begins, the text is the dump of the trie that is then in memory: the trie
of C109, in which every key that was set has its value, nothing is left at or below what was removed, and all else is as it was. -/
theorem C117_after (F : DumpFmt α) (nc : Bool) (h : Reach K t) (hp : t.Plain v.delim) (hm : v.mode ≠ .up) (ht : Prune.Tidy v t (calls as)) (hj : Joins v t as) (S0 : List Nat)
    (hall : ∀ (k : Nat) a, as[k]? = some a → told a ≠ none → ((runs t (each v as) S0).gs k).outs ≠ []) :
    ∃ t' : Tree α, t'.OK ∧
      (∀ p x, .set p x ∈ as → t'.contents (View.dash (v.full p)) = some (held (View.dash (v.full p)) x (t.contents (View.dash (v.full p))))) ∧
      (∀ q, Gone v t as q → t'.contents q = none) ∧
      (∀ q, ¬ Gone v t as q → (∀ p x, .set p x ∈ as → View.dash (v.full p) ≠ q) → t'.contents q = t.contents q) ∧
      ∃ N, ∀ S, (N ≤ S.count none → (dumps F nc t (each v as) S0 S).1 = .done) ∧
        ((dumps F nc t (each v as) S0 S).1 = .done → (dumps F nc t (each v as) S0 S).2 = t'.dump F nc) := by
  have hok := h.ok
  obtain ⟨site, B, X, hB⟩ := blended hok hp hm ht hj
  obtain ⟨s0, ext0, g0, I0⟩ := hB S0
  obtain ⟨t', hH, hrid, okT, c1, c2, c3⟩ := blend_tree hok hp hm ht hj X I0 hall
  have hg : ∀ q, Gone v t as q ↔ Prune.Struck v t (calls as) (calls as).length q := by
    intro q
    constructor
    · rintro ⟨c, P, y, u, hc, htk, hu, hq⟩
      obtain ⟨i, hi⟩ := List.mem_iff_getElem?.mp hc
      exact ⟨i, c, P, y, u, (List.getElem?_eq_some_iff.mp hi).1, hi, htk, hu, hq⟩
    · rintro ⟨i, c, P, y, u, _, hi, htk, hu, hq⟩
      exact ⟨c, P, y, u, List.mem_of_getElem? hi, htk, hu, hq⟩
  refine ⟨t', okT, c1, fun q hq => c2 q ((hg q).mp hq), fun q hq => c3 q fun e => hq ((hg q).mpr e), ?_⟩
  let M := (runs t (each v as) S0).mem
  have hconst : ∀ L' : List Nat, (runs t (each v as) (S0 ++ L')).mem = M := by
    intro L'
    have key : ∀ R : List Nat, (runs t (each v as) (S0 ++ R.reverse)).mem = M := by
      intro R
      induction R with
      | nil => simp only [List.reverse_nil, List.append_nil]; rfl
      | cons k R ih =>
        rw [List.reverse_cons, ← List.append_assoc]
        refine (fresh_still hok hp hm ht hj _ (fun k a ha ho e => ?_) k).trans ih
        have := run_outs t.root.id (2 * (each v as).length) k R.reverse (runs t (each v as) S0)
        rw [← runs_append, e] at this
        exact hall k a ha ho (List.prefix_nil.mp this)
    have := key L'.reverse
    rwa [List.reverse_reverse] at this
  obtain ⟨N, hN⟩ := ucleads_walk F nc t'.root [] fun q m hm => ⟨(hH q m hm).1, (hH q m hm).2.1, (hH q m hm).2.2⟩
  refine ⟨N + 1, fun S => ?_⟩
  obtain ⟨h1, h2⟩ := dumping_leads (F := F) (nc := nc) (root := t.root.id) (gap := 2 * (each v as).length) (T := S0 ++ S.filterMap id)
    (R := fun _ _ : Unit => True) (ms := fun _ => M)
    (Q := fun r => r.1 = .done ∧ r.2 = t'.dump F nc)
    (J := fun L W _ => S0 <+: L ∧ W = runs t (each v as) L) (fun _ => trivial) (fun _ _ _ _ _ => trivial)
    (fun L W _ hJ => by
      obtain ⟨⟨L', rfl⟩, rfl⟩ := hJ
      exact hconst L')
    (fun L W _ k hJ _ => by
      obtain ⟨h3, rfl⟩ := hJ
      exact ⟨(), trivial, h3.trans (List.prefix_append _ _), (run_snoc _ _ _ _ _).symm⟩)
    (fun e he => he.1) S (s := ()) ⟨List.prefix_refl _, rfl⟩ rfl
    (hrid ▸ (hN [] []).trans (fun _ => trivial) (fun _ _ _ _ _ => trivial) (by
      rintro s' r _ rfl
      exact (show ULeads _ _ _ _ _ 1 s' _ from .inr fun s1 _ => .now ⟨rfl, by simp [ustep, Tree.dump]⟩ _)))
  exact ⟨h1, fun hd => (h2 hd).2⟩

end

section examples
open Race (top three three_reach three_plain)

/-- `a.x` and `a.log.level` are set, `db.host` is removed; then the dumping begins. -/
example : ∃ t' : Tree Nat, t'.OK ∧
    (∀ p x, .set p x ∈ joining → t'.contents (View.dash (top.full p)) = some (held (View.dash (top.full p)) x (three.contents (View.dash (top.full p))))) ∧
    (∀ q, Gone top three joining q → t'.contents q = none) ∧
    (∀ q, ¬ Gone top three joining q → (∀ p x, .set p x ∈ joining → View.dash (top.full p) ≠ q) → t'.contents q = three.contents q) ∧
    ∃ N, ∀ S, (N ≤ S.count none → (dumps plainFmt true three (each top joining) (List.replicate 60 [0, 1, 2]).flatten S).1 = .done) ∧
      ((dumps plainFmt true three (each top joining) (List.replicate 60 [0, 1, 2]).flatten S).1 = .done →
        (dumps plainFmt true three (each top joining) (List.replicate 60 [0, 1, 2]).flatten S).2 = t'.dump plainFmt true) :=
  C117_after _ _ three_reach three_plain.plain (by decide) joining_tidy joining_joins _ (fun k a ha ho => by
    match k, ha with
    | 0, _ => decide +kernel
    | 1, _ => decide +kernel
    | 2, _ => decide +kernel
    | n + 3, ha => cases ha)

/-- The line of the dump for the node of `xyz` at a path. -/
def lineOf (lvl : Nat) (p : String) : List UInt8 :=
  match (xyz.root.nodes []).find? (fun x => x.1 = p.toList) with
  | some (_, n) => dumpLine plainFmt true lvl n
  | none => []

/-- **C117** Beside `Remove` it fails. `Remove` shifts the slice of children while the dumping goroutine runs over it with the old length: the text has the line of `a.z` twice, and that of `a.y`,
which nobody removes, is missing. -/
theorem C117_remove_fails : xyz.dump plainFmt true = lineOf 0 "" ++ lineOf 1 "a." ++ lineOf 2 "a.x" ++ lineOf 2 "a.y" ++ lineOf 2 "a.z" ∧
    lineOf 2 "a.y" ≠ lineOf 2 "a.z" ∧
    ∃ S : List (Option Nat), dumps plainFmt true xyz (each top [.remove "a.x".toList]) [] S =
      (.done, lineOf 0 "" ++ lineOf 1 "a." ++ lineOf 2 "a.x" ++ lineOf 2 "a.z" ++ lineOf 2 "a.z") :=
  ⟨by decide +kernel, by decide +kernel, List.replicate 11 none ++ List.replicate 30 (some 0) ++ List.replicate 60 none, by decide +kernel⟩

end examples
end Parts
end Verif

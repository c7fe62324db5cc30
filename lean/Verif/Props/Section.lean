import Verif.Model.Section
import Verif.Props.SubExport
import Verif.Props.Save
/-
C56: `To` and `GetSectionFrom`.
-/
namespace Verif
variable {α κ : Type}

/-! ## Splitting keys twice -/

theorem split_topKeys (d : Char) (m : SMap α κ) : TopKeys d (splitCompactKeys d m) := by
  have : ∀ (m acc : SMap α κ), TopKeys d acc →
      TopKeys d (m.foldl (fun out a => if d ∈ a.1 then submap out (splitOn d a.1) a.2 else mput out a.1 a.2) acc) := by
    intro m
    induction m with
    | nil => exact fun _ h => h
    | cons a m ih =>
      intro acc h
      rw [List.foldl_cons]
      refine ih _ ?_
      split
      · exact h.sub (splitOn_pieces d a.1) a.2
      · rename_i hd
        exact h.put hd a.2
  exact this m [] (by simp [TopKeys])

theorem split_split (d : Char) (m : SMap α κ) : splitCompactKeys d (splitCompactKeys d m) = splitCompactKeys d m :=
  (split_topKeys d m).split

/-- Asking for nested maps is splitting the result. -/
theorem getM_noFlatten (v : View) (t : Tree (Any α κ)) (p : Str) (o : MOpts α κ) :
    v.getM t p { o with noFlatten := true } = (v.getM t p o).map (Option.map (splitCompactKeys v.delim)) := by
  obtain ⟨k, nf, f⟩ := o
  have hr : ∀ l, rootStep v.delim l (⟨k, true, f⟩ : MOpts α κ) = rootStep v.delim l ⟨k, nf, f⟩ := fun l => rfl
  have hp : ∀ a b, pathStep v.delim a b (⟨k, true, f⟩ : MOpts α κ) = pathStep v.delim a b ⟨k, nf, f⟩ := fun a b => rfl
  unfold View.getM
  simp only [hr, hp]
  split
  · cases foldGo (rootStep v.delim (utf8 v.pre).length ⟨k, nf, f⟩) [] t.root.walk with
    | error e => rfl
    | ok ret => cases nf <;> simp [Except.map, split_split]
  · cases v.locate t p with
    | error e => rfl
    | ok y =>
      obtain ⟨n, br, pm, found⟩ := y
      simp only
      split
      · cases n with
        | none => rfl
        | some n => cases nf <;> simp [Except.map, split_split]
      · rfl

/-! ## The property -/

/-- **C56** `To(p, holder)` gives the copier the map that `GetM(p)` returns with nested keys; when there is no such map the holder stays
as it is. Nothing else is ever used: the code's second attempt with `GetR` has no effect. -/
theorem C56_section {H : Type} (copy : SMap α κ → H → H × Bool) (v : View) (t : Tree (Any α κ)) (p : Str) (h : H) (o : MOpts α κ) :
    v.to copy t p (some h) o = (v.getM t p { o with noFlatten := true }).map
      (fun | some m => (some (copy m h).1, (copy m h).2) | none => (some h, true)) := by
  rw [getM_noFlatten]
  unfold View.to
  simp only
  cases hg : v.getM t p o with
  | error e => rfl
  | ok y =>
    cases y with
    | some m => rfl
    | none =>
      simp only [Except.map, Option.map_none]
      have : v.getR t p = .ok none := by
        unfold View.getM at hg
        unfold View.getR
        simp only at hg
        split at hg
        · split at hg <;> simp at hg
        · rename_i hp
          rw [if_neg hp]
          cases hl : v.locate t p with
          | error e => rw [hl] at hg; simp at hg
          | ok y =>
            obtain ⟨n, br, pm, found⟩ := y
            rw [hl] at hg
            simp only at hg ⊢
            split at hg
            · cases n <;> simp at hg
            · rename_i hf
              rw [if_neg hf]
      rw [this]

/-- **C56** Without a holder nothing happens. -/
theorem C56_no_holder {H : Type} (copy : SMap α κ → H → H × Bool) (v : View) (t : Tree (Any α κ)) (p : Str) (o : MOpts α κ) :
    v.to copy t p none o = .ok (none, true) := rfl

/-- **C56** `To("", holder)` on a store without prefix: the copier gets all leaf entries, nested by the components of their paths. -/
theorem C56_root {H : Type} (copy : SMap α κ → H → H × Bool) {P : Str → Prop} {v : View} {t : Tree (Any α κ)} (h : Reach P t)
    (hpre : v.pre = []) (hv : ∀ k x, Exported t v.delim (fun _ => true) k x → x.isMap = false) (y : H) :
    ∃ m, v.to copy t [] (some y) MOpts.default = .ok (some (copy m y).1, (copy m y).2) ∧
      Holds m (fun ks x => ∃ k, ks = splitOn v.delim k ∧ Exported t v.delim (fun _ => true) k x) := by
  obtain ⟨m, h1, h2, h3⟩ := C19_getM_exact h hpre
  have hexp : ∀ k x, (k, x) ∈ m ↔ Exported t v.delim (fun _ => true) k x := by
    intro k x
    rw [h3, Exported]
    simp
  refine ⟨splitCompactKeys v.delim m, ?_, ?_⟩
  · rw [C56_section, getM_noFlatten, h1]; rfl
  · intro ks x
    rw [C20_values v.delim h2 (fun a ha => hv a.1 a.2 ((hexp _ _).mp ha))]
    constructor
    · rintro ⟨k, a1, rfl, a2⟩
      refine ⟨⟨k, rfl, (hexp k x).mp a1⟩, ?_⟩
      rintro ks' y' ⟨k', rfl, b1⟩ hp
      have e : k' = k := a2 (k', y') ((hexp _ _).mpr b1) hp
      rw [e]
    · rintro ⟨⟨k, rfl, a1⟩, a2⟩
      exact ⟨k, (hexp k x).mpr a1, rfl, fun a ha hp => splitOn_inj (a2 _ a.2 ⟨a.1, rfl, (hexp _ _).mp ha⟩ hp)⟩

/-- **C56** `To(p, holder)` for a section named by one component, in a store without prefix: the copier gets the entries below `p.`,
nested by the components of the rest of their paths. Partial: longer paths give wrong maps. -/
theorem C56_path_partial {H : Type} (copy : SMap α κ → H → H × Bool) {v : View} {t : Tree (Any α κ)} (h : Reach (NoRoute v.delim) t)
    (hm : v.mode ≠ .up) (hpre : v.pre = []) {p q : Str} {c : Core (Any α κ)} (hp : ¬ RootName p) (h1 : v.delim ∉ p)
    (hr : resolve v.delim t.contents p = some (q, c))
    (hv : ∀ k x, p <+: k → Exported t v.delim (fun _ => true) k x → x.isMap = false)
    (hb : ∀ k x, p <+: k → Exported t v.delim (fun _ => true) k x → ∃ r, k = p ++ v.delim :: r) (y : H) :
    ∃ m, v.to copy t p (some y) MOpts.default = .ok (some (copy m y).1, (copy m y).2) ∧
      Holds m (fun ks x => ∃ r, ks = splitOn v.delim r ∧ Exported t v.delim (fun _ => true) (p ++ v.delim :: r) x) := by
  obtain ⟨m, e1, e2⟩ := C42_getM_partial h hm hpre hp h1 hr (o := { MOpts.default with noFlatten := true }) rfl
    (f := fun _ => true) (fun _ => rfl) hv hb
  exact ⟨m, by rw [C56_section, e1]; rfl, e2⟩

/-- **C56** A section that does not exist, not even as the beginning of a key, leaves the holder as it is, without an error. -/
theorem C56_absent {H : Type} (copy : SMap α κ → H → H × Bool) {v : View} {t : Tree (Any α κ)} {p : Str} (hp : ¬ RootName p)
    {n : Option (Node (Any α κ))} {br : Bool} (hl : v.locate t p = .ok (n, br, false, false)) (o : MOpts α κ) (y : H) :
    v.to copy t p (some y) o = .ok (some y, true) := by
  rw [C56_section, (C42_absent hp hl _).1]; rfl

/-! ## Examples and disagreements -/

/-- A copier that keeps the map. -/
def keep (m : SMap Nat Nat) (_ : SMap Nat Nat) : SMap Nat Nat × Bool := (m, true)
def sectionOf (t : Tree (Any Nat Nat)) (p : String) : Go (Option (SMap Nat Nat)) :=
  match (View.new '.').to keep t p.toList (some []) MOpts.default with
  | .ok (m, _) => .ok m
  | .error e => .error e

example : valueAt (sectionOf exT42 "app") ["log", "file"] = true ∧ mkeys (sectionOf exT42 "app") = ["debug".toList, "log".toList] ∧
    valueAt (sectionOf exT42 "") ["zoo", "x"] = true ∧ mkeys (sectionOf exT42 "qq") = [] := by decide +kernel

/-- A section named by two components reaches the holder without its first level: "a.b.c.d" appears as "d", not as "c.d". -/
theorem C56_two_components_fails : valueAt (sectionOf (tset Tree.new ["a.b.c.d", "a.b.e"]) "a.b") ["c", "d"] = false ∧
    valueAt (sectionOf (tset Tree.new ["a.b.c.d", "a.b.e"]) "a.b") ["d"] = true := by decide +kernel

/-- A section that does not exist is filled from the entry whose key begins with its name: `To("ap")` delivers a part of "apple". -/
theorem C56_missing_fails : (View.new '.').has (tset Tree.new ["apple", "b"]) "ap".toList = .ok false ∧
    (mkeys (sectionOf (tset Tree.new ["apple", "b"]) "ap")).length = 1 := by decide +kernel

end Verif

import Verif.Props.Export
import Verif.Props.SubExport
/-
C68: extracting a subset of the entries with a filter (README "Extract A Subset" and "Modified State").
-/
namespace Verif
variable {α κ : Type} {P : Str → Prop}

/-- `GetM("", WithFilter(f))` (load.go:487-489, radix/cvter.go:606-610) for a filter that looks at the fields of a node. -/
def MOpts.filtered (f : Core (Any α κ) → Bool) : MOpts α κ := ⟨false, false, some (fun n => f n.core)⟩

theorem utf8_prefix_iff {s t : Str} : utf8 s <+: utf8 t ↔ s <+: t := by
  constructor
  · induction s generalizing t with
    | nil => intro _; exact List.nil_prefix
    | cons c s ih =>
      rintro ⟨r, hr⟩
      cases t with
      | nil =>
        have hl := utf8_length_cons c s
        have h2 := congrArg List.length hr
        have := Char.utf8Size_pos c
        rw [List.length_append, hl, utf8_nil, List.length_nil] at h2
        omega
      | cons c' t =>
        rw [utf8_cons, utf8_cons, List.append_assoc] at hr
        have h1 : ByteArray.utf8DecodeChar? (String.utf8EncodeChar c ++ (utf8 s ++ r)).toByteArray 0 = some c := by
          rw [List.toByteArray_append]
          exact ByteArray.utf8DecodeChar?_utf8EncodeChar_append
        rw [hr, List.toByteArray_append, ByteArray.utf8DecodeChar?_utf8EncodeChar_append] at h1
        cases h1
        rw [List.append_cancel_left_eq] at hr
        exact List.cons_prefix_cons.mpr ⟨rfl, ih ⟨r, hr⟩⟩
  · exact utf8_prefix

theorem selected_filtered (d : Char) (f : Core (Any α κ) → Bool) (a : Str × Node (Any α κ)) :
    selected d (MOpts.filtered f) a = if f a.2.core then selected d MOpts.default a else none := by
  have h1 : (MOpts.filtered f).pass a.2 = f a.2.core := rfl
  have h2 : (MOpts.default : MOpts α κ).pass a.2 = true := rfl
  unfold selected
  by_cases hf : f a.2.core = true
  · simp [h1, h2, hf]
  · simp [h1, hf]

/-- **C68** A filter takes a part of what `GetM("")` gives: the same values at the same keys, for exactly the entries
that it accepts, in the same order. -/
theorem C68_filter {v : View} {t : Tree (Any α κ)} (h : Reach P t) (hpre : v.pre = []) (f : Core (Any α κ) → Bool) :
    ∃ m m', v.getM t [] MOpts.default = .ok (some m) ∧ v.getM t [] (MOpts.filtered f) = .ok (some m') ∧ m'.Sublist m ∧
      ∀ k x, (k, x) ∈ m' ↔ (k, x) ∈ m ∧ ∃ c, t.contents k = some c ∧ f c = true := by
  obtain ⟨h1, -⟩ := getM_root h hpre MOpts.default
  obtain ⟨h2, -⟩ := getM_root h hpre (MOpts.filtered f)
  refine ⟨_, _, h1, h2, ?_, ?_⟩
  · simp only [MOpts.default, MOpts.filtered, Bool.false_eq_true, if_false]
    generalize t.root.nodes [] = L
    induction L with
    | nil => simp
    | cons a L ih =>
      simp only [List.filterMap_cons]
      have hs := selected_filtered v.delim f a
      simp only [MOpts.default, MOpts.filtered] at hs
      rw [hs]
      split <;> split <;> simp_all
  · intro k x
    simp only [MOpts.default, MOpts.filtered, Bool.false_eq_true, if_false]
    rw [mem_selected h v.delim _ f (fun _ => rfl), mem_selected h v.delim _ (fun _ => true) (fun _ => rfl)]
    constructor
    · rintro ⟨c, h1, h2, h3, h4, h5⟩
      exact ⟨⟨c, h1, h2, rfl, h4, h5⟩, c, h1, h3⟩
    · rintro ⟨⟨c, h1, h2, -, h4, h5⟩, c', h6, h7⟩
      rw [h1] at h6; cases h6
      exact ⟨c, h1, h2, h7, h4, h5⟩

/-- **C68** (README "Extract A Subset") With the filter `strings.HasPrefix(node.Key(), p)` one gets exactly the entries of
`GetM("")` whose key begins with `p`, at their full keys. -/
theorem C68_prefix {v : View} {t : Tree (Any α κ)} (h : Reach P t) (hpre : v.pre = []) (p : Str) :
    ∃ m m', v.getM t [] MOpts.default = .ok (some m) ∧
      v.getM t [] (MOpts.filtered (fun c => decide (utf8 p <+: c.pathS))) = .ok (some m') ∧
      m' = m.filter (fun a => decide (p <+: a.1)) := by
  obtain ⟨h1, -⟩ := getM_root h hpre MOpts.default
  obtain ⟨h2, -⟩ := getM_root h hpre (MOpts.filtered (fun c => decide (utf8 p <+: c.pathS)))
  refine ⟨_, _, h1, h2, ?_⟩
  simp only [MOpts.default, MOpts.filtered, Bool.false_eq_true, if_false]
  have hp : ∀ a ∈ t.root.nodes [], a.2.core.leaf = true → a.2.core.pathS = utf8 a.1 := fun a ha =>
    (h.inv keyInv_leaf).2 a.1 a.2.core ((Tree.contents_node h.ok).mpr ⟨a.2, ha, rfl⟩)
  revert hp
  generalize t.root.nodes [] = L
  intro hp
  induction L with
  | nil => rfl
  | cons a L ih =>
    simp only [List.filterMap_cons]
    rw [ih (fun b hb => hp b (by simp [hb]))]
    have ha := hp a (by simp)
    have hs := selected_filtered v.delim (fun c => decide (utf8 p <+: c.pathS)) a
    simp only [MOpts.default, MOpts.filtered] at hs
    rw [hs]
    cases hd : selected v.delim ⟨false, false, none⟩ a with
    | none => simp
    | some b =>
      have hb : a.2.core.leaf = true ∧ b.1 = a.1 := by
        unfold selected at hd
        split at hd
        · rename_i hc
          cases hd
          simp only [Bool.and_eq_true] at hc
          exact ⟨hc.1.1, rfl⟩
        · simp at hd
      by_cases hq : p <+: a.1
      · have h3 : utf8 p <+: a.2.core.pathS := by rw [ha hb.1]; exact utf8_prefix hq
        simp [h3, hb.2, hq]
      · have h3 : ¬ utf8 p <+: a.2.core.pathS := by rw [ha hb.1, utf8_prefix_iff]; exact hq
        simp [h3, hb.2, hq]

/-- **C68** A filter and its opposite cut `GetM("")` in two: no entry is lost, none occurs twice. -/
theorem C68_cut {v : View} {t : Tree (Any α κ)} (h : Reach P t) (hpre : v.pre = []) (f : Core (Any α κ) → Bool) :
    ∃ m m₁ m₂, v.getM t [] MOpts.default = .ok (some m) ∧ v.getM t [] (MOpts.filtered f) = .ok (some m₁) ∧
      v.getM t [] (MOpts.filtered (fun c => !f c)) = .ok (some m₂) ∧ (m₁ ++ m₂).Perm m := by
  obtain ⟨h1, -⟩ := getM_root h hpre MOpts.default
  obtain ⟨h2, -⟩ := getM_root h hpre (MOpts.filtered f)
  obtain ⟨h3, -⟩ := getM_root h hpre (MOpts.filtered (fun c => !f c))
  refine ⟨_, _, _, h1, h2, h3, ?_⟩
  simp only [MOpts.default, MOpts.filtered, Bool.false_eq_true, if_false]
  generalize t.root.nodes [] = L
  induction L with
  | nil => simp
  | cons a L ih =>
    simp only [List.filterMap_cons]
    have hs := selected_filtered v.delim f a
    have hs' := selected_filtered v.delim (fun c => !f c) a
    simp only [MOpts.default, MOpts.filtered] at hs hs'
    rw [hs, hs']
    cases hf : f a.2.core with
    | true =>
      simp only [if_true, Bool.not_true, Bool.false_eq_true, if_false]
      split
      · exact ih
      · exact ih.cons _
    | false =>
      simp only [Bool.false_eq_true, if_false, Bool.not_false, if_true]
      split
      · exact ih
      · exact (List.perm_middle).trans (ih.cons _)

/-- **C68** (README "Modified State") The filter `node.Modified()` gives exactly the leaf entries that are marked as
modified, with their values (which entries are marked: C28). -/
theorem C68_modified {v : View} {t : Tree (Any α κ)} (h : Reach P t) (hpre : v.pre = []) :
    ∃ m, v.getM t [] (MOpts.filtered (fun c => c.modified)) = .ok (some m) ∧ (m.map (·.1)).Nodup ∧
      ∀ k x, (k, x) ∈ m ↔ ∃ c, t.contents k = some c ∧ c.leaf = true ∧ c.modified = true ∧ endsW v.delim k = false ∧ c.data = x := by
  obtain ⟨h1, h2⟩ := getM_root h hpre (MOpts.filtered (fun c => c.modified))
  refine ⟨_, h1, h2, fun k x => ?_⟩
  simp only [MOpts.filtered, Bool.false_eq_true, if_false]
  rw [mem_selected h v.delim _ (fun c => c.modified) (fun _ => rfl)]

section examples
/-- The store of the README: the filter on "app.logging." gives two of the four entries. -/
def ex68 : Store.S0 := Store.sset (Store.sset (Store.sset (Store.sset (Store.S0.new false) "app.debug" 1) "app.logging.file" 2)
  "app.logging.rotate" 3) "app.server.start" 4
example : mkeys (ex68.view.getM ex68.tree [] (MOpts.filtered (fun c => decide (utf8 "app.logging.".toList <+: c.pathS)))) =
    ["app.logging.file".toList, "app.logging.rotate".toList] := by decide +kernel
example : mkeys (ex68.view.getM ex68.tree [] MOpts.default) =
    ["app.debug".toList, "app.logging.file".toList, "app.logging.rotate".toList, "app.server.start".toList] := by decide +kernel
end examples

end Verif

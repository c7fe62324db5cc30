import Verif.Model.Getters
import Verif.Props.Entry
/-
C21: the typed getters.
-/
namespace Verif
variable {α β : Type} [Inhabited α]

theorem lastDefault_eq (zero : β) (ds : List β) : lastDefault zero ds = ds.getLast?.getD zero := by
  induction ds generalizing zero with
  | nil => rfl
  | cons d ds ih =>
    show lastDefault d ds = _
    rw [ih, List.getLast?_cons]
    rfl

theorem query_of_get {v : View} {t : Tree α} {p : Str} {x : α} {b : Bool} (h : v.get t p = .ok (x, b)) :
    ∃ a, v.query t p = .ok a ∧ a.data = x ∧ a.found = b ∧ a.notFoundErr = !b := by
  have h4 := (C17_agree v t p).2.2.2.1
  rw [View.get] at h
  rcases hq : v.query t p with e | a
  · rw [hq] at h; cases h
  · rw [hq] at h
    simp only [Except.ok.injEq, Prod.mk.injEq] at h
    exact ⟨a, rfl, h.1, h.2, by rw [← h.2]; exact (h4 a hq).1⟩

/-- **C21.** A value that `Get` finds is converted; the defaults are ignored; there is no error. -/
theorem C21_found (conv : α → Go β) (zero : β) (v : View) (t : Tree α) (p : Str) (ds : List β) (x : α)
    (h : v.get t p = .ok (x, true)) :
    v.getTyped conv zero t p ds = (conv x).map (fun y => (y, false)) ∧ v.mustTyped conv zero t p ds = conv x := by
  obtain ⟨a, hq, hd, hf, he⟩ := query_of_get h
  subst hd
  constructor
  · simp only [View.getTyped, hq, hf, he, Bool.not_true, Bool.not_false, Bool.and_self, if_true]
    cases conv a.data <;> rfl
  · simp [View.mustTyped, hq, hf, he]

/-- **C21.** Otherwise the result is the last default, or the zero value, with the error NotFound. -/
theorem C21_missing (conv : α → Go β) (zero : β) (v : View) (t : Tree α) (p : Str) (ds : List β) (x : α)
    (h : v.get t p = .ok (x, false)) :
    v.getTyped conv zero t p ds = .ok (ds.getLast?.getD zero, true) ∧
      v.mustTyped conv zero t p ds = .ok (ds.getLast?.getD zero) := by
  obtain ⟨a, hq, hd, hf, he⟩ := query_of_get h
  simp [View.getTyped, View.mustTyped, hq, hf, he, lastDefault_eq]

/-- **C21.** The getters of slices return all defaults as the slice. -/
theorem C21_slices (conv : α → Go (List β)) (v : View) (t : Tree α) (p : Str) (ds : List β) (x : α) :
    (v.get t p = .ok (x, true) → v.getSlice conv t p ds = (conv x).map (fun y => (y, false))) ∧
    (v.get t p = .ok (x, false) → v.getSlice conv t p ds = .ok (ds, true)) := by
  constructor
  · intro h
    obtain ⟨a, hq, hd, hf, he⟩ := query_of_get h
    subst hd
    simp only [View.getSlice, hq, hf, he, Bool.not_true, Bool.not_false, Bool.and_self, if_true]
    cases conv a.data <;> rfl
  · intro h
    obtain ⟨a, hq, hd, hf, he⟩ := query_of_get h
    simp [View.getSlice, hq, hf, he]

/-- **C21.** The same without the error. -/
theorem C21_mustSlices (conv : α → Go (List β)) (v : View) (t : Tree α) (p : Str) (ds : List β) (x : α) :
    (v.get t p = .ok (x, true) → v.mustSlice conv t p ds = conv x) ∧
    (v.get t p = .ok (x, false) → v.mustSlice conv t p ds = .ok ds) := by
  constructor
  · intro h
    obtain ⟨a, hq, hd, hf, he⟩ := query_of_get h
    simp [View.mustSlice, hq, hf, he, hd]
  · intro h
    obtain ⟨a, hq, hd, hf, he⟩ := query_of_get h
    simp [View.mustSlice, hq, hf, he]

/-- **C21.** A getter fails to return only if `Get` does or the conversion panics. -/
theorem C21_stop (conv : α → Go β) (zero : β) (v : View) (t : Tree α) (p : Str) (ds : List β) (e : Stop)
    (h : v.get t p = .error e) : v.getTyped conv zero t p ds = .error e ∧ v.mustTyped conv zero t p ds = .error e := by
  rw [View.get] at h
  rcases hq : v.query t p with e' | a
  · rw [hq] at h
    cases h
    simp [View.getTyped, View.mustTyped, hq]
  · rw [hq] at h; cases h

/-- **C21.** The byte sizes: the stored text is read; a missing or empty text gives the last default. -/
theorem C21_bytes (conv : α → Go Str) (size : Str → Go Nat) (v : View) (t : Tree α) (p : Str) (ds : List Nat) (x : α) :
    (∀ s, v.get t p = .ok (x, true) → conv x = .ok s → s ≠ [] →
      v.getBytes conv size t p ds = (size s).map (fun n => (n, false))) ∧
    (v.get t p = .ok (x, true) → conv x = .ok [] → v.getBytes conv size t p ds = .ok (ds.getLast?.getD 0, false)) ∧
    (v.get t p = .ok (x, false) → v.getBytes conv size t p ds = .ok (ds.getLast?.getD 0, true)) := by
  refine ⟨fun s h hc hs => ?_, fun h hc => ?_, fun h => ?_⟩
  · rw [View.getBytes, (C21_found conv [] v t p [[]] x h).1, hc]
    simp only [Except.map, hs, decide_false, Bool.or_self, Bool.false_eq_true, if_false]
    cases size s <;> rfl
  · rw [View.getBytes, (C21_found conv [] v t p [[]] x h).1, hc]
    simp [Except.map, lastDefault_eq]
  · rw [View.getBytes, (C21_missing conv [] v t p [[]] x h).1]
    simp [lastDefault_eq]

/-- **C21.** The getters of narrow integers return the stored number if it is in the range of the type. -/
theorem C21_narrow (n : Nat) (v : View) (t : Tree α) (p : Str) (x : α) (h : v.get t p = .ok (x, true)) :
    (∀ (conv : α → Go Int) (i : Int) ds, conv x = .ok i → - 2 ^ n ≤ i → i < 2 ^ n → v.getIntN (n + 1) conv t p ds = .ok (i, false)) ∧
    (∀ (conv : α → Go Nat) (i : Nat) ds, conv x = .ok i → i < 2 ^ n → v.getUintN n conv t p ds = .ok (i, false)) := by
  constructor
  · intro conv i ds hc h1 h2
    rw [View.getIntN, (C21_found _ 0 v t p ds x h).1, hc]
    have hpow : ((2 ^ (n + 1) : Nat) : Int) = 2 * 2 ^ n := by rw [Nat.pow_succ]; push_cast; omega
    have : intN (n + 1) i = i := by
      apply Int.bmod_eq_of_le_mul_two <;> rw [hpow] <;> omega
    simp [Except.map, this]
  · intro conv i ds hc h1
    rw [View.getUintN, (C21_found _ 0 v t p ds x h).1, hc]
    simp [Except.map, uintN, Nat.mod_eq_of_lt h1]

/-- **C21 fails** for numbers outside the range: they are cut off, without an error, and the defaults are ignored. -/
theorem C21_narrow_fails : let t := sets [(View.new '.', "a".toList, 300)] (Tree.new : Tree Nat)
    (View.new '.').getIntN 8 (fun n : Nat => .ok (n : Int)) t "a".toList [7] = .ok (44, false) ∧
    (View.new '.').getUintN 8 (fun n => .ok n) t "a".toList [7] = .ok (44, false) := by decide +kernel

/-- The hypotheses are met: a found and a missing path. -/
example : let t := sets [(View.new '.', "a.b".toList, 7)] (Tree.new : Tree Nat)
    (View.new '.').get t "a.b".toList = .ok (7, true) ∧ (View.new '.').get t "a.c".toList = .ok (0, false) ∧
    (View.new '.').getTyped (fun n => .ok (n * 2)) 0 t "a.b".toList [5, 6] = .ok (14, false) ∧
    (View.new '.').getTyped (fun n => .ok (n * 2)) 0 t "a.c".toList [5, 6] = .ok (6, true) := by decide +kernel

/-- A consequence of what `Get` finds: an entry that was stored after a longer key which it is a prefix of is a branch node,
and `Get` does not report it as found, so the typed getters return the default although `MustGet` returns the value. In
the other order of the two writes they return the value. -/
theorem C21_branch_value_ignored :
    let t := sets [(View.new '.', "ports".toList, 1), (View.new '.', "port".toList, 80)] (Tree.new : Tree Nat)
    let t' := sets [(View.new '.', "port".toList, 80), (View.new '.', "ports".toList, 1)] (Tree.new : Tree Nat)
    (View.new '.').mustGet t "port".toList = .ok 80 ∧ (View.new '.').mustGet t' "port".toList = .ok 80 ∧
    (View.new '.').mustTyped (fun n => .ok n) 0 t "port".toList [8080] = .ok 8080 ∧
    (View.new '.').mustTyped (fun n => .ok n) 0 t' "port".toList [8080] = .ok 80 := by decide +kernel

end Verif

import Verif.Model.Loading
import Verif.Model.Store
import Mathlib.Data.List.Basic
import Mathlib.Data.List.Nodup
/-
C49: loading is exclusive per store object.
-/
namespace Verif.Loading

/-- Goroutine `g` is executing a body of object `h`. -/
def Sys.Inside (s : Sys) (g h : Nat) : Prop := h ∈ s.stack g

/-- Frames of all goroutines are distinct objects whose flags are set. -/
structure Sys.Inv (s : Sys) : Prop where
  set : ∀ g h, s.Inside g h → s.flag[h]? = some true
  nodup : ∀ g, (s.stack g).Nodup
  excl : ∀ g g' h, s.Inside g h → s.Inside g' h → g = g'

theorem Sys.Inv.init : Sys.init.Inv := ⟨by simp [Sys.Inside, Sys.init], by simp [Sys.init], by simp [Sys.Inside, Sys.init]⟩

theorem mem_setStack {f : Nat → List Nat} {g g' : Nat} {l : List Nat} {h : Nat} :
    h ∈ setStack f g l g' ↔ (g' = g ∧ h ∈ l) ∨ (g' ≠ g ∧ h ∈ f g') := by
  unfold setStack; split <;> simp_all

theorem Sys.Inv.step {s s' : Sys} (hi : s.Inv) {a : Act} {r : Res} (h : s.step a = some (s', r)) : s'.Inv := by
  cases a with
  | call g h0 =>
    simp only [Sys.step] at h
    split at h
    · next hf =>
      simp only [Option.some.injEq, Prod.mk.injEq] at h
      obtain ⟨rfl, -⟩ := h
      have hlt : h0 < s.flag.length := (List.getElem?_eq_some_iff.mp hf).1
      have hno : ∀ g', h0 ∉ s.stack g' := fun g' hm => by have := hi.set g' h0 hm; simp [hf] at this
      refine ⟨fun g' h' hm => ?_, fun g' => ?_, fun g1 g2 h' h1 h2 => ?_⟩
      · simp only [Sys.Inside, mem_setStack, List.mem_cons] at hm
        rw [List.getElem?_set]
        by_cases e : h0 = h'
        · simp [e, e ▸ hlt]
        · simp only [e, if_false]
          rcases hm with ⟨rfl, rfl | hm⟩ | ⟨-, hm⟩
          · exact absurd rfl e
          · exact hi.set _ _ hm
          · exact hi.set _ _ hm
      · simp only [setStack]
        split
        · exact List.nodup_cons.mpr ⟨hno g, hi.nodup g⟩
        · exact hi.nodup g'
      · simp only [Sys.Inside, mem_setStack, List.mem_cons] at h1 h2
        rcases h1 with ⟨rfl, rfl | h1⟩ | ⟨h1', h1⟩ <;> rcases h2 with ⟨e2, e3 | h2⟩ | ⟨h2', h2⟩
        · exact e2.symm
        · exact e2.symm
        · exact absurd h2 (hno _)
        · exact e2.symm
        · exact e2.symm
        · exact hi.excl _ _ _ h1 h2
        · exact absurd (e3 ▸ h1) (hno _)
        · exact e2 ▸ hi.excl _ _ _ h1 h2
        · exact hi.excl _ _ _ h1 h2
    · simp only [Option.some.injEq, Prod.mk.injEq] at h
      exact h.1 ▸ hi
    · cases h
  | ret g =>
    simp only [Sys.step] at h
    split at h
    · next h0 r0 hs =>
      simp only [Option.some.injEq, Prod.mk.injEq] at h
      obtain ⟨rfl, -⟩ := h
      have hin : s.Inside g h0 := by rw [Sys.Inside, hs]; simp
      have hnd := hi.nodup g
      rw [hs, List.nodup_cons] at hnd
      have sub : ∀ g' h', h' ∈ setStack s.stack g r0 g' → s.Inside g' h' ∧ h' ≠ h0 := by
        intro g' h' hm
        rw [mem_setStack] at hm
        rcases hm with ⟨rfl, hm⟩ | ⟨hg, hm⟩
        · exact ⟨by rw [Sys.Inside, hs]; simp [hm], fun e => hnd.1 (e ▸ hm)⟩
        · exact ⟨hm, fun e => hg (hi.excl g' g h0 (e ▸ hm) hin)⟩
      refine ⟨fun g' h' hm => ?_, fun g' => ?_, fun g1 g2 h' h1 h2 => hi.excl _ _ _ (sub _ _ h1).1 (sub _ _ h2).1⟩
      · have := sub g' h' hm
        rw [List.getElem?_set]
        rw [if_neg (fun e : h0 = h' => this.2 e.symm)]
        exact hi.set _ _ this.1
      · simp only [setStack]
        split
        · exact hnd.2
        · exact hi.nodup g'
    · cases h
  | dup h0 =>
    simp only [Sys.step] at h
    split at h
    · simp only [Option.some.injEq, Prod.mk.injEq] at h
      obtain ⟨rfl, -⟩ := h
      refine ⟨fun g' h' hm => ?_, hi.nodup, hi.excl⟩
      have := hi.set g' h' hm
      rw [List.getElem?_append_left (List.getElem?_eq_some_iff.mp this).1]
      exact this
    · cases h

theorem Sys.Inv.run {s s' : Sys} (hi : s.Inv) (h : Sys.Run s s') : s'.Inv := by
  induction h with
  | refl => exact hi
  | step _ h ih => exact ih.step h

/-- **C49** Exclusion: in every interleaving of any number of goroutines, no object is being loaded twice at the same time: neither by two
goroutines nor twice within one. -/
theorem C49_exclusive {s : Sys} (h : Sys.Run Sys.init s) (g g' x : Nat) (h1 : s.Inside g x) (h2 : s.Inside g' x) :
    g = g' ∧ (s.stack g).count x = 1 := by
  have hi := Sys.Inv.init.run h
  exact ⟨hi.excl _ _ _ h1 h2, List.count_eq_one_of_mem (hi.nodup g) h1⟩

/-- **C49** While a body of the object runs, every further `Load` or `WithinLoading` on it returns without running its body. -/
theorem C49_skipped {s : Sys} (h : Sys.Run Sys.init s) {g x : Nat} (h1 : s.Inside g x) (g' : Nat) :
    s.step (.call g' x) = some (s, .skipped) := by
  have hi := Sys.Inv.init.run h
  simp [Sys.step, hi.set _ _ h1]

/-- The flag is set only while a body runs. -/
structure Sys.Orig (s : Sys) (x : Nat) : Prop where
  free : s.flag[x]? = some false ∨ ∃ g, s.Inside g x

theorem Sys.Orig.step {s s' : Sys} (hi : s.Inv) {x : Nat} (ho : s.Orig x) {a : Act} {r : Res} (h : s.step a = some (s', r)) :
    s'.Orig x := by
  constructor
  cases a with
  | call g h0 =>
    simp only [Sys.step] at h
    split at h
    · next hf =>
      simp only [Option.some.injEq, Prod.mk.injEq] at h
      obtain ⟨rfl, -⟩ := h
      by_cases e : h0 = x
      · exact .inr ⟨g, by simp [Sys.Inside, mem_setStack, e]⟩
      · rcases ho.free with h1 | ⟨g', h1⟩
        · left; rw [List.getElem?_set]; simp [e, h1]
        · right
          refine ⟨g', mem_setStack.mpr ?_⟩
          by_cases eg : g' = g
          · exact .inl ⟨eg, by subst eg; exact List.mem_cons_of_mem _ h1⟩
          · exact .inr ⟨eg, h1⟩
    · simp only [Option.some.injEq, Prod.mk.injEq] at h
      exact h.1 ▸ ho.free
    · cases h
  | ret g =>
    simp only [Sys.step] at h
    split at h
    · next h0 r0 hs =>
      simp only [Option.some.injEq, Prod.mk.injEq] at h
      obtain ⟨rfl, -⟩ := h
      by_cases e : h0 = x
      · left
        have := hi.set g h0 (by rw [Sys.Inside, hs]; simp)
        rw [List.getElem?_set]; simp [e, (List.getElem?_eq_some_iff.mp (e ▸ this)).1]
      · rcases ho.free with h1 | ⟨g', h1⟩
        · left; rw [List.getElem?_set]; simp [e, h1]
        · right
          refine ⟨g', mem_setStack.mpr ?_⟩
          by_cases eg : g' = g
          · subst eg
            rw [Sys.Inside, hs, List.mem_cons] at h1
            exact .inl ⟨rfl, h1.resolve_left (fun h => e h.symm)⟩
          · exact .inr ⟨eg, h1⟩
    · cases h
  | dup h0 =>
    simp only [Sys.step] at h
    split at h
    · simp only [Option.some.injEq, Prod.mk.injEq] at h
      obtain ⟨rfl, -⟩ := h
      rcases ho.free with h1 | h1
      · left
        rw [List.getElem?_append_left (List.getElem?_eq_some_iff.mp h1).1]; exact h1
      · exact .inr h1
    · cases h

theorem Sys.Run.trans {a b c : Sys} (h1 : Sys.Run a b) (h2 : Sys.Run b c) : Sys.Run a c := by
  induction h2 with
  | refl => exact h1
  | step _ h ih => exact .step ih h

theorem Sys.Orig.run {s s' : Sys} (hi : s.Inv) {x : Nat} (ho : s.Orig x) (h : Sys.Run s s') : s'.Orig x := by
  induction h with
  | refl => exact ho
  | step h1 h ih => exact ih.step (hi.run h1) h

/-- **C49** Availability: an object that was free at some time (the store itself is, and so is a copy of a free object) and that nobody is
loading now accepts the next `Load`. -/
theorem C49_available {s s' : Sys} (h0 : Sys.Run Sys.init s) {x : Nat} (hx : s.flag[x]? = some false) (h : Sys.Run s s')
    (hidle : ∀ g, ¬ s'.Inside g x) (g : Nat) : ∃ s'', s'.step (.call g x) = some (s'', .entered) ∧ s''.Inside g x := by
  have ho : s'.Orig x := Sys.Orig.run (Sys.Inv.init.run h0) ⟨.inl hx⟩ h
  rcases ho.free with h1 | ⟨g', h1⟩
  · exact ⟨⟨s'.flag.set x true, setStack s'.stack g (x :: s'.stack g)⟩, by simp only [Sys.step, h1], by simp [Sys.Inside, mem_setStack]⟩
  · exact absurd h1 (hidle g')

/-- A copy has the flag of its original. -/
theorem C49_copy {s s' : Sys} {x : Nat} {r : Res} (h : s.step (.dup x) = some (s', r)) :
    s'.flag[s.flag.length]? = s.flag[x]? ∧ ∀ g, ¬ s'.Inside g s.flag.length ∨ s.Inside g s.flag.length := by
  simp only [Sys.step] at h
  split at h
  · next b hb =>
    simp only [Option.some.injEq, Prod.mk.injEq] at h
    obtain ⟨rfl, -⟩ := h
    refine ⟨by simp [hb], fun g => ?_⟩
    by_cases e : s.Inside g s.flag.length
    · exact .inr e
    · exact .inl e
  · cases h

/-- A set flag without a running body never changes. -/
theorem stuck_step {s s' : Sys} {x : Nat} (hf : s.flag[x]? = some true) (hn : ∀ g, ¬ s.Inside g x) {a : Act} {r : Res}
    (h : s.step a = some (s', r)) : s'.flag[x]? = some true ∧ ∀ g, ¬ s'.Inside g x := by
  have hlt := (List.getElem?_eq_some_iff.mp hf).1
  cases a with
  | call g h0 =>
    simp only [Sys.step] at h
    split at h
    · next hf0 =>
      simp only [Option.some.injEq, Prod.mk.injEq] at h
      obtain ⟨rfl, -⟩ := h
      have e : h0 ≠ x := by rintro rfl; rw [hf] at hf0; cases hf0
      refine ⟨by rw [List.getElem?_set]; simp [e, hf], fun g' hm => ?_⟩
      simp only [Sys.Inside, mem_setStack, List.mem_cons] at hm
      rcases hm with ⟨rfl, h1 | h1⟩ | ⟨-, h1⟩
      · exact e h1.symm
      · exact hn _ h1
      · exact hn _ h1
    · simp only [Option.some.injEq, Prod.mk.injEq] at h
      exact h.1 ▸ ⟨hf, hn⟩
    · cases h
  | ret g =>
    simp only [Sys.step] at h
    split at h
    · next h0 r0 hs =>
      simp only [Option.some.injEq, Prod.mk.injEq] at h
      obtain ⟨rfl, -⟩ := h
      have e : h0 ≠ x := by rintro rfl; exact hn g (by rw [Sys.Inside, hs]; simp)
      refine ⟨by rw [List.getElem?_set]; simp [e, hf], fun g' hm => ?_⟩
      simp only [Sys.Inside, mem_setStack] at hm
      rcases hm with ⟨rfl, h1⟩ | ⟨-, h1⟩
      · exact hn g' (by rw [Sys.Inside, hs]; simp [h1])
      · exact hn _ h1
    · cases h
  | dup h0 =>
    simp only [Sys.step] at h
    split at h
    · simp only [Option.some.injEq, Prod.mk.injEq] at h
      obtain ⟨rfl, -⟩ := h
      exact ⟨by rw [List.getElem?_append_left hlt]; exact hf, hn⟩
    · cases h

/-- A copy made while its original is being loaded (for instance by a handler or another goroutine calling `WithPrefix`) is unusable for loading: for
ever after, every `Load` and `WithinLoading` on it returns without doing anything. -/
theorem C49_copy_never_loads {s s' s'' : Sys} (h0 : Sys.Run Sys.init s) {g x : Nat} (hin : s.Inside g x) {r : Res}
    (h1 : s.step (.dup x) = some (s', r)) (h2 : Sys.Run s' s'') (g' : Nat) :
    s''.step (.call g' s.flag.length) = some (s'', .skipped) := by
  have hi := Sys.Inv.init.run h0
  have hc := C49_copy h1
  have hno : ∀ g, ¬ s'.Inside g s.flag.length := by
    intro g2
    rcases hc.2 g2 with h | h
    · exact h
    · have := (List.getElem?_eq_some_iff.mp (hi.set _ _ h)).1
      omega
  have hf : s'.flag[s.flag.length]? = some true := by rw [hc.1]; exact hi.set _ _ hin
  have : s''.flag[s.flag.length]? = some true ∧ ∀ g, ¬ s''.Inside g s.flag.length := by
    induction h2 with
    | refl => exact ⟨hf, hno⟩
    | step _ h ih => exact stuck_step ih.1 ih.2 h
  simp [Sys.step, this.1]

/-- Exclusion does not extend to views: two goroutines can load a store and a view of it, that is one shared tree, at the same time. -/
theorem C49_views_fails : ∃ s g g' x y, Sys.Run Sys.init s ∧ g ≠ g' ∧ s.Inside g x ∧ s.Inside g' y ∧
    (∃ s0 s1 r, Sys.Run Sys.init s0 ∧ s0.step (.dup x) = some (s1, r) ∧ y = s0.flag.length ∧ Sys.Run s1 s) := by
  refine ⟨⟨[true, true], setStack (setStack (fun _ => []) 0 [0]) 1 [1]⟩, 0, 1, 0, 1, ?_, by decide, ?_, ?_, Sys.init, ⟨[false, false], fun _ => []⟩, .none, .refl _, rfl, rfl, ?_⟩
  · exact .step (.step (.step (.refl _) (a := .dup 0) rfl) (a := .call 0 0) rfl) (a := .call 1 1) rfl
  · simp [Sys.Inside, setStack]
  · simp [Sys.Inside, setStack]
  · exact .step (.step (.refl _) (a := .call 0 0) rfl) (a := .call 1 1) rfl

/-- The flags of this system are those of the store model: a copy of a store has its flag, and `Load` on a store whose flag is set changes nothing,
calls no handler and reports no error. -/
theorem C49_store {α κ : Type} (str : κ → Str) (s : Store α κ) (p : List Str) (prefix' : Option Str) (flat : Option Bool) (src : Store.Source α κ) :
    (s.withPrefix p).loading = s.loading ∧ (s.withPrefixReplaced p).loading = s.loading ∧
    (s.loading = true → s.load str prefix' flat src = (s, [], true)) ∧
    (s.loading = false → (s.load str prefix' flat src).1.loading = false) := by
  refine ⟨rfl, rfl, fun h => ?_, fun h => ?_⟩
  · simp [Store.load, h]
  · simp only [Store.load, h, Bool.false_eq_true, if_false]

/-- Two goroutines and a nested call: the second and the nested call are skipped, and after both returns the store is free again. -/
example : ∃ s1 s2, Sys.init.step (.call 7 0) = some (s1, .entered) ∧ s1.step (.call 8 0) = some (s1, .skipped) ∧
    s1.step (.call 7 0) = some (s1, .skipped) ∧ s1.Inside 7 0 ∧ s1.step (.ret 7) = some (s2, .none) ∧ s2.flag = [false] :=
  ⟨_, _, rfl, rfl, rfl, by simp [Sys.Inside, setStack], rfl, rfl⟩

end Verif.Loading

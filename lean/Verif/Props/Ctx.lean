import Verif.Model.Ctx
import Verif.Lemmas.Utf8
import Verif.Lemmas.History
import Verif.Model.Store
import Mathlib.Tactic.ByContra
import Mathlib.Data.List.Induction
/-
C25 context iteration, C24 operations.
-/
namespace Verif

/-! ## Sorting -/

theorem byteLe_trans {a b c : Str} (h : byteLe a b = true) (h' : byteLe b c = true) : byteLe a c = true := by
  simp only [byteLe, decide_eq_true_eq] at *
  exact List.le_trans h h'

theorem byteLe_total (a b : Str) : byteLe a b = true ∨ byteLe b a = true := by
  simp only [byteLe, decide_eq_true_eq]
  exact List.le_total _ _

theorem byteLe_antisymm {a b : Str} (h : byteLe a b = true) (h' : byteLe b a = true) : a = b := by
  simp only [byteLe, decide_eq_true_eq] at *
  exact utf8_inj (List.le_antisymm h h')

theorem insertSorted_perm (k : Str) (l : List Str) : (insertSorted k l).Perm (k :: l) := by
  induction l with
  | nil => exact List.Perm.refl _
  | cons a l ih =>
    simp only [insertSorted]
    split
    · exact List.Perm.refl _
    · exact (List.Perm.cons a ih).trans (List.Perm.swap _ _ _)

theorem sortStrings_perm (l : List Str) : (sortStrings l).Perm l := by
  induction l with
  | nil => exact List.Perm.refl _
  | cons a l ih => exact (insertSorted_perm a _).trans (List.Perm.cons a ih)

theorem insertSorted_sorted (k : Str) {l : List Str} (h : l.Pairwise (fun a b => byteLe a b = true)) :
    (insertSorted k l).Pairwise (fun a b => byteLe a b = true) := by
  induction l with
  | nil => simp [insertSorted]
  | cons a l ih =>
    rw [List.pairwise_cons] at h
    simp only [insertSorted]
    split
    · rename_i hk
      rw [List.pairwise_cons, List.pairwise_cons]
      refine ⟨?_, h.1, h.2⟩
      intro b hb
      simp only [List.mem_cons] at hb
      rcases hb with rfl | hb
      · exact hk
      · exact byteLe_trans hk (h.1 b hb)
    · rename_i hk
      rw [List.pairwise_cons]
      refine ⟨?_, ih h.2⟩
      intro b hb
      have := (insertSorted_perm k l).mem_iff.mp hb
      simp only [List.mem_cons] at this
      rcases this with rfl | hb
      · exact (byteLe_total a b).resolve_right hk
      · exact h.1 b hb

theorem sortStrings_sorted (l : List Str) : (sortStrings l).Pairwise (fun a b => byteLe a b = true) := by
  induction l with
  | nil => simp [sortStrings]
  | cons a l ih => exact insertSorted_sorted a ih

namespace Ctx
variable {β : Type}

theorem assoc_put (k : Str) (v : β) (m : List (Str × β)) (q : Str) :
    assoc (put k v m) q = if k = q then some v else assoc m q := by
  induction m with
  | nil => simp [put, assoc]
  | cons a m ih =>
    obtain ⟨k1, v1⟩ := a
    by_cases h : k1 = k
    · subst h
      simp only [put, if_true, assoc]
      by_cases h' : k1 = q <;> simp [h']
    · simp only [put, h, if_false, assoc, ih]
      by_cases h1 : k1 = q
      · have : ¬ k = q := fun e => h (h1.trans e.symm)
        simp [h1, this]
      · simp [h1]

theorem put_keys (k : Str) (v : β) (m : List (Str × β)) :
    ∀ q, q ∈ (put k v m).map (·.1) ↔ q = k ∨ q ∈ m.map (·.1) := by
  induction m with
  | nil => simp [put]
  | cons a m ih =>
    obtain ⟨k1, v1⟩ := a
    intro q
    by_cases h : k1 = k
    · subst h; simp [put]
    · simp only [put, h, if_false, List.map_cons, List.mem_cons, ih]
      constructor
      · rintro (h | h | h) <;> simp [h]
      · rintro (h | h | h) <;> simp [h]

theorem put_nodup (k : Str) (v : β) (m : List (Str × β)) (h : (m.map (·.1)).Nodup) : ((put k v m).map (·.1)).Nodup := by
  induction m with
  | nil => simp [put]
  | cons a m ih =>
    obtain ⟨k1, v1⟩ := a
    simp only [List.map_cons, List.nodup_cons] at h
    by_cases hk : k1 = k
    · subst hk; simp only [put, if_true, List.map_cons, List.nodup_cons]; exact h
    · simp only [put, hk, if_false, List.map_cons, List.nodup_cons]
      refine ⟨fun h' => ?_, ih h.2⟩
      rcases (put_keys _ _ _ _).mp h' with h' | h'
      · exact hk h'
      · exact h.1 h'

/-- The context after a sequence of additions. -/
def build (h : List (Str × β)) : Ctx β := h.foldl (fun c a => c.withValue a.1 a.2) todo

theorem build_snoc (h : List (Str × β)) (a : Str × β) : build (h ++ [a]) = (build h).withValue a.1 a.2 := by
  simp [build]

theorem build_spec (h : List (Str × β)) : (build h).iter = none ∧ (build h).picked = [] ∧ ((build h).values.map (·.1)).Nodup ∧
    (∀ q, assoc (build h).values q = lastWrite h q) ∧ ∀ q, q ∈ (build h).values.map (·.1) ↔ (lastWrite h q).isSome := by
  induction h using List.reverseRecOn with
  | nil => simp [build, todo, assoc, lastWrite]
  | append_singleton h a ih =>
    obtain ⟨i1, i2, i3, i4, i5⟩ := ih
    obtain ⟨k, v⟩ := a
    rw [build_snoc]
    refine ⟨i1, i2, put_nodup _ _ _ i3, fun q => ?_, fun q => ?_⟩
    · simp only [withValue, assoc_put, i4, lastWrite_snoc]
    · simp only [withValue, put_keys, i5, lastWrite_snoc]
      by_cases e : k = q
      · simp [e]
      · have : ¬ q = k := fun h => e h.symm
        simp [e, this]

theorem nexts_spec (ns : List Str) : ∀ (c : Ctx β), c.pending = ns → ∀ i,
    (nexts i c).values = c.values ∧ (nexts i c).pending = ns.drop i ∧
    (∀ h : i < ns.length, (nexts (i + 1) c).picked = ns[i]) := by
  intro c hc i
  induction i with
  | zero =>
    refine ⟨rfl, by simpa [nexts] using hc, fun h => ?_⟩
    simp only [nexts, next, hc]
    cases ns with
    | nil => simp at h
    | cons k l => rfl
  | succ i ih =>
    obtain ⟨i1, i2, i3⟩ := ih
    have step : (nexts (i + 1) c).values = c.values ∧ (nexts (i + 1) c).pending = ns.drop (i + 1) := by
      simp only [nexts, next, i2]
      cases hd : ns.drop i with
      | nil =>
        refine ⟨i1, ?_⟩
        have := congrArg (List.drop 1) hd
        rw [List.drop_drop] at this
        rw [this]; rfl
      | cons k l =>
        refine ⟨i1, ?_⟩
        have := congrArg (List.drop 1) hd
        rw [List.drop_drop] at this
        rw [this]; rfl
    refine ⟨step.1, step.2, fun h => ?_⟩
    show (nexts (i + 1) c).next.1.picked = _
    simp only [next, step.2]
    rw [List.drop_eq_getElem_cons h]

/-- **C25** After any sequence of additions, iterating yields every name exactly once, in ascending (byte)
order, with the last value added under it; then `Next` returns false for ever. -/
theorem C25_iterate (h : List (Str × β)) :
    ∃ ns : List Str, ns.Nodup ∧ ns.Pairwise (fun a b => utf8 a < utf8 b) ∧
      (∀ q, q ∈ ns ↔ (lastWrite h q).isSome) ∧ (build h).namesCount = ns.length ∧
      (∀ i (hi : i < ns.length), (nexts i (build h)).next.2 = true ∧
        ∃ v, lastWrite h ns[i] = some v ∧ (nexts (i + 1) (build h)).entry = some (ns[i], v)) ∧
      (∀ i, ns.length ≤ i → (nexts i (build h)).next.2 = false) := by
  obtain ⟨b1, b2, b3, b4, b5⟩ := build_spec h
  have hp := sortStrings_perm ((build h).values.map (·.1))
  have hpend : (build h).pending = sortStrings ((build h).values.map (·.1)) := by simp [pending, b1]
  generalize hns : sortStrings ((build h).values.map (·.1)) = ns at hp hpend
  have hnd : ns.Nodup := hp.nodup_iff.mpr b3
  have hmem : ∀ q, q ∈ ns ↔ (lastWrite h q).isSome := fun q => (hp.mem_iff).trans (b5 q)
  refine ⟨ns, hnd, ?_, hmem, ?_, ?_, ?_⟩
  · have hs := sortStrings_sorted ((build h).values.map (·.1))
    rw [hns] at hs
    refine (List.pairwise_and_iff.mpr ⟨hs, hnd⟩).imp ?_
    rintro a b ⟨h1, h2⟩
    by_contra hc
    exact h2 (byteLe_antisymm h1 (by simp only [byteLe, decide_eq_true_eq]; exact List.not_lt.mp hc))
  · simp only [namesCount]
    have := hp.length_eq
    simp only [List.length_map] at this
    exact this.symm
  · intro i hi
    obtain ⟨s1, s2, s3⟩ := nexts_spec ns (build h) hpend i
    obtain ⟨s1', -, -⟩ := nexts_spec ns (build h) hpend (i + 1)
    constructor
    · simp only [next, s2]
      rw [List.drop_eq_getElem_cons hi]
    · obtain ⟨v, hv⟩ := Option.isSome_iff_exists.mp ((hmem _).mp (List.getElem_mem hi))
      refine ⟨v, hv, ?_⟩
      simp only [entry, s3 hi, s1', b4, hv, Option.map_some]
  · intro i hi
    obtain ⟨s1, s2, s3⟩ := nexts_spec ns (build h) hpend i
    simp only [next, s2, List.drop_eq_nil_of_le hi]

/-- One call on a context. -/
inductive Call (β : Type) where
  | add (name : Str) (v : β)
  | next
  | nextName
  | reset

def Call.run (c : Ctx β) : Call β → Ctx β
  | .add n v => c.withValue n v
  | .next => c.next.1
  | .nextName => c.nextName.1
  | .reset => c.reset

def Call.adds : List (Call β) → List (Str × β)
  | [] => []
  | .add n v :: l => (n, v) :: adds l
  | _ :: l => adds l

theorem next_values (c : Ctx β) : c.next.1.values = c.values := by
  simp only [next]; split <;> rfl

theorem nextName_values (c : Ctx β) : c.nextName.1.values = c.values := by
  simp only [nextName]; split <;> rfl

theorem adds_append (l m : List (Call β)) : Call.adds (l ++ m) = Call.adds l ++ Call.adds m := by
  induction l with
  | nil => rfl
  | cons a l ih => cases a <;> simp [Call.adds, ih]

/-- **C25** `Reset` restarts: after any calls, including iterations broken off anywhere, a reset context is the
context built by the additions alone, and so iterates over all of them. -/
theorem C25_reset (calls : List (Call β)) : (calls.foldl Call.run todo).reset = build (Call.adds calls) := by
  have key : (calls.foldl Call.run todo).values = (build (Call.adds calls)).values := by
    induction calls using List.reverseRecOn with
    | nil => rfl
    | append_singleton l a ih =>
      rw [List.foldl_append, List.foldl_cons, List.foldl_nil, adds_append]
      cases a with
      | add n v => simp only [Call.run, Call.adds, build_snoc, withValue, ih]
      | next => simp only [Call.run, Call.adds, next_values, ih, List.append_nil]
      | nextName => simp only [Call.run, Call.adds, nextName_values, ih, List.append_nil]
      | reset => simp only [Call.run, Call.adds, reset, ih, List.append_nil]
  obtain ⟨b1, b2, -⟩ := build_spec (Call.adds calls)
  show Ctx.mk _ _ _ = _
  rw [key, ← b1, ← b2]

/-- **C25** `NextName` takes the name that `Next` would take and goes on as `Next` does, but `Entry` keeps its place. -/
theorem C25_nextName (c : Ctx β) : c.nextName.1.entry = c.entry ∧ c.nextName.1.pending = c.next.1.pending ∧
    (c.next.2 = true → c.next.1.picked = c.nextName.2) ∧ (c.next.2 = false → c.nextName.2 = []) := by
  simp only [nextName, next, entry, pending]
  split <;> simp_all

/-- **C25** `WithValues(k1, v1, k2, v2, ...)` with non-empty names is the sequence of the single additions. -/
theorem C25_withValues (c : Ctx β) (l : List (Str × β × β)) (hne : ∀ a ∈ l, a.1 ≠ []) :
    c.withValues (l.flatMap (fun a => [⟨some a.1, a.2.1⟩, ⟨none, a.2.2⟩])) = l.foldl (fun c a => c.withValue a.1 a.2.2) c := by
  unfold withValues
  induction l generalizing c with
  | nil => rfl
  | cons a l ih =>
    have h1 := hne a (by simp)
    simp only [List.flatMap_cons, List.cons_append, List.nil_append, withValuesGo, if_true, Option.getD_some, h1, if_false,
      List.foldl_cons]
    exact ih _ (fun b hb => hne b (by simp [hb]))

/-- Names added while an iteration is under way are not visited before `Reset`. -/
theorem C25_add_during : ∃ c : Ctx Nat, c = ((todo.withValue "a".toList 1).next.1).withValue "b".toList 2 ∧
    c.next.2 = false ∧ c.reset.next.2 = true ∧ (nexts 2 c.reset).entry = some ("b".toList, 2) :=
  ⟨_, rfl, by decide +kernel, by decide +kernel, by decide +kernel⟩

/-- An empty name is skipped by `WithValues` and its value taken as the next name. -/
theorem C25_empty_name : (todo.withValues [⟨some [], 0⟩, ⟨some "x".toList, 1⟩, ⟨none, 2⟩] : Ctx Nat).entry = none ∧
    (todo.withValues [⟨some [], 0⟩, ⟨some "x".toList, 1⟩, ⟨none, 2⟩] : Ctx Nat).valueBy "x".toList = some 2 := by
  decide +kernel

example : ((nexts 2 (build [("b".toList, 1), ("é".toList, 2), ("a".toList, 3), ("b".toList, 4)])).entry,
    (nexts 3 (build [("b".toList, 1), ("é".toList, 2), ("a".toList, 3), ("b".toList, 4)])).entry) =
    (some ("b".toList, 4), some ("é".toList, 2)) := by decide +kernel

end Ctx

/-! ## C24 -/

/-- The code violates the first claim of **C24** for every operation: the text that `MarshalText` gives is never accepted by
`UnmarshalText` (it is upper-cased, the table of names is lower case). -/
theorem C24_roundtrip_fails (ptr : Str) (op : Nat) : opParse (opText ptr op) = none := by
  unfold opText
  cases h : opName op with
  | none =>
    simp only
    have : ∃ r, "Op(".toList ++ ptr ++ ")".toList = 'O' :: r := ⟨_, rfl⟩
    obtain ⟨r, hr⟩ := this
    rw [hr]
    simp [opParse, assoc]
  | some s =>
    simp only
    simp only [opName] at h
    split at h; · cases h; decide +kernel
    split at h; · cases h; decide +kernel
    split at h; · cases h; decide +kernel
    split at h; · cases h; decide +kernel
    split at h; · cases h; decide +kernel
    split at h; · cases h; decide +kernel
    simp at h

theorem opText_named (ptr : Str) {op : Nat} (h : (opName op).isSome) : opText ptr op = opText [] op := by
  obtain ⟨s, hs⟩ := Option.isSome_iff_exists.mp h
  simp [opText, hs]

/-- **C24** What holds of the round trip: lower-casing the text makes it one, for the five operations and for none.
Partial: the code does not lower-case. -/
theorem C24_roundtrip_lower_partial (ptr : Str) (op : Nat) (h : op ∈ [0, 1, 2, 4, 8, 16]) :
    opParse ((opText ptr op).map Char.toLower) = some op := by
  have hc : op = 0 ∨ op = 1 ∨ op = 2 ∨ op = 4 ∨ op = 8 ∨ op = 16 := by simpa using h
  rw [opText_named ptr (by rcases hc with rfl | rfl | rfl | rfl | rfl | rfl <;> decide +kernel)]
  clear h
  rcases hc with rfl | rfl | rfl | rfl | rfl | rfl <;> decide +kernel

theorem assoc_mem {β : Type} {l : List (Str × β)} {q : Str} {b : β} (h : assoc l q = some b) : (q, b) ∈ l := by
  induction l with
  | nil => simp [assoc] at h
  | cons a l ih =>
    obtain ⟨k, v⟩ := a
    simp only [assoc] at h
    split at h
    · rename_i e; cases h; simp [e]
    · exact List.mem_cons_of_mem _ (ih h)

/-- **C24** Every text that `UnmarshalText` accepts denotes a single operation or none. -/
theorem C24_parse_single (s : Str) (op : Nat) (h : opParse s = some op) : op ∈ [0, 1, 2, 4, 8, 16] := by
  have := List.mem_map_of_mem (f := Prod.snd) (assoc_mem h)
  simp only [List.map_cons, List.map_nil, List.mem_cons, List.not_mem_nil, or_false] at this
  simp only [List.mem_cons, List.not_mem_nil, or_false]
  omega

/-- **C24** `Has(op)` on a change is true exactly if the change contains one of the operations in `op`; for a single
operation: exactly if it contains it. -/
theorem C24_has {α κ : Type} (ev : Store.Change α κ) (o : Nat) :
    (ev.has o = true ↔ ∃ i, ev.op.testBit i = true ∧ o.testBit i = true) ∧
    ∀ i, ev.has (2 ^ i) = ev.op.testBit i := by
  have key : ∀ a b : Nat, (a &&& b != 0) = true ↔ ∃ i, a.testBit i = true ∧ b.testBit i = true := by
    intro a b
    rw [bne_iff_ne]
    constructor
    · intro h
      by_contra hc
      refine h (Nat.eq_of_testBit_eq (fun i => ?_))
      rw [Nat.testBit_and, Nat.zero_testBit]
      cases h1 : a.testBit i <;> cases h2 : b.testBit i <;> first | rfl | exact absurd ⟨i, h1, h2⟩ hc
    · rintro ⟨i, h1, h2⟩ h
      have := congrArg (fun n => n.testBit i) h
      simp [Nat.testBit_and, h1, h2] at this
  refine ⟨key _ _, fun i => ?_⟩
  rw [Bool.eq_iff_iff, Store.Change.has, key]
  constructor
  · rintro ⟨j, h1, h2⟩
    rw [Nat.testBit_two_pow] at h2
    simp only [decide_eq_true_eq] at h2
    rw [h2]; exact h1
  · intro h
    exact ⟨i, h, by simp⟩

example : (⟨3, []⟩ : Store.Change Nat Nat).has Store.opWrite = true ∧ (⟨3, []⟩ : Store.Change Nat Nat).has Store.opRemove = false := by
  decide +kernel

end Verif

import Verif.Model.FileWatch
import Verif.Props.Load
/-
C65: a store that watches its file.
-/
namespace Verif.FileWatch
open Verif (Store Event Any Go)
variable {α κ : Type}

/-- An event that concerns the watched file: under its own name or under the name it resolved to. -/
def concerns (file real : Str) (e : FsEvent) : Prop := e.name = file ∨ e.name = real

/-- The event has the text of the last one and came less than 5 ms after it. -/
def again (c : ChangeS) (e : FsEvent) : Prop := e.text = c.lastEvent ∧ ∃ t, c.lastTime = some t ∧ e.time - t < 5

theorem repeated_iff (c : ChangeS) (e : FsEvent) : repeated c e = true ↔ again c e := by
  simp only [repeated, again, Bool.and_eq_true, beq_iff_eq]
  cases h : c.lastTime <;> simp

/-- **C65** A write or creation of the watched file calls the callback exactly once, with the path that the file resolves to now, and the
watcher goes on, unless the same event was seen less than 5 ms ago; then there is no call. -/
theorem C65_write_calls (file real : Str) (c : ChangeS) (e : FsEvent) (cp : Str) (hn : concerns file real e) (hr : e.has fsRemove = false)
    (hw : e.has fsWrite = true ∨ e.has fsCreate = true) :
    (¬ again c e → ∃ c', round file real c (.event e (some cp)) = (c', [.change c'], true) ∧ c'.realPath = cp) ∧
    (again c e → round file real c (.event e (some cp)) = (c, [], true)) := by
  rw [← repeated_iff, Bool.not_eq_true]
  constructor
  · intro hrep
    have h1 : ¬ (e.name ≠ real ∧ e.name ≠ file) := by
      rintro ⟨h1, h2⟩
      rcases hn with h | h
      · exact h2 h
      · exact h1 h
    have h2 : (!(e.has fsWrite || e.has fsCreate)) = false := by rcases hw with h | h <;> simp [h]
    refine ⟨{ c with lastEvent := e.text, lastTime := some e.time, realPath := cp }, ?_, rfl⟩
    simp only [round, hrep, if_neg h1, hr, h2, Bool.false_eq_true, if_false]
  · intro hrep
    simp [round, hrep]

/-- **C65** Events of other files, and events of the file that are no write, creation or removal, cause no call. -/
theorem C65_other_files (file real : Str) (c : ChangeS) (e : FsEvent) (cur : Option Str)
    (h : ¬ concerns file real e ∨ (e.has fsRemove = false ∧ e.has fsWrite = false ∧ e.has fsCreate = false ∧ cur.isSome)) :
    ∃ c', round file real c (.event e cur) = (c', [], true) := by
  cases hrep : repeated c e with
  | true => exact ⟨c, by simp [round, hrep]⟩
  | false =>
    by_cases hn : e.name ≠ real ∧ e.name ≠ file
    · exact ⟨_, by simp only [round, hrep, if_pos hn, Bool.false_eq_true, if_false]; rfl⟩
    · rcases h with h | ⟨h1, h2, h3, h4⟩
      · exfalso
        apply hn
        exact ⟨fun e' => h (.inr e'), fun e' => h (.inl e')⟩
      · obtain ⟨cp, rfl⟩ := Option.isSome_iff_exists.mp h4
        exact ⟨_, by simp only [round, hrep, if_neg hn, h1, h2, h3, Bool.false_eq_true, if_false, Bool.or_false, Bool.not_false, if_true]; rfl⟩

/-- **C65** After an error is reported the watcher is silent: an error is the last call. -/
theorem C65_error_last (file real : Str) (is : List In) (c : ChangeS) (l r : List Arg) (h : loop file real c is = l ++ .err :: r) : r = [] := by
  induction is generalizing c l with
  | nil => simp [loop] at h
  | cons i is ih =>
    have key : (round file real c i).2 = ([.err], false) ∨ ((round file real c i).2.2 = true ∧
        ((round file real c i).2.1 = [] ∨ ∃ c', (round file real c i).2.1 = [.change c'])) := by
      cases i with
      | eventsClosed => exact .inl rfl
      | error => exact .inl rfl
      | event e cur =>
        simp only [round]
        by_cases h1 : repeated c e = true
        · simp [h1]
        · by_cases h2 : e.name ≠ real ∧ e.name ≠ file
          · simp only [h1, if_pos h2]; simp
          · by_cases h3 : e.has fsRemove = true
            · simp only [h1, if_neg h2, h3]; simp
            · cases cur with
              | none => simp only [h1, if_neg h2, h3]; simp
              | some cp =>
                by_cases h4 : (!(e.has fsWrite || e.has fsCreate)) = true
                · simp only [h1, if_neg h2, h3, h4]; simp
                · simp only [h1, if_neg h2, h3, h4]; simp
    simp only [loop] at h
    rcases key with hk | ⟨hk, hk' | ⟨c', hk'⟩⟩
    · rw [hk] at h
      simp only [Bool.false_eq_true, if_false, List.append_nil] at h
      cases l with
      | nil => simpa using h.symm
      | cons a l => simp at h
    · rw [hk', hk] at h
      exact ih _ _ h
    · rw [hk', hk] at h
      cases l with
      | nil => simp at h
      | cons a l =>
        simp only [if_true, List.cons_append, List.nil_append, List.cons.injEq] at h
        exact ih _ _ h.2

/-- The callback never gets a pointer. -/
theorem loop_args (file real : Str) (is : List In) (c : ChangeS) : ∀ a ∈ loop file real c is, isChange a = none := by
  intro a ha
  cases a with
  | change c' => rfl
  | err => rfl
  | pointer c' =>
    exfalso
    induction is generalizing c with
    | nil => simp [loop] at ha
    | cons i is ih =>
      simp only [loop, List.mem_append] at ha
      rcases ha with ha | ha
      · cases i with
        | eventsClosed => simp [round] at ha
        | error => simp [round] at ha
        | event e cur =>
          simp only [round] at ha
          repeat' split at ha
          all_goals simp at ha
      · split at ha
        · exact ih _ ha
        · simp at ha

/-- **C65** The claim is false for every store and everything that happens to the file: nothing ever reaches the store, because the
change is passed by value and the methods of the interface belong to the pointer. -/
theorem C65_follows_fails (txt : Str → α) (s : Store α κ) (file real : Str) (is : List In) :
    applyAll txt s (loop file real .zero is) = .ok (s, []) := by
  have key : ∀ as : List Arg, (∀ a ∈ as, isChange a = none) → applyAll txt s as = .ok (s, []) := by
    intro as
    induction as with
    | nil => exact fun _ => rfl
    | cons a as ih =>
      intro h
      have h1 : applyExternal txt s a = .ok (s, []) := by
        have := h a (by simp)
        cases a with
        | change c => rfl
        | err => rfl
        | pointer c => simp [isChange] at this
      simp only [applyAll, h1, ih (fun b hb => h b (by simp [hb]))]
      rfl
  exact key _ (loop_args file real is .zero)

/-- The operation of a change is never set. -/
theorem loop_op (file real : Str) (is : List In) (c : ChangeS) (hc : c.lastOp = 0) : ∀ c', Arg.change c' ∈ loop file real c is → c'.lastOp = 0 := by
  induction is generalizing c with
  | nil => simp [loop]
  | cons i is ih =>
    intro c' ha
    have hr : (round file real c i).1.lastOp = 0 ∧ ∀ c', Arg.change c' ∈ (round file real c i).2.1 → c'.lastOp = 0 := by
      cases i with
      | eventsClosed => simp [round, hc]
      | error => simp [round, hc]
      | event e cur =>
        simp only [round]
        repeat' split
        all_goals simp [hc]
    simp only [loop, List.mem_append] at ha
    rcases ha with ha | ha
    · exact hr.2 c' ha
    · split at ha
      · exact ih _ hr.1 c' ha
      · simp at ha

/-- **C65** Passing the address would not be enough: the reported changes carry no operation, so the store would ignore them too. -/
theorem C65_pointer_fails (txt : Str → α) (s : Store α κ) (file real : Str) (is : List In) (c : ChangeS)
    (h : .change c ∈ loop file real .zero is) : applyExternal txt s (.pointer c) = .ok (s, []) := by
  have := loop_op file real is .zero rfl c h
  simp [applyExternal, isChange, Store.applyChanges, ChangeS.toChange, Store.Change.has, this]

/-- No text is the one before it. -/
def changing : Str → List Str → Prop
  | _, [] => True
  | a, b :: l => a ≠ b ∧ changing b l

/-- **C65** Only the same event again is passed over: when no event has the text of the one before, every write to the file is a call, in order and with
the path found then, however close together they come. -/
theorem C65_each (file real : Str) (c : ChangeS) (es : List (FsEvent × Str))
    (hw : ∀ e ∈ es, concerns file real e.1 ∧ e.1.has fsRemove = false ∧ (e.1.has fsWrite = true ∨ e.1.has fsCreate = true))
    (hd : changing c.lastEvent (es.map (fun e => e.1.text))) :
    (loop file real c (es.map (fun e => .event e.1 (some e.2)))).map (fun a => match a with | .change c => some c.realPath | _ => none) =
      es.map (fun e => some e.2) := by
  induction es generalizing c with
  | nil => rfl
  | cons e es ih =>
    obtain ⟨h1, h2, h3⟩ := hw e (by simp)
    simp only [List.map_cons, changing] at hd
    have hrep : repeated c e.1 = false := by
      have : (e.1.text == c.lastEvent) = false := by simpa using fun h => hd.1 h.symm
      simp [repeated, this]
    have hn : ¬ (e.1.name ≠ real ∧ e.1.name ≠ file) := by
      unfold concerns at h1; rintro ⟨a, b⟩; rcases h1 with h | h
      · exact b h
      · exact a h
    have hwc : (!(e.1.has fsWrite || e.1.has fsCreate)) = false := by rcases h3 with h | h <;> simp [h]
    have er : round file real c (.event e.1 (some e.2)) =
        ({ c with lastEvent := e.1.text, lastTime := some e.1.time, realPath := e.2 },
          [.change { c with lastEvent := e.1.text, lastTime := some e.1.time, realPath := e.2 }], true) := by
      simp only [round, hrep, Bool.false_eq_true, if_false, hn, h2, hwc]
    simp only [List.map_cons, loop, er, if_true, List.cons_append, List.nil_append, List.cons.injEq, true_and]
    exact ih _ (fun e' he' => hw e' (by simp [he'])) hd.2

/-- **C65** When the file is removed, the callback gets an error, and nothing after it. -/
theorem C65_removed (file real : Str) (c : ChangeS) (e : FsEvent) (cur : Option Str) (is : List In) (hn : concerns file real e)
    (hr : e.has fsRemove = true) (hd : e.text ≠ c.lastEvent) : loop file real c (.event e cur :: is) = [.err] := by
  have hrep : repeated c e = false := by
    have : (e.text == c.lastEvent) = false := by simpa using hd
    simp [repeated, this]
  have hn : ¬ (e.name ≠ real ∧ e.name ≠ file) := by
    unfold concerns at hn; rintro ⟨a, b⟩; rcases hn with h | h
    · exact b h
    · exact a h
  simp only [loop, round, hrep, Bool.false_eq_true, if_false, hn, hr, if_true, List.append_nil]

/-- **C65** An event is a set of operations, as bits: whether it is a creation, a write or a removal does not depend on what else it is. -/
theorem C65_bits (e : FsEvent) : e.has fsCreate = e.op.testBit 0 ∧ e.has fsWrite = e.op.testBit 1 ∧ e.has fsRemove = e.op.testBit 2 := by
  have key : ∀ k, e.has (2 ^ k) = e.op.testBit k := fun k => by
    unfold FsEvent.has
    rw [Nat.testBit_eq_decide_div_mod_eq]
    by_cases h : e.op / 2 ^ k % 2 = 1
    · simp only [h, decide_true, bne_iff_ne]
      intro h0
      have h1 : (e.op &&& 2 ^ k).testBit k = false := by rw [h0, Nat.zero_testBit]
      rw [Nat.testBit_and, Nat.testBit_two_pow, Nat.testBit_eq_decide_div_mod_eq] at h1
      simp [h] at h1
    · simp only [h, decide_false, bne_eq_false_iff_eq]
      refine Nat.eq_of_testBit_eq (fun i => ?_)
      rw [Nat.testBit_and, Nat.testBit_two_pow, Nat.zero_testBit]
      by_cases hi : k = i
      · subst hi
        simp [Nat.testBit_eq_decide_div_mod_eq, h]
      · simp [hi]
  exact ⟨key 0, key 1, key 2⟩

theorem loop_pair (file real : Str) (is : List In) (c : ChangeS) (hc : c.idx = 0) : ∀ c', Arg.change c' ∈ loop file real c is →
    c'.idx = 0 ∧ ∃ e, In.event e (some c'.realPath) ∈ is := by
  induction is generalizing c with
  | nil => simp [loop]
  | cons i is ih =>
    intro c' ha
    have hr : (round file real c i).1.idx = 0 ∧ ∀ c', Arg.change c' ∈ (round file real c i).2.1 → c'.idx = 0 ∧ ∃ e, In.event e (some c'.realPath) = i := by
      cases i with
      | eventsClosed => simp [round, hc]
      | error => simp [round, hc]
      | event e cur =>
        simp only [round]
        repeat' split
        all_goals simp [hc]
    simp only [loop, List.mem_append] at ha
    rcases ha with ha | ha
    · obtain ⟨h1, e, h2⟩ := hr.2 c' ha
      exact ⟨h1, e, by rw [h2]; exact List.mem_cons_self⟩
    · split at ha
      · obtain ⟨h1, e, h2⟩ := ih _ hr.1 c' ha
        exact ⟨h1, e, List.mem_cons_of_mem _ h2⟩
      · simp at ha

/-- **C65** A change that is reported has exactly one pair to give: the path that was found at one of the events. -/
theorem C65_pair (txt : Str → α) (file real : Str) (is : List In) (c : ChangeS) (h : .change c ∈ loop file real .zero is) :
    (c.toChange txt : Store.Change α κ).pairs = [(c.realPath, .atom (txt c.realPath))] ∧ ∃ e, In.event e (some c.realPath) ∈ is := by
  obtain ⟨h1, h2⟩ := loop_pair file real is .zero rfl c h
  exact ⟨by simp [ChangeS.toChange, h1], h2⟩

/-- **C65** What the store does with two reports, one after the other: the handlers hear of the first before they hear of the second. -/
theorem C65_order (txt : Str → α) (s s1 s2 : Store α κ) (a : Arg) (as : List Arg) (ev1 ev2 : List (Event (Any α κ)))
    (h1 : applyExternal txt s a = .ok (s1, ev1)) (h2 : applyAll txt s1 as = .ok (s2, ev2)) : applyAll txt s (a :: as) = .ok (s2, ev1 ++ ev2) := by
  simp only [applyAll, h1, h2]

/-- A file that is written, then written again within 5 ms (one call), then touched, then removed. -/
def ex65 : List In :=
  [.event ⟨"/etc/app.yml".toList, 2, "W".toList, 100⟩ (some "/etc/app.yml".toList),
   .event ⟨"/etc/app.yml".toList, 2, "W".toList, 102⟩ (some "/etc/app.yml".toList),
   .event ⟨"/etc/app.yml".toList, 16, "C".toList, 110⟩ (some "/etc/app.yml".toList),
   .event ⟨"/etc/other".toList, 2, "O".toList, 111⟩ (some "/etc/app.yml".toList),
   .event ⟨"/etc/app.yml".toList, 2, "W".toList, 112⟩ (some "/etc/app.yml".toList),
   .event ⟨"/etc/app.yml".toList, 4, "R".toList, 120⟩ none,
   .event ⟨"/etc/app.yml".toList, 1, "N".toList, 130⟩ (some "/etc/app.yml".toList)]
example : (loop "/etc/app.yml".toList "/etc/app.yml".toList .zero ex65).map (fun a => match a with
    | .change c => c.realPath
    | _ => []) = ["/etc/app.yml".toList, "/etc/app.yml".toList, []] := by decide +kernel
example : concerns "/etc/app.yml".toList "/etc/app.yml".toList ⟨"/etc/app.yml".toList, 2, "W".toList, 100⟩ ∧
    FsEvent.has ⟨"/etc/app.yml".toList, 2, "W".toList, 100⟩ fsRemove = false ∧ FsEvent.has ⟨"/etc/app.yml".toList, 2, "W".toList, 100⟩ fsWrite = true ∧
    ¬ again .zero ⟨"/etc/app.yml".toList, 2, "W".toList, 100⟩ := by
  rw [← repeated_iff]; unfold concerns; decide +kernel

/-- A write that is a change of attributes too. -/
example : FsEvent.has ⟨"/etc/app.yml".toList, 18, "W".toList, 100⟩ fsWrite = true ∧ FsEvent.has ⟨"/etc/app.yml".toList, 18, "W".toList, 100⟩ fsRemove = false := by decide +kernel
example : Arg.change ⟨"/etc/app.yml".toList, 0, 0, "W".toList, some 100⟩ ∈ loop "/etc/app.yml".toList "/etc/app.yml".toList .zero ex65 := by decide +kernel

/-- Two writes, as they would be reported with an operation. -/
example : (match applyAll (fun _ => 7) (Store.new '.' false ⟨[some 1], [some 1], [some 1]⟩ : Store Nat Nat)
      [.pointer ⟨"/etc/a".toList, 0, 2, [], none⟩, .err, .pointer ⟨"/etc/b".toList, 0, 2, [], none⟩] with
    | .ok (_, ev) => ev.map fun
      | .new _ p _ _ => p
      | .change _ p _ _ _ => p
      | .delete _ p _ _ => p
    | .error _ => []) = ["/etc/a".toList, "/etc/b".toList] := by decide +kernel

end Verif.FileWatch

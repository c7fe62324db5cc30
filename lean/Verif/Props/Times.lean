import Verif.Model.Times
/-
C76: `SmartParseTime`.
-/
namespace Verif
namespace Times
variable {L S T E : Type}

/-- The layouts given to `AddKnownTimeFormats`, in order. -/
def added : List (Call L S) → List L
  | [] => []
  | .parse _ :: cs => added cs
  | .add ls :: cs => ls ++ added cs

theorem after_list (parse : L → S → Out T E) (zero : T) (builtin : List L) (calls : List (Call L S)) :
    ((after parse zero builtin calls).init builtin).list = builtin ++ added calls := by
  have key : ∀ (calls : List (Call L S)) (f : Formats L),
      ((calls.foldl (fun f c => (step parse zero builtin f c).1) f).init builtin).list = (f.init builtin).list ++ added calls := by
    intro calls
    induction calls with
    | nil => intro f; simp [added]
    | cons c cs ih =>
      intro f
      rw [List.foldl_cons, ih]
      cases c with
      | parse s =>
        simp only [step, added]
        by_cases h : f.once <;> simp [Formats.init, h]
      | add ls =>
        simp only [step, added]
        by_cases h : f.once <;> simp [Formats.init, h]
  rw [after, key]
  rfl

theorem tryAll_eq (parse : L → S → Out T E) (s : S) : ∀ (ls : List L) (o : Out T E),
    tryAll parse s ls o = match ls.find? (fun l => (parse l s).err.isNone) with
      | some l => parse l s
      | none => match ls.getLast? with
        | some l => parse l s
        | none => o
  | [], o => rfl
  | l :: ls, o => by
    simp only [tryAll, List.find?_cons]
    cases h : (parse l s).err with
    | none => simp
    | some e =>
      simp only [Option.isNone_some]
      rw [tryAll_eq parse s ls]
      cases h2 : ls.find? (fun l => (parse l s).err.isNone) with
      | some l' => simp
      | none =>
        cases ls with
        | nil => simp
        | cons a b =>
          simp only [List.getLast?_cons_cons]
          cases hg : (a :: b).getLast? with
          | none => simp at hg
          | some x => rfl

/-- **C76** Whatever was called before: a string is parsed by the first of the known layouts, those of the code and then the added ones in the order they were added,
that accepts it; if none does, the result is what the last one says. -/
theorem C76_first (parse : L → S → Out T E) (zero : T) {builtin : List L} (hb : builtin ≠ []) (calls : List (Call L S)) (s : S) :
    (∀ pre l post, builtin ++ added calls = pre ++ l :: post → (∀ l' ∈ pre, (parse l' s).err ≠ none) → (parse l s).err = none →
      answer parse zero builtin calls s = parse l s) ∧
    ((∀ l ∈ builtin ++ added calls, (parse l s).err ≠ none) →
      ∃ l, (builtin ++ added calls).getLast? = some l ∧ answer parse zero builtin calls s = parse l s) := by
  refine ⟨fun pre l post e h1 h2 => ?_, fun h => ?_⟩
  · rw [answer, after_list, tryAll_eq, e, List.find?_append,
      List.find?_eq_none.2 (fun x hx => by simpa [Option.isNone_iff_eq_none] using h1 x hx)]
    simp [h2]
  · rw [answer, after_list, tryAll_eq, List.find?_eq_none.2 (fun x hx => by simpa [Option.isNone_iff_eq_none] using h x hx)]
    cases hl : (builtin ++ added calls).getLast? with
    | none => simp [hb] at hl
    | some l => exact ⟨l, rfl, rfl⟩

/-- **C76** `MustSmartParseTime` gives the time of the first layout that accepts the string; if none does, the one that came with the last error. -/
theorem C76_must (parse : L → S → Out T E) (zero : T) {builtin : List L} (hb : builtin ≠ []) (calls : List (Call L S)) (s : S) :
    (∀ pre l post, builtin ++ added calls = pre ++ l :: post → (∀ l' ∈ pre, (parse l' s).err ≠ none) → (parse l s).err = none →
      mustAnswer parse zero builtin calls s = (parse l s).tm) ∧
    ((∀ l ∈ builtin ++ added calls, (parse l s).err ≠ none) →
      ∃ l, (builtin ++ added calls).getLast? = some l ∧ mustAnswer parse zero builtin calls s = (parse l s).tm) := by
  obtain ⟨h1, h2⟩ := C76_first parse zero hb calls s
  refine ⟨fun pre l post e a b => congrArg Out.tm (h1 pre l post e a b), fun h => ?_⟩
  obtain ⟨l, e1, e2⟩ := h2 h
  exact ⟨l, e1, congrArg Out.tm e2⟩

example : mustAnswer (fun (l s : Nat) => if s < 10 ^ l then ⟨s + l, none⟩ else ⟨0, some l⟩) 0 [1, 2] [.parse 5, .add [4, 3], .parse 1] 123 = 127 := by
  decide +kernel

/-- **C76** It returns without an error exactly if some known layout accepts the string. -/
theorem C76_accepts (parse : L → S → Out T E) (zero : T) {builtin : List L} (hb : builtin ≠ []) (calls : List (Call L S)) (s : S) :
    (answer parse zero builtin calls s).err = none ↔ ∃ l ∈ builtin ++ added calls, (parse l s).err = none := by
  rw [answer, after_list, tryAll_eq]
  cases h : (builtin ++ added calls).find? (fun l => (parse l s).err.isNone) with
  | some l =>
    have h1 := List.find?_some h
    simp only [Option.isNone_iff_eq_none] at h1
    exact ⟨fun _ => ⟨l, List.mem_of_find?_eq_some h, h1⟩, fun _ => h1⟩
  | none =>
    have h1 := List.find?_eq_none.1 h
    simp only [Option.isNone_iff_eq_none] at h1
    refine ⟨fun e => ?_, fun ⟨l, hl, e⟩ => absurd e (h1 l hl)⟩
    cases hl : (builtin ++ added calls).getLast? with
    | none => simp [hb] at hl
    | some l =>
      rw [hl] at e
      exact ⟨l, List.mem_of_getLast? hl, e⟩

/-- **C76** Adding layouts never changes the meaning of a string that was accepted before. -/
theorem C76_stable (parse : L → S → Out T E) (zero : T) {builtin : List L} (hb : builtin ≠ []) (calls more : List (Call L S)) (s : S)
    (h : (answer parse zero builtin calls s).err = none) : answer parse zero builtin (calls ++ more) s = answer parse zero builtin calls s := by
  have ha : added (calls ++ more) = added calls ++ added more := by
    clear h
    induction calls with
    | nil => rfl
    | cons c cs ih => cases c <;> simp [added, ih]
  obtain ⟨l, hl, hp⟩ := (C76_accepts parse zero hb calls s).1 h
  rw [answer, answer, after_list, after_list, tryAll_eq, tryAll_eq, ha, ← List.append_assoc, List.find?_append]
  cases h2 : (builtin ++ added calls).find? (fun l => (parse l s).err.isNone) with
  | some l' => simp
  | none => exact absurd (by simp [hp]) (List.find?_eq_none.1 h2 l hl)

/-- Two layouts: a layout `n` accepts the numbers with `n` digits (here: below `10 ^ n`). -/
example : answer (fun (l s : Nat) => if s < 10 ^ l then ⟨s + l, none⟩ else ⟨0, some l⟩) 0 [1, 2] [.parse 5, .add [4, 3], .parse 1] 123 = ⟨127, none⟩ ∧
    answer (fun (l s : Nat) => if s < 10 ^ l then ⟨s + l, none⟩ else ⟨0, some l⟩) 0 [1, 2] [.parse 5, .add [4, 3], .parse 1] 12 = ⟨14, none⟩ ∧
    answer (fun (l s : Nat) => if s < 10 ^ l then ⟨s + l, none⟩ else ⟨0, some l⟩) 0 [1, 2] [.parse 5, .add [4, 3], .parse 1] 12345 = ⟨0, some 3⟩ := by
  decide

end Times
end Verif

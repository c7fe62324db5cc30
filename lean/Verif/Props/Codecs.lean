import Verif.Model.Codecs
/-
C74: codec objects.
-/
namespace Verif
namespace Codecs
variable {M B : Type}

/-- An object that answers every call as a fresh object (with fields `s`) would, whatever it was used for before. -/
def Codec.Repeatable {σ : Type} (c : Codec σ M B) (s : σ) : Prop :=
  ∀ calls, c.run s calls = calls.map (fun x => (c.call s x).1)

theorem repeatable_of_const {σ : Type} {c : Codec σ M B} {s : σ} (h1 : ∀ b, (c.unmarshal s b).2 = s) (h2 : ∀ m, (c.marshal s m).2 = s) :
    c.Repeatable s := by
  intro calls
  induction calls with
  | nil => rfl
  | cons x xs ih =>
    have e : (c.call s x).2 = s := by cases x <;> simp [Codec.call, h1, h2]
    rw [Codec.run, e, ih, List.map_cons]

/-- **C74** One json, yaml, toml, hjson or nestext object may be used any number of times, for both directions, in any order. -/
theorem C74_repeatable (l : Lib M B) (indent : M → Option B) {D : Type} (parse : B → Option D) (dict : D → Option M) (enc : M → Option B) :
    (∀ o, (json l indent).Repeatable o) ∧ (∀ (σ : Type) (s : σ), (wrapper σ l).Repeatable s) ∧ (nestext parse dict enc).Repeatable () :=
  ⟨fun _ => repeatable_of_const (fun _ => rfl) (fun _ => rfl), fun _ _ => repeatable_of_const (fun _ => rfl) (fun _ => rfl),
    repeatable_of_const (fun _ => rfl) (fun _ => rfl)⟩

/-- **C74** And each reads back what it wrote, if the library does, with any options. -/
theorem C74_read_back {l : Lib M B} (hl : ∀ m b, l.enc m = some b → l.dec b = some m) (indent : M → Option B) {m : M} {b : B} :
    (∀ o, ((json l indent).marshal o m).1 = ⟨some b, false⟩ → ((json l indent).unmarshal o b).1 = ⟨some m, false⟩) ∧
    (∀ (σ : Type) (s : σ), ((wrapper σ l).marshal s m).1 = ⟨some b, false⟩ → ((wrapper σ l).unmarshal s b).1 = ⟨some m, false⟩) ∧
    (∀ (D : Type) (parse : B → Option D) (dict : D → Option M), (∀ b, (parse b).bind dict = l.dec b) →
      ((nestext parse dict l.enc).marshal () m).1 = ⟨some b, false⟩ → ((nestext parse dict l.enc).unmarshal () b).1 = ⟨some m, false⟩) := by
  have key : Res.ofLib (l.enc m) = ⟨some b, false⟩ → l.dec b = some m := by
    intro h
    cases he : l.enc m with
    | none => rw [he] at h; cases h
    | some b' => rw [he] at h; cases h; exact hl m b he
  refine ⟨fun o h => ?_, fun σ s h => ?_, fun D parse dict hd h => ?_⟩
  · show Res.ofLib (l.dec b) = _
    rw [key h]; rfl
  · show Res.ofLib (l.dec b) = _
    rw [key h]; rfl
  · have hb := hd b
    rw [key h] at hb
    simp only [nestext]
    cases hp : parse b with
    | none => rw [hp] at hb; cases hb
    | some d =>
      rw [hp] at hb
      simp only [Option.bind_some] at hb
      simp only [hb]; rfl

/-- **C74** An error of `Marshal` or `Unmarshal` is an error of the library; for nestext also a document that is no map. -/
theorem C74_errors (l : Lib M B) (indent : M → Option B) (o : JsonOpts) {D : Type} (parse : B → Option D) (dict : D → Option M) (enc : M → Option B) :
    (∀ b, ((json l indent).unmarshal o b).1.err = true ↔ l.dec b = none) ∧ (∀ m, ((json l indent).marshal o m).1.err = true ↔ l.enc m = none) ∧
    (∀ b, ((nestext parse dict enc).unmarshal () b).1.err = true ↔ (parse b).bind dict = none) := by
  refine ⟨fun b => ?_, fun m => ?_, fun b => ?_⟩
  · simp only [json]; cases l.dec b <;> simp [Res.ofLib]
  · simp only [json]; cases l.enc m <;> simp [Res.ofLib]
  · simp only [nestext]
    cases parse b with
    | none => simp
    | some d => simp only [Option.bind_some]; cases dict d <;> simp [Res.ofLib]

/-- The option to write JSON on several lines is on by default, and has no effect: whatever it is, `Marshal` returns the same, on one line. -/
theorem C74_pretty_fails (l : Lib M B) (indent : M → Option B) :
    JsonOpts.new.pretty = true ∧ ∀ o m, ((json l indent).marshal o m).1 = .ofLib (l.enc m) := ⟨rfl, fun _ _ => rfl⟩

variable {ε : Type}

/-- **C74** A fresh gob object decodes what it is given. Missing for the full claim: everything else (`C74_gob_fails`). -/
theorem C74_gob_partial (g : Gob M B ε) (b : B) : ((gob g).unmarshal .new b).1 = .ofLib (g.decode b).1 := rfl

/-- **C74** `Marshal` of a gob object never returns any bytes. From the second call on, `Unmarshal` does not look at its argument: it reads on in what the first call
was given. -/
theorem C74_gob_fails (g : Gob M B ε) :
    (∀ s m, ((gob g).marshal s m).1.data = none) ∧
    (∀ b1 b2 b3, (gob g).run .new [.unmarshal b1, .unmarshal b2] = (gob g).run .new [.unmarshal b1, .unmarshal b3]) ∧
    (∀ b1 b2, (gob g).run .new [.unmarshal b1, .unmarshal b2] = [.map (.ofLib (g.decode b1).1), .map (.ofLib (g.decode (g.decode b1).2).1)]) :=
  ⟨fun _ _ => rfl, fun _ _ _ => rfl, fun _ _ => rfl⟩

/-- Whether a stream takes each of the values, one after the other. -/
def Gob.takes (g : Gob M B ε) : ε → List M → List Bool
  | _, [] => []
  | e, m :: ms => (g.encode e m).1 :: Gob.takes g (g.encode e m).2 ms

/-- **C74** `Marshal` of a gob object writes to one stream: whether a call fails depends on the calls before. What is decoded in between does not matter. -/
theorem C74_gob_stream (g : Gob M B ε) (calls : List (Call M B)) :
    ((gob g).run .new calls).filterMap (fun a => match a with | .bytes r => some (!r.err) | .map _ => none) =
      g.takes g.new (calls.filterMap (fun c => match c with | .marshal m => some m | .unmarshal _ => none)) := by
  suffices key : ∀ (s : GobState B ε) (e : ε), (match s.enc with | none => g.new | some e => e) = e →
      ((gob g).run s calls).filterMap (fun a => match a with | .bytes r => some (!r.err) | .map _ => none) =
        g.takes e (calls.filterMap (fun c => match c with | .marshal m => some m | .unmarshal _ => none)) from key .new g.new rfl
  induction calls with
  | nil => intro s e _; rfl
  | cons c cs ih =>
    intro s e he
    cases c with
    | unmarshal b => exact ih _ e he
    | marshal m =>
      subst he
      simp only [Codec.run, Codec.call, gob, List.filterMap_cons, Gob.takes, Bool.not_not]
      exact congrArg _ (ih _ _ rfl)

section table
variable {K C : Type} [DecidableEq K]

/-- **C74** The table of codecs: the last `Register` or `Deregister` of a suffix decides, other suffixes are not affected. -/
theorem C74_table (t : Table K C) (ops : List (TableOp K C)) (e : K) (c : C) :
    (Table.step (ops.foldl Table.step t) (.register e c)).codec e = some c ∧
    (Table.step (ops.foldl Table.step t) (.deregister e)).codec e = none ∧
    ∀ e' ≠ e, (Table.step (ops.foldl Table.step t) (.register e c)).codec e' = (ops.foldl Table.step t).codec e' ∧
      (Table.step (ops.foldl Table.step t) (.deregister e)).codec e' = (ops.foldl Table.step t).codec e' := by
  refine ⟨by simp [Table.step, Table.codec], by simp [Table.step, Table.codec], fun e' h => ?_⟩
  have : ¬ e = e' := fun x => h x.symm
  simp [Table.step, Table.codec, this]

/-- The effect of a list of calls on one suffix, by the last call that names it. -/
def lastOf (e : K) : List (TableOp K C) → Option (Option C)
  | [] => none
  | op :: ops => match lastOf e ops with
    | some r => some r
    | none => match op with
      | .register k c => if k = e then some (some c) else none
      | .deregister k => if k = e then some none else none

theorem C74_table_last (t : Table K C) (ops : List (TableOp K C)) (e : K) :
    (ops.foldl Table.step t).codec e = match lastOf e ops with
      | some r => r
      | none => t.codec e := by
  induction ops generalizing t with
  | nil => rfl
  | cons op ops ih =>
    rw [List.foldl_cons, ih]
    cases hl : lastOf e ops with
    | some r => simp [lastOf, hl]
    | none =>
      cases op with
      | register k c => by_cases h : k = e <;> simp [Table.step, Table.codec, lastOf, hl, h]
      | deregister k => by_cases h : k = e <;> simp [Table.step, Table.codec, lastOf, hl, h]
end table

/-- A library that can only encode small numbers, as bytes; a stream of numbers for gob. -/
def exLib : Lib Nat (List Nat) := ⟨fun n => if n < 100 then some [n] else none, fun b => match b with | [n] => some n | _ => none⟩

example : (∀ m b, exLib.enc m = some b → exLib.dec b = some m) ∧
    (json exLib (fun _ => none)).run .new [.marshal 7, .unmarshal [7], .marshal 200, .unmarshal [1, 2], .unmarshal [8]] =
      [.bytes ⟨some [7], false⟩, .map ⟨some 7, false⟩, .bytes ⟨none, true⟩, .map ⟨none, true⟩, .map ⟨some 8, false⟩] := by
  refine ⟨?_, by decide⟩
  intro m b h
  simp only [exLib] at h ⊢
  split at h <;> cases h
  rfl

example : (gob (⟨fun b => (b.head?, b.tail), (), fun _ _ => (true, ())⟩ : Gob Nat (List Nat) Unit)).run .new
    [.unmarshal [7, 8], .unmarshal [9], .unmarshal [10], .marshal 3] =
      [.map ⟨some 7, false⟩, .map ⟨some 8, false⟩, .map ⟨none, true⟩, .bytes ⟨none, false⟩] := by decide

/-- A stream that takes two values. -/
example : (gob (⟨fun b => (b.head?, b.tail), 0, fun e _ => (decide (e < 2), e + 1)⟩ : Gob Nat (List Nat) Nat)).run .new
    [.marshal 3, .unmarshal [7], .marshal 3, .marshal 3] =
      [.bytes ⟨none, false⟩, .map ⟨some 7, false⟩, .bytes ⟨none, false⟩, .bytes ⟨none, true⟩] := by decide

end Codecs
end Verif

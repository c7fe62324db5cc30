import Verif.Model.Files
import Verif.Props.Save
import Verif.Props.ReadModes
/-
C82: files and provider objects under loading and saving.
-/
namespace Verif
namespace Files
open Store
variable {α κ : Type} (json : Bytes → Option (Option (SMap α κ))) (str : κ → Str)

/-- A call writes the bytes `b` to the file `f`: it saves something, through a provider object of that file with write-back enabled,
and `b` is what the codec makes of the exported map; or somebody else writes them. -/
def Writes (w : World α κ) (f : Str) (b : Bytes) : Act α κ → Prop
  | .load .. => False
  | .save i l t => (w.obj i).file = f ∧ (w.obj i).writable = true ∧ ∃ c m, l.codec = some c ∧
      ({ l.st with tree := t } : Store α κ).saveMap = .ok (some m) ∧ m ≠ [] ∧ c.enc m = some b
  | .saveAs _ (some i) c l t => (w.obj i).file = f ∧ (w.obj i).writable = true ∧ ∃ c' m, (c <|> (w.obj i).codec) = some c' ∧
      l.st.view.getM t [] ⟨false, true, none⟩ = .ok (some m) ∧ m ≠ [] ∧ c'.enc m = some b
  | .saveAs _ none _ _ _ => False
  | .other g b' => g = f ∧ b' = some b

theorem write_file (c : Codec α κ) (fs : FS) (p : FileP α κ) (m : Option (SMap α κ)) :
    Loader.write (some c) (some (p.provider fs)) m = match m with
      | none => (none, true)
      | some m => if m = [] then (none, true) else match c.enc m with
        | none => (none, false)
        | some b => if p.writable then (some b, true) else (none, false) := by
  cases m with
  | none => rfl
  | some m =>
    simp only [Loader.write, FileP.provider]
    split
    · rfl
    · cases c.enc m with
      | none => rfl
      | some b => cases p.writable <;> rfl

theorem setFile_at (w : World α κ) (f g : Str) (b : Option Bytes) : (w.setFile f b).fs g = if g = f then b else w.fs g := rfl

/-- What a step does to the bytes of the provider's file. -/
theorem wrote_at (w : World α κ) (i : Nat) (b : Option Bytes) (g : Str) :
    (w.wrote i b).fs g = match b with
      | some b => if g = (w.obj i).file then some b else w.fs g
      | none => w.fs g := by cases b <;> rfl

theorem save_eq (w : World α κ) (i : Nat) (l : Loader α κ) (t : Tree (Any α κ)) :
    (w.save i l t).1 = match l.codec, ({ l.st with tree := t } : Store α κ).saveMap with
      | some c, .ok m => w.wrote i (Loader.write (some c) (some ((w.obj i).provider w.fs)) m).1
      | _, _ => w := by
  unfold World.save Loader.save
  cases l.codec with
  | none => rfl
  | some c =>
    simp only
    cases ({ l.st with tree := t } : Store α κ).saveMap <;> rfl

/-- **C82** A call writes to the file it should write to, and what it should write. -/
theorem C82_writes (w : World α κ) (a : Act α κ) (f : Str) (b : Bytes) (h : Writes w f b a) : (w.step json str a).fs f = some b := by
  cases a with
  | load => exact h.elim
  | save i l t =>
    obtain ⟨hf, hw, c, m, hc, hm, hne, hb⟩ := h
    show (w.save i l t).1.fs f = _
    rw [save_eq, hc, hm]
    simp only [write_file, hne, if_false, hb, hw, if_true, wrote_at, hf]
  | saveAs o p c l t =>
    cases p with
    | none => exact h.elim
    | some i =>
      obtain ⟨hf, hw, c', m, hc, hm, hne, hb⟩ := h
      cases c with
      | none =>
        simp only [Option.orElse_eq_orElse, Option.orElse_eq_or, Option.none_or] at hc
        simp only [World.step, World.saveAs, Loader.saveAs, Option.isNone_none, if_true]
        rw [show ((w.obj i).provider w.fs).codec = some c' from hc]
        simp only [hm, write_file, hne, if_false, hb, hw, if_true, wrote_at, hf]
      | some c =>
        simp at hc
        subst hc
        simp only [World.step, World.saveAs, Loader.saveAs, Option.isNone_some, Bool.false_eq_true, if_false, World.setObj, if_true,
          hm, write_file, hne, hb, hw, wrote_at, hf]
  | other g b' =>
    obtain ⟨rfl, rfl⟩ := h
    simp [World.step, setFile_at]

/-- **C82** Nothing else changes a file: not loading, not saving through a provider object of another file or with write-back disabled,
not a failing export or codec. -/
theorem C82_untouched (w : World α κ) (a : Act α κ) (f : Str) (h : ∀ b, ¬ Writes w f b a) (hd : a ≠ .other f none) :
    (w.step json str a).fs f = w.fs f := by
  cases a with
  | load i s c pos prefix' =>
    simp only [World.step, World.load]
    split <;> rfl
  | save i l t =>
    show (w.save i l t).1.fs f = _
    rw [save_eq]
    split
    next c m hc hm =>
      simp only [write_file]
      cases m with
      | none => rfl
      | some m =>
        simp only
        split
        · rfl
        · rename_i hne
          cases hb : c.enc m with
          | none => rfl
          | some b =>
            simp only
            cases hw : (w.obj i).writable with
            | false => rfl
            | true =>
              simp only [if_true, wrote_at]
              split
              · rename_i hf; exact absurd ⟨hf.symm, hw, c, m, hc, hm, hne, hb⟩ (h b)
              · rfl
    next => rfl
  | saveAs o p c l t =>
    cases p with
    | none => simp [World.step, World.saveAs, Loader.saveAs]
    | some i =>
      cases c with
      | none =>
        simp only [World.step, World.saveAs, Loader.saveAs, Option.isNone_none, if_true]
        cases hc : ((w.obj i).provider w.fs).codec with
        | none => rfl
        | some c =>
          simp only
          cases hm : l.st.view.getM t [] ⟨false, true, none⟩ with
          | error e => rfl
          | ok m =>
            simp only [write_file]
            cases m with
            | none => rfl
            | some m =>
              simp only
              by_cases hne : m = []
              · simp [hne, wrote_at]
              · cases hb : c.enc m with
                | none => simp [hne, wrote_at]
                | some b =>
                  cases hw : (w.obj i).writable with
                  | false => simp [hne, wrote_at]
                  | true =>
                    simp only [hne, if_false, if_true, wrote_at]
                    split
                    · rename_i hf
                      refine absurd ⟨hf.symm, hw, c, m, ?_, hm, hne, hb⟩ (h b)
                      simpa [FileP.provider] using hc
                    · rfl
      | some c =>
        simp only [World.step, World.saveAs, Loader.saveAs, Option.isNone_some, Bool.false_eq_true, if_false]
        cases hm : l.st.view.getM t [] ⟨false, true, none⟩ with
        | error e => rfl
        | ok m =>
          simp only [write_file]
          cases m with
          | none => rfl
          | some m =>
            simp only
            by_cases hne : m = []
            · simp [hne, wrote_at, World.setObj]
            · cases hb : c.enc m with
              | none => simp [hne, wrote_at, World.setObj]
              | some b =>
                cases hw : (w.obj i).writable with
                | false => simp [hne, wrote_at, World.setObj]
                | true =>
                  simp only [hne, if_false, World.setObj, if_true, wrote_at]
                  split
                  · rename_i hf
                    exact absurd ⟨hf.symm, hw, c, m, by simp, hm, hne, hb⟩ (h b)
                  · rfl
  | other g b' =>
    simp only [World.step, setFile_at]
    split
    · rename_i e
      subst e
      cases b' with
      | none => exact absurd rfl hd
      | some b => exact absurd ⟨rfl, rfl⟩ (h b)
    · rfl

theorem newLoader_fix (w : World α κ) (i : Nat) (c : Option (Codec α κ)) (pos : Str) (j : Nat) :
    ((w.newLoader i c pos).obj j).file = (w.obj j).file ∧ ((w.newLoader i c pos).obj j).writable = (w.obj j).writable ∧
    ((w.newLoader i c pos).obj j).codec = (if j = i then (c <|> (w.obj j).codec) else (w.obj j).codec) := by
  simp only [World.newLoader, World.setObj]
  by_cases h : j = i
  · subst h
    cases c <;> by_cases hp : pos = [] <;> simp [hp]
  · simp [h]

theorem wrote_obj (w : World α κ) (i : Nat) (b : Option Bytes) : (w.wrote i b).obj = w.obj := by cases b <;> rfl

/-- The codec that a call gives to the provider object `i`. -/
def given (i : Nat) : Act α κ → Option (Codec α κ)
  | .load j s c _ _ => if j = i ∧ s.loading = false then c else none
  | .saveAs _ (some j) c _ _ => if j = i then c else none
  | _ => none

theorem step_obj (w : World α κ) (a : Act α κ) (j : Nat) :
    ((w.step json str a).obj j).file = (w.obj j).file ∧ ((w.step json str a).obj j).writable = (w.obj j).writable ∧
    ((w.step json str a).obj j).codec = (given j a <|> (w.obj j).codec) := by
  cases a with
  | load i s c pos prefix' =>
    simp only [World.step, World.load, given]
    by_cases hl : s.loading = true
    · simp [hl]
    · have hl' : s.loading = false := by simpa using hl
      obtain ⟨h1, h2, h3⟩ := newLoader_fix w i c pos j
      simp only [hl', Bool.false_eq_true, if_false]
      refine ⟨h1, h2, ?_⟩
      rw [h3]
      by_cases e : j = i
      · simp [e]
      · have e' : ¬ i = j := fun h => e h.symm
        simp [e, e']
  | save i l t =>
    simp only [World.step, given, World.save]
    cases ({ l with prov := some ((w.obj i).provider w.fs) } : Loader α κ).save t <;> simp [wrote_obj]
  | saveAs o p c l t =>
    cases p with
    | none =>
      simp only [World.step, given, World.saveAs]
      cases l.saveAs t c none <;> simp
    | some i =>
      have key : ∀ (w' : World α κ), (match l.saveAs t c (some ((w'.obj i).provider w'.fs)) with
          | .error e => (w', Except.error e)
          | .ok (b, ok) => (w'.wrote i b, Except.ok ok) : World α κ × Go Bool).1.obj = w'.obj := by
        intro w'
        cases l.saveAs t c (some ((w'.obj i).provider w'.fs)) with
        | error => rfl
        | ok r => exact wrote_obj _ _ _
      cases c with
      | none =>
        have key' : (w.saveAs o (some i) none l t).1.obj = w.obj := key _
        simp only [World.step, given, key']
        simp
      | some c =>
        have key' : (w.saveAs o (some i) (some c) l t).1.obj = (w.setObj i { w.obj i with codec := some c }).obj := key _
        simp only [World.step, given, key']
        by_cases e : j = i
        · subst e; simp [World.setObj]
        · have e' : ¬ i = j := fun h => e h.symm
          simp [World.setObj, e, e']
  | other g b => simp [World.step, given, World.setFile]

/-- **C82** Over a whole history: a provider object keeps its file and its permission to write, and its codec is the last one that a
`Load` or `SaveAs` gave to it, or its own. So a codec given once is used by later calls that give none. -/
theorem C82_codec (w : World α κ) (l : List (Act α κ)) (i : Nat) :
    ((w.run json str l).obj i).file = (w.obj i).file ∧ ((w.run json str l).obj i).writable = (w.obj i).writable ∧
    ((w.run json str l).obj i).codec = ((l.filterMap (given i)).getLast? <|> (w.obj i).codec) := by
  induction l generalizing w with
  | nil => simp [World.run]
  | cons a l ih =>
    obtain ⟨h1, h2, h3⟩ := ih (w.step json str a)
    obtain ⟨g1, g2, g3⟩ := step_obj json str w a i
    refine ⟨h1.trans g1, h2.trans g2, ?_⟩
    show ((World.run json str (w.step json str a) l).obj i).codec = _
    rw [h3, g3]
    cases hg : given i a with
    | none => simp [hg]
    | some c =>
      rw [List.filterMap_cons_some hg, List.getLast?_cons]
      cases (l.filterMap (given i)).getLast? <;> simp

/-- The position that a call gives to the object `i`. -/
def givenPos (i : Nat) : Act α κ → Option Str
  | .load j s _ pos _ => if j = i ∧ s.loading = false ∧ pos ≠ [] then some pos else none
  | _ => none

theorem step_pos (w : World α κ) (a : Act α κ) (j : Nat) :
    ((w.step json str a).obj j).pos = (givenPos j a).getD (w.obj j).pos ∧ ((w.step json str a).obj j).watch = (w.obj j).watch := by
  cases a with
  | load i s c pos prefix' =>
    simp only [World.step, World.load, givenPos]
    by_cases hl : s.loading = true
    · simp [hl]
    · have hl' : s.loading = false := by simpa using hl
      simp only [hl', Bool.false_eq_true, if_false, World.newLoader, World.setObj]
      by_cases e : j = i
      · subst e
        by_cases hp : pos = []
        · cases c <;> simp [hp]
        · cases c <;> simp [hp]
      · have e' : ¬ i = j := fun h => e h.symm
        simp [e, e']
  | save i l t =>
    simp only [World.step, givenPos, World.save]
    cases ({ l with prov := some ((w.obj i).provider w.fs) } : Loader α κ).save t <;> simp [wrote_obj]
  | saveAs o p c l t =>
    cases p with
    | none =>
      simp only [World.step, givenPos, World.saveAs]
      cases l.saveAs t c none <;> simp
    | some i =>
      have key : ∀ (w' : World α κ), (match l.saveAs t c (some ((w'.obj i).provider w'.fs)) with
          | .error e => (w', Except.error e)
          | .ok (b, ok) => (w'.wrote i b, Except.ok ok) : World α κ × Go Bool).1.obj = w'.obj := by
        intro w'
        cases l.saveAs t c (some ((w'.obj i).provider w'.fs)) with
        | error => rfl
        | ok r => exact wrote_obj _ _ _
      cases c with
      | none =>
        have key' : (w.saveAs o (some i) none l t).1.obj = w.obj := key _
        simp only [World.step, givenPos, key']
        simp
      | some c =>
        have key' : (w.saveAs o (some i) (some c) l t).1.obj = (w.setObj i { w.obj i with codec := some c }).obj := key _
        simp only [World.step, givenPos, key']
        by_cases e : j = i
        · subst e; simp [World.setObj]
        · simp [World.setObj, e]
  | other g b => simp [World.step, givenPos, World.setFile]

/-- **C82** The position of a provider object is the last one, not empty, that a `Load` gave to it, or its own; whether it watches its
file never changes. -/
theorem C82_position (w : World α κ) (l : List (Act α κ)) (i : Nat) :
    ((w.run json str l).obj i).pos = (l.filterMap (givenPos i)).getLast?.getD (w.obj i).pos ∧
    ((w.run json str l).obj i).watch = (w.obj i).watch := by
  induction l generalizing w with
  | nil => simp [World.run]
  | cons a l ih =>
    obtain ⟨h1, h2⟩ := ih (w.step json str a)
    obtain ⟨g1, g2⟩ := step_pos json str w a i
    refine ⟨?_, h2.trans g2⟩
    show ((World.run json str (w.step json str a) l).obj i).pos = _
    rw [h1, g1]
    cases hg : givenPos i a with
    | none => simp [hg]
    | some c =>
      rw [List.filterMap_cons_some hg, List.getLast?_cons]
      cases (l.filterMap (givenPos i)).getLast? <;> simp

/-- **C82** Over a whole history: what is in a file was written by the last call that wrote to it, or it was there at the start and no
call wrote to the file. -/
theorem C82_origin (w : World α κ) (l : List (Act α κ)) (f : Str) (b : Bytes) (h : (w.run json str l).fs f = some b) :
    (∃ l1 a l2, l = l1 ++ a :: l2 ∧ Writes (w.run json str l1) f b a ∧
      ∀ l3 a' l4, l2 = l3 ++ a' :: l4 → ∀ b', ¬ Writes (w.run json str (l1 ++ a :: l3)) f b' a') ∨
    (w.fs f = some b ∧ ∀ l1 a l2, l = l1 ++ a :: l2 → ∀ b', ¬ Writes (w.run json str l1) f b' a) := by
  induction l using ReadModes.snoc_ind with
  | nil => exact .inr ⟨h, fun l1 a l2 e => by simp at e⟩
  | snoc l a ih =>
    have hrun : w.run json str (l ++ [a]) = (w.run json str l).step json str a := by simp [World.run]
    rw [hrun] at h
    by_cases hw : ∃ b', Writes (w.run json str l) f b' a
    · obtain ⟨b', hw⟩ := hw
      have := C82_writes json str _ a f b' hw
      rw [h] at this
      obtain rfl := Option.some.inj this
      exact .inl ⟨l, a, [], rfl, hw, fun l3 a' l4 e => by simp at e⟩
    · have hq : ∀ b', ¬ Writes (w.run json str l) f b' a := fun b' hb => hw ⟨b', hb⟩
      have hd : a ≠ .other f none := by
        rintro rfl
        simp [World.step, setFile_at] at h
      rw [C82_untouched json str _ a f hq hd] at h
      rcases ih h with ⟨l1, a1, l2, e, hw1, hlast⟩ | ⟨h0, hnone⟩
      · refine .inl ⟨l1, a1, l2 ++ [a], by simp [e], hw1, fun l3 a' l4 e' => ?_⟩
        rcases List.eq_nil_or_concat l4 with rfl | ⟨l5, x, rfl⟩
        · obtain ⟨e1, e2⟩ := List.append_inj' e' rfl
          simp at e2
          subst e1; subst e2
          rw [← e]; exact hq
        · have e' : l2 ++ [a] = (l3 ++ a' :: l5) ++ [x] := by simpa using e'
          obtain ⟨e1, -⟩ := List.append_inj' e' rfl
          exact hlast l3 a' l5 e1
      · refine .inr ⟨h0, fun l1 a1 l2 e' => ?_⟩
        rcases List.eq_nil_or_concat l2 with rfl | ⟨l5, x, rfl⟩
        · obtain ⟨e1, e2⟩ := List.append_inj' e' rfl
          simp at e2
          subst e1; subst e2
          exact hq
        · have e' : l ++ [a] = (l1 ++ a1 :: l5) ++ [x] := by simpa using e'
          obtain ⟨e1, -⟩ := List.append_inj' e' rfl
          exact hnone l1 a1 l5 e1

/-- **C82** The options of the file provider: the last of a kind decides; by default there is no codec, no watching and no writing. -/
theorem C82_options (file : Str) (opts : List (Opt α κ)) :
    (FileP.new file opts).file = file ∧
    (FileP.new file opts).writable = ReadModes.lastOf (fun | .writeBack b => some b | _ => none) false opts ∧
    (FileP.new file opts).watch = ReadModes.lastOf (fun | .watch b => some b | _ => none) false opts ∧
    (FileP.new file opts).pos = ReadModes.lastOf (fun | .position b => some b | _ => none) [] opts ∧
    (FileP.new file opts).codec = ReadModes.lastOf (fun | .codec c => some (some c) | _ => none) none opts := by
  induction opts using ReadModes.snoc_ind with
  | nil => exact ⟨rfl, rfl, rfl, rfl, rfl⟩
  | snoc l o ih =>
    simp only [FileP.new, List.foldl_append, List.foldl_cons, List.foldl_nil, ReadModes.lastOf_snoc] at ih ⊢
    cases o <;> simp only [Opt.apply] <;> simp [ih]

/-! ## What is reported -/

/-- **C82** `Save` with write-back disabled: if there is something to save, an error is reported; in any case no file changes. -/
theorem C82_disabled (w : World α κ) (i : Nat) (l : Loader α κ) (t : Tree (Any α κ)) (hw : (w.obj i).writable = false) :
    (∀ f, (w.save i l t).1.fs f = w.fs f) ∧
    (∀ c m, l.codec = some c → ({ l.st with tree := t } : Store α κ).saveMap = .ok (some m) → m ≠ [] → (w.save i l t).2 = .ok false) := by
  constructor
  · intro f
    exact C82_untouched (fun _ => none) (fun _ => []) w (.save i l t) f (fun b hb => by simp [Writes, hw] at hb) (by simp)
  · intro c m hc hm hne
    simp only [World.save, Loader.save, hc, hm, write_file, hne, if_false, hw]
    cases c.enc m <;> simp

/-- **C82** `Save` with write-back enabled reports an error exactly if the codec fails. -/
theorem C82_enabled (w : World α κ) (i : Nat) (l : Loader α κ) (t : Tree (Any α κ)) (hw : (w.obj i).writable = true)
    (c : Codec α κ) (m : SMap α κ) (hc : l.codec = some c) (hm : ({ l.st with tree := t } : Store α κ).saveMap = .ok (some m)) (hne : m ≠ []) :
    (w.save i l t).2 = .ok (c.enc m).isSome ∧ ∀ b, c.enc m = some b → (w.save i l t).1.fs (w.obj i).file = some b := by
  constructor
  · simp only [World.save, Loader.save, hc, hm, write_file, hne, if_false, hw]
    cases c.enc m <;> simp
  · intro b hb
    exact C82_writes (fun _ => none) (fun _ => []) w (.save i l t) _ b ⟨rfl, hw, c, m, hc, hm, hne, hb⟩

/-- **C82** `Save`, then `Load` into a store without prefix through any provider object of the same file, with the same codec: every
modified entry reads back and the other entries of that store keep their values. Partial as C53. -/
theorem C82_roundtrip_partial (w : World α κ) (i j : Nat) {l : Loader α κ} {t : Tree (Any α κ)} (hw : (w.obj i).writable = true)
    (hfile : (w.obj j).file = (w.obj i).file)
    (h : Reach (NoRoute l.st.view.delim) t) (hpre : l.st.view.pre = []) (fl : Bool)
    (hkey : ∀ k c, Saved (·.modified) l.st.view t k c → ([] ∉ splitOn l.st.view.delim k ∧ ' ' ∉ k ∧ plainVal fl c.data = true) ∧
      ∀ k' c', Saved (·.modified) l.st.view t k' c' → splitOn l.st.view.delim k' <+: splitOn l.st.view.delim k → k' = k)
    (hex : ∃ k c, Saved (·.modified) l.st.view t k c) {c : Codec α κ} (hc : l.codec = some c) :
    ∃ m, ({ l.st with tree := t } : Store α κ).saveMap = .ok (some m) ∧
      ∀ b m', c.enc m = some b → c.dec b = some (some m') → SameMap m m' → uniqM m' →
        (w.save i l t).2 = .ok true ∧
        ∀ {s : Store α κ} {co : Option (Codec α κ)} {pos : Str}, s.loading = false → Reach (NoRoute s.view.delim) s.tree →
          s.view.delim = l.st.view.delim → s.view.pre = [] → s.flatten = fl → (co <|> (w.obj j).codec) = some c →
          ((w.save i l t).1.load json str j s co pos none).2.ok = true ∧ ∀ (r : View) q, r.delim = l.st.view.delim →
            (∀ e, Saved (·.modified) l.st.view t (r.full q) e →
              r.mustGet ((w.save i l t).1.load json str j s co pos none).2.store.tree q = .ok e.data) ∧
            (∀ e, s.tree.contents (r.full q) = some e → (∀ e', ¬ Saved (·.modified) l.st.view t (r.full q) e') →
              r.mustGet ((w.save i l t).1.load json str j s co pos none).2.store.tree q = r.mustGet s.tree q) := by
  obtain ⟨m, g1, g2, g3⟩ := save_load json str h hpre ⟨false, true, some (fun n => n.core.modified)⟩ rfl (·.modified) (fun _ => rfl) fl
    hkey hex
  have hsm : ({ l.st with tree := t } : Store α κ).saveMap = .ok (some m) := g1
  refine ⟨m, hsm, fun b m' hb hd hs hu => ?_⟩
  obtain ⟨e1, e2⟩ := C82_enabled w i l t hw c m hc hsm g2
  refine ⟨by rw [e1, hb]; rfl, ?_⟩
  intro s co pos hl hr hdel hp hfl hco
  have hobj : (w.save i l t).1.obj j = w.obj j := by
    rw [save_eq, hc, hsm]; exact congrFun (wrote_obj _ _ _) j
  have hL : ((w.save i l t).1.load json str j s co pos none).2 =
      s.loadWith json str (.provider ((((w.save i l t).1.newLoader j co pos).obj j).provider (w.save i l t).1.fs) ::
        (co.map LoadOpt.codec).toList ++ [.position pos]) := by
    simp only [World.load, hl, Bool.false_eq_true, if_false, Option.map_none, Option.toList_none, List.append_nil]
    rfl
  rw [hL]
  refine g3 c b m' hd hs hu hl hr hdel hp ?_ ?_ ?_
  · refine ⟨((((w.save i l t).1.newLoader j co pos).obj j).provider (w.save i l t).1.fs), _, ?_, rfl, rfl, rfl, ?_, ?_⟩
    · cases co <;> simp [lastProvider]
    · obtain ⟨q1, -, -⟩ := newLoader_fix (w.save i l t).1 j co pos j
      simp only [q1, hobj, hfile, e2 b hb]
    · obtain ⟨-, -, q3⟩ := newLoader_fix (w.save i l t).1 j co pos j
      rw [show ((((w.save i l t).1.newLoader j co pos).obj j).provider (w.save i l t).1.fs).codec = _ from q3, hobj]
      cases co with
      | none => simpa [lastCodec] using hco
      | some c' => simpa [lastCodec] using hco
  · cases co <;> simp [lastPrefix]
  · cases co <;> simpa [lastFlatten] using hfl

/-! ## Deviations -/

/-- `Save` replaces the file by the modified entries: a value that was loaded and not modified is not among what is written. -/
theorem C82_lost_fails {P : Str → Prop} {l : Loader α κ} {t : Tree (Any α κ)} (h : Reach P t) (hpre : l.st.view.pre = []) (k : Str)
    (e : Core (Any α κ)) (hk : t.contents k = some e) (hm : e.modified = false) (hv : ∀ k c, Saved (·.modified) l.st.view t k c → c.data.isMap = false) :
    ∀ m, ({ l.st with tree := t } : Store α κ).saveMap = .ok (some m) → ∀ x, status m (splitOn l.st.view.delim k) ≠ some (some x) := by
  obtain ⟨flat, g1, g2, g3⟩ := getM_sel h hpre ⟨false, true, some (fun n => n.core.modified)⟩ rfl (·.modified) (fun _ => rfl)
  intro m hmm x hx
  have : ({ l.st with tree := t } : Store α κ).saveMap = .ok (some (splitCompactKeys l.st.view.delim flat)) := g1
  rw [hmm] at this
  injection this with this
  injection this with this
  rw [this, C20_values _ g2 (fun a ha => by
    obtain ⟨c, a1, a2, a3, a4, a5⟩ := (g3 a.1 a.2).mp ha
    rw [← a5]; exact hv a.1 c ⟨a1, a2, a3, a4⟩)] at hx
  obtain ⟨k', a1, a2, -⟩ := hx
  have : k' = k := by
    have := congrArg (joinWith l.st.view.delim) a2
    rwa [joinWith_splitOn, joinWith_splitOn, eq_comm] at this
  subst this
  obtain ⟨c, b1, -, b3, -⟩ := (g3 k' x).mp a1
  rw [hk] at b1
  injection b1 with b1
  subst b1
  rw [hm] at b3
  cases b3

/-- `SaveAs` does not use the name of the output file: without a provider nothing is written anywhere, and no error is reported. -/
theorem C82_outfile_fails (w : World α κ) (outfile : Str) (c : Option (Codec α κ)) (l : Loader α κ) (t : Tree (Any α κ)) :
    w.saveAs outfile none c l t = (w, .ok true) := rfl

/-- **C82** The provider for `fs.FS` never writes; what there is to save is reported as an error. -/
theorem C82_fs (fs : FS) (path : Str) (co : Option (Codec α κ)) (c : Codec α κ) (m : Option (SMap α κ)) :
    (Loader.write (some c) (some (fsProvider fs path co)) m).1 = none ∧
    ((∃ x, m = some x ∧ x ≠ []) → (Loader.write (some c) (some (fsProvider fs path co)) m).2 = false) := by
  cases m with
  | none => exact ⟨rfl, fun ⟨x, h, _⟩ => by cases h⟩
  | some m =>
    simp only [Loader.write, fsProvider]
    by_cases hm : m = []
    · simp [hm]
    · cases c.enc m <;> simp [hm]

/-! ## A session -/

def exF : Str := "c.json".toList
/-- **C82** `Load` of a store that is being loaded does nothing: no file, no provider object, no entry of the store changes, no handler is called,
and it reports success without a `Writeable`. -/
theorem C82_skipped (w : World α κ) (i : Nat) (s : Store α κ) (c : Option (Codec α κ)) (pos : Str) (prefix' : Option Str) (h : s.loading = true) :
    w.load json str i s c pos prefix' = (w, ⟨s, [], true, none⟩) := by
  simp [World.load, h]

/-- **C82** A `Load` that is not skipped ends with the flag as it was, whatever it reads. -/
theorem C82_released (w : World α κ) (i : Nat) (s : Store α κ) (c : Option (Codec α κ)) (pos : Str) (prefix' : Option Str) :
    (w.load json str i s c pos prefix').2.store.loading = s.loading := by
  cases h : s.loading with
  | true => rw [C82_skipped _ _ _ _ _ _ _ _ h]; exact h
  | false =>
    simp only [World.load, h, Bool.false_eq_true, if_false]
    unfold Store.loadWith
    simp only [h, Bool.false_eq_true, if_false]
    generalize Loader.tryLoad _ _ = r
    obtain ⟨kvs, res⟩ := r
    cases res with
    | none => rfl
    | some p => obtain ⟨data, bin⟩ := p; rfl

/-- A file with `{app: {debug: 7, name: 3}}`, and two provider objects for it; only the first may write. -/
def exW : World Nat Nat := ⟨fun f => if f = exF then some [1] else none, fun i => FileP.new exF [.writeBack (i == 0)]⟩
/-- Loaded through the first object, with a codec given. -/
def ex1 : World Nat Nat × Store.Loaded Nat Nat := exW.load (fun _ => none) itoa 0 (S0.new false) (some exC) [] none
/-- `app.debug` is set and saved. -/
def ex2 (i : Nat) : World Nat Nat × Go Bool :=
  match ex1.2.wr with
  | some l => ex1.1.save i l (sset ex1.2.store "app.debug" 9).tree
  | none => (ex1.1, .error .panic)
/-- Loaded into a new store through the object `i`. -/
def ex3 (w : World Nat Nat) (i : Nat) (c : Option (Codec Nat Nat)) : Store.Loaded Nat Nat := (w.load (fun _ => none) itoa i (S0.new false) c [] none).2

/-- The loaded and unmodified `app.name` is gone from the file after `Save`: a new store does not get it. -/
theorem C82_save_loses_fails :
    isAtom 3 (ex1.2.store.mustGet "app.name".toList) = true ∧ (ex2 0).1.fs exF = some [2] ∧
    (ex3 (ex2 0).1 0 none).ok = true ∧ isAtom 9 ((ex3 (ex2 0).1 0 none).store.mustGet "app.debug".toList) = true ∧
    isNilA ((ex3 (ex2 0).1 0 none).store.mustGet "app.name".toList) = true := by
  decide +kernel

/-- The codec that one `Load` gave to the first object serves the next one without codec; the second object has none, and the fallback
decoder fails. -/
example : (ex3 ex1.1 0 none).ok = true ∧ (ex3 ex1.1 1 none).ok = false ∧ (ex3 exW 0 none).ok = false ∧
    (ex3 ex1.1 1 (some exC)).ok = true := by decide +kernel

/-- A `Load` from a handler of a running one: the codec it was given is not stored in the object. -/
example : (exW.load (fun _ => none) itoa 0 { S0.new false with loading := true } (some exC) [] none).2.ok = true ∧
    ((exW.load (fun _ => none) itoa 0 { S0.new false with loading := true } (some exC) [] none).1.obj 0).codec.isSome = false ∧
    ((exW.load (fun _ => none) itoa 0 (S0.new false) (some exC) [] none).1.obj 0).codec.isSome = true := by decide +kernel

/-- The second object may not write. -/
example : (ex2 1).1.fs exF = some [1] ∧ (match (ex2 1).2 with | .ok b => b | .error _ => true) = false := by decide +kernel

/-- `os.WriteFile` empties the file before it writes, so a `Load` in between reads an empty file. With a codec that accepts one (as
those for yaml and toml do) it succeeds and delivers nothing, although the file had a value for the key before and after. -/
theorem C82_torn_fails : ∃ (c : Codec Nat Nat) (m1 m2 : SMap Nat Nat),
    c.dec [1] = some (some m1) ∧ c.dec [2] = some (some m2) ∧
    (let r := ex3 { exW with fs := fun _ => some [] } 0 (some c)
     r.ok = true ∧ isNilA (r.store.mustGet "a".toList) = true) ∧
    (∀ b : UInt8, b = 1 ∨ b = 2 → (let r := ex3 { exW with fs := fun _ => some [b] } 0 (some c)
     r.ok = true ∧ isAtom b.toNat (r.store.mustGet "a".toList) = true)) := by
  refine ⟨⟨fun b => some (some (b.map (fun x => ("a".toList, .atom x.toNat)))), fun _ => none⟩, _, _, rfl, rfl, by decide +kernel, ?_⟩
  rintro b (rfl | rfl) <;> decide +kernel

end Files
end Verif

import Verif.Model.Trie
import Verif.Lemmas.Utf8
/-
Facts about splitting and joining strings at a delimiter.
-/
namespace Verif

theorem splitOn_ne_nil (d : Char) (s : Str) : splitOn d s ≠ [] := by
  cases s with
  | nil => simp [splitOn]
  | cons c cs => simp only [splitOn]; split <;> (try split) <;> simp

theorem splitOn_cons_ne {d c : Char} (h : c ≠ d) (s : Str) :
    ∃ w ws, splitOn d s = w :: ws ∧ splitOn d (c :: s) = (c :: w) :: ws := by
  obtain ⟨w, ws, hw⟩ := List.exists_cons_of_ne_nil (splitOn_ne_nil d s)
  exact ⟨w, ws, hw, by simp [splitOn, h, hw]⟩

theorem joinWith_cons {d : Char} {w : Str} {ws : List Str} (h : ws ≠ []) : joinWith d (w :: ws) = w ++ d :: joinWith d ws := by
  cases ws with
  | nil => exact absurd rfl h
  | cons a as => rfl

/-- Joining undoes splitting. -/
theorem joinWith_splitOn (d : Char) (s : Str) : joinWith d (splitOn d s) = s := by
  induction s with
  | nil => rfl
  | cons c cs ih =>
    by_cases h : c = d
    · subst h
      simp only [splitOn, if_true]
      rw [joinWith_cons (splitOn_ne_nil _ _), ih]; rfl
    · obtain ⟨w, ws, h1, h2⟩ := splitOn_cons_ne h cs
      rw [h2]
      rw [h1] at ih
      cases ws with
      | nil => simp only [joinWith] at ih ⊢; rw [ih]
      | cons a as => simp only [joinWith, List.cons_append] at ih ⊢; rw [ih]

/-- No piece contains the delimiter. -/
theorem splitOn_pieces (d : Char) (s : Str) : ∀ w ∈ splitOn d s, d ∉ w := by
  induction s with
  | nil => simp [splitOn]
  | cons c cs ih =>
    intro w hw
    by_cases h : c = d
    · simp only [splitOn, h, if_true, List.mem_cons] at hw
      rcases hw with rfl | hw
      · simp
      · exact ih w hw
    · obtain ⟨x, ws, h1, h2⟩ := splitOn_cons_ne h cs
      rw [h2] at hw
      rw [h1] at ih
      simp only [List.mem_cons] at hw ih
      rcases hw with rfl | hw
      · have := ih x (.inl rfl)
        simp only [List.mem_cons, not_or]
        exact ⟨fun e => h e.symm, this⟩
      · exact ih w (.inr hw)

theorem splitOn_append {d : Char} {w : Str} (h : d ∉ w) (s : Str) : splitOn d (w ++ d :: s) = w :: splitOn d s := by
  induction w with
  | nil => simp [splitOn]
  | cons c cs ih =>
    simp only [List.mem_cons, not_or] at h
    have hc : c ≠ d := fun e => h.1 e.symm
    simp [splitOn, hc, ih h.2]

theorem splitOn_self {d : Char} {w : Str} (h : d ∉ w) : splitOn d w = [w] := by
  induction w with
  | nil => rfl
  | cons c cs ih =>
    simp only [List.mem_cons, not_or] at h
    have hc : c ≠ d := fun e => h.1 e.symm
    simp [splitOn, hc, ih h.2]

/-- Splitting undoes joining, for pieces without the delimiter. -/
theorem splitOn_joinWith {d : Char} {l : List Str} (hl : l ≠ []) (h : ∀ w ∈ l, d ∉ w) : splitOn d (joinWith d l) = l := by
  induction l with
  | nil => exact absurd rfl hl
  | cons a as ih =>
    cases as with
    | nil => exact splitOn_self (h a (by simp))
    | cons b bs =>
      rw [joinWith_cons (by simp), splitOn_append (h a (by simp)), ih (by simp) (fun w hw => h w (by simp [hw]))]

theorem joinWith_append {d : Char} {l l' : List Str} (h : l ≠ []) (h' : l' ≠ []) :
    joinWith d (l ++ l') = joinWith d l ++ d :: joinWith d l' := by
  induction l with
  | nil => exact absurd rfl h
  | cons a as ih =>
    cases as with
    | nil => simp only [List.singleton_append, joinWith_cons h', joinWith]
    | cons b bs =>
      rw [List.cons_append, joinWith_cons (by simp), ih (by simp), joinWith_cons (ws := b :: bs) (by simp)]
      simp

theorem joinWith_eq_nil {d : Char} {l : List Str} (h : ∀ w ∈ l, w ≠ []) : joinWith d l = [] ↔ l = [] := by
  cases l with
  | nil => simp [joinWith]
  | cons a as =>
    cases as with
    | nil => simp [joinWith]; exact h a (by simp)
    | cons b bs => simp [joinWith]

/-- Components determine the string. -/
theorem joinWith_inj {d : Char} {l l' : List Str} (h0 : l ≠ []) (h0' : l' ≠ []) (h : ∀ w ∈ l, d ∉ w) (h' : ∀ w ∈ l', d ∉ w)
    (e : joinWith d l = joinWith d l') : l = l' := by
  rw [← splitOn_joinWith h0 h, e, splitOn_joinWith h0' h']

/-- Specification of joining: the non-empty parts, separated by single delimiters. -/
def joinSpec (d : Char) (l : List Str) : Str := List.intercalate [d] (l.filter (fun p => p ≠ []))

theorem intercalate_eq_joinWith (d : Char) (l : List Str) : List.intercalate [d] l = joinWith d l := by
  induction l with
  | nil => rfl
  | cons a as ih =>
    cases as with
    | nil => simp [joinWith]
    | cons b bs => rw [joinWith_cons (by simp), ← ih]; simp [List.intercalate_cons_of_ne_nil]

theorem joinSpec_eq (d : Char) (l : List Str) : joinSpec d l = joinWith d (l.filter (fun p => p ≠ [])) :=
  intercalate_eq_joinWith d _

theorem joinRest_eq (d : Char) (l : List Str) (a : Str) :
    a ++ View.joinRest d l = joinWith d (a :: l.filter (fun p => p ≠ [])) := by
  induction l generalizing a with
  | nil => simp [View.joinRest, joinWith]
  | cons b bs ih =>
    by_cases hb : b = []
    · subst hb; simp [View.joinRest]; simpa using ih a
    · have := ih b
      simp only [View.joinRest, hb, ne_eq, not_false_eq_true, if_true, List.cons_append, decide_true,
        List.filter_cons_of_pos]
      rw [joinWith_cons (by simp), this]

theorem join_eq (d : Char) (l : List Str) : View.join d l = joinSpec d l := by
  rw [joinSpec_eq]
  induction l with
  | nil => rfl
  | cons a as ih =>
    cases as with
    | nil => by_cases h : a = [] <;> simp [View.join, h, joinWith]
    | cons b bs =>
      by_cases h : a = []
      · subst h; simp only [View.join, if_true]; simpa using ih
      · simp only [View.join, h, if_false]
        rw [joinRest_eq, List.filter_cons_of_pos (a := a) (by simpa using h)]

theorem join1_eq (d : Char) (pre : Str) (l : List Str) : View.join1 d pre l = joinSpec d (pre :: l) := by
  by_cases h : pre = []
  · subst h; simp only [View.join1, if_true, join_eq, joinSpec]; simp
  · simp only [View.join1, h, if_false]
    split
    · rename_i h0
      have := List.length_eq_zero_iff.mp h0
      subst this
      simp [joinSpec_eq, h, joinWith]
    · rw [joinRest_eq, joinSpec_eq, List.filter_cons_of_pos (by simpa using h)]

theorem full_eq (v : View) (p : Str) : v.full p = joinSpec v.delim [v.pre, p] := by
  simp only [View.full]
  by_cases h : v.pre = []
  · simp only [h, ne_eq, not_true_eq_false, if_false, joinSpec_eq]
    by_cases hp : p = [] <;> simp [hp, joinWith]
  · simp only [h, ne_eq, not_false_eq_true, if_true, join_eq]

theorem joinSpec_nil_iff {d : Char} {l : List Str} : joinSpec d l = [] ↔ ∀ p ∈ l, p = [] := by
  rw [joinSpec_eq, joinWith_eq_nil (by simp)]
  simp

/-- Associativity. -/
theorem joinSpec_assoc (d : Char) (l m r : List Str) :
    joinSpec d (l ++ joinSpec d m :: r) = joinSpec d (l ++ m ++ r) := by
  by_cases h : joinSpec d m = []
  · have hm := joinSpec_nil_iff.mp h
    have : m.filter (fun p => p ≠ []) = [] := by simpa using hm
    rw [joinSpec_eq, joinSpec_eq d (l ++ m ++ r)]
    simp only [List.filter_append, this, List.append_nil]
    rw [h, List.filter_cons_of_neg (by simp)]
  · have hne : m.filter (fun p => p ≠ []) ≠ [] := by
      intro e; apply h; rw [joinSpec, e]; rfl
    rw [joinSpec_eq, joinSpec_eq d (l ++ m ++ r)]
    simp only [List.filter_append]
    rw [List.filter_cons_of_pos (by simpa using h)]
    rw [joinSpec_eq]
    generalize m.filter (fun p => p ≠ []) = m' at hne
    generalize l.filter (fun p => p ≠ []) = l'
    generalize r.filter (fun p => p ≠ []) = r'
    by_cases hl : l' = []
    · subst hl
      by_cases hr : r' = []
      · subst hr; simp [joinWith]
      · simp only [List.nil_append]
        rw [joinWith_cons hr, joinWith_append hne hr]
    · by_cases hr : r' = []
      · subst hr
        rw [joinWith_append hl (by simp)]
        simp only [List.append_nil]
        rw [joinWith_append hl hne]; rfl
      · rw [joinWith_append hl (by simp), joinWith_cons hr, List.append_assoc, joinWith_append hl (by simp [hne]),
          joinWith_append hne hr]

end Verif

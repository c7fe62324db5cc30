import Verif.Model.Integers
import Verif.Props.Bytes
/-
C101: integers in the notations of Go.
-/
namespace Verif
namespace Bytes

/-- The digits of Go's numbers and what they stand for. -/
def digits : List (Char × Nat) :=
  [('0', 0), ('1', 1), ('2', 2), ('3', 3), ('4', 4), ('5', 5), ('6', 6), ('7', 7), ('8', 8), ('9', 9),
   ('a', 10), ('b', 11), ('c', 12), ('d', 13), ('e', 14), ('f', 15), ('A', 10), ('B', 11), ('C', 12), ('D', 13), ('E', 14), ('F', 15)]

/-- `Spells b n s m`: the digits `s` in base `b`, read after digits that stand for `n`, make `m`. An underscore may stand before each of them. -/
inductive Spells (b : Nat) : Nat → Str → Nat → Prop
  | nil (n : Nat) : Spells b n [] n
  | cons {n m d : Nat} {c : Char} {s : Str} : (c, d) ∈ digits → d < b → Spells b (n * b + d) s m → Spells b n (c :: s) m
  | under {n m d : Nat} {c : Char} {s : Str} : (c, d) ∈ digits → d < b → Spells b (n * b + d) s m → Spells b n ('_' :: c :: s) m

/-- What a number in Go begins with if it is not decimal. -/
def prefixes : List (Str × Nat) :=
  [("0x".toList, 16), ("0X".toList, 16), ("0o".toList, 8), ("0O".toList, 8), ("0".toList, 8), ("0b".toList, 2), ("0B".toList, 2)]

/-- `x` is `n` in one of the notations of Go. -/
inductive Number : Str → Nat → Prop
  | zero : Number ['0'] 0
  | dec {c : Char} {d : Nat} {s : Str} {n : Nat} : (c, d) ∈ digits → 0 < d → d < 10 → Spells 10 d s n → Number (c :: s) n
  | base {p : Str} {b : Nat} {s : Str} {n : Nat} : (p, b) ∈ prefixes → s ≠ [] → Spells b 0 s n → Number (p ++ s) n

theorem digit_all {c : Char} {d : Nat} (h : (c, d) ∈ digits) :
    digitVal c = some d ∧ c ≠ '_' ∧ isSpace c = false ∧ c ≠ '.' ∧ c.toNat < 128 ∧ lower c ≠ 'x' ∧ lower c ≠ 'o' ∧ (d < 8 → lower c ≠ 'b') ∧
      c ≠ 'i' := by
  simp only [digits, List.mem_cons, List.not_mem_nil, or_false] at h
  rcases h with h | h | h | h | h | h | h | h | h | h | h | h | h | h | h | h | h | h | h | h | h | h <;> cases h <;>
    exact ⟨by decide, by decide, by decide, by decide, by decide, by decide, by decide, by decide, by decide⟩

theorem digit_us {c : Char} {d : Nat} (h : (c, d) ∈ digits) :
    (c.isDigit || (true && 'a' ≤ lower c && lower c ≤ 'f')) = true ∧ (d < 10 → c.isDigit = true) ∧ (0 < d → c ≠ '0') := by
  simp only [digits, List.mem_cons, List.not_mem_nil, or_false] at h
  rcases h with h | h | h | h | h | h | h | h | h | h | h | h | h | h | h | h | h | h | h | h | h | h <;> cases h <;>
    exact ⟨by decide, by decide, by decide⟩

theorem digits_of {c : Char} {d : Nat} (h : digitVal c = some d) (hd : d < 16) : (c, d) ∈ digits := by
  have small : c.toNat < 128 := by
    unfold digitVal at h
    split at h
    · rename_i hc
      simp only [Char.isDigit, Bool.and_eq_true, decide_eq_true_eq, UInt32.le_iff_toNat_le] at hc
      have : c.toNat = c.val.toNat := rfl
      have := hc.2
      simp at this
      omega
    · split at h
      · rename_i _ hc
        unfold lower at hc
        split at hc
        · rename_i hu
          have := hu.2
          have : c.toNat ≤ 'Z'.toNat := this
          have e : 'Z'.toNat = 90 := by decide
          omega
        · have : c.toNat ≤ 'z'.toNat := hc.2
          have e : 'z'.toNat = 122 := by decide
          omega
      · cases h
  have key : ∀ n, n < 128 → (digitVal (Char.ofNat n)).all (fun d => decide (d ≥ 16) || digits.contains (Char.ofNat n, d)) = true := by
    decide +kernel
  have := key c.toNat small
  rw [Char.ofNat_toNat, h] at this
  simp only [Option.all_some, Bool.or_eq_true, decide_eq_true_eq, List.contains_iff_mem] at this
  exact this.resolve_left (by omega)

theorem digitVal_dec {c : Char} {d : Nat} (h : digitVal c = some d) (hd : d < 10) : c.isDigit = true :=
  (digit_us (digits_of h (by omega))).2.1 hd

theorem Spells.le {b n m : Nat} {s : Str} (hb : 1 ≤ b) (h : Spells b n s m) : n ≤ m := by
  induction h with
  | nil => exact Nat.le_refl _
  | @cons n _ d _ _ _ _ _ ih | @under n _ d _ _ _ _ _ ih =>
    have : n ≤ n * b := Nat.le_mul_of_pos_right n hb
    omega

theorem Spells.loop {b n m : Nat} {s : Str} (hb : 1 ≤ b) (h : Spells b n s m) (hm : m < 2 ^ 64) :
    ∀ us, ∃ us', puLoop b n us s = ((m, true), us') := by
  induction h with
  | nil => exact fun us => ⟨us, rfl⟩
  | cons hc hd hs ih =>
    intro us
    obtain ⟨h1, h2, _⟩ := digit_all hc
    have := hs.le hb
    obtain ⟨us', e⟩ := ih hm us
    refine ⟨us', ?_⟩
    rw [puLoop, if_neg h2]
    simp only [h1]
    rw [if_neg (by omega), if_neg (by omega)]
    exact e
  | under hc hd hs ih =>
    intro us
    obtain ⟨h1, h2, _⟩ := digit_all hc
    have := hs.le hb
    obtain ⟨us', e⟩ := ih hm true
    refine ⟨us', ?_⟩
    rw [puLoop, if_pos rfl, puLoop, if_neg h2]
    simp only [h1]
    rw [if_neg (by omega), if_neg (by omega)]
    exact e

/-- Too large a number: the loop stops. -/
theorem Spells.over {b n m : Nat} {s : Str} (h : Spells b n s m) (hm : 2 ^ 64 ≤ m) :
    n < 2 ^ 64 → ∀ us, ∃ us', puLoop b n us s = ((2 ^ 64 - 1, false), us') := by
  induction h with
  | nil => intro hn; omega
  | @cons n m d c s hc hd hs ih =>
    intro hn us
    obtain ⟨h1, h2, _⟩ := digit_all hc
    rw [puLoop, if_neg h2]
    simp only [h1]
    rw [if_neg (by omega)]
    by_cases hb : n * b + d > 2 ^ 64 - 1
    · rw [if_pos hb]; exact ⟨us, rfl⟩
    · rw [if_neg hb]; exact ih hm (by omega) us
  | @under n m d c s hc hd hs ih =>
    intro hn us
    obtain ⟨h1, h2, _⟩ := digit_all hc
    rw [puLoop, if_pos rfl, puLoop, if_neg h2]
    simp only [h1]
    rw [if_neg (by omega)]
    by_cases hb : n * b + d > 2 ^ 64 - 1
    · rw [if_pos hb]; exact ⟨true, rfl⟩
    · rw [if_neg hb]; exact ih hm (by omega) true

theorem Spells.us {b n m : Nat} {s : Str} (h : Spells b n s m) {hex : Bool} (hb : b ≤ 10 ∨ hex = true) : usLoop hex '0' s = true := by
  have dig : ∀ {c d}, (c, d) ∈ digits → d < b → (c.isDigit || (hex && 'a' ≤ lower c && lower c ≤ 'f')) = true := by
    intro c d hc hd
    obtain ⟨u1, u2, _⟩ := digit_us hc
    rcases hb with hb | rfl
    · rw [u2 (by omega)]; rfl
    · exact u1
  induction h with
  | nil => rfl
  | cons hc hd _ ih => rw [usLoop, if_pos (dig hc hd)]; exact ih
  | @under n m d c s hc hd _ ih =>
    have e : ('_'.isDigit || (hex && 'a' ≤ lower '_' && lower '_' ≤ 'f')) = false := by
      cases hex <;> decide
    rw [usLoop, e]
    simp only [Bool.false_eq_true, if_false, if_true]
    rw [if_neg (by decide), usLoop, if_pos (dig hc hd)]
    exact ih

/-- Without underscores. -/
theorem loop_plain {b m : Nat} (hb : b ≤ 16) (s : Str) : ∀ n us, n < 2 ^ 64 → puLoop b n us s = ((m, true), false) → Spells b n s m ∧ m < 2 ^ 64 := by
  induction s with
  | nil =>
    intro n us hn h
    simp only [puLoop, Prod.mk.injEq] at h
    rw [← h.1.1]
    exact ⟨.nil _, hn⟩
  | cons c s ih =>
    intro n us hn h
    rw [puLoop] at h
    by_cases hc : c = '_'
    · rw [if_pos hc] at h
      -- the flag stays
      have stay : ∀ (s : Str) n r, puLoop b n true s = r → r.2 = true := by
        intro s
        induction s with
        | nil => rintro n r rfl; rfl
        | cons c s ih =>
          intro n r hr
          rw [puLoop] at hr
          split at hr
          · exact ih _ _ hr
          · split at hr
            · rw [← hr]
            · split at hr
              · rw [← hr]
              · split at hr
                · rw [← hr]
                · exact ih _ _ hr
      have := stay _ _ _ h
      cases this
    · rw [if_neg hc] at h
      cases hd : digitVal c with
      | none => rw [hd] at h; simp at h
      | some d =>
        rw [hd] at h
        simp only at h
        by_cases h1 : d ≥ b
        · rw [if_pos h1] at h; simp at h
        · rw [if_neg h1] at h
          by_cases h2 : n * b + d > 2 ^ 64 - 1
          · rw [if_pos h2] at h; simp at h
          · rw [if_neg h2] at h
            obtain ⟨g1, g2⟩ := ih _ _ (by omega) h
            exact ⟨.cons (digits_of hd (by omega)) (by omega) g1, g2⟩

/-- With underscores in the right places. -/
theorem loop_under {b m : Nat} (hb : b ≤ 16) {hex : Bool} (k : Nat) : ∀ (s : Str) n us us', s.length ≤ k → n < 2 ^ 64 → usLoop hex '0' s = true →
    puLoop b n us s = ((m, true), us') → (b ≤ 10 ∨ hex = true) → Spells b n s m ∧ m < 2 ^ 64 := by
  induction k with
  | zero =>
    intro s n us us' hk hn _ h _
    cases s with
    | nil => simp only [puLoop, Prod.mk.injEq] at h; rw [← h.1.1]; exact ⟨.nil _, hn⟩
    | cons => simp at hk
  | succ k ih =>
    intro s n us us' hk hn hu h hor
    have step : ∀ c s us, c ≠ '_' → s.length ≤ k → usLoop hex '0' s = true → puLoop b n us (c :: s) = ((m, true), us') →
        ∃ d, (c, d) ∈ digits ∧ d < b ∧ Spells b (n * b + d) s m ∧ m < 2 ^ 64 := by
      intro c s us hc hk hu h
      rw [puLoop, if_neg hc] at h
      cases hd : digitVal c with
      | none => rw [hd] at h; simp at h
      | some d =>
        rw [hd] at h
        simp only at h
        by_cases h1 : d ≥ b
        · rw [if_pos h1] at h; simp at h
        · rw [if_neg h1] at h
          by_cases h2 : n * b + d > 2 ^ 64 - 1
          · rw [if_pos h2] at h; simp at h
          · rw [if_neg h2] at h
            obtain ⟨g1, g2⟩ := ih _ _ _ _ hk (by omega) hu h hor
            exact ⟨d, digits_of hd (by omega), by omega, g1, g2⟩
    -- what stands in front must be a digit of `usLoop`, since it is one of `puLoop`
    have isdig : ∀ c s us, c ≠ '_' → puLoop b n us (c :: s) = ((m, true), us') →
        (c.isDigit || (hex && 'a' ≤ lower c && lower c ≤ 'f')) = true := by
      intro c s us hc h
      rw [puLoop, if_neg hc] at h
      cases hd : digitVal c with
      | none => rw [hd] at h; simp at h
      | some d =>
        rw [hd] at h
        simp only at h
        by_cases h1 : d ≥ b
        · rw [if_pos h1] at h; simp at h
        · obtain ⟨u1, u2, _⟩ := digit_us (digits_of hd (by omega))
          rcases hor with hor | rfl
          · rw [u2 (by omega)]; rfl
          · exact u1
    cases s with
    | nil => simp only [puLoop, Prod.mk.injEq] at h; rw [← h.1.1]; exact ⟨.nil _, hn⟩
    | cons c s =>
      by_cases hc : c = '_'
      · subst hc
        have e : ('_'.isDigit || (hex && 'a' ≤ lower '_' && lower '_' ≤ 'f')) = false := by
          cases hex <;> decide
        rw [usLoop, e] at hu
        simp only [Bool.false_eq_true, if_false, if_true] at hu
        rw [if_neg (by decide)] at hu
        rw [puLoop, if_pos rfl] at h
        cases s with
        | nil => simp [usLoop] at hu
        | cons c s =>
          by_cases hc : c = '_'
          · subst hc
            rw [usLoop, e] at hu
            simp at hu
          · have hdig := isdig c s true hc h
            rw [usLoop, if_pos hdig] at hu
            obtain ⟨d, d1, d2, d3, d4⟩ := step c s true hc (by simp at hk; omega) hu h
            exact ⟨.under d1 d2 d3, d4⟩
      · have hdig := isdig c s us hc h
        rw [usLoop, if_pos hdig] at hu
        obtain ⟨d, d1, d2, d3, d4⟩ := step c s us hc (by simpa using hk) hu h
        exact ⟨.cons d1 d2 d3, d4⟩

theorem loop_inv' {b m : Nat} (hb : b ≤ 16) {hex : Bool} {s : Str} {n : Nat} {us' : Bool} (hn : n < 2 ^ 64)
    (h : puLoop b n false s = ((m, true), us')) (hu : us' = true → usLoop hex '0' s = true) (hor : b ≤ 10 ∨ hex = true) :
    Spells b n s m ∧ m < 2 ^ 64 := by
  cases us' with
  | false => exact loop_plain hb s n false hn h
  | true => exact loop_under hb s.length s n false true (Nat.le_refl _) hn (hu rfl) h hor

/-- Where a number is cut into prefix and digits, and how the underscores are checked. -/
theorem Number.cut {x : Str} {n : Nat} (h : Number x n) : ∃ b s hex, x ≠ [] ∧ baseOf x = (b, s) ∧ Spells b 0 s n ∧ 1 ≤ b ∧
    (b ≤ 10 ∨ hex = true) ∧ underscoreOK x = true := by
  cases h with
  | zero => exact ⟨8, [], false, by simp, rfl, .nil _, by omega, .inl (by omega), by decide⟩
  | @dec c d s n hc h0 hd hs =>
    obtain ⟨_, u2, u3⟩ := digit_us hc
    have c0 := u3 h0
    refine ⟨10, c :: s, false, by simp, ?_, .cons hc hd (by simpa using hs), by omega, .inl (by omega), ?_⟩
    · unfold baseOf
      split
      · rename_i e; cases e; exact absurd rfl c0
      · rename_i e; cases e; exact absurd rfl c0
      · rfl
    · have hd' : c.isDigit = true := u2 hd
      have : underscoreOK (c :: s) = usLoop false '^' (c :: s) := by
        unfold underscoreOK
        split
        · rename_i e; cases e; exact absurd rfl c0
        · rfl
      rw [this, usLoop, if_pos (by simp [hd'])]
      exact hs.us (.inl (by omega))
  | @base p b s n hp hne hs =>
    have first : ∃ c r, s = c :: r ∧ (b = 8 → lower c ≠ 'b' ∧ lower c ≠ 'o' ∧ lower c ≠ 'x') := by
      cases hs with
      | nil => exact absurd rfl hne
      | cons hc hd _ =>
        obtain ⟨_, _, _, _, _, f1, f2, f3, _⟩ := digit_all hc
        exact ⟨_, _, rfl, fun e => ⟨f3 (by omega), f2, f1⟩⟩
      | under => exact ⟨_, _, rfl, fun _ => by decide⟩
    obtain ⟨c, r, rfl, hc⟩ := first
    simp only [prefixes, List.mem_cons, List.not_mem_nil, or_false] at hp
    rcases hp with hp | hp | hp | hp | hp | hp | hp <;> cases hp
    · exact ⟨16, c :: r, true, by simp, rfl, hs, by omega, .inr rfl, hs.us (hex := true) (.inr rfl)⟩
    · exact ⟨16, c :: r, true, by simp, rfl, hs, by omega, .inr rfl, hs.us (hex := true) (.inr rfl)⟩
    · exact ⟨8, c :: r, false, by simp, rfl, hs, by omega, .inl (by omega), hs.us (hex := false) (.inl (by omega))⟩
    · exact ⟨8, c :: r, false, by simp, rfl, hs, by omega, .inl (by omega), hs.us (hex := false) (.inl (by omega))⟩
    · obtain ⟨f1, f2, f3⟩ := hc rfl
      refine ⟨8, c :: r, false, by simp, ?_, hs, by omega, .inl (by omega), ?_⟩
      · show baseOf ('0' :: c :: r) = _
        cases r with
        | nil => rfl
        | cons c2 r => rw [baseOf, if_neg f1, if_neg f2, if_neg f3]
      · show underscoreOK ('0' :: c :: r) = _
        rw [underscoreOK, if_neg (by simp [f1, f2, f3]), usLoop, if_pos (by decide)]
        exact hs.us (.inl (by omega))
    · exact ⟨2, c :: r, false, by simp, rfl, hs, by omega, .inl (by omega), hs.us (hex := false) (.inl (by omega))⟩
    · exact ⟨2, c :: r, false, by simp, rfl, hs, by omega, .inl (by omega), hs.us (hex := false) (.inl (by omega))⟩

theorem Number.parse {x : Str} {n : Nat} (h : Number x n) (hn : n < 2 ^ 64) : parseUint x = (n, true) := by
  obtain ⟨b, s, hex, hne, hb, hs, h1, _, hu⟩ := h.cut
  obtain ⟨us, e⟩ := hs.loop h1 hn false
  rw [parseUint, if_neg hne, hb, e]
  simp [hu]

theorem number_of {x : Str} {n : Nat} (h : parseUint x = (n, true)) : Number x n ∧ n < 2 ^ 64 := by
  unfold parseUint at h
  by_cases hne : x = []
  · rw [if_pos hne] at h; simp at h
  rw [if_neg hne] at h
  generalize he : puLoop (baseOf x).1 0 false (baseOf x).2 = r at h
  obtain ⟨⟨m, ok⟩, us⟩ := r
  simp only at h
  have hok : m = n ∧ ok = true ∧ (us = true → underscoreOK x = true) := by
    by_cases hc : (ok && us && !underscoreOK x) = true
    · rw [if_pos hc] at h; simp at h
    · rw [if_neg hc] at h
      simp only [Prod.mk.injEq] at h
      refine ⟨h.1, h.2, fun hu => ?_⟩
      rw [h.2, hu] at hc
      simpa using hc
  obtain ⟨rfl, rfl, hu⟩ := hok
  have eight : ∀ r, x = '0' :: r → baseOf x = (8, r) → (∀ c r', r = c :: r' → lower c ≠ 'b' ∧ lower c ≠ 'o' ∧ lower c ≠ 'x') → Number x m ∧ m < 2 ^ 64 := by
    intro r hx hb hr
    rw [hb] at he
    have hus : us = true → usLoop false '0' r = true := by
      intro h
      have := hu h
      rw [hx] at this
      cases r with
      | nil => rfl
      | cons c r' =>
        obtain ⟨f1, f2, f3⟩ := hr c r' rfl
        rw [underscoreOK, if_neg (by simp [f1, f2, f3]), usLoop, if_pos (by decide)] at this
        exact this
    obtain ⟨g1, g2⟩ := loop_inv' (hex := false) (by omega) (by omega) he hus (.inl (by omega))
    refine ⟨?_, g2⟩
    rw [hx]
    cases r with
    | nil => cases g1; exact .zero
    | cons c r' => exact .base (p := "0".toList) (b := 8) (by decide) (by simp) g1
  have pref : ∀ (p : Str) (b : Nat) (hex : Bool) c r, x = p ++ c :: r → (p, b) ∈ prefixes → baseOf x = (b, c :: r) → b ≤ 16 → (b ≤ 10 ∨ hex = true) →
      underscoreOK x = usLoop hex '0' (c :: r) → Number x m ∧ m < 2 ^ 64 := by
    intro p b hex c r hx hp hb h16 hor hus
    rw [hb] at he
    obtain ⟨g1, g2⟩ := loop_inv' (hex := hex) h16 (by omega) he (fun h => by rw [← hus]; exact hu h) hor
    rw [hx]
    exact ⟨.base hp (by simp) g1, g2⟩
  have low : ∀ c, lower c = 'b' → c = 'b' ∨ c = 'B' := by
    intro c h
    unfold lower at h
    split at h
    · right
      rename_i hc
      have h1 : 'A'.toNat ≤ c.toNat := hc.1
      have h2 : c.toNat ≤ 'Z'.toNat := hc.2
      have e1 : 'A'.toNat = 65 := by decide
      have e2 : 'Z'.toNat = 90 := by decide
      have key : ∀ n, n < 91 → Char.ofNat (n + 32) = 'b' → Char.ofNat n = 'B' := by decide +kernel
      have := key c.toNat (by omega) h
      rwa [Char.ofNat_toNat] at this
    · exact .inl h
  have lowo : ∀ c, lower c = 'o' → c = 'o' ∨ c = 'O' := by
    intro c h
    unfold lower at h
    split at h
    · right
      rename_i hc
      have h2 : c.toNat ≤ 'Z'.toNat := hc.2
      have e2 : 'Z'.toNat = 90 := by decide
      have key : ∀ n, n < 91 → Char.ofNat (n + 32) = 'o' → Char.ofNat n = 'O' := by decide +kernel
      have := key c.toNat (by omega) h
      rwa [Char.ofNat_toNat] at this
    · exact .inl h
  have lowx : ∀ c, lower c = 'x' → c = 'x' ∨ c = 'X' := by
    intro c h
    unfold lower at h
    split at h
    · right
      rename_i hc
      have h2 : c.toNat ≤ 'Z'.toNat := hc.2
      have e2 : 'Z'.toNat = 90 := by decide
      have key : ∀ n, n < 91 → Char.ofNat (n + 32) = 'x' → Char.ofNat n = 'X' := by decide +kernel
      have := key c.toNat (by omega) h
      rwa [Char.ofNat_toNat] at this
    · exact .inl h
  cases x with
  | nil => exact absurd rfl hne
  | cons c0 r =>
    by_cases h0 : c0 = '0'
    · subst h0
      match r with
      | [] => exact eight [] rfl rfl (by intro c r' h; cases h)
      | [c] =>
        refine eight [c] rfl rfl ?_
        have hb : baseOf ['0', c] = (8, [c]) := rfl
        rw [hb] at he
        rintro c' r' e
        cases e
        refine ⟨fun h => ?_, fun h => ?_, fun h => ?_⟩
        · rcases low _ h with rfl | rfl <;> simp [puLoop, digitVal, lower] at he
        · rcases lowo _ h with rfl | rfl <;> simp [puLoop, digitVal, lower] at he
        · rcases lowx _ h with rfl | rfl <;> simp [puLoop, digitVal, lower] at he
      | c :: c2 :: r =>
        by_cases hb : lower c = 'b'
        · rcases low _ hb with rfl | rfl
          · exact pref "0b".toList 2 false c2 r rfl (by decide) rfl (by omega) (.inl (by omega)) rfl
          · exact pref "0B".toList 2 false c2 r rfl (by decide) rfl (by omega) (.inl (by omega)) rfl
        · by_cases ho : lower c = 'o'
          · rcases lowo _ ho with rfl | rfl
            · exact pref "0o".toList 8 false c2 r rfl (by decide) rfl (by omega) (.inl (by omega)) rfl
            · exact pref "0O".toList 8 false c2 r rfl (by decide) rfl (by omega) (.inl (by omega)) rfl
          · by_cases hx : lower c = 'x'
            · rcases lowx _ hx with rfl | rfl
              · exact pref "0x".toList 16 true c2 r rfl (by decide) rfl (by omega) (.inr rfl) rfl
              · exact pref "0X".toList 16 true c2 r rfl (by decide) rfl (by omega) (.inr rfl) rfl
            · refine eight (c :: c2 :: r) rfl ?_ (by rintro c' r' e; cases e; exact ⟨hb, ho, hx⟩)
              rw [baseOf, if_neg hb, if_neg ho, if_neg hx]
    · have hb : baseOf (c0 :: r) = (10, c0 :: r) := by
        unfold baseOf
        split
        · rename_i e; cases e; exact absurd rfl h0
        · rename_i e; cases e; exact absurd rfl h0
        · rfl
      have hun : underscoreOK (c0 :: r) = usLoop false '^' (c0 :: r) := by
        unfold underscoreOK
        split
        · rename_i e; cases e; exact absurd rfl h0
        · rfl
      rw [hb] at he
      simp only at he
      by_cases hc : c0 = '_'
      · subst hc
        have stay : us = true := by
          have stay : ∀ (s : Str) n r, puLoop 10 n true s = r → r.2 = true := by
            intro s
            induction s with
            | nil => rintro n r rfl; rfl
            | cons c s ih =>
              intro n r hr
              rw [puLoop] at hr
              split at hr
              · exact ih _ _ hr
              · split at hr
                · rw [← hr]
                · split at hr
                  · rw [← hr]
                  · split at hr
                    · rw [← hr]
                    · exact ih _ _ hr
          rw [puLoop, if_pos rfl] at he
          exact stay _ _ _ he
        have := hu stay
        rw [hun, usLoop] at this
        simp at this
      · have he' := he
        rw [puLoop, if_neg hc] at he
        cases hd : digitVal c0 with
        | none => rw [hd] at he; simp at he
        | some d =>
          rw [hd] at he
          simp only at he
          by_cases h1 : d ≥ 10
          · rw [if_pos h1] at he; simp at he
          · rw [if_neg h1, if_neg (by omega)] at he
            have hmem := digits_of hd (by omega)
            have hdig := digitVal_dec hd (by omega)
            have hus : us = true → usLoop false '0' r = true := by
              intro h
              have := hu h
              rw [hun, usLoop, if_pos (by simp [hdig])] at this
              exact this
            rw [Nat.zero_mul, Nat.zero_add] at he
            obtain ⟨g1, g2⟩ := loop_inv' (hex := false) (by omega) (by omega) he hus (.inl (by omega))
            refine ⟨.dec hmem ?_ (by omega) g1, g2⟩
            rcases Nat.eq_zero_or_pos d with rfl | h
            · exfalso
              have key : ∀ q ∈ digits, q.2 = 0 → q.1 = '0' := by decide
              exact h0 (key _ hmem rfl)
            · exact h

/-- **C101** `SmartParseUint` accepts exactly the numbers of Go below 2^64, and gives what they stand for. -/
theorem C101_uint (s : Str) (n : Nat) : smartUint s = (n, true) ↔ Number s n ∧ n < 2 ^ 64 :=
  ⟨number_of, fun h => h.1.parse h.2⟩

/-- **C101** Too large a number is an error, and `MstSmartParseUint` gives the largest one. -/
theorem C101_uint_range {s : Str} {n : Nat} (h : Number s n) (hn : 2 ^ 64 ≤ n) : smartUint s = (2 ^ 64 - 1, false) ∧ mustSmartUint s = 2 ^ 64 - 1 := by
  obtain ⟨b, r, hex, hne, hb, hs, h1, _, hu⟩ := h.cut
  obtain ⟨us, e⟩ := hs.over hn (by omega) false
  have : parseUint s = (2 ^ 64 - 1, false) := by
    rw [parseUint, if_neg hne, hb, e]
    simp
  exact ⟨this, by rw [mustSmartUint, this]⟩

/-- `i` is written as a sign and a number. -/
def Signed (s : Str) (i : Int) : Prop :=
  ∃ n : Nat, (Number s n ∧ i = n) ∨ (∃ r, s = '+' :: r ∧ Number r n ∧ i = n) ∨ (∃ r, s = '-' :: r ∧ Number r n ∧ i = -(n : Int))

theorem Number.head {s : Str} {n : Nat} (h : Number s n) : ∃ c r, s = c :: r ∧ c ≠ '-' ∧ c ≠ '+' := by
  cases h with
  | zero => exact ⟨_, _, rfl, by decide, by decide⟩
  | dec hc => 
    refine ⟨_, _, rfl, ?_, ?_⟩ <;>
    · rintro rfl
      exact absurd hc (by simp [digits])
  | base hp =>
    simp only [prefixes, List.mem_cons, List.not_mem_nil, or_false] at hp
    rcases hp with hp | hp | hp | hp | hp | hp | hp <;> cases hp <;> exact ⟨_, _, rfl, by decide, by decide⟩

/-- What `ParseInt` makes of the number behind the sign. -/
def signed (neg : Bool) : Nat × Bool → Int × Bool
  | (0, false) => (0, false)
  | (n, _) =>
    if neg = false ∧ n ≥ 2 ^ 63 then (2 ^ 63 - 1, false)
    else if neg = true ∧ n > 2 ^ 63 then (-2 ^ 63, false)
    else (if neg then -(n : Int) else n, true)

theorem parseInt_neg (r : Str) : parseInt ('-' :: r) = signed true (parseUint r) := rfl
theorem parseInt_pos (r : Str) : parseInt ('+' :: r) = signed false (parseUint r) := rfl
theorem parseInt_nil : parseInt [] = (0, false) := rfl
theorem parseInt_none {c : Char} (h1 : c ≠ '-') (h2 : c ≠ '+') (r : Str) : parseInt (c :: r) = signed false (parseUint (c :: r)) := by
  have e : ((c :: r).head? == some '-') = false := by simp [h1]
  unfold parseInt
  simp only [e, if_neg (not_or.mpr ⟨h1, h2⟩)]
  unfold signed
  split <;> split <;> simp_all

theorem puLoop_err {b : Nat} (s : Str) : ∀ n us m us', puLoop b n us s = ((m, false), us') → m = 0 ∨ m = 2 ^ 64 - 1 := by
  induction s with
  | nil => intro n us m us' h; simp [puLoop] at h
  | cons c s ih =>
    intro n us m us' h
    rw [puLoop] at h
    split at h
    · exact ih _ _ _ _ h
    · split at h
      · simp at h; exact .inl h.1.symm
      · split at h
        · simp at h; exact .inl h.1.symm
        · split at h
          · simp only [Prod.mk.injEq] at h; exact .inr h.1.1.symm
          · exact ih _ _ _ _ h

theorem parseUint_err {s : Str} {n : Nat} (h : parseUint s = (n, false)) : n = 0 ∨ n = 2 ^ 64 - 1 := by
  unfold parseUint at h
  split at h
  · simp at h; exact .inl h.symm
  · generalize he : puLoop (baseOf s).1 0 false (baseOf s).2 = r at h
    obtain ⟨⟨m, ok⟩, us⟩ := r
    simp only at h
    split at h
    · simp at h; exact .inl h.symm
    · simp only [Prod.mk.injEq] at h
      obtain ⟨rfl, rfl⟩ := h
      exact puLoop_err _ _ _ _ _ he

theorem signed_iff {neg : Bool} {r : Str} {i : Int} : signed neg (parseUint r) = (i, true) ↔
    ∃ n : Nat, Number r n ∧ i = (if neg then -(n : Int) else n) ∧ -2 ^ 63 ≤ i ∧ i < 2 ^ 63 := by
  constructor
  · intro h
    rcases hp : parseUint r with ⟨n, ok⟩
    rw [hp] at h
    cases ok with
    | false =>
      exfalso
      rcases parseUint_err hp with rfl | rfl
      · simp [signed] at h
      · cases neg <;> simp [signed] at h
    | true =>
      refine ⟨n, (number_of hp).1, ?_⟩
      cases neg with
      | false =>
        by_cases hn : n ≥ 2 ^ 63
        · have : signed false (n, true) = (2 ^ 63 - 1, false) := by
            unfold signed; split
            · rename_i e; cases e
            · simp only [true_and]; rename_i e; cases e; rw [if_pos hn]
          rw [this] at h; simp at h
        · have : signed false (n, true) = ((n : Int), true) := by
            unfold signed; split
            · rename_i e; cases e
            · rename_i e; cases e; rw [if_neg (by omega), if_neg (by simp)]; rfl
          rw [this] at h
          simp only [Prod.mk.injEq, and_true] at h
          simp only [Bool.false_eq_true, if_false]
          omega
      | true =>
        by_cases hn : n > 2 ^ 63
        · have : signed true (n, true) = (-2 ^ 63, false) := by
            unfold signed; split
            · rename_i e; cases e
            · rename_i e; cases e; rw [if_neg (by simp), if_pos ⟨rfl, hn⟩]
          rw [this] at h; simp at h
        · have : signed true (n, true) = (-(n : Int), true) := by
            unfold signed; split
            · rename_i e; cases e
            · rename_i e; cases e; rw [if_neg (by simp), if_neg (by omega)]; rfl
          rw [this] at h
          simp only [Prod.mk.injEq, and_true] at h
          simp only [if_true]
          omega
  · rintro ⟨n, hn, hi, h1, h2⟩
    have hb : n < 2 ^ 64 := by cases neg <;> simp at hi <;> omega
    rw [hn.parse hb]
    unfold signed
    split
    · rename_i e; cases e
    · rename_i e
      cases e
      cases neg with
      | false =>
        simp only [Bool.false_eq_true, if_false] at hi
        rw [if_neg (by omega), if_neg (by simp), hi]; rfl
      | true =>
        simp only [if_true] at hi
        rw [if_neg (by simp), if_neg (by omega), hi]; rfl

/-- **C101** `SmartParseInt` accepts exactly the numbers of Go between -2^63 and 2^63 - 1, with or without a sign. -/
theorem C101_int (s : Str) (i : Int) : smartInt s = (i, true) ↔ Signed s i ∧ -2 ^ 63 ≤ i ∧ i < 2 ^ 63 := by
  unfold smartInt Signed
  constructor
  · intro h
    cases s with
    | nil => rw [parseInt_nil] at h; simp at h
    | cons c r =>
      by_cases h1 : c = '-'
      · subst h1
        rw [parseInt_neg, signed_iff] at h
        obtain ⟨n, hn, hi, hr⟩ := h
        exact ⟨⟨n, .inr (.inr ⟨r, rfl, hn, hi⟩)⟩, hr⟩
      · by_cases h2 : c = '+'
        · subst h2
          rw [parseInt_pos, signed_iff] at h
          obtain ⟨n, hn, hi, hr⟩ := h
          exact ⟨⟨n, .inr (.inl ⟨r, rfl, hn, hi⟩)⟩, hr⟩
        · rw [parseInt_none h1 h2, signed_iff] at h
          obtain ⟨n, hn, hi, hr⟩ := h
          exact ⟨⟨n, .inl ⟨hn, hi⟩⟩, hr⟩
  · rintro ⟨⟨n, ⟨hn, hi⟩ | ⟨r, rfl, hn, hi⟩ | ⟨r, rfl, hn, hi⟩⟩, hr⟩
    · obtain ⟨c, r, rfl, h1, h2⟩ := hn.head
      rw [parseInt_none h1 h2, signed_iff]
      exact ⟨n, hn, hi, hr⟩
    · rw [parseInt_pos, signed_iff]
      exact ⟨n, hn, hi, hr⟩
    · rw [parseInt_neg, signed_iff]
      exact ⟨n, hn, hi, hr⟩

theorem signed_big {neg : Bool} {r : Str} {n : Nat} (hn : Number r n) (h : if neg then 2 ^ 63 < n else 2 ^ 63 ≤ n) :
    signed neg (parseUint r) = (if neg then -2 ^ 63 else 2 ^ 63 - 1, false) := by
  obtain ⟨m, ok, hm, hp⟩ : ∃ m ok, (if neg then 2 ^ 63 < m else 2 ^ 63 ≤ m) ∧ parseUint r = (m, ok) := by
    by_cases hb : n < 2 ^ 64
    · exact ⟨n, true, h, hn.parse hb⟩
    · exact ⟨_, _, by cases neg <;> simp, (C101_uint_range hn (by omega)).1⟩
  rw [hp]
  unfold signed
  split
  · rename_i e
    cases e
    cases neg <;> simp at hm
  · rename_i e
    cases e
    cases neg with
    | false =>
      simp only [Bool.false_eq_true, if_false] at hm ⊢
      rw [if_pos ⟨trivial, hm⟩]
    | true =>
      simp only [if_true] at hm ⊢
      rw [if_neg (by simp), if_pos ⟨trivial, hm⟩]

/-- **C101** A number out of range is an error, and `MustSmartParseInt` gives the nearest one in range. -/
theorem C101_int_range {s : Str} {i : Int} (h : Signed s i) :
    (2 ^ 63 ≤ i → smartInt s = (2 ^ 63 - 1, false) ∧ mustSmartInt s = 2 ^ 63 - 1) ∧
    (i < -2 ^ 63 → smartInt s = (-2 ^ 63, false) ∧ mustSmartInt s = -2 ^ 63) := by
  have must : ∀ {a : Int}, smartInt s = (a, false) → smartInt s = (a, false) ∧ mustSmartInt s = a := by
    intro a h
    refine ⟨h, ?_⟩
    have : mustSmartInt s = (smartInt s).1 := rfl
    rw [this, h]
  obtain ⟨n, ⟨hn, hi⟩ | ⟨r, rfl, hn, hi⟩ | ⟨r, rfl, hn, hi⟩⟩ := h
  · obtain ⟨c, r, rfl, h1, h2⟩ := hn.head
    refine ⟨fun h => must ?_, fun h => by omega⟩
    rw [smartInt, parseInt_none h1 h2]
    exact signed_big hn (by simp; omega)
  · refine ⟨fun h => must ?_, fun h => by omega⟩
    rw [smartInt, parseInt_pos]
    exact signed_big hn (by simp; omega)
  · refine ⟨fun h => by omega, fun h => must ?_⟩
    rw [smartInt, parseInt_neg]
    exact signed_big hn (by simp; omega)

/-- **C101** Every number of Go stands for one integer only. -/
theorem C101_unique {s : Str} {n m : Nat} (h1 : Number s n) (h2 : Number s m) : n = m := by
  obtain ⟨b, r, _, _, hb, hs, _, _, _⟩ := h1.cut
  obtain ⟨b', r', _, _, hb', hs', _, _, _⟩ := h2.cut
  rw [hb] at hb'
  cases hb'
  clear hb h1 h2
  generalize 0 = k at hs hs'
  induction hs with
  | nil => cases hs'; rfl
  | cons hc _ _ ih =>
    obtain ⟨e1, ne, _⟩ := digit_all hc
    cases hs' with
    | cons hc' _ hs' =>
      have := (digit_all hc').1
      rw [e1] at this
      cases this
      exact ih hs'
    | under => exact absurd rfl ne
  | under hc _ _ ih =>
    obtain ⟨e1, _, _⟩ := digit_all hc
    cases hs' with
    | cons hc' => exact absurd rfl (digit_all hc').2.1
    | under hc' _ hs' =>
      have := (digit_all hc').1
      rw [e1] at this
      cases this
      exact ih hs'

theorem digit_dec {c : Char} (h : c.isDigit = true) : (c, c.toNat - 48) ∈ digits ∧ c.toNat - 48 < 10 ∧ (c ≠ '0' → 0 < c.toNat - 48) := by
  have hr : 48 ≤ c.toNat ∧ c.toNat ≤ 57 := by
    have := h
    simp only [Char.isDigit, Bool.and_eq_true, decide_eq_true_eq] at this
    exact ⟨UInt32.le_iff_toNat_le.mp this.1, UInt32.le_iff_toNat_le.mp this.2⟩
  refine ⟨digits_of (by rw [digitVal, if_pos h]) (by omega), by omega, fun hc => ?_⟩
  rcases Nat.lt_or_ge 48 c.toNat with h' | h'
  · omega
  · exfalso
    apply hc
    have : c.toNat = 48 := by omega
    rw [← Char.ofNat_toNat c, this]

theorem spells_dec (s : Str) : ∀ k, (∀ c ∈ s, c.isDigit = true) → Spells 10 k s (s.foldl (fun x c => x * 10 + (c.toNat - 48)) k) := by
  induction s with
  | nil => exact fun k _ => .nil k
  | cons c s ih =>
    intro k h
    obtain ⟨h1, h2, _⟩ := digit_dec (h c (by simp))
    exact .cons h1 h2 (ih _ (fun c hc => h c (by simp [hc])))

/-- The decimal notation is among them. -/
theorem number_dec (n : Nat) : Number (toString n).toList n := by
  rcases Nat.eq_zero_or_pos n with rfl | hp
  · exact .zero
  · obtain ⟨c, r, e, h0⟩ := dec_head n hp
    have hd : ∀ c' ∈ c :: r, c'.isDigit = true := fun c' hc' => dec_digits (n := n) (by rw [e]; exact hc')
    have hv := dec_val n
    obtain ⟨h1, h2, h3⟩ := digit_dec (hd c (by simp))
    have hs := spells_dec r (c.toNat - 48) (fun c' hc' => hd c' (by simp [hc']))
    show Number (dec n) n
    rw [e] at hv ⊢
    rw [List.foldl_cons, Nat.zero_mul, Nat.zero_add] at hv
    rw [hv] at hs
    exact .dec h1 (h3 h0) h2 hs

example : Number "0x_Ff".toList 255 ∧ Number "1_000".toList 1000 ∧ Number "0_17".toList 15 := by
  refine ⟨?_, ?_, ?_⟩
  · exact .base (p := "0x".toList) (b := 16) (s := ['_', 'F', 'f']) (by decide) (by simp)
      (.under (d := 15) (by decide) (by decide) (.cons (d := 15) (by decide) (by decide) (.nil _)))
  · exact .dec (c := '1') (d := 1) (by decide) (by decide) (by decide) (.under (d := 0) (by decide) (by decide)
      (.cons (d := 0) (by decide) (by decide) (.cons (d := 0) (by decide) (by decide) (.nil _))))
  · exact .base (p := "0".toList) (b := 8) (s := ['_', '1', '7']) (by decide) (by simp)
      (.under (d := 1) (by decide) (by decide) (.cons (d := 7) (by decide) (by decide) (.nil _)))

example : smartInt "-0x_Ff".toList = (-255, true) ∧ smartInt "+1_000".toList = (1000, true) ∧ smartUint "0b102".toList = (0, false) ∧
    smartInt "1__0".toList = (0, false) ∧ smartInt "-9223372036854775809".toList = (-2 ^ 63, false) ∧
    mustSmartUint "99999999999999999999 apples".toList = 2 ^ 64 - 1 := by decide +kernel

end Bytes
end Verif

import Verif.Model.Bytes
/-
C22: sizes with binary and decimal units.
-/
namespace Verif
namespace Bytes

theorem trimRight_append {p : Char → Bool} {s t : Str} (h : ∀ c ∈ t, p c = true) :
    trimRight p (s ++ t) = trimRight p s := by
  rw [trimRight, trimRight, List.reverse_append, List.dropWhile_append_of_pos (fun c hc => h c (by simpa using hc))]

theorem trimRight_keep {p : Char → Bool} {s : Str} {c : Char} (h : p c = false) : trimRight p (s ++ [c]) = s ++ [c] := by
  simp [trimRight, h]

theorem dropWhile_space {s t : Str} (h : ∀ c ∈ s, isSpace c = true) : (s ++ t).dropWhile isSpace = t.dropWhile isSpace :=
  List.dropWhile_append_of_pos h

/-- The decimal text of a number. -/
def dec (n : Nat) : Str := (toString n).toList

theorem dec_eq (n : Nat) : dec n = Nat.toDigits 10 n := Nat.toList_repr

theorem dec_digits {n : Nat} {c : Char} (h : c ∈ dec n) : c.isDigit = true := by
  rw [dec_eq] at h
  exact Nat.isDigit_of_mem_toDigits (by omega) (by omega) h

theorem dec_ne (n : Nat) : dec n ≠ [] := by
  rw [dec_eq, Nat.toDigits_eq_if (by omega)]
  split <;> simp

theorem dec_val (n : Nat) : (dec n).foldl (fun x c => x * 10 + (c.toNat - 48)) 0 = n := by
  have := Nat.ofDigitChars_toDigits (b := 10) (n := n) (by omega) (by omega)
  rw [← dec_eq, Nat.ofDigitChars] at this
  conv => rhs; rw [← this]
  congr 1
  funext x c
  show x * 10 + (c.toNat - 48) = 10 * x + (c.toNat - 48)
  omega

/-- No leading zero. -/
theorem dec_head : ∀ n, 0 < n → ∃ c r, dec n = c :: r ∧ c ≠ '0' := by
  intro n
  induction n using Nat.strongRecOn with
  | _ n ih =>
    intro hn
    rw [dec_eq, Nat.toDigits_eq_if (by omega)]
    split
    · refine ⟨_, _, rfl, ?_⟩
      rename_i h
      have : ∀ m, m < 10 → 0 < m → Nat.digitChar m ≠ '0' := by decide
      exact this n h hn
    · obtain ⟨c, r, e, h⟩ := ih (n / 10) (by omega) (by omega)
      rw [dec_eq] at e
      exact ⟨c, r ++ [_], by rw [e]; rfl, h⟩

theorem puLoop_digits {n : Nat} : ∀ (s : Str) (x : Nat), (∀ c ∈ s, c.isDigit = true) →
    s.foldl (fun x c => x * 10 + (c.toNat - 48)) x = n → n < 2 ^ 64 → puLoop 10 x false s = ((n, true), false) := by
  intro s
  induction s with
  | nil => intro x _ h _; simp at h; subst h; rfl
  | cons c s ih =>
    intro x hd h hn
    have hc := hd c (by simp)
    have mono : ∀ (s : Str) (x : Nat), x ≤ s.foldl (fun x c => x * 10 + (c.toNat - 48)) x := by
      intro s
      induction s with
      | nil => intro x; exact Nat.le_refl x
      | cons c s ih => intro x; exact Nat.le_trans (by omega) (ih (x * 10 + (c.toNat - 48)))
    simp only [List.foldl_cons] at h
    have hle := mono s (x * 10 + (c.toNat - 48))
    rw [h] at hle
    have hus : c ≠ '_' := by rintro rfl; exact absurd hc (by decide)
    have h10 : c.toNat - 48 < 10 := by
      simp only [Char.isDigit, Bool.and_eq_true, decide_eq_true_eq] at hc
      have := hc.2
      rw [UInt32.le_iff_toNat_le] at this
      have e : c.toNat = c.val.toNat := rfl
      have e2 : '9'.val.toNat = 57 := rfl
      omega
    rw [puLoop, if_neg hus]
    simp only [digitVal, hc, if_true]
    rw [if_neg (by omega), if_neg (by omega)]
    exact ih _ (fun c h => hd c (by simp [h])) h hn

theorem parseUint_dec {n : Nat} (h : n < 2 ^ 64) : parseUint (dec n) = (n, true) := by
  rw [parseUint, if_neg (dec_ne n)]
  rcases Nat.eq_zero_or_pos n with rfl | hp
  · decide
  · have hb : baseOf (dec n) = (10, dec n) := by
      obtain ⟨c, r, e, h0⟩ := dec_head n hp
      rw [e, baseOf]
      · rintro c' c2 r' h; cases h; exact h0 rfl
      · rintro r' h; cases h; exact h0 rfl
    rw [hb, puLoop_digits (dec n) 0 (fun c => dec_digits) (dec_val n) h]
    rfl

theorem digit_facts {c : Char} (h : c.isDigit = true) :
    isSpace c = false ∧ unitChars.contains c = false ∧ c ≠ '.' ∧ c.toNat < 128 := by
  have hr : 48 ≤ c.toNat ∧ c.toNat ≤ 57 := by
    simp only [Char.isDigit, Bool.and_eq_true, decide_eq_true_eq] at h
    exact ⟨UInt32.le_iff_toNat_le.mp h.1, UInt32.le_iff_toNat_le.mp h.2⟩
  have hc : c = Char.ofNat c.toNat := (Char.ofNat_toNat c).symm
  have : ∀ n, n < 10 → isSpace (Char.ofNat (48 + n)) = false ∧ unitChars.contains (Char.ofNat (48 + n)) = false ∧
      Char.ofNat (48 + n) ≠ '.' := by decide
  have := this (c.toNat - 48) (by omega)
  rw [show 48 + (c.toNat - 48) = c.toNat by omega, ← hc] at this
  exact ⟨this.1, this.2.1, this.2.2, by omega⟩

/-- Blanks as they can stand around and inside a size: white space below U+0080. -/
def Blank (s : Str) : Prop := ∀ c ∈ s, isSpace c = true ∧ c.toNat < 128

/-- **C22, C99, C107** The blanks are exactly: space, tab, line feed, vertical tab, form feed, carriage return. -/
theorem C22_blanks (s : Str) : Blank s ↔ ∀ c ∈ s, c ∈ [' ', '\t', '\n', '\x0b', '\x0c', '\r'] := by
  have key : ∀ n, n < 128 → (isSpace (Char.ofNat n) = true ↔ Char.ofNat n ∈ [' ', '\t', '\n', '\x0b', '\x0c', '\r']) := by decide
  constructor
  · intro h c hc
    have h1 := h c hc
    have h2 := key c.toNat h1.2
    rw [Char.ofNat_toNat] at h2
    exact h2.mp h1.1
  · intro h c hc
    have h1 := h c hc
    have h2 : c.toNat < 128 := by
      simp only [List.mem_cons, List.not_mem_nil, or_false] at h1
      rcases h1 with rfl | rfl | rfl | rfl | rfl | rfl <;> decide
    have h3 := key c.toNat h2
    rw [Char.ofNat_toNat] at h3
    exact ⟨h3.mpr h1, h2⟩

example : Blank " \t ".toList := (C22_blanks _).mpr (by decide)

theorem space_facts {c : Char} (h : isSpace c = true) (h' : c.toNat < 128) :
    unitChars.contains c = false ∧ c ≠ '.' := by
  have hc : c = Char.ofNat c.toNat := (Char.ofNat_toNat c).symm
  have : ∀ n, n < 128 → isSpace (Char.ofNat n) = true → unitChars.contains (Char.ofNat n) = false ∧
      Char.ofNat n ≠ '.' := by decide
  have := this c.toNat h'
  rw [← hc] at this
  exact this h

/-- The exponents of the units. -/
def unitExp : List (Char × Nat) :=
  [('k', 1), ('K', 1), ('m', 2), ('M', 2), ('g', 3), ('G', 3), ('t', 4), ('T', 4), ('p', 5), ('P', 5), ('e', 6), ('E', 6)]

theorem unit_facts {c : Char} {i : Nat} (h : (c, i) ∈ unitExp) (b : Nat) :
    unitTimes b c = b ^ i ∧ unitChars.contains c = true ∧ c ≠ 'i' ∧ c ≠ 'b' ∧ c ≠ 'B' ∧ isSpace c = false ∧
      c.toNat < 128 := by
  simp only [unitExp, List.mem_cons, List.not_mem_nil, or_false] at h
  rcases h with h | h | h | h | h | h | h | h | h | h | h | h <;> cases h <;>
    exact ⟨by simp [unitTimes], by decide, by decide, by decide, by decide, by decide, by decide⟩

theorem ascii_size {s : Str} (h : ∀ c ∈ s, c.toNat < 128) : (utf8 s).length = s.length := by
  induction s with
  | nil => rfl
  | cons c s ih =>
    have hc : c.utf8Size = 1 := Char.utf8Size_eq_one_iff.mpr (by
      rw [UInt32.le_iff_toNat_le]
      have := h c (by simp)
      exact Nat.le_of_lt_succ this)
    have e : (String.utf8EncodeChar c).length = 1 := by rw [String.length_utf8EncodeChar, hc]
    have := ih (fun c hc => h c (by simp [hc]))
    simp only [utf8, List.flatMap_cons, List.length_append, List.length_cons] at *
    omega

theorem trim_tail {n : Nat} {sp : Str} (hs : Blank sp) {p : Char → Bool} (hp : ∀ c, c.isDigit = true → p c = false)
    (hp' : ∀ c ∈ sp, p c = false) : trimRight p (dec n ++ sp) = dec n ++ sp := by
  rcases List.eq_nil_or_concat sp with rfl | ⟨s, c, rfl⟩
  · rcases List.eq_nil_or_concat (dec n) with h | ⟨s, c, h⟩
    · exact absurd h (dec_ne n)
    · rw [List.concat_eq_append] at h
      have := dec_digits (n := n) (c := c) (by rw [h]; simp)
      rw [List.append_nil, h]
      exact trimRight_keep (hp c this)
  · rw [List.concat_eq_append, ← List.append_assoc]
    exact trimRight_keep (hp' c (by simp))

theorem drop_dec (n : Nat) (t : Str) : (dec n ++ t).dropWhile isSpace = dec n ++ t := by
  cases h : dec n with
  | nil => exact absurd h (dec_ne n)
  | cons c r =>
    have := digit_facts (dec_digits (n := n) (c := c) (by rw [h]; simp))
    simp [this.1]

theorem fromUnits_dec {base n i : Nat} {u : Char} {sp : Str} (pf : Str → Option (Nat → Nat)) (hu : (u, i) ∈ unitExp)
    (hs : Blank sp) (hb : 1 ≤ base) (h : n * base ^ i < 2 ^ 64) :
    fromUnits base pf (dec n ++ sp ++ [u]) = .ok (n * base ^ i) := by
  obtain ⟨h1, h2, _, _, _, _, h7⟩ := unit_facts hu base
  have hn : n < 2 ^ 64 := Nat.lt_of_le_of_lt (Nat.le_mul_of_pos_right n (Nat.pow_pos hb)) h
  have e1 : trimRight (fun c => unitChars.contains c) (dec n ++ sp ++ [u]) = dec n ++ sp := by
    rw [trimRight_append (by intro c hc; rw [List.mem_singleton.mp hc]; exact h2)]
    exact trim_tail hs (fun c hc => (digit_facts hc).2.1) (fun c hc => (space_facts (hs c hc).1 (hs c hc).2).1)
  have e2 : trimSpace (dec n ++ sp) = dec n := by
    rw [trimSpace, drop_dec, trimRight_append (fun c hc => (hs c hc).1)]
    have := trim_tail (n := n) (sp := []) (by intro c hc; cases hc) (p := isSpace) (fun c hc => (digit_facts hc).1)
      (by intro c hc; cases hc)
    simpa using this
  have e3 : (dec n).contains '.' = false := by
    rw [Bool.eq_false_iff]
    intro hc
    exact (digit_facts (dec_digits (by simpa using hc : '.' ∈ dec n))).2.2.1 rfl
  have e4 : lastRune (dec n ++ sp ++ [u]) = .ok u := by
    rw [lastRune, ascii_size (by
      intro c hc
      simp only [List.mem_append, List.mem_singleton] at hc
      rcases hc with (hc | hc) | hc
      · exact (digit_facts (dec_digits hc)).2.2.2
      · exact (hs c hc).2
      · rw [hc]; exact h7)]
    simp
  simp only [fromUnits, e1, e2, e3, parseUint_dec hn, e4, h1, Nat.mod_eq_of_lt h]
  simp

theorem trimSpace_mid {n : Nat} {sp1 mid sp3 : Str} {c : Char} (h1 : Blank sp1) (h3 : Blank sp3)
    (hc : isSpace c = false) : trimSpace (sp1 ++ (dec n ++ (mid ++ [c])) ++ sp3) = dec n ++ (mid ++ [c]) := by
  rw [trimSpace, List.append_assoc, dropWhile_space (fun c hc => (h1 c hc).1), List.append_assoc, drop_dec,
    ← List.append_assoc, trimRight_append (fun c hc => (h3 c hc).1), ← List.append_assoc]
  exact trimRight_keep hc

/-- **C22.** A decimal number, a unit and optionally `iB`, `ib`, `i`, `B` or `b`, with blanks before, after and between
number and unit. -/
theorem C22_kibi (pf : Str → Option (Nat → Nat)) (n i : Nat) (u : Char) (hu : (u, i) ∈ unitExp) (suf : Str)
    (hsuf : suf ∈ ["".toList, "iB".toList, "ib".toList, "i".toList, "B".toList, "b".toList])
    (sp1 sp2 sp3 : Str) (h1 : Blank sp1) (h2 : Blank sp2) (h3 : Blank sp3) (h : n * 1024 ^ i < 2 ^ 64) :
    fromKibi pf (sp1 ++ ((toString n).toList ++ (sp2 ++ u :: suf)) ++ sp3) = .ok (n * 1024 ^ i) := by
  obtain ⟨_, _, f1, f2, f3, f4, _⟩ := unit_facts hu 1024
  show fromKibi pf (sp1 ++ (dec n ++ (sp2 ++ u :: suf)) ++ sp3) = _
  have hi : isSpace 'i' = false := by decide
  have hB : isSpace 'B' = false := by decide
  have hb : isSpace 'b' = false := by decide
  have key : trimRight (fun c => c == 'i' || c == 'b') (trimRight (fun c => c == 'i' || c == 'B')
      (trimSpace (sp1 ++ (dec n ++ (sp2 ++ u :: suf)) ++ sp3))) = dec n ++ sp2 ++ [u] := by
    have k1 : ∀ s, trimRight (fun c => c == 'i' || c == 'B') (s ++ [u]) = s ++ [u] := fun s =>
      trimRight_keep (by simp [f1, f3])
    have k2 : ∀ s, trimRight (fun c => c == 'i' || c == 'b') (s ++ [u]) = s ++ [u] := fun s =>
      trimRight_keep (by simp [f1, f2])
    simp only [List.mem_cons, List.not_mem_nil, or_false] at hsuf
    rcases hsuf with rfl | rfl | rfl | rfl | rfl | rfl
    · rw [show sp2 ++ u :: "".toList = sp2 ++ [u] from rfl, trimSpace_mid h1 h3 f4, ← List.append_assoc, k1, k2]
    · rw [show sp2 ++ u :: "iB".toList = (sp2 ++ [u, 'i']) ++ ['B'] by simp, trimSpace_mid h1 h3 hB,
        show dec n ++ (sp2 ++ [u, 'i'] ++ ['B']) = (dec n ++ sp2 ++ [u]) ++ ['i', 'B'] by simp,
        trimRight_append (by simp), k1, k2]
    · rw [show sp2 ++ u :: "ib".toList = (sp2 ++ [u, 'i']) ++ ['b'] by simp, trimSpace_mid h1 h3 hb,
        show dec n ++ (sp2 ++ [u, 'i'] ++ ['b']) = (dec n ++ sp2 ++ [u, 'i']) ++ ['b'] by simp,
        trimRight_keep (by simp), show (dec n ++ sp2 ++ [u, 'i']) ++ ['b'] = (dec n ++ sp2 ++ [u]) ++ ['i', 'b'] by simp,
        trimRight_append (by simp), k2]
    · rw [show sp2 ++ u :: "i".toList = (sp2 ++ [u]) ++ ['i'] by simp, trimSpace_mid h1 h3 hi,
        show dec n ++ (sp2 ++ [u] ++ ['i']) = (dec n ++ sp2 ++ [u]) ++ ['i'] by simp,
        trimRight_append (by simp), k1, k2]
    · rw [show sp2 ++ u :: "B".toList = (sp2 ++ [u]) ++ ['B'] by simp, trimSpace_mid h1 h3 hB,
        show dec n ++ (sp2 ++ [u] ++ ['B']) = (dec n ++ sp2 ++ [u]) ++ ['B'] by simp,
        trimRight_append (by simp), k1, k2]
    · rw [show sp2 ++ u :: "b".toList = (sp2 ++ [u]) ++ ['b'] by simp, trimSpace_mid h1 h3 hb,
        show dec n ++ (sp2 ++ [u] ++ ['b']) = (dec n ++ sp2 ++ [u]) ++ ['b'] by simp,
        trimRight_keep (by simp), trimRight_append (by simp), k2]
  rw [fromKibi, key]
  exact fromUnits_dec pf hu h2 (by omega) h

/-- **C22.** The same with powers of 1000; the suffixes are `B` and `b`. -/
theorem C22_kilo (pf : Str → Option (Nat → Nat)) (n i : Nat) (u : Char) (hu : (u, i) ∈ unitExp) (suf : Str)
    (hsuf : suf ∈ ["".toList, "B".toList, "b".toList])
    (sp1 sp2 sp3 : Str) (h1 : Blank sp1) (h2 : Blank sp2) (h3 : Blank sp3) (h : n * 1000 ^ i < 2 ^ 64) :
    fromKilo pf (sp1 ++ ((toString n).toList ++ (sp2 ++ u :: suf)) ++ sp3) = .ok (n * 1000 ^ i) := by
  obtain ⟨_, _, f1, f2, f3, f4, _⟩ := unit_facts hu 1000
  show fromKilo pf (sp1 ++ (dec n ++ (sp2 ++ u :: suf)) ++ sp3) = _
  have hB : isSpace 'B' = false := by decide
  have hb : isSpace 'b' = false := by decide
  have key : trimRight (fun c => c == 'b') (trimRight (fun c => c == 'B')
      (trimSpace (sp1 ++ (dec n ++ (sp2 ++ u :: suf)) ++ sp3))) = dec n ++ sp2 ++ [u] := by
    have k1 : ∀ s, trimRight (fun c => c == 'B') (s ++ [u]) = s ++ [u] := fun s => trimRight_keep (by simp [f3])
    have k2 : ∀ s, trimRight (fun c => c == 'b') (s ++ [u]) = s ++ [u] := fun s => trimRight_keep (by simp [f2])
    simp only [List.mem_cons, List.not_mem_nil, or_false] at hsuf
    rcases hsuf with rfl | rfl | rfl
    · rw [show sp2 ++ u :: "".toList = sp2 ++ [u] from rfl, trimSpace_mid h1 h3 f4, ← List.append_assoc, k1, k2]
    · rw [show sp2 ++ u :: "B".toList = (sp2 ++ [u]) ++ ['B'] by simp, trimSpace_mid h1 h3 hB,
        show dec n ++ (sp2 ++ [u] ++ ['B']) = (dec n ++ sp2 ++ [u]) ++ ['B'] by simp,
        trimRight_append (by simp), k1, k2]
    · rw [show sp2 ++ u :: "b".toList = (sp2 ++ [u]) ++ ['b'] by simp, trimSpace_mid h1 h3 hb,
        show dec n ++ (sp2 ++ [u] ++ ['b']) = (dec n ++ sp2 ++ [u]) ++ ['b'] by simp,
        trimRight_keep (by simp), trimRight_append (by simp), k2]
  rw [fromKilo, key]
  exact fromUnits_dec pf hu h2 (by omega) h

/-- The texts of the two theorems, for one number. -/
example : fromKibi (fun _ => none) " 2 KiB".toList = .ok 2048 ∧ fromKilo (fun _ => none) "15e".toList = .ok (15 * 10 ^ 18) ∧
    Blank " ".toList ∧ ('K', 1) ∈ unitExp ∧ 15 * 1000 ^ 6 < 2 ^ 64 :=
  ⟨by decide +kernel, by decide +kernel, by simp [Blank, isSpace], by decide, by decide⟩

/-! What happens outside the claim. -/

/-- Beyond 64 bits the product wraps around without an error. -/
theorem C22_wraps : fromKibi (fun _ => none) "16e".toList = .ok 0 := by decide +kernel

/-- A number beyond 64 bits gives the largest number, whatever the unit. -/
theorem C22_saturates :
    fromKilo (fun _ => none) "18446744073709551616k".toList = .ok (2 ^ 64 - 1) := by decide +kernel

/-- The units z and y are accepted and ignored. -/
theorem C22_zetta_ignored :
    fromKibi (fun _ => none) "3z".toList = .ok 3 ∧ fromKilo (fun _ => none) "3Y".toList = .ok 3 := by decide +kernel

/-- The last digit of a hexadecimal number is taken for a unit, and a final b is cut off. -/
theorem C22_hex_fails :
    fromKibi (fun _ => none) "0x1e".toList = .ok (1024 ^ 6) ∧ fromKilo (fun _ => none) "0x1b".toList = .ok 1 := by decide +kernel

/-- A leading zero makes the number octal. -/
theorem C22_octal :
    fromKibi (fun _ => none) "010k".toList = .ok (8 * 1024) ∧ fromKibi (fun _ => none) "08k".toList = .ok 0 := by decide +kernel

/-- A blank outside ASCII between number and unit: the byte count is used as a rune index. -/
theorem C22_blank_panics :
    fromKibi (fun _ => none) "2\u00a0k".toList = .error .panic := by decide +kernel

end Bytes
end Verif

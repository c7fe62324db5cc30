import Verif.Props.Sizes
import Verif.Model.BytesPoint
import Verif.Lemmas.DurFloat
/-
C107: sizes whose number has a decimal point.
-/
namespace Verif
namespace Bytes
open Dur (f64 f64_exact f64_err f64_le le_f64 f64_nonneg eps)

/-- The digits before the point. -/
def wholePart : ℚ → Str → ℚ
  | n, [] => n
  | n, c :: s => wholePart (n * 10 + ((c.toNat - 48 : Nat) : ℚ)) s

/-- The digits after the point: tenths, hundredths and so on. -/
def fracPart : Str → ℚ
  | [] => 0
  | c :: s => (((c.toNat - 48 : Nat) : ℚ) + fracPart s) / 10

/-- The text `x` is digits with a point among them, at least one digit, and `q` is the number. -/
structure Point (x : Str) (q : ℚ) : Prop where
  split : ∃ a b, x = a ++ '.' :: b ∧ (∀ c ∈ a, c.isDigit = true) ∧ (∀ c ∈ b, c.isDigit = true) ∧ (a ≠ [] ∨ b ≠ []) ∧
    q = wholePart 0 a + fracPart b

/-! The number the code reads. -/

theorem mantissa_cat (a b : Str) : ((mantissa (a ++ b) : Nat) : ℚ) / 10 ^ b.length = wholePart 0 a + fracPart b := by
  have f : ∀ (b : Str) (n : Nat), ((b.foldl (fun n c => n * 10 + (c.toNat - 48)) n : Nat) : ℚ) = (n + fracPart b) * 10 ^ b.length := by
    intro b
    induction b with
    | nil => intro n; simp [fracPart]
    | cons c b ih =>
      intro n
      rw [List.foldl_cons, ih, fracPart, List.length_cons]
      push_cast
      ring
  have w : ∀ (a : Str) (n : Nat), ((a.foldl (fun n c => n * 10 + (c.toNat - 48)) n : Nat) : ℚ) = wholePart n a := by
    intro a
    induction a with
    | nil => intro n; rfl
    | cons c a ih =>
      intro n
      rw [List.foldl_cons, ih, wholePart]
      push_cast
      rfl
  rw [mantissa, List.foldl_append, f, w]
  have : (10 : ℚ) ^ b.length ≠ 0 := by positivity
  field_simp
  push_cast
  rfl

theorem span_digits {a r : Str} (h : ∀ c ∈ a, c.isDigit = true) : (a ++ '.' :: r).span Char.isDigit = (a, '.' :: r) := by
  rw [List.span_eq_takeWhile_dropWhile]
  congr 1
  · rw [List.takeWhile_append_of_pos h, List.takeWhile_cons_of_neg (by decide), List.append_nil]
  · rw [List.dropWhile_append_of_pos h, List.dropWhile_cons_of_neg (by decide)]

theorem Point.val {x : Str} {q : ℚ} (h : Point x q) : pointVal x = some q := by
  obtain ⟨a, b, rfl, ha, hb, hne, rfl⟩ := h.split
  rw [pointVal, span_digits ha]
  simp only
  rw [if_pos ⟨by simpa using hb, hne⟩, mantissa_cat]

theorem fracPart_nonneg (b : Str) : 0 ≤ fracPart b := by
  induction b with
  | nil => exact le_refl _
  | cons c b ih => rw [fracPart]; positivity

theorem Point.nonneg {x : Str} {q : ℚ} (h : Point x q) : 0 ≤ q := by
  obtain ⟨a, b, _, _, _, _, rfl⟩ := h.split
  rw [← mantissa_cat]
  positivity

theorem Point.chars {x : Str} {q : ℚ} (h : Point x q) {c : Char} (hc : c ∈ x) : c.isDigit = true ∨ c = '.' := by
  obtain ⟨a, b, rfl, ha, hb, _, _⟩ := h.split
  simp only [List.mem_append, List.mem_cons] at hc
  rcases hc with hc | hc | hc
  · exact .inl (ha c hc)
  · exact .inr hc
  · exact .inl (hb c hc)

theorem Point.dot {x : Str} {q : ℚ} (h : Point x q) : x.contains '.' = true := by
  obtain ⟨a, b, rfl, _⟩ := h.split
  simp

theorem point_facts {c : Char} (h : c.isDigit = true ∨ c = '.') :
    isSpace c = false ∧ unitChars.contains c = false ∧ c.toNat < 128 ∧ c ≠ 'i' ∧ c ≠ 'b' ∧ c ≠ 'B' := by
  rcases h with h | rfl
  · obtain ⟨h1, h2, _, h4⟩ := digit_facts h
    exact ⟨h1, h2, h4, by rintro rfl; exact absurd h (by decide), by rintro rfl; exact absurd h (by decide),
      by rintro rfl; exact absurd h (by decide)⟩
  · decide

theorem Point.plainly {x : Str} {q : ℚ} (h : Point x q) : Plainly x where
  ne := by obtain ⟨a, b, rfl, _⟩ := h.split; simp
  each c hc := by
    obtain ⟨h1, _, h3, h4, _⟩ := point_facts (h.chars hc)
    exact ⟨h1, h3, h4⟩

/-! Rounding. -/

/-- A power of two does not change the rounding. -/
theorem f64_two {q : ℚ} (k : ℤ) (h : 0 ≤ q) : f64 (q * 2 ^ k) = f64 q * 2 ^ k := by
  rcases eq_or_lt_of_le h with rfl | h
  · have : f64 0 = 0 := by simpa using f64_exact (n := 0) (by decide)
    simp [this]
  · have hl : Int.log 2 (q * 2 ^ k) = Int.log 2 q + k := by
      have h2 : (0 : ℚ) < 2 ^ k := zpow_pos (by norm_num) _
      apply le_antisymm
      · have := (Int.lt_zpow_iff_log_lt (R := ℚ) (b := 2) (by norm_num) (mul_pos h h2) (x := Int.log 2 q + k + 1)).mp (by
          have h1 := Int.lt_zpow_succ_log_self (R := ℚ) (b := 2) (by norm_num) q
          rw [show Int.log 2 q + k + 1 = (Int.log 2 q + 1) + k by ring, zpow_add₀ (by norm_num)]
          push_cast at h1 ⊢
          exact mul_lt_mul_of_pos_right h1 h2)
        omega
      · apply (Int.zpow_le_iff_le_log (R := ℚ) (b := 2) (by norm_num) (mul_pos h h2)).mp
        have h1 := Int.zpow_log_le_self (R := ℚ) (b := 2) (by norm_num) h
        rw [zpow_add₀ (by norm_num)]
        push_cast at h1 ⊢
        exact mul_le_mul_of_nonneg_right h1 h2.le
    rw [f64, f64, hl]
    have e : q * 2 ^ k / 2 ^ (Int.log 2 q + k - 52) = q / 2 ^ (Int.log 2 q - 52) := by
      rw [show Int.log 2 q + k - 52 = (Int.log 2 q - 52) + k by ring, zpow_add₀ (by norm_num)]
      have h1 : (2 : ℚ) ^ k ≠ 0 := zpow_ne_zero _ (by norm_num)
      have h2 : (2 : ℚ) ^ (Int.log 2 q - 52) ≠ 0 := zpow_ne_zero _ (by norm_num)
      field_simp
    rw [e, show Int.log 2 q + k - 52 = (Int.log 2 q - 52) + k by ring, zpow_add₀ (by norm_num)]
    ring

theorem f64_dyadic {n : Nat} (h : n < 2 ^ 53) (k : Nat) : f64 ((n : ℚ) / 2 ^ k) = n / 2 ^ k := by
  have := f64_two (q := n) (-(k : ℤ)) (by positivity)
  rw [zpow_neg, zpow_natCast, ← div_eq_mul_inv, ← div_eq_mul_inv, f64_exact h] at this
  exact this

theorem f64_kibi (i : Nat) : f64 ((1024 ^ i : Nat) : ℚ) = 1024 ^ i := by
  have := f64_two (q := ((1 : Nat) : ℚ)) ((10 * i : Nat) : ℤ) (by positivity)
  rw [f64_exact (by decide), zpow_natCast, pow_mul] at this
  norm_num at this ⊢
  exact this

theorem f64_kilo {i : Nat} {u : Char} (hu : (u, i) ∈ unitExp) : f64 ((1000 ^ i : Nat) : ℚ) = 1000 ^ i := by
  have key : ∀ p ∈ unitExp, f64 ((1000 ^ p.2 : Nat) : ℚ) = 1000 ^ p.2 := by decide +kernel
  exact key (u, i) hu

theorem roundEven_le {q : ℚ} {z : ℤ} (h : q ≤ z) : Dur.roundEven q ≤ z := by
  have h1 := Int.floor_le q
  by_cases e : ⌊q⌋ + 1 ≤ z
  · unfold Dur.roundEven
    split
    · omega
    · split
      · omega
      · split <;> omega
  · have h2 : ⌊q⌋ ≤ z := Int.floor_le_iff.mpr (by linarith)
    have h3 : ⌊q⌋ = z := by omega
    have : q = z := le_antisymm h (by rw [← h3]; exact h1)
    rw [this, Dur.roundEven_int]

theorem le_roundEven {q : ℚ} {z : ℤ} (h : z ≤ q) : z ≤ Dur.roundEven q := by
  have : z ≤ ⌊q⌋ := Int.le_floor.mpr h
  unfold Dur.roundEven
  split
  · omega
  · split
    · omega
    · split <;> omega

theorem f64_shift (k l : ℤ) : (2 : ℚ) ^ l * 2 ^ (k - 52) = 2 ^ (k - 52 + l) := by
  rw [zpow_add₀ (by norm_num)]; ring

/-- Below the next power of two. -/
theorem f64_mant_le (q : ℚ) : Dur.roundEven (q / 2 ^ (Int.log 2 q - 52)) ≤ 2 ^ 53 := by
  have hp : (0 : ℚ) < 2 ^ (Int.log 2 q - 52) := zpow_pos (by norm_num) _
  apply roundEven_le
  rw [div_le_iff₀ hp]
  have e : (((2 ^ 53 : ℤ)) : ℚ) = 2 ^ (53 : ℤ) := by norm_cast
  rw [e, f64_shift, show Int.log 2 q - 52 + 53 = Int.log 2 q + 1 by ring]
  have := Int.lt_zpow_succ_log_self (R := ℚ) (b := 2) (by norm_num) q
  push_cast at this
  exact this.le

/-- Not below the power of two. -/
theorem f64_le_mant {q : ℚ} (h : 0 < q) : 2 ^ 52 ≤ Dur.roundEven (q / 2 ^ (Int.log 2 q - 52)) := by
  have hp : (0 : ℚ) < 2 ^ (Int.log 2 q - 52) := zpow_pos (by norm_num) _
  apply le_roundEven
  rw [le_div_iff₀ hp]
  have e : (((2 ^ 52 : ℤ)) : ℚ) = 2 ^ (52 : ℤ) := by norm_cast
  rw [e, f64_shift, show Int.log 2 q - 52 + 52 = Int.log 2 q by ring]
  have := Int.zpow_log_le_self (R := ℚ) (b := 2) (by norm_num) h
  push_cast at this
  exact this

/-- The number is 53 bits and a power of two. -/
theorem f64_form {q : ℚ} (h : 0 ≤ q) : ∃ (m : Nat) (e : ℤ), m ≤ 2 ^ 53 ∧ f64 q = m * 2 ^ e := by
  have hp : (0 : ℚ) < 2 ^ (Int.log 2 q - 52) := zpow_pos (by norm_num) _
  have h0 : 0 ≤ Dur.roundEven (q / 2 ^ (Int.log 2 q - 52)) := le_roundEven (by push_cast; positivity)
  have h1 := f64_mant_le q
  refine ⟨(Dur.roundEven (q / 2 ^ (Int.log 2 q - 52))).toNat, Int.log 2 q - 52, by omega, ?_⟩
  rw [f64]
  congr 1
  have : (((Dur.roundEven (q / 2 ^ (Int.log 2 q - 52))).toNat : ℤ) : ℚ) = ((Dur.roundEven (q / 2 ^ (Int.log 2 q - 52)) : ℤ) : ℚ) := by
    rw [Int.toNat_of_nonneg h0]
  rw [← this]
  rfl

theorem f64_form_exact {m : Nat} (e : ℤ) (h : m ≤ 2 ^ 53) : f64 ((m : ℚ) * 2 ^ e) = m * 2 ^ e := by
  rw [f64_two e (by positivity)]
  congr 1
  rcases Nat.lt_or_ge m (2 ^ 53) with h' | h'
  · exact f64_exact h'
  · have : m = 2 ^ 53 := by omega
    subst this
    have := f64_two (q := ((1 : Nat) : ℚ)) 53 (by positivity)
    rw [f64_exact (by decide)] at this
    have e : (2 : ℚ) ^ (53 : ℤ) = 2 ^ 53 := by norm_cast
    rw [e] at this
    push_cast at this ⊢
    rw [one_mul] at this
    exact this

/-- A power of 1024 times a `float64` is a `float64`. -/
theorem f64_mul_kibi {q : ℚ} (h : 0 ≤ q) (i : Nat) : f64 (f64 q * 1024 ^ i) = f64 q * 1024 ^ i := by
  have e : (1024 : ℚ) ^ i = 2 ^ ((10 * i : Nat) : ℤ) := by rw [zpow_natCast, pow_mul]; norm_num
  obtain ⟨m, k, hm, hf⟩ := f64_form h
  rw [hf, e, mul_assoc, ← zpow_add₀ (by norm_num), f64_form_exact _ hm]

/-- Rounding keeps the order. -/
theorem f64_mono {p q : ℚ} (h0 : 0 ≤ p) (h : p ≤ q) : f64 p ≤ f64 q := by
  rcases eq_or_lt_of_le h0 with rfl | hp
  · have : f64 0 = 0 := by simpa using f64_exact (n := 0) (by decide)
    rw [this]
    exact f64_nonneg h
  have hq : 0 < q := lt_of_lt_of_le hp h
  have hl : Int.log 2 p ≤ Int.log 2 q := Int.log_mono_right hp h
  have mono : ∀ {a b : ℚ}, a ≤ b → Dur.roundEven a ≤ Dur.roundEven b := by
    intro a b hab
    by_cases e : ⌊a⌋ = ⌊b⌋
    · unfold Dur.roundEven
      rw [← e]
      rcases lt_trichotomy (a - ⌊a⌋) (1 / 2) with h1 | h1 | h1
      · rw [if_pos h1]
        split
        · omega
        · split
          · omega
          · split <;> omega
      · rw [if_neg (by rw [h1]; exact lt_irrefl _), if_neg (by rw [h1]; exact lt_irrefl _),
          if_neg (c := b - ⌊a⌋ < 1 / 2) (by rw [not_lt]; linarith)]
        by_cases h2 : b - ⌊a⌋ > 1 / 2
        · rw [if_pos h2]; split <;> omega
        · rw [if_neg h2]
      · rw [if_neg (by rw [not_lt]; exact h1.le), if_pos h1, if_neg (by rw [not_lt]; linarith), if_pos (by linarith)]
    · have hf : ⌊a⌋ ≤ ⌊b⌋ := Int.floor_le_floor hab
      have h1 : Dur.roundEven a ≤ ⌊a⌋ + 1 := roundEven_le (by push_cast; exact (Int.lt_floor_add_one a).le)
      have h2 : ⌊b⌋ ≤ Dur.roundEven b := le_roundEven (Int.floor_le b)
      omega
  rcases eq_or_lt_of_le hl with e | hl
  · rw [f64, f64, ← e]
    have hz : (0 : ℚ) < 2 ^ (Int.log 2 p - 52) := zpow_pos (by norm_num) _
    apply mul_le_mul_of_nonneg_right _ hz.le
    exact_mod_cast mono (div_le_div_of_nonneg_right h hz.le)
  · have a1 : f64 p ≤ 2 ^ (Int.log 2 p + 1) := by
      have hz : (0 : ℚ) < 2 ^ (Int.log 2 p - 52) := zpow_pos (by norm_num) _
      have e : (((2 ^ 53 : ℤ)) : ℚ) = 2 ^ (53 : ℤ) := by norm_cast
      rw [show Int.log 2 p + 1 = Int.log 2 p - 52 + 53 by ring, ← f64_shift, ← e, f64]
      exact mul_le_mul_of_nonneg_right (Int.cast_le.mpr (f64_mant_le p)) hz.le
    have a2 : (2 : ℚ) ^ Int.log 2 q ≤ f64 q := by
      have hz : (0 : ℚ) < 2 ^ (Int.log 2 q - 52) := zpow_pos (by norm_num) _
      have e : (((2 ^ 52 : ℤ)) : ℚ) = 2 ^ (52 : ℤ) := by norm_cast
      rw [f64]
      conv => lhs; rw [show Int.log 2 q = Int.log 2 q - 52 + 52 by ring, ← f64_shift, ← e]
      exact mul_le_mul_of_nonneg_right (Int.cast_le.mpr (f64_le_mant hq)) hz.le
    refine le_trans a1 (le_trans ?_ a2)
    exact zpow_le_zpow_right₀ (by norm_num) (by omega)

/-! The texts. -/

theorem fromUnits_point {base i : Nat} {u : Char} {x sp : Str} {q : ℚ} (oob : ℚ → Nat) (other : Str → Option (Nat → Nat)) (hx : Point x q)
    (hu : (u, i) ∈ unitExp) (hs : Blank sp) (hq : q < 2 ^ 64) :
    fromUnits base (parsePoint oob other) (x ++ sp ++ [u]) = .ok (toUint64 oob (f64 (f64 q * f64 ((base ^ i : Nat) : ℚ)))) := by
  obtain ⟨h1, _⟩ := unit_facts hu base
  obtain ⟨e1, e2, e4⟩ := hx.plainly.cut hu hs (.inr (fun s c e => (point_facts (hx.chars (c := c) (by simp [e]))).2.1))
  have hr : ¬ (2 ^ 1024 ≤ f64 q) := by
    have := f64_le hx.nonneg
    rw [eps] at this
    rw [not_le]
    refine lt_of_le_of_lt this (lt_of_lt_of_le (b := (2 : ℚ) ^ 65) ?_ (pow_le_pow_right₀ (by norm_num) (by decide)))
    exact lt_of_lt_of_le (mul_lt_mul_of_pos_right hq (by norm_num)) (by norm_num)
  simp only [fromUnits, e1, e2, hx.dot, parsePoint, hx.val, e4, h1, if_neg hr, if_true]

theorem fromUnits_point_bare {base : Nat} {x : Str} {q : ℚ} (oob : ℚ → Nat) (other : Str → Option (Nat → Nat)) (hx : Point x q)
    (hq : q < 2 ^ 64) :
    fromUnits base (parsePoint oob other) x = .ok (toUint64 oob (f64 (f64 q * f64 1))) := by
  have hP := hx.plainly
  obtain ⟨s, c, e, _⟩ := hP.last
  have hu : unitChars.contains c = false := (point_facts (hx.chars (c := c) (by simp [e]))).2.1
  have e1 : trimRight (fun c => unitChars.contains c) x = x := by
    rw [e]; exact trimRight_keep hu
  have e2 : trimSpace x = x := by
    simpa using hP.trim (sp1 := []) (sp2 := []) (by intro c hc; cases hc) (by intro c hc; cases hc)
  have e4 : lastRune x = .ok c := by
    rw [lastRune, ascii_size (fun c hc => hP.ascii hc), e]
    simp
  have h1 := unitTimes_one base hu
  have hr : ¬ (2 ^ 1024 ≤ f64 q) := by
    have := f64_le hx.nonneg
    rw [eps] at this
    rw [not_le]
    refine lt_of_le_of_lt this (lt_of_lt_of_le (b := (2 : ℚ) ^ 65) ?_ (pow_le_pow_right₀ (by norm_num) (by decide)))
    exact lt_of_lt_of_le (mul_lt_mul_of_pos_right hq (by norm_num)) (by norm_num)
  simp only [fromUnits, e1, e2, hx.dot, parsePoint, hx.val, e4, h1, if_neg hr, if_true, Nat.cast_one]

/-- With a unit, powers of 1024. -/
theorem fromKibi_point (oob : ℚ → Nat) (other : Str → Option (Nat → Nat)) {x : Str} {q : ℚ} {i : Nat} {u : Char} (hx : Point x q)
    (hu : (u, i) ∈ unitExp) {suf : Str} (hsuf : suf ∈ ["".toList, "iB".toList, "ib".toList, "i".toList, "B".toList, "b".toList])
    {sp1 sp2 sp3 : Str} (h1 : Blank sp1) (h2 : Blank sp2) (h3 : Blank sp3) (hq : q < 2 ^ 64) :
    fromKibi (parsePoint oob other) (sp1 ++ (x ++ (sp2 ++ u :: suf)) ++ sp3) = .ok (toUint64 oob (f64 q * 1024 ^ i)) := by
  rw [fromKibi, hx.plainly.kibi hu hsuf h1 h3, fromUnits_point oob other hx hu h2 hq, f64_kibi, f64_mul_kibi hx.nonneg]

/-- With a unit, powers of 1000. -/
theorem fromKilo_point (oob : ℚ → Nat) (other : Str → Option (Nat → Nat)) {x : Str} {q : ℚ} {i : Nat} {u : Char} (hx : Point x q)
    (hu : (u, i) ∈ unitExp) {suf : Str} (hsuf : suf ∈ ["".toList, "B".toList, "b".toList])
    {sp1 sp2 sp3 : Str} (h1 : Blank sp1) (h2 : Blank sp2) (h3 : Blank sp3) (hq : q < 2 ^ 64) :
    fromKilo (parsePoint oob other) (sp1 ++ (x ++ (sp2 ++ u :: suf)) ++ sp3) = .ok (toUint64 oob (f64 (f64 q * 1000 ^ i))) := by
  rw [fromKilo, hx.plainly.kilo hu hsuf h1 h3, fromUnits_point oob other hx hu h2 hq, f64_kilo hu]

theorem toUint64_near {oob : ℚ → Nat} {v t d : ℚ} (h0 : 0 ≤ v) (h : v < 2 ^ 64) (hd : |v - t| ≤ d) : |(toUint64 oob v : ℚ) - t| < 1 + d := by
  rw [toUint64, if_pos ⟨h0, h⟩]
  have e : ((⌊v⌋.toNat : Nat) : ℚ) = ((⌊v⌋ : ℤ) : ℚ) := by
    rw [show ((⌊v⌋.toNat : Nat) : ℚ) = (((⌊v⌋.toNat : Nat) : ℤ) : ℚ) from rfl, Int.toNat_of_nonneg (Int.floor_nonneg.mpr h0)]
  rw [e]
  have a1 := Int.floor_le v
  have a2 := Int.lt_floor_add_one v
  rw [abs_le] at hd
  rw [abs_lt]
  constructor <;> linarith [hd.1, hd.2]

theorem toUint64_mono {oob : ℚ → Nat} {v w : ℚ} (h0 : 0 ≤ v) (h : v ≤ w) (hw : w < 2 ^ 64) : toUint64 oob v ≤ toUint64 oob w := by
  rw [toUint64, toUint64, if_pos ⟨h0, lt_of_le_of_lt h hw⟩, if_pos ⟨le_trans h0 h, hw⟩]
  exact Int.toNat_le_toNat (Int.floor_le_floor h)

theorem toUint64_nat {oob : ℚ → Nat} {n : Nat} (h : n < 2 ^ 64) : toUint64 oob (n : ℚ) = n := by
  rw [toUint64, if_pos ⟨by positivity, by exact_mod_cast h⟩]
  simp

theorem kibi_err {q : ℚ} (h : 0 ≤ q) (i : Nat) : |f64 q * 1024 ^ i - q * 1024 ^ i| ≤ q * 1024 ^ i / 2 ^ 53 := by
  have := f64_err h
  rw [← sub_mul, abs_mul, abs_of_pos (a := (1024 : ℚ) ^ i) (by positivity)]
  calc _ ≤ (q * eps) * 1024 ^ i := mul_le_mul_of_nonneg_right this (by positivity)
    _ = _ := by rw [eps]; ring

theorem kilo_err {q : ℚ} (h : 0 ≤ q) (i : Nat) : |f64 (f64 q * 1000 ^ i) - q * 1000 ^ i| ≤ q * 1000 ^ i / 2 ^ 51 := by
  have h1 := f64_err h
  have hn : 0 ≤ f64 q * 1000 ^ i := mul_nonneg (f64_nonneg h) (by positivity)
  have h2 := f64_err hn
  have h3 : |f64 q * 1000 ^ i - q * 1000 ^ i| ≤ q * 1000 ^ i * eps := by
    rw [← sub_mul, abs_mul, abs_of_pos (a := (1000 : ℚ) ^ i) (by positivity)]
    calc _ ≤ (q * eps) * 1000 ^ i := mul_le_mul_of_nonneg_right h1 (by positivity)
      _ = _ := by ring
  have ht : 0 ≤ q * 1000 ^ i := mul_nonneg h (by positivity)
  generalize f64 q * 1000 ^ i = v at *
  generalize q * 1000 ^ i = t at *
  rw [eps] at h2 h3
  rw [abs_le] at h2 h3 ⊢
  norm_num at *
  constructor <;> linarith [h2.1, h2.2, h3.1, h3.2]

theorem small {q : ℚ} {b : ℚ} (h0 : 0 ≤ q) (hb : 1 ≤ b) (i : Nat) (h : q * b ^ i ≤ 2 ^ 63) : q < 2 ^ 64 :=
  lt_of_le_of_lt (le_trans (le_mul_of_one_le_right h0 (one_le_pow₀ hb)) h) (by norm_num)

theorem below {v t : ℚ} (h : t ≤ 2 ^ 63) (hd : |v - t| ≤ t / 2 ^ 51) : v < 2 ^ 64 := by
  have := (abs_le.mp hd).2
  norm_num at *
  linarith

theorem weaker {v t : ℚ} (ht : 0 ≤ t) (hd : |v - t| ≤ t / 2 ^ 53) : |v - t| ≤ t / 2 ^ 51 :=
  le_trans hd (div_le_div_of_nonneg_left ht (by norm_num) (by norm_num))

/-! The property. -/

/-- **C107** A number with a point and a unit of 1024: the size is the number times the power of 1024, less than a byte off but for the 53 bits
of the number. -/
theorem C107_kibi_near (oob : ℚ → Nat) (other : Str → Option (Nat → Nat)) {x : Str} {q : ℚ} {i : Nat} {u : Char} (hx : Point x q)
    (hu : (u, i) ∈ unitExp) {suf : Str} (hsuf : suf ∈ ["".toList, "iB".toList, "ib".toList, "i".toList, "B".toList, "b".toList])
    {sp1 sp2 sp3 : Str} (h1 : Blank sp1) (h2 : Blank sp2) (h3 : Blank sp3) (h : q * 1024 ^ i ≤ 2 ^ 63) :
    ∃ r : Nat, fromKibi (parsePoint oob other) (sp1 ++ (x ++ (sp2 ++ u :: suf)) ++ sp3) = .ok r ∧
      |(r : ℚ) - q * 1024 ^ i| < 1 + q * 1024 ^ i / 2 ^ 53 := by
  have hn := hx.nonneg
  refine ⟨_, fromKibi_point oob other hx hu hsuf h1 h2 h3 (small hn (by norm_num) i h), ?_⟩
  have he := kibi_err hn i
  exact toUint64_near (mul_nonneg (f64_nonneg hn) (by positivity)) (below h (weaker (mul_nonneg hn (by positivity)) he)) he

/-- **C107** A whole number of bytes comes out exactly: `1.5k` is 1536, `0.25MiB` is 262144. -/
theorem C107_kibi_whole (oob : ℚ → Nat) (other : Str → Option (Nat → Nat)) {x : Str} {q : ℚ} {i : Nat} {u : Char} (hx : Point x q)
    (hu : (u, i) ∈ unitExp) {suf : Str} (hsuf : suf ∈ ["".toList, "iB".toList, "ib".toList, "i".toList, "B".toList, "b".toList])
    {sp1 sp2 sp3 : Str} (h1 : Blank sp1) (h2 : Blank sp2) (h3 : Blank sp3) {N : Nat} (h : q * 1024 ^ i = N) (hN : N < 2 ^ 53) :
    fromKibi (parsePoint oob other) (sp1 ++ (x ++ (sp2 ++ u :: suf)) ++ sp3) = .ok N := by
  have hs : q * 1024 ^ i ≤ 2 ^ 63 := by
    rw [h]
    exact_mod_cast (show N ≤ 2 ^ 63 by omega)
  rw [fromKibi_point oob other hx hu hsuf h1 h2 h3 (small hx.nonneg (by norm_num) i hs)]
  have e2 : (1024 : ℚ) ^ i = 2 ^ (10 * i) := by rw [pow_mul]; norm_num
  have e : q = N / 2 ^ (10 * i) := by rw [← h, e2]; field_simp
  rw [e, f64_dyadic hN, e2, div_mul_cancel₀ _ (by positivity), toUint64_nat (by omega)]

/-- **C107** A number with a point and a unit of 1000. -/
theorem C107_kilo_near (oob : ℚ → Nat) (other : Str → Option (Nat → Nat)) {x : Str} {q : ℚ} {i : Nat} {u : Char} (hx : Point x q)
    (hu : (u, i) ∈ unitExp) {suf : Str} (hsuf : suf ∈ ["".toList, "B".toList, "b".toList])
    {sp1 sp2 sp3 : Str} (h1 : Blank sp1) (h2 : Blank sp2) (h3 : Blank sp3) (h : q * 1000 ^ i ≤ 2 ^ 63) :
    ∃ r : Nat, fromKilo (parsePoint oob other) (sp1 ++ (x ++ (sp2 ++ u :: suf)) ++ sp3) = .ok r ∧
      |(r : ℚ) - q * 1000 ^ i| < 1 + q * 1000 ^ i / 2 ^ 51 := by
  have hn := hx.nonneg
  refine ⟨_, fromKilo_point oob other hx hu hsuf h1 h2 h3 (small hn (by norm_num) i h), ?_⟩
  have he := kilo_err hn i
  exact toUint64_near (f64_nonneg (mul_nonneg (f64_nonneg hn) (by positivity))) (below h he) he

/-- **C107** For a whole number of bytes the size with a unit of 1000 is that number or one less. Missing for the full claim: that it is the
number (`C107_kilo_fails`). -/
theorem C107_kilo_whole_partial (oob : ℚ → Nat) (other : Str → Option (Nat → Nat)) {x : Str} {q : ℚ} {i : Nat} {u : Char} (hx : Point x q)
    (hu : (u, i) ∈ unitExp) {suf : Str} (hsuf : suf ∈ ["".toList, "B".toList, "b".toList])
    {sp1 sp2 sp3 : Str} (h1 : Blank sp1) (h2 : Blank sp2) (h3 : Blank sp3) {N : Nat} (h : q * 1000 ^ i = N) (hN : N < 2 ^ 51) :
    fromKilo (parsePoint oob other) (sp1 ++ (x ++ (sp2 ++ u :: suf)) ++ sp3) = .ok N ∨
    fromKilo (parsePoint oob other) (sp1 ++ (x ++ (sp2 ++ u :: suf)) ++ sp3) = .ok (N - 1) := by
  have hn := hx.nonneg
  have hNq : (N : ℚ) < 2 ^ 51 := by exact_mod_cast hN
  have hs : q * 1000 ^ i ≤ 2 ^ 63 := by rw [h]; norm_num at *; linarith
  rw [fromKilo_point oob other hx hu hsuf h1 h2 h3 (small hn (by norm_num) i hs)]
  have he := kilo_err hn i
  have hv := below hs he
  have h0 : 0 ≤ f64 (f64 q * 1000 ^ i) := f64_nonneg (mul_nonneg (f64_nonneg hn) (by positivity))
  rw [h] at he
  generalize f64 (f64 q * 1000 ^ i) = v at *
  have hd : (N : ℚ) / 2 ^ 51 < 1 := by rw [div_lt_one (by norm_num)]; exact hNq
  rw [abs_le] at he
  rw [toUint64, if_pos ⟨h0, hv⟩]
  have a1 : (N : ℤ) - 1 ≤ ⌊v⌋ := Int.le_floor.mpr (by push_cast; linarith [he.1])
  have a2 : ⌊v⌋ < (N : ℤ) + 1 := Int.floor_lt.mpr (by push_cast; linarith [he.2])
  have a3 : 0 ≤ ⌊v⌋ := Int.floor_nonneg.mpr h0
  rcases Nat.eq_or_lt_of_le (show ⌊v⌋.toNat ≤ N by omega) with e | e
  · exact .inl (by rw [e])
  · exact .inr (by rw [show ⌊v⌋.toNat = N - 1 by omega])

/-- **C107** Halves, quarters and eighths of a kilobyte are exact, sixty-fourths of a megabyte, and so on. -/
theorem C107_kilo_eighths (oob : ℚ → Nat) (other : Str → Option (Nat → Nat)) {x : Str} {i : Nat} {u : Char} {k : Nat}
    (hx : Point x (k / 8 ^ i)) (hu : (u, i) ∈ unitExp) {suf : Str} (hsuf : suf ∈ ["".toList, "B".toList, "b".toList])
    {sp1 sp2 sp3 : Str} (h1 : Blank sp1) (h2 : Blank sp2) (h3 : Blank sp3) (hN : k * 125 ^ i < 2 ^ 53) :
    fromKilo (parsePoint oob other) (sp1 ++ (x ++ (sp2 ++ u :: suf)) ++ sp3) = .ok (k * 125 ^ i) := by
  have e8 : (8 : ℚ) ^ i = 2 ^ (3 * i) := by rw [pow_mul]; norm_num
  have e : (k : ℚ) / 8 ^ i * 1000 ^ i = ((k * 125 ^ i : Nat) : ℚ) := by
    rw [show (1000 : ℚ) = 8 * 125 by norm_num, mul_pow]
    push_cast
    field_simp
  have hk : k < 2 ^ 53 := lt_of_le_of_lt (Nat.le_mul_of_pos_right k (by positivity)) hN
  have hs : (k : ℚ) / 8 ^ i * 1000 ^ i ≤ 2 ^ 63 := by
    rw [e]
    exact_mod_cast (show k * 125 ^ i ≤ 2 ^ 63 by omega)
  rw [fromKilo_point oob other hx hu hsuf h1 h2 h3 (small hx.nonneg (by norm_num) i hs)]
  have f : f64 ((k : ℚ) / 8 ^ i) = k / 8 ^ i := by rw [e8, f64_dyadic hk]
  rw [f, e, f64_exact hN, toUint64_nat (by omega)]

/-- **C107** Without a unit the fraction is cut off. -/
theorem C107_bare (oob : ℚ → Nat) (other : Str → Option (Nat → Nat)) {x : Str} {q : ℚ} (hx : Point x q) {suf : Str}
    (hsuf : suf ∈ ["".toList, "B".toList, "b".toList]) {sp1 sp3 : Str} (h1 : Blank sp1) (h3 : Blank sp3) (h : q ≤ 2 ^ 63) :
    ∃ r : Nat, fromKibi (parsePoint oob other) (sp1 ++ (x ++ suf) ++ sp3) = .ok r ∧
      fromKilo (parsePoint oob other) (sp1 ++ (x ++ suf) ++ sp3) = .ok r ∧ |(r : ℚ) - q| < 1 + q / 2 ^ 53 := by
  have hn := hx.nonneg
  have hP := hx.plainly
  obtain ⟨s, c, e, _⟩ := hP.last
  obtain ⟨_, _, _, f1, f2, f3⟩ := point_facts (hx.chars (c := c) (by simp [e]))
  have k : ∀ p : Char → Bool, p c = false → trimRight p x = x := fun p hp => by rw [e]; exact trimRight_keep hp
  have hv : f64 (f64 q * f64 1) = f64 q * 1024 ^ 0 := by
    have := f64_mul_kibi hn 0
    have h1 : f64 1 = 1 := by simpa using f64_exact (n := 1) (by decide)
    rw [h1, mul_one]
    simpa using this
  have hq : q < 2 ^ 64 := lt_of_le_of_lt h (by norm_num)
  refine ⟨toUint64 oob (f64 (f64 q * f64 1)), ?_, ?_, ?_⟩
  · have key : trimRight (fun c => c == 'i' || c == 'b') (trimRight (fun c => c == 'i' || c == 'B') (trimSpace (sp1 ++ (x ++ suf) ++ sp3))) = x := by
      simp only [List.mem_cons, List.not_mem_nil, or_false] at hsuf
      rcases hsuf with rfl | rfl | rfl
      · rw [show x ++ "".toList = x from List.append_nil x, hP.trim h1 h3, k _ (by simp [f1, f3]), k _ (by simp [f1, f2])]
      · rw [show x ++ "B".toList = x ++ ([] ++ ['B']) from rfl, hP.mid h1 h3 (by decide), List.nil_append,
          trimRight_append (by simp), k _ (by simp [f1, f3]), k _ (by simp [f1, f2])]
      · rw [show x ++ "b".toList = x ++ ([] ++ ['b']) from rfl, hP.mid h1 h3 (by decide), List.nil_append,
          trimRight_keep (by simp), trimRight_append (by simp), k _ (by simp [f1, f2])]
    rw [fromKibi, key]
    exact fromUnits_point_bare oob other hx hq
  · have key : trimRight (fun c => c == 'b') (trimRight (fun c => c == 'B') (trimSpace (sp1 ++ (x ++ suf) ++ sp3))) = x := by
      simp only [List.mem_cons, List.not_mem_nil, or_false] at hsuf
      rcases hsuf with rfl | rfl | rfl
      · rw [show x ++ "".toList = x from List.append_nil x, hP.trim h1 h3, k _ (by simp [f3]), k _ (by simp [f2])]
      · rw [show x ++ "B".toList = x ++ ([] ++ ['B']) from rfl, hP.mid h1 h3 (by decide), List.nil_append,
          trimRight_append (by simp), k _ (by simp [f3]), k _ (by simp [f2])]
      · rw [show x ++ "b".toList = x ++ ([] ++ ['b']) from rfl, hP.mid h1 h3 (by decide), List.nil_append,
          trimRight_keep (by simp), trimRight_append (by simp), k _ (by simp [f2])]
    rw [fromKilo, key]
    exact fromUnits_point_bare oob other hx hq
  · rw [hv]
    have he := kibi_err hn 0
    have h' : q * 1024 ^ 0 ≤ 2 ^ 63 := by simpa using h
    have := toUint64_near (oob := oob) (mul_nonneg (f64_nonneg hn) (by positivity)) (below h' (weaker (mul_nonneg hn (by positivity)) he)) he
    simpa using this

/-- **C107** Of two numbers with the same unit the greater one has no smaller size. -/
theorem C107_mono (oob : ℚ → Nat) (other : Str → Option (Nat → Nat)) {x y : Str} {p q : ℚ} {i : Nat} {u : Char} (hx : Point x p) (hy : Point y q)
    (hpq : p ≤ q) (hu : (u, i) ∈ unitExp) {sp sp' : Str} (hs : Blank sp) (hs' : Blank sp') :
    (q * 1024 ^ i ≤ 2 ^ 63 → ∃ m n, fromKibi (parsePoint oob other) (x ++ (sp ++ [u])) = .ok m ∧
      fromKibi (parsePoint oob other) (y ++ (sp' ++ [u])) = .ok n ∧ m ≤ n) ∧
    (q * 1000 ^ i ≤ 2 ^ 63 → ∃ m n, fromKilo (parsePoint oob other) (x ++ (sp ++ [u])) = .ok m ∧
      fromKilo (parsePoint oob other) (y ++ (sp' ++ [u])) = .ok n ∧ m ≤ n) := by
  have hp := hx.nonneg
  have hq := hy.nonneg
  have b : Blank [] := by intro c hc; cases hc
  constructor
  · intro h
    have hs1 := small hq (by norm_num) i h
    refine ⟨_, _, by simpa using fromKibi_point oob other hx hu (suf := []) (by simp) b hs b (lt_of_le_of_lt hpq hs1),
      by simpa using fromKibi_point oob other hy hu (suf := []) (by simp) b hs' b hs1, ?_⟩
    have he := weaker (mul_nonneg hq (by positivity)) (kibi_err hq i)
    exact toUint64_mono (mul_nonneg (f64_nonneg hp) (by positivity))
      (mul_le_mul_of_nonneg_right (f64_mono hp hpq) (by positivity)) (below h he)
  · intro h
    have hs1 := small hq (by norm_num) i h
    refine ⟨_, _, by simpa using fromKilo_point oob other hx hu (suf := []) (by simp) b hs b (lt_of_le_of_lt hpq hs1),
      by simpa using fromKilo_point oob other hy hu (suf := []) (by simp) b hs' b hs1, ?_⟩
    have h0 : 0 ≤ f64 p * 1000 ^ i := mul_nonneg (f64_nonneg hp) (by positivity)
    exact toUint64_mono (f64_nonneg h0) (f64_mono h0 (mul_le_mul_of_nonneg_right (f64_mono hp hpq) (by positivity))) (below h (kilo_err hq i))

theorem ex_point {a b : Str} {q : ℚ} (h : (∀ c ∈ a, c.isDigit = true) ∧ (∀ c ∈ b, c.isDigit = true) ∧ (a ≠ [] ∨ b ≠ []) ∧
    q = wholePart 0 a + fracPart b) : Point (a ++ '.' :: b) q := ⟨⟨a, b, rfl, h⟩⟩

/-- **C107 fails:** a whole number of bytes can lose one with a unit of 1000: `1.001K` is 1000 bytes, not 1001. -/
theorem C107_kilo_fails : Point "1.001".toList (1001 / 1000) ∧ (1001 / 1000 : ℚ) * 1000 ^ 1 = 1001 ∧
    fromKilo (parsePoint (fun _ => 0) (fun _ => none)) "1.001K".toList = .ok 1000 ∧
    fromKilo (parsePoint (fun _ => 0) (fun _ => none)) "1.001MB".toList = .ok 1000999 := by
  refine ⟨?_, by norm_num, by decide +kernel, by decide +kernel⟩
  exact ex_point (a := ['1']) (b := ['0', '0', '1']) (by decide +kernel)

/-- **C107 fails:** the fraction of a byte is not always cut off: less than one kibibyte, written with enough digits, is 1024 bytes. -/
theorem C107_down_fails : Point "0.99999999999999999".toList (1 - 1 / 10 ^ 17) ∧
    fromKibi (parsePoint (fun _ => 0) (fun _ => none)) "0.99999999999999999k".toList = .ok 1024 := by
  refine ⟨?_, by decide +kernel⟩
  exact ex_point (a := ['0']) (b := "99999999999999999".toList) (by decide +kernel)

example : fromKibi (parsePoint (fun _ => 0) (fun _ => none)) " 1.5 KiB".toList = .ok 1536 ∧
    fromKibi (parsePoint (fun _ => 0) (fun _ => none)) ".25m".toList = .ok 262144 ∧
    fromKibi (parsePoint (fun _ => 0) (fun _ => none)) "2.5B".toList = .ok 2 ∧
    fromKilo (parsePoint (fun _ => 0) (fun _ => none)) "1.5KB".toList = .ok 1500 := by decide +kernel

example : Point "1.5".toList (3 / 2) ∧ (3 / 2 : ℚ) * 1024 ^ 1 = ((1536 : Nat) : ℚ) ∧ 1536 < 2 ^ 51 ∧ Point "1.5".toList ((12 : Nat) / 8 ^ 1) ∧
    12 * 125 ^ 1 < 2 ^ 53 ∧ (3 / 2 : ℚ) * 1000 ^ 6 ≤ 2 ^ 63 := by
  refine ⟨ex_point (a := ['1']) (b := ['5']) (by decide +kernel), by norm_num, by norm_num, ex_point (a := ['1']) (b := ['5']) (by decide +kernel),
    by norm_num, by norm_num⟩

end Bytes
end Verif

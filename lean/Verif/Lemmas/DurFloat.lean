import Verif.Lemmas.Dur
import Mathlib.Algebra.Order.Ring.Pow
import Mathlib.Tactic.Positivity
import Mathlib.Tactic.GCongr
/-
Rounding errors of the fractions of durations.
-/
namespace Verif
namespace Dur

theorem roundEven_err (q : ℚ) : |(roundEven q : ℚ) - q| ≤ 1 / 2 := by
  have h1 := Int.floor_le q
  have h2 := Int.lt_floor_add_one q
  unfold roundEven
  split
  · rw [abs_le]; constructor <;> linarith
  · split
    · push_cast; rw [abs_le]; constructor <;> linarith
    · split
      · rw [abs_le]; constructor <;> linarith
      · push_cast; rw [abs_le]; constructor <;> linarith

/-- The relative error of a `float64` operation. -/
def eps : ℚ := 1 / 2 ^ 53

theorem f64_err {q : ℚ} (h : 0 ≤ q) : |f64 q - q| ≤ q * eps := by
  rcases eq_or_lt_of_le h with rfl | h
  · have : f64 0 = 0 := by
      have := f64_exact (n := 0) (by decide)
      simpa using this
    rw [this]; simp
  · have hp : (0 : ℚ) < 2 ^ (Int.log 2 q - 52) := zpow_pos (by norm_num) _
    have hl : (2 : ℚ) ^ Int.log 2 q ≤ q := by
      have := Int.zpow_log_le_self (R := ℚ) (b := 2) (by norm_num) h
      simpa using this
    have e : f64 q - q = ((roundEven (q / 2 ^ (Int.log 2 q - 52)) : ℚ) - q / 2 ^ (Int.log 2 q - 52)) * 2 ^ (Int.log 2 q - 52) := by
      rw [f64]; field_simp
    rw [e, abs_mul, abs_of_pos hp]
    have h2 : (2 : ℚ) ^ (Int.log 2 q - 52) = 2 ^ Int.log 2 q / 2 ^ 52 := by
      rw [zpow_sub₀ (by norm_num)]; norm_cast
    calc _ ≤ 1 / 2 * 2 ^ (Int.log 2 q - 52) := mul_le_mul_of_nonneg_right (roundEven_err _) hp.le
      _ = 2 ^ Int.log 2 q / 2 ^ 53 := by rw [h2]; ring
      _ ≤ q / 2 ^ 53 := by gcongr
      _ = q * eps := by rw [eps]; ring

theorem f64_le {q : ℚ} (h : 0 ≤ q) : f64 q ≤ q * (1 + eps) := by
  have := (abs_le.mp (f64_err h)).2
  linarith

theorem le_f64 {q : ℚ} (h : 0 ≤ q) : q * (1 - eps) ≤ f64 q := by
  have := (abs_le.mp (f64_err h)).1
  linarith

theorem eps_pos : 0 < eps := by unfold eps; norm_num
theorem eps_lt : eps < 1 := by unfold eps; norm_num

theorem f64_nonneg {q : ℚ} (h : 0 ≤ q) : 0 ≤ f64 q :=
  le_trans (mul_nonneg h (by have := eps_lt; linarith)) (le_f64 h)

theorem scaleAfter_le (n : Nat) : ∀ sc, 0 < sc → scaleAfter n sc ≤ sc * 10 ^ n * (1 + eps) ^ n ∧ sc * 10 ^ n * (1 - eps) ^ n ≤ scaleAfter n sc := by
  have e1 := eps_pos
  have e2 := eps_lt
  induction n with
  | zero => intro sc _; simp [scaleAfter]
  | succ n ih =>
    intro sc h
    have h10 : (0 : ℚ) ≤ sc * 10 := by positivity
    have hp : 0 < f64 (sc * 10) := lt_of_lt_of_le (mul_pos (by positivity) (by linarith)) (le_f64 h10)
    obtain ⟨i1, i2⟩ := ih _ hp
    rw [scaleAfter]
    have h1 : (0 : ℚ) ≤ 1 - eps := by linarith
    constructor
    · calc _ ≤ f64 (sc * 10) * 10 ^ n * (1 + eps) ^ n := i1
        _ ≤ (sc * 10 * (1 + eps)) * 10 ^ n * (1 + eps) ^ n := by gcongr; exact f64_le h10
        _ = _ := by ring
    · calc _ = (sc * 10 * (1 - eps)) * 10 ^ n * (1 - eps) ^ n := by ring
        _ ≤ f64 (sc * 10) * 10 ^ n * (1 - eps) ^ n := by gcongr; exact le_f64 h10
        _ ≤ _ := i2

/-- `1 - n ε ≤ (1 - ε)^n`. -/
theorem bern (n : Nat) : 1 - n * eps ≤ (1 - eps) ^ n := by
  have := one_add_mul_le_pow (a := -eps) (by have := eps_lt; linarith) n
  rw [show 1 + -eps = 1 - eps by ring] at this
  linarith

/-- `(1 + ε)^n (1 - ε)^n ≤ 1`. -/
theorem both (n : Nat) : (1 + eps) ^ n * (1 - eps) ^ n ≤ 1 := by
  rw [← mul_pow]
  have e1 := eps_pos
  have e2 := eps_lt
  apply pow_le_one₀
  · exact mul_nonneg (by linarith) (by linarith)
  · nlinarith

/-- The unrounded fraction as `float64` sees it. -/
def fracFloat (f m : Nat) (S : ℚ) : ℚ := f64 (f64 f * f64 (f64 m / S))

theorem fracFloat_bounds {f m j : Nat} (hm : m < 2 ^ 53) :
    fracFloat f m (scaleAfter j 1) * (1 - eps) ^ (j + 3) ≤ f * m / 10 ^ j ∧
    f * m / 10 ^ j * (1 - eps) ^ (j + 3) ≤ fracFloat f m (scaleAfter j 1) ∧ 0 ≤ fracFloat f m (scaleAfter j 1) := by
  have e1 := eps_pos
  have e2 := eps_lt
  have h1 : (0 : ℚ) < 1 - eps := by linarith
  have h1' : (0 : ℚ) < 1 + eps := by linarith
  obtain ⟨s1, s2⟩ := scaleAfter_le j 1 one_pos
  rw [one_mul] at s1 s2
  have hj : (0 : ℚ) < 10 ^ j * (1 - eps) ^ j := by positivity
  have hS : 0 < scaleAfter j 1 := lt_of_lt_of_le hj s2
  generalize scaleAfter j 1 = S at *
  have hf : (0 : ℚ) ≤ f := by positivity
  have hmS : (0 : ℚ) ≤ m / S := by positivity
  rw [fracFloat, f64_exact hm]
  have a1 := f64_le hf
  have a2 := le_f64 hf
  have b1 := f64_le hmS
  have b2 := le_f64 hmS
  have a0 := f64_nonneg hf
  have b0 := f64_nonneg hmS
  have c1 := f64_le (mul_nonneg a0 b0)
  have c2 := le_f64 (mul_nonneg a0 b0)
  refine ⟨?_, ?_, f64_nonneg (mul_nonneg a0 b0)⟩
  · have hq : (m : ℚ) / S ≤ m / (10 ^ j * (1 - eps) ^ j) := by gcongr
    calc _ ≤ (f64 f * f64 (m / S) * (1 + eps)) * (1 - eps) ^ (j + 3) := by gcongr
      _ ≤ (f * (1 + eps)) * (m / S * (1 + eps)) * (1 + eps) * (1 - eps) ^ (j + 3) := by gcongr
      _ ≤ (f * (1 + eps)) * (m / (10 ^ j * (1 - eps) ^ j) * (1 + eps)) * (1 + eps) * (1 - eps) ^ (j + 3) := by gcongr
      _ = f * m / 10 ^ j * ((1 + eps) ^ 3 * (1 - eps) ^ 3) := by field_simp; ring
      _ ≤ f * m / 10 ^ j * 1 := mul_le_mul_of_nonneg_left (both 3) (by positivity)
      _ = _ := mul_one _
  · have hq : (m : ℚ) / (10 ^ j * (1 + eps) ^ j) ≤ m / S := by gcongr
    have hb : (1 - eps) ^ j ≤ 1 / (1 + eps) ^ j := by
      rw [le_div_iff₀ (by positivity), mul_comm]; exact both j
    calc (f : ℚ) * m / 10 ^ j * (1 - eps) ^ (j + 3) = f * (1 - eps) * (m / 10 ^ j * (1 - eps) ^ j * (1 - eps)) * (1 - eps) := by ring
      _ ≤ f * (1 - eps) * (m / 10 ^ j * (1 / (1 + eps) ^ j) * (1 - eps)) * (1 - eps) := by gcongr
      _ = f * (1 - eps) * (m / (10 ^ j * (1 + eps) ^ j) * (1 - eps)) * (1 - eps) := by
        rw [show (m : ℚ) / (10 ^ j * (1 + eps) ^ j) = m / 10 ^ j * (1 / (1 + eps) ^ j) by field_simp]
      _ ≤ f * (1 - eps) * (m / S * (1 - eps)) * (1 - eps) := by gcongr
      _ ≤ f64 f * f64 (m / S) * (1 - eps) := by gcongr
      _ ≤ _ := c2

/-- The fraction as computed is less than half a nanosecond off. -/
theorem fracFloat_near {f m j : Nat} (hm : m ≤ 86400000000000) (hf : f ≤ 2 ^ 63) (hj : f < 10 ^ j) :
    |fracFloat f m (scaleAfter j 1) - f * m / 10 ^ j| < 1 / 2 := by
  obtain ⟨b1, b2, b3⟩ := fracFloat_bounds (f := f) (j := j) (m := m) (by omega)
  generalize hx : fracFloat f m (scaleAfter j 1) = x at *
  generalize hE : (f : ℚ) * m / 10 ^ j = E at *
  have hm' : (m : ℚ) ≤ 86400000000000 := by exact_mod_cast hm
  have hE0 : 0 ≤ E := by rw [← hE]; positivity
  have h10 : (0 : ℚ) < 10 ^ j := by positivity
  by_cases h40 : j ≤ 40
  · have hEm : E ≤ 86400000000000 := by
      rw [← hE, div_le_iff₀ h10]
      have : (f : ℚ) ≤ 10 ^ j := by exact_mod_cast hj.le
      calc (f : ℚ) * m ≤ 10 ^ j * 86400000000000 := by gcongr
        _ = _ := by ring
    have hb := bern (j + 3)
    have hd : 1 - 43 * eps ≤ (1 - eps) ^ (j + 3) := by
      refine le_trans ?_ hb
      have : ((j + 3 : Nat) : ℚ) ≤ 43 := by exact_mod_cast (by omega : j + 3 ≤ 43)
      have := mul_le_mul_of_nonneg_right this eps_pos.le
      linarith
    have he : 86400000000000 * (43 * eps) < 42 / 100 := by unfold eps; norm_num
    have he' : 43 * eps < 1 / 1000 := by unfold eps; norm_num
    have lo : E * (1 - 43 * eps) ≤ x := le_trans (mul_le_mul_of_nonneg_left hd hE0) b2
    have up : x * (1 - 43 * eps) ≤ E := le_trans (mul_le_mul_of_nonneg_left hd b3) b1
    have hEe : E * (43 * eps) < 42 / 100 := lt_of_le_of_lt (mul_le_mul_of_nonneg_right hEm (by have := eps_pos; linarith)) he
    rw [abs_lt]
    constructor
    · linarith
    · have hx2 : x ≤ E + 1 := by
        by_contra hc
        have hc : E + 1 < x := not_le.mp hc
        have : (E + 1) * (1 - 43 * eps) ≤ x * (1 - 43 * eps) := by gcongr; linarith
        linarith
      have : x * (43 * eps) ≤ (E + 1) * (43 * eps) := by have := eps_pos; gcongr
      linarith
  · have hf' : (f : ℚ) ≤ 2 ^ 63 := by exact_mod_cast hf
    have hsmall : E * 10 ^ j ≤ 2 ^ 63 * 86400000000000 := by
      rw [← hE, div_mul_cancel₀ _ h10.ne']
      gcongr
    have hj41 : (10 : ℚ) ^ 41 ≤ 10 ^ j := pow_le_pow_right₀ (by norm_num) (by omega)
    have hE1 : E ≤ 1 / 1000000 := by
      by_contra hc
      have hc : 1 / 1000000 < E := not_le.mp hc
      have : (1 / 1000000 : ℚ) * 10 ^ 41 ≤ E * 10 ^ j := mul_le_mul hc.le hj41 (by norm_num) hE0
      norm_num at this hsmall
      linarith
    -- crude: each digit multiplies the scale by at least 9
    have h9 : (9 / 10 : ℚ) ≤ 1 - eps := by unfold eps; norm_num
    have hx1 : x * (9 / 10 : ℚ) ^ (j + 3) ≤ E := by
      refine le_trans (mul_le_mul_of_nonneg_left ?_ b3) b1
      gcongr
    have hx2 : x * 9 ^ j * (9 / 10) ^ 3 ≤ 2 ^ 63 * 86400000000000 := by
      calc x * 9 ^ j * (9 / 10) ^ 3 = x * (9 / 10 : ℚ) ^ (j + 3) * 10 ^ j := by
            rw [pow_add, div_pow (9 : ℚ) 10 j]; field_simp
        _ ≤ E * 10 ^ j := by gcongr
        _ ≤ _ := hsmall
    have hj9 : (9 : ℚ) ^ 41 ≤ 9 ^ j := pow_le_pow_right₀ (by norm_num) (by omega)
    have hx3 : x ≤ 1 / 1000 := by
      by_contra hc
      have hc : 1 / 1000 < x := not_le.mp hc
      have h1 : (1 / 1000 : ℚ) * 9 ^ 41 ≤ x * 9 ^ j := mul_le_mul hc.le hj9 (by norm_num) b3
      have h2 : (1 / 1000 : ℚ) * 9 ^ 41 * (9 / 10) ^ 3 ≤ x * 9 ^ j * (9 / 10) ^ 3 := by gcongr
      norm_num at h2 hx2
      linarith
    rw [abs_lt]
    constructor <;> linarith

end Dur
end Verif

import Verif.Lemmas.DurFloat
/-
C102: durations from numbers of seconds.
-/
namespace Verif
namespace Dur

theorem f64_second : f64 (second : Nat) = 1000000000 := by
  rw [f64_exact (by decide)]
  norm_num [second, milli, micro]

theorem f64s_err (q : ℚ) : |f64s q - q| ≤ |q| * eps := by
  unfold f64s
  split
  · rename_i h
    have := f64_err (q := -q) (by linarith)
    rw [abs_of_neg h, ← abs_neg]
    have e : -(-f64 (-q) - q) = f64 (-q) - -q := by ring
    rw [e]
    exact this
  · rename_i h
    rw [abs_of_nonneg (not_lt.mp h)]
    exact f64_err (not_lt.mp h)

/-- Cutting off the fraction. -/
theorem toInt64_near {q : ℚ} {d : Int} (h : toInt64 q = some d) : |(d : ℚ) - q| < 1 ∧ (0 ≤ q → (d : ℚ) ≤ q) ∧ (q ≤ 0 → q ≤ d) := by
  unfold toInt64 at h
  have h : (if q < 0 then -⌊-q⌋ else ⌊q⌋) = d := by
    generalize (if q < 0 then -⌊-q⌋ else ⌊q⌋) = z at h
    simp only at h
    split at h
    · exact Option.some.inj h
    · cases h
  by_cases hq : q < 0
  · rw [if_pos hq] at h
    have g1 := Int.floor_le (-q)
    have g2 := Int.lt_floor_add_one (-q)
    rw [← h]
    push_cast
    refine ⟨by rw [abs_lt]; constructor <;> linarith, fun h => by linarith, fun _ => by linarith⟩
  · rw [if_neg hq] at h
    have g1 := Int.floor_le q
    have g2 := Int.lt_floor_add_one q
    rw [← h]
    refine ⟨by rw [abs_lt]; constructor <;> linarith, fun _ => g1, fun h => ?_⟩
    have : q = 0 := le_antisymm h (not_lt.mp hq)
    rw [this]; simp

/-- **C102** The duration is `f` seconds, less than one nanosecond off and what the product loses as a float64 (one part in 2^53). -/
theorem C102_near {f : ℚ} {d : Int} (h : fromFloat f = some d) : |(d : ℚ) - f * 10 ^ 9| < 1 + |f| * 10 ^ 9 / 2 ^ 53 := by
  unfold fromFloat at h
  rw [f64_second] at h
  have h1 := (toInt64_near h).1
  have h2 := f64s_err (f * 1000000000)
  rw [abs_mul, show |(1000000000 : ℚ)| = 10 ^ 9 by norm_num, eps] at h2
  have e : (d : ℚ) - f * 10 ^ 9 = ((d : ℚ) - f64s (f * 1000000000)) + (f64s (f * 1000000000) - f * 1000000000) := by
    norm_num
  rw [e]
  refine lt_of_le_of_lt (abs_add_le _ _) ?_
  have : |f| * 10 ^ 9 * (1 / 2 ^ 53) = |f| * 10 ^ 9 / 2 ^ 53 := by ring
  linarith

/-- **C102** In particular there is a result, less than two nanoseconds off, for every number of seconds up to 2^53 nanoseconds (about 104
days). -/
theorem C102_days {f : ℚ} (h : |f| * 10 ^ 9 ≤ 2 ^ 53) : ∃ d, fromFloat f = some d ∧ |(d : ℚ) - f * 10 ^ 9| < 2 := by
  have h2 := f64s_err (f * 1000000000)
  rw [abs_mul, show |(1000000000 : ℚ)| = 10 ^ 9 by norm_num, eps] at h2
  have h3 : |f64s (f * 1000000000)| ≤ 2 ^ 54 := by
    have : |f64s (f * 1000000000)| ≤ |f64s (f * 1000000000) - f * 1000000000| + |f * 1000000000| := by
      have := abs_add_le (f64s (f * 1000000000) - f * 1000000000) (f * 1000000000)
      simpa using this
    rw [abs_mul, show |(1000000000 : ℚ)| = 10 ^ 9 by norm_num] at this
    have : |f| * 10 ^ 9 * (1 / 2 ^ 53) ≤ 1 := by
      rw [mul_one_div, div_le_one (by positivity)]; exact h
    norm_num at *
    linarith
  obtain ⟨d, hd⟩ : ∃ d, fromFloat f = some d := by
    unfold fromFloat
    rw [f64_second]
    unfold toInt64
    simp only
    generalize f64s (f * 1000000000) = q at h3
    rw [abs_le] at h3
    refine ⟨_, if_pos ?_⟩
    by_cases hq : q < 0
    · rw [if_pos hq]
      have g1 := Int.floor_le (-q)
      have g0 : 0 ≤ ⌊-q⌋ := Int.floor_nonneg.mpr (by linarith)
      have : ((⌊-q⌋ : ℤ) : ℚ) ≤ ((2 ^ 54 : ℤ) : ℚ) := by push_cast; linarith [h3.1]
      have : ⌊-q⌋ ≤ 2 ^ 54 := by exact_mod_cast this
      omega
    · rw [if_neg hq]
      have g1 := Int.floor_le q
      have g0 : 0 ≤ ⌊q⌋ := Int.floor_nonneg.mpr (not_lt.mp hq)
      have : ((⌊q⌋ : ℤ) : ℚ) ≤ ((2 ^ 54 : ℤ) : ℚ) := by push_cast; linarith [h3.2]
      have : ⌊q⌋ ≤ 2 ^ 54 := by exact_mod_cast this
      omega
  refine ⟨d, hd, lt_of_lt_of_le (C102_near hd) ?_⟩
  have : |f| * 10 ^ 9 / 2 ^ 53 ≤ 1 := by
    rw [div_le_one (by positivity)]; exact h
  linarith

/-- **C102** Whole seconds, halves, quarters and so on to 1/512 are exact, up to 104 days. -/
theorem C102_exact (k : Int) (h : k.natAbs * 5 ^ 9 < 2 ^ 53) : fromFloat ((k : ℚ) / 512) = some (k * 5 ^ 9) := by
  have hp : f64s ((k : ℚ) / 512 * 1000000000) = ((k * 5 ^ 9 : ℤ) : ℚ) := by
    have e : (k : ℚ) / 512 * 1000000000 = ((k * 5 ^ 9 : ℤ) : ℚ) := by push_cast; ring
    rw [e]
    unfold f64s
    obtain ⟨n, rfl | rfl⟩ := k.eq_nat_or_neg
    · have hn : f64 ((n * 5 ^ 9 : Nat) : ℚ) = ((n * 5 ^ 9 : Nat) : ℚ) := f64_exact (by simpa using h)
      rw [if_neg (by push_cast; rw [not_lt]; positivity)]
      have e2 : (((n : ℤ) * 5 ^ 9 : ℤ) : ℚ) = ((n * 5 ^ 9 : Nat) : ℚ) := by push_cast; ring
      rw [e2, hn]
    · have hn : f64 ((n * 5 ^ 9 : Nat) : ℚ) = ((n * 5 ^ 9 : Nat) : ℚ) := f64_exact (by simpa using h)
      have e2 : ((-(n : ℤ) * 5 ^ 9 : ℤ) : ℚ) = -((n * 5 ^ 9 : Nat) : ℚ) := by push_cast; ring
      rw [e2, neg_neg, hn]
      split
      · rfl
      · rename_i hc
        have : ((n * 5 ^ 9 : Nat) : ℚ) = 0 := le_antisymm (by linarith) (by positivity)
        rw [this, neg_zero]
        have := f64_exact (n := 0) (by decide)
        simpa using this
  unfold fromFloat
  rw [f64_second, hp]
  unfold toInt64
  have hz : (if ((k * 5 ^ 9 : ℤ) : ℚ) < 0 then -⌊-((k * 5 ^ 9 : ℤ) : ℚ)⌋ else ⌊((k * 5 ^ 9 : ℤ) : ℚ)⌋) = k * 5 ^ 9 := by
    split
    · rw [← Int.cast_neg, Int.floor_intCast]; ring
    · exact Int.floor_intCast _
  simp only [hz]
  rw [if_pos (by constructor <;> omega)]

/-- **C102 fails:** milliseconds are not always exact: for the float64 nearest to 1.001 the fraction of the product is cut off, which leaves a
nanosecond less than 1001 milliseconds. -/
theorem C102_milli_fails : fromFloat (f64 (1001 / 1000)) = some 1000999999 ∧ |f64 (1001 / 1000) - 1001 / 1000| < 1 / 10 ^ 15 := by
  decide +kernel

example : fromFloat (3 / 2) = some 1500000000 ∧ fromFloat (-1 / 4) = some (-250000000) ∧ fromFloat (10 ^ 10) = none := by decide +kernel

example : (Int.natAbs 768) * 5 ^ 9 < 2 ^ 53 ∧ |(3 / 2 : ℚ)| * 10 ^ 9 ≤ 2 ^ 53 := by decide +kernel

end Dur
end Verif

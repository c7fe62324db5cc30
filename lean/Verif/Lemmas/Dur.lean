import Verif.Model.Dur
import Mathlib.Tactic.IntervalCases
import Mathlib.Tactic.Ring
import Mathlib.Tactic.Linarith
import Mathlib.Tactic.NormNum
import Mathlib.Tactic.FieldSimp
/-
Facts about the number text of internal/times/dur.go.
-/
namespace Verif
namespace Dur

/-! Floating point is exact on integers below 2^53. -/

theorem roundEven_int (z : ℤ) : roundEven z = z := by
  simp [roundEven]

theorem f64_exact {n : Nat} (h : n < 2 ^ 53) : f64 n = n := by
  rcases Nat.eq_zero_or_pos n with rfl | hp
  · have : (((0 : Nat) : ℚ) / 2 ^ (Int.log 2 ((0 : Nat) : ℚ) - 52)) = ((0 : ℤ) : ℚ) := by simp
    rw [f64, this, roundEven_int]; simp
  · have e : Int.log 2 ((n : Nat) : ℚ) = (Nat.log 2 n : ℤ) := Int.log_natCast 2 n
    have hl : Nat.log 2 n ≤ 52 := by
      have := Nat.log_lt_of_lt_pow (by omega : n ≠ 0) h
      omega
    have hz : Int.log 2 ((n : Nat) : ℚ) - 52 = -((52 - Nat.log 2 n : Nat) : ℤ) := by rw [e]; omega
    have : ((n : ℚ) / 2 ^ (Int.log 2 ((n : Nat) : ℚ) - 52)) = ((n * 2 ^ (52 - Nat.log 2 n) : ℤ) : ℚ) := by
      rw [hz, zpow_neg, div_inv_eq_mul, zpow_natCast]; push_cast; rfl
    rw [f64, this, roundEven_int, hz, zpow_neg, zpow_natCast]
    push_cast
    field_simp

theorem fracVal_exact {f scale q : Nat} (hs : scale ≠ 0) (hu : scale * q < 2 ^ 53) (hf : f < 2 ^ 53)
    (hp : f * q < 2 ^ 53) : fracVal f (scale * q) (scale : ℚ) = f * q := by
  have hs' : (scale : ℚ) ≠ 0 := by exact_mod_cast hs
  have hq : q < 2 ^ 53 := lt_of_le_of_lt (Nat.le_mul_of_pos_left q (Nat.pos_of_ne_zero hs)) hu
  have e : (((scale * q : Nat) : ℚ) / scale) = (q : ℚ) := by push_cast; field_simp
  have e2 : (f : ℚ) * (q : ℚ) = ((f * q : Nat) : ℚ) := by push_cast; rfl
  rw [fracVal, f64_exact hu, e, f64_exact hq, f64_exact hf, e2, f64_exact hp]
  have := Int.floor_natCast (R := ℚ) (f * q)
  rw [this]; rfl

/-! Digits. -/

theorem digit_isDigit {n : Nat} (h : n < 10) : (digit n).isDigit = true := by
  interval_cases n <;> decide

theorem digit_val {n : Nat} (h : n < 10) : (digit n).toNat - 48 = n := by
  interval_cases n <;> decide

theorem digit_size {n : Nat} (h : n < 10) : (String.utf8EncodeChar (digit n)).length = 1 := by
  interval_cases n <;> decide

/-- Value of a digit string continued from `x`. -/
def val (x : Nat) (s : Str) : Nat := s.foldl (fun x c => x * 10 + (c.toNat - 48)) x

theorem val_append (x : Nat) (a b : Str) : val x (a ++ b) = val (val x a) b := by
  simp [val]

theorem val_ge (s : Str) : ∀ x, x ≤ val x s := by
  induction s with
  | nil => intro x; exact Nat.le_refl x
  | cons c s ih => intro x; exact Nat.le_trans (by omega) (ih (x * 10 + (c.toNat - 48)))

theorem val_pow (s : Str) : ∀ x, val x s = x * 10 ^ s.length + val 0 s := by
  induction s with
  | nil => intro x; simp [val]
  | cons c s ih =>
    intro x
    show val (x * 10 + (c.toNat - 48)) s = x * 10 ^ (s.length + 1) + val (0 * 10 + (c.toNat - 48)) s
    rw [ih (x * 10 + _), ih (0 * 10 + _)]
    ring

def Digits (s : Str) : Prop := ∀ c ∈ s, c.isDigit = true

theorem digits_size {s : Str} (h : Digits s) : (utf8 s).length = s.length := by
  induction s with
  | nil => rfl
  | cons c s ih =>
    have hc := h c (by simp)
    have : c.utf8Size = 1 := by
      simp only [Char.isDigit, Bool.and_eq_true, decide_eq_true_eq] at hc
      exact Char.utf8Size_eq_one_iff.mpr (by
        have := hc.2
        rw [UInt32.le_iff_toNat_le] at *
        exact Nat.le_trans this (by decide))
    simp only [utf8, List.flatMap_cons, List.length_append, List.length_cons] at *
    rw [ih (fun c hc => h c (by simp [hc]))]
    have e : (String.utf8EncodeChar c).length = 1 := by rw [String.length_utf8EncodeChar, this]
    omega

theorem leadingInt_spec {rest : Str} (hr : ∀ c r, rest = c :: r → c.isDigit = false) (ds : Str) :
    ∀ x, Digits ds → val x ds ≤ 2 ^ 63 → leadingInt x (ds ++ rest) = some (val x ds, rest) := by
  induction ds with
  | nil =>
    intro x _ _
    cases rest with
    | nil => rfl
    | cons c r => simp [leadingInt, hr c r rfl, val]
  | cons c s ih =>
    intro x h hv
    have hc := h c (by simp)
    have h1 : x * 10 + (c.toNat - 48) ≤ 2 ^ 63 := Nat.le_trans (val_ge s _) hv
    simp only [List.cons_append, leadingInt, hc, Bool.not_true, Bool.false_eq_true, if_false]
    rw [if_neg (by omega), if_neg (by omega), ih _ (fun c hc => h c (by simp [hc])) hv]
    rfl

/-- `scale` after `n` digits. -/
def scaleAfter : Nat → ℚ → ℚ
  | 0, sc => sc
  | n + 1, sc => scaleAfter n (f64 (sc * 10))

theorem scaleAfter_exact (n : Nat) : ∀ i, 10 ^ (i + n) < 2 ^ 53 → scaleAfter n ((10 ^ i : Nat) : ℚ) = ((10 ^ (i + n) : Nat) : ℚ) := by
  induction n with
  | zero => intro i _; rfl
  | succ n ih =>
    intro i h
    have e : ((10 ^ i : Nat) : ℚ) * 10 = ((10 ^ (i + 1) : Nat) : ℚ) := by push_cast; ring
    have hlt : 10 ^ (i + 1) < 2 ^ 53 := Nat.lt_of_le_of_lt (Nat.pow_le_pow_right (by omega) (by omega)) h
    rw [scaleAfter, e, f64_exact hlt, ih (i + 1) (by rw [show i + 1 + n = i + (n + 1) by omega]; exact h)]
    rw [show i + 1 + n = i + (n + 1) by omega]

theorem scaleAfter_one {n : Nat} (h : 10 ^ n < 2 ^ 53) : scaleAfter n 1 = ((10 ^ n : Nat) : ℚ) := by
  have := scaleAfter_exact n 0 (by rwa [Nat.zero_add])
  rwa [Nat.zero_add, Nat.pow_zero, Nat.cast_one] at this

theorem leadingFraction_spec {rest : Str} (hr : ∀ c r, rest = c :: r → c.isDigit = false) (ds : Str) :
    ∀ x sc, Digits ds → val x ds < 2 ^ 59 →
      leadingFraction x sc false (ds ++ rest) = (val x ds, scaleAfter ds.length sc, rest) := by
  induction ds with
  | nil =>
    intro x sc _ _
    cases rest with
    | nil => simp [leadingFraction, val, scaleAfter]
    | cons c r => simp [leadingFraction, hr c r rfl, val, scaleAfter]
  | cons c s ih =>
    intro x sc h hv
    have hc := h c (by simp)
    have h1 : x * 10 + (c.toNat - 48) < 2 ^ 59 := Nat.lt_of_le_of_lt (val_ge s _) hv
    simp only [List.cons_append, leadingFraction, hc, Bool.not_true, Bool.false_eq_true, if_false]
    rw [if_neg (by omega), if_neg (by omega), ih _ _ (fun c hc => h c (by simp [hc])) hv]
    rfl

/-! What `fmtInt` and `fmtFrac` write. -/

theorem intLoop_spec (n : Nat) : ∀ v out, v < 10 ^ n → ∃ ds, intLoop n v out = ds ++ out ∧ Digits ds ∧
    val 0 ds = v ∧ (∀ k, v < 10 ^ k ↔ ds.length ≤ k) := by
  induction n with
  | zero =>
    intro v out h
    have hv : v = 0 := by simpa using h
    subst hv
    exact ⟨[], rfl, by simp [Digits], rfl, by simp⟩
  | succ n ih =>
    intro v out h
    by_cases hv : v > 0
    · obtain ⟨ds, e, h1, h2, h3⟩ := ih (v / 10) (digit (v % 10) :: out) (by rw [Nat.pow_succ] at h; omega)
      refine ⟨ds ++ [digit (v % 10)], by simp [intLoop, hv, e], ?_, ?_, ?_⟩
      · intro c hc
        rcases List.mem_append.mp hc with hc | hc
        · exact h1 c hc
        · rw [List.mem_singleton.mp hc]; exact digit_isDigit (Nat.mod_lt _ (by omega))
      · rw [val_append, h2]
        show v / 10 * 10 + ((digit (v % 10)).toNat - 48) = v
        rw [digit_val (Nat.mod_lt _ (by omega))]; omega
      · intro k
        cases k with
        | zero => simp; omega
        | succ k =>
          have := h3 k
          rw [List.length_append, List.length_singleton, Nat.add_le_add_iff_right, ← this, Nat.pow_succ]
          omega
    · have hv : v = 0 := by omega
      subst hv
      exact ⟨[], by simp [intLoop], by simp [Digits], rfl, by simp⟩

/-- Length of a decimal number: `k` digits suffice exactly for numbers below 10^k. -/
def DecLen (v len : Nat) : Prop := ∀ k, 1 ≤ k → (v < 10 ^ k ↔ len ≤ k)

theorem fmtInt_spec {v : Nat} (out : Str) (h : v < 10 ^ 20) : ∃ ds, fmtInt v out = ds ++ out ∧ ds ≠ [] ∧
    Digits ds ∧ val 0 ds = v ∧ DecLen v ds.length := by
  by_cases hv : v = 0
  · subst hv
    refine ⟨['0'], rfl, by simp, by intro c hc; rw [List.mem_singleton.mp hc]; decide, rfl, ?_⟩
    intro k hk
    have : 0 < 10 ^ k := Nat.pow_pos (by omega)
    simp only [List.length_singleton]
    omega
  · obtain ⟨ds, e, h1, h2, h3⟩ := intLoop_spec 20 v out h
    refine ⟨ds, by simp [fmtInt, hv, e], ?_, h1, h2, fun k _ => h3 k⟩
    rintro rfl
    exact hv h2.symm

theorem fracLoop_spec (n : Nat) : ∀ v p ds out, Digits ds → (p = true ↔ val 0 ds ≠ 0) → (p = false → ds = []) →
    ∃ es, fracLoop n v p (ds ++ out) = (es ++ out, v / 10 ^ n, decide (val 0 es ≠ 0)) ∧ Digits es ∧
      (val 0 es = 0 → es = []) ∧ ds.length ≤ es.length ∧ es.length ≤ ds.length + n ∧
      val 0 es * 10 ^ (ds.length + n - es.length) = (v % 10 ^ n) * 10 ^ ds.length + val 0 ds := by
  induction n with
  | zero =>
    intro v p ds out hd hp hp'
    refine ⟨ds, ?_, hd, ?_, Nat.le_refl _, Nat.le_refl _, ?_⟩
    · simp only [fracLoop, Nat.pow_zero, Nat.div_one]
      congr 2
      rw [← Bool.coe_iff_coe]; simp [hp]
    · intro h0
      apply hp'
      cases p
      · rfl
      · exact absurd h0 (hp.mp rfl)
    · simp [Nat.mod_one]
  | succ n ih =>
    intro v p ds out hd hp hp'
    have hlt : v % 10 < 10 := Nat.mod_lt _ (by omega)
    have hdec : v % 10 ^ (n + 1) = (v / 10 % 10 ^ n) * 10 + v % 10 := by
      rw [Nat.pow_succ, Nat.mul_comm (10 ^ n) 10, Nat.mod_mul]; ring
    have hdiv : v / 10 / 10 ^ n = v / 10 ^ (n + 1) := by
      rw [Nat.div_div_eq_div_mul, Nat.pow_succ, Nat.mul_comm]
    by_cases hpr : (p || v % 10 != 0) = true
    · have hval : val 0 (digit (v % 10) :: ds) = (v % 10) * 10 ^ ds.length + val 0 ds := by
        show val (0 * 10 + ((digit (v % 10)).toNat - 48)) ds = _
        rw [digit_val hlt, val_pow]; ring
      have hne : val 0 (digit (v % 10) :: ds) ≠ 0 := by
        rw [hval]
        rcases Bool.or_eq_true _ _ ▸ hpr with h | h
        · have := hp.mp h; omega
        · have h' : v % 10 ≠ 0 := by simpa using h
          have : 0 < (v % 10) * 10 ^ ds.length := Nat.mul_pos (by omega) (Nat.pow_pos (by omega))
          omega
      obtain ⟨es, e, h1, h2, h3, h4, h5⟩ := ih (v / 10) true (digit (v % 10) :: ds) out
        (by
          intro c hc
          rcases List.mem_cons.mp hc with rfl | hc
          · exact digit_isDigit hlt
          · exact hd c hc) (by simp [hne]) (by simp)
      refine ⟨es, ?_, h1, h2, ?_, ?_, ?_⟩
      · rw [fracLoop, hpr, if_pos rfl, ← hdiv]; exact e
      · simp only [List.length_cons] at h3; omega
      · simp only [List.length_cons] at h4; omega
      · simp only [List.length_cons] at h5
        rw [show ds.length + (n + 1) - es.length = ds.length + 1 + n - es.length by omega, h5, hval, hdec]
        ring
    · have hpr : (p || v % 10 != 0) = false := by simpa using hpr
      have hp0 : p = false := by cases p <;> simp_all
      have hv0 : v % 10 = 0 := by simpa [hp0] using hpr
      have hds := hp' hp0
      subst hds
      subst hp0
      obtain ⟨es, e, h1, h2, h3, h4, h5⟩ := ih (v / 10) false [] out (by simp [Digits]) (by simp [val]) (by simp)
      refine ⟨es, ?_, h1, h2, Nat.zero_le _, by simp at h4 ⊢; omega, ?_⟩
      · rw [fracLoop, hpr, if_neg (by simp), ← hdiv]; exact e
      · simp only [List.length_nil, Nat.zero_add, Nat.pow_zero, Nat.mul_one] at h4 h5 ⊢
        have e0 : val 0 ([] : Str) = 0 := rfl
        rw [show n + 1 - es.length = (n - es.length) + 1 by omega, Nat.pow_succ, ← Nat.mul_assoc, h5, hdec, hv0, e0]
        simp

/-- `fmtFrac`: nothing, or a point and the digits of the fraction without trailing zeros. -/
theorem fmtFrac_spec (v prec : Nat) (out : Str) :
    ∃ es, fmtFrac v prec out = ((if es = [] then out else '.' :: es ++ out), v / 10 ^ prec) ∧ Digits es ∧
      es.length ≤ prec ∧ val 0 es * 10 ^ (prec - es.length) = v % 10 ^ prec ∧ (es ≠ [] → val 0 es ≠ 0) := by
  obtain ⟨es, e, h1, h2, _, h4, h5⟩ := fracLoop_spec prec v false [] out (by simp [Digits]) (by simp [val]) (by simp)
  simp only [List.nil_append] at e
  refine ⟨es, ?_, h1, by simpa using h4, by simpa [val] using h5, fun h h0 => h (h2 h0)⟩
  rw [fmtFrac, e]
  by_cases h0 : es = []
  · subst h0; simp [val]
  · have : val 0 es ≠ 0 := fun h => h0 (h2 h)
    simp [h0, this]

theorem fracLoop_congr (n : Nat) : ∀ v w p out, v % 10 ^ n = w % 10 ^ n →
    (fracLoop n v p out).1 = (fracLoop n w p out).1 ∧ (fracLoop n v p out).2.2 = (fracLoop n w p out).2.2 := by
  induction n with
  | zero => intros; exact ⟨rfl, rfl⟩
  | succ n ih =>
    intro v w p out h
    have hm : v % 10 = w % 10 := by
      have := congrArg (· % 10) h
      simpa [Nat.pow_succ, Nat.mod_mul_left_mod] using this
    have hd : v / 10 % 10 ^ n = w / 10 % 10 ^ n := by
      have := congrArg (· / 10) h
      simpa [Nat.pow_succ, Nat.mul_comm _ 10, Nat.mod_mul_right_div_self] using this
    simp only [fracLoop, hm]
    exact ih _ _ _ _ hd

/-- The fraction text depends on the fraction only. -/
theorem fmtFrac_congr {v w prec : Nat} {out : Str} (h : v % 10 ^ prec = w % 10 ^ prec) :
    (fmtFrac v prec out).1 = (fmtFrac w prec out).1 := by
  obtain ⟨h1, h2⟩ := fracLoop_congr prec v w false out h
  simp only [fmtFrac, h1, h2]

/-! One part of the text read back. -/

/-- A text that can follow a unit: empty or beginning with a digit. -/
def Start (s : Str) : Prop := ∀ c r, s = c :: r → c.isDigit = true

theorem takeWhile_unit {u rest : Str} (hu : ∀ c ∈ u, unitChar c = true) (hr : Start rest) :
    (u ++ rest).takeWhile unitChar = u ∧ (u ++ rest).dropWhile unitChar = rest := by
  induction u with
  | nil =>
    cases rest with
    | nil => exact ⟨rfl, rfl⟩
    | cons c r =>
      have : unitChar c = false := by simp [unitChar, hr c r rfl]
      simp [this]
  | cons c u ih =>
    have hc := hu c (by simp)
    have := ih (fun c h => hu c (by simp [h]))
    exact ⟨by simp [hc, this.1], by simp [hc, this.2]⟩

/-- A unit text of `unitMap`. -/
structure Unit (u : Str) (m : Nat) : Prop where
  ne : u ≠ []
  chars : ∀ c ∈ u, unitChar c = true
  eq : unitOf u = some m
  pos : 0 < m

theorem Unit.head {u m} (h : Unit u m) : ∃ c r, u = c :: r ∧ unitChar c = true := by
  cases u with
  | nil => exact absurd rfl h.ne
  | cons c r => exact ⟨c, r, rfl, h.chars c (by simp)⟩

theorem unitChar_not {c : Char} (h : unitChar c = true) : c.isDigit = false ∧ c ≠ '.' := by
  simp only [unitChar, Bool.not_eq_true', Bool.or_eq_false_iff, beq_eq_false_iff_ne] at h
  exact ⟨h.2, h.1⟩

theorem parseStep_int {ds u rest : Str} {m : Nat} (hne : ds ≠ []) (hd : Digits ds) (hu : Unit u m)
    (hr : Start rest) (hb : val 0 ds * m ≤ 2 ^ 63) :
    parseStep (ds ++ (u ++ rest)) = some (val 0 ds * m, rest) := by
  obtain ⟨c0, u', rfl, hc0⟩ := hu.head
  obtain ⟨hn, hdot⟩ := unitChar_not hc0
  have hv : val 0 ds ≤ 2 ^ 63 := Nat.le_trans (Nat.le_mul_of_pos_right _ hu.pos) hb
  have hl := leadingInt_spec (rest := (c0 :: u') ++ rest) (by rintro c r e; cases e; exact hn) ds 0 hd hv
  have hw := takeWhile_unit hu.chars hr
  have hdiv : ¬ val 0 ds > 2 ^ 63 / m := by
    have := (Nat.le_div_iff_mul_le hu.pos).mpr hb; omega
  have hmod : val 0 ds * m % 2 ^ 64 = val 0 ds * m := Nat.mod_eq_of_lt (by omega)
  cases ds with
  | nil => exact absurd rfl hne
  | cons c ds =>
    have hc : unitChar c = false := by simp [unitChar, hd c (by simp)]
    simp only [List.cons_append] at hl hw ⊢
    simp only [parseStep, hc, Bool.false_eq_true, if_false, hl]
    have e : optFrac (c0 :: (u' ++ rest)) = (0, 1, c0 :: (u' ++ rest), false) := by
      simp [optFrac, hdot]
    rw [e]
    have hlen : ¬ ((c0 :: (u' ++ rest)).length = (c :: (ds ++ c0 :: (u' ++ rest))).length) := by simp; omega
    simp only [decide_false, hlen, Bool.not_false, Bool.and_true, Bool.false_eq_true, if_false, hw.1, hw.2, hu.eq]
    simp only [List.cons_ne_nil, if_false, if_neg hdiv, hmod, Nat.lt_irrefl]

theorem parseStep_frac {ds es u rest : Str} {m q : Nat} (hne : ds ≠ []) (hd : Digits ds) (hes : es ≠ [])
    (he : Digits es) (he0 : val 0 es ≠ 0) (hu : Unit u m) (hm : m = 10 ^ es.length * q) (hm' : m < 2 ^ 53)
    (he' : val 0 es < 2 ^ 53) (hp : val 0 es * q < 2 ^ 53)
    (hr : Start rest) (hb : val 0 ds * m + val 0 es * q ≤ 2 ^ 63) :
    parseStep (ds ++ ('.' :: es ++ (u ++ rest))) = some (val 0 ds * m + val 0 es * q, rest) := by
  obtain ⟨c0, u', rfl, hc0⟩ := hu.head
  obtain ⟨hn, hdot⟩ := unitChar_not hc0
  have hv0 : val 0 ds * m ≤ 2 ^ 63 := by omega
  have hv : val 0 ds ≤ 2 ^ 63 := Nat.le_trans (Nat.le_mul_of_pos_right _ hu.pos) hv0
  have hl := leadingInt_spec (rest := '.' :: es ++ ((c0 :: u') ++ rest)) (by rintro c r e; cases e; decide) ds 0 hd hv
  have hf := leadingFraction_spec (rest := (c0 :: u') ++ rest) (by rintro c r e; cases e; exact hn) es 0 1 he
    (by omega)
  have hw := takeWhile_unit hu.chars hr
  have hdiv : ¬ val 0 ds > 2 ^ 63 / m := by
    have := (Nat.le_div_iff_mul_le hu.pos).mpr hv0; omega
  have h10 : 10 ^ es.length < 2 ^ 53 := by
    have : 10 ^ es.length ≤ m := Nat.le_of_dvd hu.pos ⟨q, hm⟩
    omega
  rw [scaleAfter_one h10] at hf
  have hfe : fracVal (val 0 es) m ((10 ^ es.length : Nat) : ℚ) = val 0 es * q := by
    rw [hm]
    exact fracVal_exact (Nat.pos_iff_ne_zero.mp (Nat.pow_pos (by omega))) (by omega) he' hp
  have hmod : (val 0 ds * m + val 0 es * q) % 2 ^ 64 = val 0 ds * m + val 0 es * q := Nat.mod_eq_of_lt (by omega)
  cases ds with
  | nil => exact absurd rfl hne
  | cons c ds =>
    have hc : unitChar c = false := by simp [unitChar, hd c (by simp)]
    simp only [List.cons_append] at hl hw hf ⊢
    simp only [parseStep, hc, Bool.false_eq_true, if_false, hl, optFrac, if_true, hf]
    have hpost : ((c0 :: (u' ++ rest)).length != (es ++ c0 :: (u' ++ rest)).length) = true := by
      have : 0 < es.length := List.length_pos_iff.mpr hes
      simp; omega
    have hpos : val 0 es > 0 := by omega
    simp only [hpost, Bool.not_true, Bool.and_false, Bool.false_eq_true, if_false, hw.1, hw.2, hu.eq, Nat.one_mul,
      hfe, hmod, hpos, if_true, hdiv]
    simp
    omega

/-- The text stands for the amount `a`. -/
def Adds (s : Str) (a : Nat) : Prop :=
  ∀ d fuel, d + a ≤ 2 ^ 63 → s.length ≤ fuel → parseLoop fuel d s = some (d + a)

theorem Adds.nil : Adds [] 0 := by
  intro d fuel _ _
  cases fuel <;> simp [parseLoop]

theorem Adds.step {s rest : Str} {v a : Nat} (hs : s ≠ []) (hlen : rest.length < s.length)
    (h : v + a ≤ 2 ^ 63 → parseStep s = some (v, rest)) (hr : Adds rest a) : Adds s (v + a) := by
  intro d fuel hb hf
  cases s with
  | nil => exact absurd rfl hs
  | cons c s =>
    cases fuel with
    | zero => simp at hf
    | succ n =>
      have e : (d + v) % 2 ^ 64 = d + v := Nat.mod_eq_of_lt (by omega)
      rw [parseLoop, h (by omega)]
      simp only [e]
      rw [if_neg (by omega), hr (d + v) n (by omega) (by simp only [List.length_cons] at *; omega), Nat.add_assoc]

/-- A part that begins with a digit, stands for `a`, and can be continued by a sign in front. -/
structure Reads (s : Str) (a : Nat) : Prop where
  start : Start s
  adds : Adds s a

theorem Reads.nil : Reads [] 0 := ⟨(by intro c r h; cases h), Adds.nil⟩

theorem start_append {ds out : Str} (hne : ds ≠ []) (hd : Digits ds) : Start (ds ++ out) := by
  cases ds with
  | nil => exact absurd rfl hne
  | cons c ds => intro c' r e; cases e; exact hd c (by simp)

theorem Reads.int {v m a : Nat} {u out : Str} (hv : v < 10 ^ 20) (hu : Unit u m) (h : Reads out a) :
    Reads (fmtInt v (u ++ out)) (v * m + a) := by
  obtain ⟨ds, e, hne, hd, hval, _⟩ := fmtInt_spec (u ++ out) hv
  rw [e]
  have hpos : 0 < ds.length := List.length_pos_iff.mpr hne
  refine ⟨start_append hne hd, Adds.step (by simp [hne]) (by simp; omega) (fun hb => ?_) h.adds⟩
  have := parseStep_int hne hd hu h.start (by rw [hval]; omega)
  rwa [hval] at this

theorem Reads.part {n m a : Nat} {u out : Str} (hn : n < 10 ^ 20) (hu : Unit u m) (h : Reads out a) :
    Reads (Dur.part n u out) (n * m + a) := by
  rw [Dur.part]
  split
  · exact Reads.int hn hu h
  · have : n = 0 := by omega
    subst this
    simpa using h

/-- A number with a fraction in front of a unit of 10^prec nanoseconds. -/
theorem Reads.frac {v prec a : Nat} {u out : Str} (hv : v < 10 ^ 20) (hp : prec ≤ 9) (hu : Unit u (10 ^ prec))
    (h : Reads out a) :
    Reads (fmtInt (v / 10 ^ prec) (fmtFrac v prec (u ++ out)).1) (v + a) := by
  obtain ⟨es, e, hd, hl, hes, h0⟩ := fmtFrac_spec v prec (u ++ out)
  have hpp : 0 < 10 ^ prec := Nat.pow_pos (by omega)
  have hvv : v / 10 ^ prec < 10 ^ 20 := Nat.lt_of_le_of_lt (Nat.div_le_self _ _) hv
  have hdm := Nat.div_add_mod v (10 ^ prec)
  rw [e]
  by_cases hn : es = []
  · subst hn
    have hz : v % 10 ^ prec = 0 := by rw [← hes]; simp [val]
    have := Reads.int hvv hu h
    rw [show v / 10 ^ prec * 10 ^ prec = v by rw [Nat.mul_comm]; omega] at this
    simpa using this
  · simp only [if_neg hn]
    obtain ⟨ds, e, hne, hdd, hval, _⟩ := fmtInt_spec ('.' :: es ++ (u ++ out)) hvv
    rw [e]
    have hsplit : (10 : Nat) ^ prec = 10 ^ es.length * 10 ^ (prec - es.length) := by
      rw [← Nat.pow_add]; congr 1; omega
    have h9 : (10 : Nat) ^ prec ≤ 10 ^ 9 := Nat.pow_le_pow_right (by omega) hp
    have hlt : v % 10 ^ prec < 10 ^ prec := Nat.mod_lt _ hpp
    have hvle : val 0 es ≤ v % 10 ^ prec := by
      rw [← hes]; exact Nat.le_mul_of_pos_right _ (Nat.pow_pos (by omega))
    have hpos : 0 < ds.length := List.length_pos_iff.mpr hne
    refine ⟨start_append hne hdd, Adds.step (by simp [hne]) (by simp; omega) (fun hb => ?_) h.adds⟩
    have hsum : val 0 ds * 10 ^ prec + val 0 es * 10 ^ (prec - es.length) = v := by
      rw [hval, hes, Nat.mul_comm]; exact hdm
    have := parseStep_frac (q := 10 ^ (prec - es.length)) hne hdd hn hd (h0 hn) hu hsplit
      (by omega) (by omega) (by omega) h.start (by omega)
    rwa [hsum] at this

theorem unit_ns : Unit ['n', 's'] (10 ^ 0) := ⟨by simp, by decide, by decide, by decide⟩
theorem unit_us : Unit ['µ', 's'] (10 ^ 3) := ⟨by simp, by decide, by decide, by decide⟩
theorem unit_ms : Unit ['m', 's'] (10 ^ 6) := ⟨by simp, by decide, by decide, by decide⟩
theorem unit_s : Unit ['s'] (10 ^ 9) := ⟨by simp, by decide, by decide, by decide⟩
theorem unit_m : Unit ['m'] minute := ⟨by simp, by decide, by decide, by decide⟩
theorem unit_h : Unit ['h'] hour := ⟨by simp, by decide, by decide, by decide⟩
theorem unit_d : Unit ['d'] (24 * hour) := ⟨by simp, by decide, by decide, by decide⟩

theorem parse_pos {s : Str} {a : Nat} (hs : s ≠ []) (h : Reads s a) (ha : a < 2 ^ 63) : parse s = some (a : Int) := by
  cases s with
  | nil => exact absurd rfl hs
  | cons c r =>
    have hc := h.start c r rfl
    have hm : c ≠ '-' := by rintro rfl; exact absurd hc (by decide)
    have hp : c ≠ '+' := by rintro rfl; exact absurd hc (by decide)
    have hl := h.adds 0 (c :: r).length (by omega) (Nat.le_refl _)
    have h0 : c :: r ≠ ['0'] := by
      intro e
      rw [e, show parseLoop ['0'].length 0 ['0'] = none by decide +kernel] at hl
      cases hl
    have hh : (some c == some '-') = false := by simpa using hm
    simp only [parse, List.head?_cons, hh, if_neg (not_or.mpr ⟨hm, hp⟩), if_neg h0, List.cons_ne_nil, if_false, hl]
    simp
    omega

theorem parse_neg {s : Str} {a : Nat} (hs : s ≠ []) (h : Reads s a) (ha : a ≤ 2 ^ 63) :
    parse ('-' :: s) = some (-(a : Int)) := by
  have hl := h.adds 0 s.length (by omega) (Nat.le_refl _)
  have h0 : s ≠ ['0'] := by
    intro e
    rw [e, show parseLoop ['0'].length 0 ['0'] = none by decide +kernel] at hl
    cases hl
  simp [parse, hs, h0, hl]

end Dur
end Verif

import Verif.Props.DurParse
import Verif.Lemmas.DurFloat
/-
C100: durations with any number of digits behind the point.
-/
namespace Verif
namespace Dur

/-! The digits after the point. -/

theorem leadingFraction_full (x : Nat) (sc : ℚ) {rest : Str} (hr : ∀ c r, rest = c :: r → c.isDigit = false) {ds : Str} (h : Digits ds) :
    leadingFraction x sc true (ds ++ rest) = (x, sc, rest) := by
  induction ds with
  | nil =>
    cases rest with
    | nil => rfl
    | cons c r => simp [leadingFraction, hr c r rfl]
  | cons c s ih =>
    simp only [List.cons_append, leadingFraction, h c (by simp), Bool.not_true, Bool.false_eq_true, if_false, if_true]
    exact ih (fun c hc => h c (by simp [hc]))

/-- `leadingFraction` on any digits: it uses the first `j` of them. -/
theorem leadingFraction_gen {rest : Str} (hr : ∀ c r, rest = c :: r → c.isDigit = false) (ds : Str) :
    ∀ x sc, x ≤ 2 ^ 63 → Digits ds → ∃ j, leadingFraction x sc false (ds ++ rest) = (val x (ds.take j), scaleAfter j sc, rest) ∧ j ≤ ds.length ∧
      val x (ds.take j) ≤ 2 ^ 63 ∧ (j = ds.length ∨ 2 ^ 59 ≤ val x (ds.take j)) := by
  induction ds with
  | nil =>
    intro x sc hx _
    refine ⟨0, ?_, by simp, by simpa [val] using hx, .inl rfl⟩
    cases rest with
    | nil => rfl
    | cons c r => simp [leadingFraction, hr c r rfl, val, scaleAfter]
  | cons c s ih =>
    intro x sc hx h
    have hc := h c (by simp)
    have hd := digit_lt hc
    have hs : Digits s := fun c hc => h c (by simp [hc])
    simp only [List.cons_append, leadingFraction, hc, Bool.not_true, Bool.false_eq_true, if_false]
    by_cases h1 : x > (2 ^ 63 - 1) / 10
    · rw [if_pos h1, leadingFraction_full _ _ hr hs]
      exact ⟨0, rfl, by simp, by simpa [val] using hx, .inr (by simp [val]; omega)⟩
    · rw [if_neg h1]
      by_cases h2 : x * 10 + (c.toNat - 48) > 2 ^ 63
      · rw [if_pos h2, leadingFraction_full _ _ hr hs]
        exact ⟨0, rfl, by simp, by simpa [val] using hx, .inr (by simp [val]; omega)⟩
      · rw [if_neg h2]
        obtain ⟨j, e, hj, hv, hor⟩ := ih (x * 10 + (c.toNat - 48)) (f64 (sc * 10)) (by omega) hs
        refine ⟨j + 1, e, by simp; omega, hv, ?_⟩
        rcases hor with h | h
        · left; simp [h]
        · right; exact h

/-- The text and what it stands for, exactly. -/
def Part.Exactly (p : Part) (x : ℚ) : Prop :=
  ∃ m, p.Fine m ∧ x = (val 0 p.whole + val 0 p.after / 10 ^ p.after.length) * m

theorem units_le {u : Str} {m : Nat} (h : (u, m) ∈ units) : m ≤ 86400000000000 := by
  simp only [units, List.mem_cons, List.not_mem_nil, or_false] at h
  rcases h with h | h | h | h | h | h | h | h | h <;> cases h <;> decide

/-- Cutting digits off. -/
theorem val_take {ds : Str} (h : Digits ds) {j : Nat} (hj : j ≤ ds.length) :
    (val 0 (ds.take j) : ℚ) / 10 ^ j ≤ val 0 ds / 10 ^ ds.length ∧ (val 0 ds : ℚ) / 10 ^ ds.length < (val 0 (ds.take j) + 1) / 10 ^ j := by
  have e : val 0 ds = val 0 (ds.take j) * 10 ^ (ds.length - j) + val 0 (ds.drop j) := by
    conv => lhs; rw [← List.take_append_drop j ds, val_append, val_pow]
    simp
  have hlt : val 0 (ds.drop j) < 10 ^ (ds.length - j) := by
    have := val_lt (s := ds.drop j) (fun c hc => h c (List.mem_of_mem_drop hc))
    simpa using this
  have hsp : (10 : ℚ) ^ ds.length = 10 ^ j * 10 ^ (ds.length - j) := by
    rw [← pow_add]; congr 1; omega
  have h1 : (0 : ℚ) < 10 ^ j := by positivity
  have h2 : (0 : ℚ) < 10 ^ (ds.length - j) := by positivity
  have hlt' : (val 0 (ds.drop j) : ℚ) < 10 ^ (ds.length - j) := by exact_mod_cast hlt
  have h0 : (0 : ℚ) ≤ val 0 (ds.drop j) := by positivity
  rw [e, hsp]
  push_cast
  constructor
  · rw [div_le_div_iff₀ h1 (by positivity)]
    nlinarith [mul_nonneg h0 h1.le]
  · rw [div_lt_div_iff₀ (by positivity) h1]
    nlinarith [mul_lt_mul_of_pos_right hlt' h1]

theorem optFrac_gen {p : Part} {m : Nat} (h : p.Fine m) (rest : Str) :
    ∃ j post, optFrac ((match p.frac with | some f => '.' :: f | none => []) ++ p.unit ++ rest) =
      (val 0 (p.after.take j), scaleAfter j 1, p.unit ++ rest, post) ∧ (p.after ≠ [] → post = true) ∧ j ≤ p.after.length ∧
      val 0 (p.after.take j) ≤ 2 ^ 63 ∧ (j = p.after.length ∨ 2 ^ 59 ≤ val 0 (p.after.take j)) := by
  obtain ⟨c0, u, hu, hc0⟩ := (units_unit h.unit).1.head
  obtain ⟨hn, hd⟩ := unitChar_not hc0
  cases hf : p.frac with
  | none =>
    refine ⟨0, false, ?_, ?_, by simp, by simp [val], by simp [Part.after, hf]⟩
    · simp [optFrac, hu, hd, val, scaleAfter]
    · simp [Part.after, hf]
  | some es =>
    have ha : p.after = es := by simp [Part.after, hf]
    rw [ha]
    obtain ⟨j, hl, h1, h2, h3⟩ := leadingFraction_gen (rest := p.unit ++ rest) (by rw [hu]; rintro c r e; cases e; exact hn) es 0 1
      (by omega) (ha ▸ h.frac)
    refine ⟨j, (p.unit ++ rest).length != (es ++ (p.unit ++ rest)).length, ?_, ?_, h1, h2, h3⟩
    · simp only [List.cons_append, optFrac, if_true, List.append_assoc, hl]
    · intro he
      have : 0 < es.length := List.length_pos_iff.mpr he
      simp
      omega

/-- One round of the loop on any part: less than two nanoseconds off. -/
theorem Part.Exactly.step {p : Part} {x : ℚ} (h : p.Exactly x) (hb : x + 2 ≤ 2 ^ 63) {rest : Str} (hr : Start' rest) :
    ∃ a : Nat, parseStep (p.text ++ rest) = some (a, rest) ∧ |(a : ℚ) - x| < 2 := by
  obtain ⟨m, h, hx⟩ := h
  obtain ⟨hu, hm⟩ := units_unit h.unit
  obtain ⟨c, r, hc, hcu⟩ := h.start rest
  obtain ⟨j, post, ho, hp, hj, hf63, hor⟩ := optFrac_gen h rest
  have hw := takeWhile_unit' hu.chars hr
  obtain ⟨c0, u, hu0, hc0⟩ := hu.head
  obtain ⟨hn, _⟩ := unitChar_not hc0
  have hl := leadingInt_all (rest := (match p.frac with | some f => '.' :: f | none => []) ++ p.unit ++ rest)
    (by
      intro c r e
      cases hf : p.frac with
      | none => rw [hf, hu0] at e; cases e; exact hn
      | some f => rw [hf] at e; cases e; decide) p.whole 0 (by omega) h.whole
  have htext : p.text ++ rest = p.whole ++ ((match p.frac with | some f => '.' :: f | none => []) ++ p.unit ++ rest) := by
    simp only [Part.text, List.append_assoc]
    cases p.frac <;> rfl
  have hcond : (decide (((match p.frac with | some f => '.' :: f | none => []) ++ p.unit ++ rest).length = (p.text ++ rest).length) && !post) =
      false := by
    rw [Bool.and_eq_false_iff]
    rcases h.some with h' | h'
    · left
      have : 0 < p.whole.length := List.length_pos_iff.mpr h'
      rw [htext, List.length_append]
      simp
      omega
    · right; rw [hp h']; rfl
  -- the fraction
  have hmq : (0 : ℚ) < m := by exact_mod_cast hu.pos
  have hfj : val 0 (p.after.take j) < 10 ^ j := by
    have := val_lt (s := p.after.take j) (fun c hc => h.frac c (List.mem_of_mem_take hc))
    rwa [List.length_take, Nat.min_eq_left hj] at this
  have hnear := fracFloat_near (j := j) (units_le h.unit) hf63 hfj
  obtain ⟨t1, t2⟩ := val_take h.frac hj
  generalize hfv : val 0 (p.after.take j) = f at *
  have hF0 : 0 ≤ fracFloat f m (scaleAfter j 1) := (fracFloat_bounds (f := f) (j := j) hm).2.2
  generalize hFr : (val 0 p.after : ℚ) / 10 ^ p.after.length = F at *
  -- the digits cut off
  have hcut : F * m - f * m / 10 ^ j < 1 / 2 ∧ 0 ≤ F * m - f * m / 10 ^ j := by
    have e : (f : ℚ) * m / 10 ^ j = f / 10 ^ j * m := by ring
    rw [e]
    refine ⟨?_, by nlinarith⟩
    rcases hor with hor | hor
    · subst hor
      have : F = f / 10 ^ p.after.length := by
        rw [← hFr, ← hfv, List.take_length]
      rw [this]; norm_num
    · have hbig : (2 : ℚ) ^ 59 ≤ 10 ^ j := by
        have : (2 : Nat) ^ 59 ≤ 10 ^ j := by omega
        exact_mod_cast this
      have hmle : (m : ℚ) ≤ 86400000000000 := by exact_mod_cast units_le h.unit
      have h1 : F - f / 10 ^ j < 1 / 10 ^ j := by
        rw [add_div] at t2; linarith
      have h2 : (1 : ℚ) / 10 ^ j ≤ 1 / 2 ^ 59 := by gcongr
      have h3 : (F - f / 10 ^ j) * m ≤ 1 / 2 ^ 59 * 86400000000000 := by
        apply mul_le_mul (by linarith) hmle hmq.le (by norm_num)
      norm_num at h3 ⊢
      linarith
  -- the amount that is added
  obtain ⟨q, hq, hq0, hqn⟩ : ∃ q : Nat, (f > 0 → fracVal f m (scaleAfter j 1) = q) ∧ (¬ f > 0 → q = 0) ∧ |(q : ℚ) - F * m| < 2 := by
    by_cases hf0 : f > 0
    · refine ⟨fracVal f m (scaleAfter j 1), fun _ => rfl, fun h => absurd hf0 h, ?_⟩
      have hfl : ((fracVal f m (scaleAfter j 1) : Nat) : ℚ) = ((⌊fracFloat f m (scaleAfter j 1)⌋ : ℤ) : ℚ) := by
        have : ((fracVal f m (scaleAfter j 1) : Nat) : ℤ) = ⌊fracFloat f m (scaleAfter j 1)⌋ :=
          Int.toNat_of_nonneg (Int.floor_nonneg.mpr hF0)
        rw [← this]; norm_cast
      rw [hfl]
      have g1 := Int.floor_le (fracFloat f m (scaleAfter j 1))
      have g2 := Int.lt_floor_add_one (fracFloat f m (scaleAfter j 1))
      rw [abs_lt] at hnear ⊢
      constructor <;> linarith [hnear.1, hnear.2, hcut.1, hcut.2]
    · refine ⟨0, fun h => absurd h hf0, fun _ => rfl, ?_⟩
      have : f = 0 := by omega
      rw [this] at hcut
      simp only [Nat.cast_zero, zero_mul, zero_div, sub_zero] at hcut
      rw [abs_lt]
      push_cast
      constructor <;> linarith [hcut.1, hcut.2]
  have hxa : x = val 0 p.whole * m + F * m := by rw [hx]; ring
  have hFm : 0 ≤ F * m := by
    rw [← hFr]; positivity
  have hsum : val 0 p.whole * m + q < 2 ^ 63 := by
    have : ((val 0 p.whole * m + q : Nat) : ℚ) < ((2 ^ 63 : Nat) : ℚ) := by
      push_cast
      rw [abs_lt] at hqn
      linarith [hqn.2]
    exact_mod_cast this
  have hv : val 0 p.whole ≤ 2 ^ 63 := by
    have : val 0 p.whole ≤ val 0 p.whole * m := Nat.le_mul_of_pos_right _ hu.pos
    omega
  refine ⟨val 0 p.whole * m + q, ?_, ?_⟩
  · rw [hc]
    unfold parseStep
    simp only [hcu, Bool.false_eq_true, if_false]
    rw [← hc]
    conv => lhs; rw [htext]
    rw [hl, if_pos hv]
    simp only
    rw [ho]
    simp only
    rw [← htext, hcond]
    simp only [Bool.false_eq_true, if_false, hw.1, hw.2, hu.ne, hu.eq]
    rw [if_neg (by have := (Nat.le_div_iff_mul_le (y := 2 ^ 63) (x := val 0 p.whole) hu.pos).mpr (by omega); omega)]
    have hmod : (val 0 p.whole * m + q) % 2 ^ 64 = val 0 p.whole * m + q := Nat.mod_eq_of_lt (by omega)
    by_cases hf0 : f > 0
    · rw [if_pos hf0, hq hf0, hmod, if_neg (by omega)]
    · have := hq0 hf0
      rw [if_neg hf0, this, Nat.add_zero, Nat.mod_eq_of_lt (by omega)]
  · push_cast
    rw [hxa]
    rw [abs_lt] at hqn ⊢
    constructor <;> linarith [hqn.1, hqn.2]

theorem loop_near {ps : List Part} {xs : List ℚ} (h : List.Forall₂ Part.Exactly ps xs) :
    ∀ (d : Nat) (y : ℚ) fuel k, |(d : ℚ) - y| ≤ k → y + xs.sum + 2 * ps.length + k ≤ 2 ^ 63 → 0 ≤ y → (texts ps).length ≤ fuel →
      ∃ a : Nat, parseLoop fuel d (texts ps) = some a ∧ |(a : ℚ) - (y + xs.sum)| ≤ k + 2 * ps.length := by
  induction h with
  | nil =>
    intro d y fuel k hd _ _ _
    have : parseLoop fuel d [] = some d := by cases fuel <;> rfl
    exact ⟨d, this, by simpa using hd⟩
  | @cons p x ps xs hp hps ih =>
    intro d y fuel k hd hb hy hf
    have hnn : ∀ {p x}, Part.Exactly p x → 0 ≤ x := by
      rintro p x ⟨m, _, rfl⟩; positivity
    have hxs : 0 ≤ xs.sum := by
      clear ih hb hf
      induction hps with
      | nil => simp
      | cons h _ ih => rw [List.sum_cons]; have := hnn h; linarith
    have hx0 := hnn hp
    have hfine : ∀ p ∈ ps, ∃ m, p.Fine m := by
      intro p' hp'
      obtain ⟨i, hi, rfl⟩ := List.mem_iff_getElem.mp hp'
      obtain ⟨m, hm, _⟩ := hps.get hi (hps.length_eq ▸ hi)
      exact ⟨m, hm⟩
    rw [List.sum_cons, List.length_cons] at hb ⊢
    push_cast at hb ⊢
    have hk : 0 ≤ (k : ℚ) := le_trans (abs_nonneg _) hd
    have hlen0 : (0 : ℚ) ≤ ps.length := by positivity
    obtain ⟨a, hst, ha⟩ := hp.step (by linarith) (texts_start hfine)
    obtain ⟨m, hpm, _⟩ := hp
    obtain ⟨c, r, e, _⟩ := hpm.start (texts ps)
    have htx : texts (p :: ps) = p.text ++ texts ps := by simp [texts]
    have hlen : (texts ps).length < (p.text ++ texts ps).length := by
      have := (units_unit hpm.unit).1.ne
      have : 0 < p.unit.length := List.length_pos_iff.mpr this
      simp [Part.text]
      omega
    rw [htx] at hf ⊢
    cases fuel with
    | zero => omega
    | succ n =>
      rw [e] at hst hf hlen ⊢
      rw [parseLoop, hst]
      rw [abs_le] at hd
      rw [abs_lt] at ha
      have hda : d + a ≤ 2 ^ 63 := by
        have : ((d + a : Nat) : ℚ) ≤ ((2 ^ 63 : Nat) : ℚ) := by
          push_cast
          linarith [hd.2, ha.2]
        exact_mod_cast this
      simp only [Nat.mod_eq_of_lt (show d + a < 2 ^ 64 by omega)]
      rw [if_neg (by omega)]
      obtain ⟨a', h1, h2⟩ := ih (d + a) (y + x) n (k + 2)
        (by push_cast; rw [abs_le]; constructor <;> linarith [hd.1, hd.2, ha.1, ha.2]) (by linarith) (by linarith) (by omega)
      refine ⟨a', h1, ?_⟩
      rw [abs_le] at h2 ⊢
      constructor <;> linarith [h2.1, h2.2]

/-- **C100** Every text of the grammar whose value is safely in range is parsed, and the result is less than two nanoseconds per part off, whatever
the number of digits after the points. -/
theorem C100_near {ps : List Part} {xs : List ℚ} (hne : ps ≠ []) (h : List.Forall₂ Part.Exactly ps xs)
    (hb : xs.sum + 2 * ps.length < 2 ^ 63) :
    ∃ a : Nat, |(a : ℚ) - xs.sum| ≤ 2 * ps.length ∧ parse (texts ps) = some (a : Int) ∧ parse ('+' :: texts ps) = some (a : Int) ∧
      parse ('-' :: texts ps) = some (-(a : Int)) := by
  have hfine : ∀ p ∈ ps, ∃ m, p.Fine m := by
    intro p' hp'
    obtain ⟨i, hi, rfl⟩ := List.mem_iff_getElem.mp hp'
    obtain ⟨m, hm, _⟩ := h.get hi (h.length_eq ▸ hi)
    exact ⟨m, hm⟩
  obtain ⟨c, r, e, h1, h2, h3⟩ := texts_plain hne hfine
  obtain ⟨a, hl, ha⟩ := loop_near h 0 0 (texts ps).length 0 (by simp) (by linarith) (le_refl _) (Nat.le_refl _)
  rw [zero_add, zero_add] at ha
  have hn0 : texts ps ≠ [] := by rw [e]; simp
  have ha63 : a < 2 ^ 63 := by
    have : (a : ℚ) < ((2 ^ 63 : Nat) : ℚ) := by
      push_cast
      linarith [(abs_le.mp ha).2]
    exact_mod_cast this
  refine ⟨a, ha, ?_, ?_, ?_⟩
  · unfold parse
    rw [e] at h3 hl ⊢
    have hh : (some c == some '-') = false := by simpa using h1
    simp only [List.head?_cons, hh, if_neg (not_or.mpr ⟨h1, h2⟩), if_neg h3, List.cons_ne_nil, if_false, Bool.false_eq_true, hl]
    rw [if_neg (by omega)]
  · simp only [parse, List.head?_cons, or_true, if_true, if_neg h3, if_neg hn0, hl]
    have hh : (some '+' == some '-') = false := by decide
    simp only [hh, Bool.false_eq_true, if_false]
    rw [if_neg (by omega)]
  · simp only [parse, List.head?_cons, true_or, if_true, if_neg h3, if_neg hn0, hl]
    simp

/-- "0.3333333333333333333h": nineteen digits, twenty minutes less a fraction of a nanosecond. -/
theorem ex_near : Part.Exactly ⟨['0'], some (List.replicate 19 '3'), ['h']⟩ (3333333333333333333 * 3600000000000 / 10 ^ 19) := by
  have e : val 0 (List.replicate 19 '3') = 3333333333333333333 := by decide +kernel
  refine ⟨3600000000000, ⟨?_, ?_, ?_, ?_⟩, ?_⟩
  · intro c hc; cases List.mem_singleton.mp hc; decide
  · intro c hc; rw [List.eq_of_mem_replicate hc]; decide
  · left; simp
  · simp [units]
  · have e0 : val 0 ['0'] = 0 := by decide
    simp only [Part.after, Option.getD_some, e, e0, List.length_replicate]
    norm_num

example : ∃ a : Nat, |(a : ℚ) - 3333333333333333333 * 3600000000000 / 10 ^ 19| ≤ 2 ∧
    parse "0.3333333333333333333h".toList = some (a : Int) := by
  obtain ⟨a, h, h', _⟩ := C100_near (by simp) (.cons ex_near .nil) (by norm_num)
  exact ⟨a, by simpa using h, h'⟩

end Dur
end Verif

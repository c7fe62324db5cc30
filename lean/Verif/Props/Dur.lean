import Verif.Lemmas.Dur
import Mathlib.Tactic.ByContra
/-
C23: durations survive formatting and parsing.
-/
namespace Verif
namespace Dur

theorem divs_eq (u unit : Nat) : divs u unit = (u / unit, u % unit) := by
  rw [divs]
  split
  · rfl
  · rw [Nat.div_eq_of_lt (by omega), Nat.mod_eq_of_lt (by omega)]

theorem fmtInt_ne (v : Nat) (out : Str) (h : v < 10 ^ 20) : fmtInt v out ≠ [] := by
  obtain ⟨ds, e, hne, _⟩ := fmtInt_spec out h
  rw [e]; simp [hne]

/-- The text in front of which only the sign is written stands for the absolute value. -/
theorem fmtAbs_reads {u : Nat} (hu : u ≤ 2 ^ 63) (frac : Bool) : fmtAbs u frac ≠ [] ∧ Reads (fmtAbs u frac) u := by
  have h20 : u < 10 ^ 20 := Nat.lt_of_le_of_lt hu (by decide)
  rw [fmtAbs]
  by_cases h1 : u < second
  · rw [if_pos h1, fmtMsec]
    by_cases h0 : u = 0
    · subst h0
      refine ⟨by simp, ?_⟩
      have := Reads.int (v := 0) (by decide) unit_s Reads.nil
      simpa [fmtInt] using this
    · rw [if_neg h0]
      have key : ∀ (prec : Nat) (c : Char), prec ≤ 9 → Unit [c, 's'] (10 ^ prec) →
          fmtInt (fmtFrac u prec [c, 's']).2 (fmtFrac u prec [c, 's']).1 ≠ [] ∧
          Reads (fmtInt (fmtFrac u prec [c, 's']).2 (fmtFrac u prec [c, 's']).1) u := by
        intro prec c hp hun
        obtain ⟨es, e, _⟩ := fmtFrac_spec u prec [c, 's']
        have e2 : (fmtFrac u prec [c, 's']).2 = u / 10 ^ prec := by rw [e]
        rw [e2]
        exact ⟨fmtInt_ne _ _ (Nat.lt_of_le_of_lt (Nat.div_le_self _ _) h20),
          by simpa using Reads.frac h20 hp hun Reads.nil⟩
      split
      · exact key 0 'n' (by omega) unit_ns
      · split
        · exact key 3 'µ' (by omega) unit_us
        · exact key 6 'm' (by omega) unit_ms
  · rw [if_neg h1]
    cases frac with
    | true =>
      simp only [if_true, fmtFracMode]
      obtain ⟨es, e, hd, hl, hes, h0⟩ := fmtFrac_spec u 9 ['s']
      have e2 : (fmtFrac u 9 ['s']).2 = u / 10 ^ 9 := by rw [e]
      rw [e2]
      -- the seconds with their fraction stand for u mod one minute
      have hsec : Reads (fmtInt (u / 10 ^ 9 % 60) (fmtFrac u 9 ['s']).1) (u % minute) := by
        have hr := Reads.frac (v := u % minute) (prec := 9) (Nat.lt_of_le_of_lt (Nat.mod_le _ _) h20) (by omega) unit_s
          Reads.nil
        have ea : u % minute / 10 ^ 9 = u / 10 ^ 9 % 60 := by
          simp only [minute, second, milli, micro]; omega
        have eb : (fmtFrac (u % minute) 9 ['s']).1 = (fmtFrac u 9 ['s']).1 := fmtFrac_congr (by
          simp only [minute, second, milli, micro]; omega)
        rw [ea] at hr
        simpa only [List.append_nil, Nat.add_zero, eb] using hr
      have hsne := fmtInt_ne (u / 10 ^ 9 % 60) (fmtFrac u 9 ['s']).1 (by omega)
      split
      · have hmin := Reads.int (v := u / 10 ^ 9 / 60 % 60) (by omega) unit_m hsec
        split
        · have hh := Reads.int (v := u / 10 ^ 9 / 60 / 60) (by omega) unit_h hmin
          refine ⟨fmtInt_ne _ _ (by omega), ?_⟩
          have : u / 10 ^ 9 / 60 / 60 * hour + (u / 10 ^ 9 / 60 % 60 * minute + u % minute) = u := by
            simp only [hour, minute, second, milli, micro]; omega
          rw [this] at hh
          exact hh
        · refine ⟨fmtInt_ne _ _ (by omega), ?_⟩
          have : u / 10 ^ 9 / 60 % 60 * minute + u % minute = u := by
            simp only [minute, second, milli, micro]; omega
          rw [this] at hmin
          exact hmin
      · refine ⟨hsne, ?_⟩
        have : u % minute = u := by
          simp only [minute, second, milli, micro]; omega
        rw [this] at hsec
        exact hsec
    | false =>
      simp only [Bool.false_eq_true, if_false, fmtParts, divs_eq]
      have r0 := Reads.part (n := u % (24 * hour) % hour % minute % second % milli % micro)
        (by simp only [hour, minute, second, milli, micro]; omega) unit_ns Reads.nil
      have r1 := Reads.part (n := u % (24 * hour) % hour % minute % second % milli / micro)
        (by simp only [hour, minute, second, milli, micro]; omega) unit_us r0
      have r2 := Reads.part (n := u % (24 * hour) % hour % minute % second / milli)
        (by simp only [hour, minute, second, milli, micro]; omega) unit_ms r1
      have r3 := Reads.part (n := u % (24 * hour) % hour % minute / second)
        (by simp only [hour, minute, second, milli, micro]; omega) unit_s r2
      have r4 := Reads.part (n := u % (24 * hour) % hour / minute)
        (by simp only [hour, minute, second, milli, micro]; omega) unit_m r3
      have r5 := Reads.part (n := u % (24 * hour) / hour)
        (by simp only [hour, minute, second, milli, micro]; omega) unit_h r4
      have r6 := Reads.part (n := u / (24 * hour))
        (Nat.lt_of_le_of_lt (Nat.div_le_self _ _) h20) unit_d r5
      have : u / (24 * hour) * (24 * hour) + (u % (24 * hour) / hour * hour +
          (u % (24 * hour) % hour / minute * minute + (u % (24 * hour) % hour % minute / second * 10 ^ 9 +
          (u % (24 * hour) % hour % minute % second / milli * 10 ^ 6 +
          (u % (24 * hour) % hour % minute % second % milli / micro * 10 ^ 3 +
          (u % (24 * hour) % hour % minute % second % milli % micro * 10 ^ 0 + 0)))))) = u := by
        simp only [hour, minute, second, milli, micro]; omega
      rw [this] at r6
      refine ⟨?_, r6⟩
      intro e
      have := r6.adds 0 0 (by omega) (by rw [e]; simp)
      rw [e] at this
      simp [parseLoop] at this
      subst this
      exact h1 (by decide)

def size (s : Str) : Nat := (utf8 s).length

theorem size_append (a b : Str) : size (a ++ b) = size a + size b := by simp [size, utf8]

theorem fmtInt_size {v k : Nat} {out : Str} (hk : 1 ≤ k) (hv : v < 10 ^ k) (h20 : v < 10 ^ 20) :
    size (fmtInt v out) ≤ k + size out := by
  obtain ⟨ds, e, _, hd, _, hl⟩ := fmtInt_spec out h20
  have := (hl k hk).mp hv
  rw [e, size_append, show size ds = ds.length from digits_size hd]
  omega

theorem part_size {n k : Nat} {unit out : Str} (hk : 2 ≤ k) (hn : n < 10 ^ k) (h20 : n < 10 ^ 20) :
    ∃ l, size (part n unit out) = l + size out ∧ l ≤ k + size unit ∧ (l = k + size unit ↔ 10 ^ (k - 1) ≤ n) := by
  have hp : 0 < 10 ^ (k - 1) := Nat.pow_pos (by omega)
  rw [part]
  split
  · obtain ⟨ds, e, hne, hd, _, hl⟩ := fmtInt_spec (unit ++ out) h20
    have h1 := (hl k (by omega)).mp hn
    have h2 := hl (k - 1) (by omega)
    refine ⟨ds.length + size unit, ?_, by omega, ?_⟩
    · rw [e, size_append, size_append, show size ds = ds.length from digits_size hd]; omega
    · constructor
      · intro h
        by_contra hc
        have := h2.mp (by omega)
        omega
      · intro h
        have : ¬ ds.length ≤ k - 1 := fun hc => absurd (h2.mpr hc) (by omega)
        omega
  · exact ⟨0, by omega, by omega, by omega⟩

theorem fmtFrac_size (v prec : Nat) (out : Str) : size (fmtFrac v prec out).1 ≤ prec + 1 + size out := by
  obtain ⟨es, e, hd, hl, _⟩ := fmtFrac_spec v prec out
  rw [e]
  dsimp only
  split
  · omega
  · have : '.' :: es ++ out = ['.'] ++ (es ++ out) := rfl
    rw [this, size_append, size_append, show size es = es.length from digits_size hd,
      show size ['.'] = 1 by decide]
    omega

theorem size_cons (c : Char) (s : Str) : size (c :: s) = size [c] + size s := size_append [c] s

/-- In fraction mode, and below one second, the text has at most 24 bytes. -/
theorem fmtAbs_size {u : Nat} (hu : u ≤ 2 ^ 63) (frac : Bool) (h : frac = true ∨ u < second) :
    size (fmtAbs u frac) ≤ 24 := by
  have h20 : u < 10 ^ 20 := Nat.lt_of_le_of_lt hu (by decide)
  rw [fmtAbs]
  by_cases h1 : u < second
  · rw [if_pos h1, fmtMsec]
    split
    · exact by decide
    · have key : ∀ (prec : Nat) (c : Char), prec ≤ 9 → u / 10 ^ prec < 10 ^ 3 → size [c, 's'] ≤ 3 →
          size (fmtInt (fmtFrac u prec [c, 's']).2 (fmtFrac u prec [c, 's']).1) ≤ 24 := by
        intro prec c hp hb hc
        obtain ⟨es, e, _⟩ := fmtFrac_spec u prec [c, 's']
        have e2 : (fmtFrac u prec [c, 's']).2 = u / 10 ^ prec := by rw [e]
        rw [e2]
        have a := fmtInt_size (out := (fmtFrac u prec [c, 's']).1) (by omega) hb (by omega)
        have b := fmtFrac_size u prec [c, 's']
        omega
      by_cases hc1 : u < micro
      · rw [if_pos hc1]
        exact key 0 'n' (by omega) (by simp only [micro] at *; omega) (by decide)
      · rw [if_neg hc1]
        by_cases hc2 : u < milli
        · rw [if_pos hc2]
          exact key 3 'µ' (by omega) (by simp only [milli, micro] at *; omega) (by decide)
        · rw [if_neg hc2]
          exact key 6 'm' (by omega) (by simp only [second, milli, micro] at *; omega) (by decide)
  · rcases h with rfl | h
    · rw [if_neg h1, if_pos rfl, fmtFracMode]
      obtain ⟨es, e, _⟩ := fmtFrac_spec u 9 ['s']
      have e2 : (fmtFrac u 9 ['s']).2 = u / 10 ^ 9 := by rw [e]
      have b := fmtFrac_size u 9 ['s']
      simp only [e2]
      rw [show size ['s'] = 1 by decide] at b
      have a := fmtInt_size (v := u / 10 ^ 9 % 60) (k := 2) (out := (fmtFrac u 9 ['s']).1)
        (by omega) (by omega) (by omega)
      split
      · have c := fmtInt_size (v := u / 10 ^ 9 / 60 % 60) (k := 2)
          (out := 'm' :: fmtInt (u / 10 ^ 9 % 60) (fmtFrac u 9 ['s']).1) (by omega) (by omega) (by omega)
        rw [size_cons, show size ['m'] = 1 by decide] at c
        split
        · have d := fmtInt_size (v := u / 10 ^ 9 / 60 / 60) (k := 7)
            (out := 'h' :: fmtInt (u / 10 ^ 9 / 60 % 60) ('m' :: fmtInt (u / 10 ^ 9 % 60) (fmtFrac u 9 ['s']).1))
            (by omega) (by omega) (by omega)
          rw [size_cons, show size ['h'] = 1 by decide] at d
          omega
        · omega
      · omega
    · exact absurd h h1

/-- **C23.** Whenever formatting returns, parsing the text gives the duration back: every duration, both
modes. What is missing from the claim: formatting some negative durations panics, see `C23_panic_iff`. -/
theorem C23_roundtrip_partial (d : Int) (hlo : -2 ^ 63 ≤ d) (hhi : d < 2 ^ 63) (frac : Bool) (s : Str)
    (h : format d frac = .ok s) : parse s = some d := by
  obtain ⟨hne, hr⟩ := fmtAbs_reads (u := d.natAbs) (by omega) frac
  rw [format] at h
  by_cases hd : d < 0
  · simp only [if_pos hd] at h
    split at h
    · cases h
      rw [parse_neg hne hr (by omega)]
      congr 1; omega
    · cases h
  · simp only [if_neg hd] at h
    split at h
    · cases h
      rw [parse_pos hne hr (by omega)]
      congr 1; omega
    · cases h

/-- **C23, where it fails.** Formatting panics exactly for the negative durations, in the mode without fractions, of
which every part has its maximal number of digits: 33 bytes for a buffer of 32. -/
theorem C23_panic_iff (d : Int) (hlo : -2 ^ 63 ≤ d) (hhi : d < 2 ^ 63) (frac : Bool) :
    format d frac = .error .panic ↔
      frac = false ∧ d < 0 ∧ 100000 ≤ d.natAbs / (24 * hour) ∧ 10 ≤ d.natAbs % (24 * hour) / hour ∧
      10 ≤ d.natAbs % hour / minute ∧ 10 ≤ d.natAbs % minute / second ∧ 100 ≤ d.natAbs % second / milli ∧
      100 ≤ d.natAbs % milli / micro ∧ 100 ≤ d.natAbs % micro := by
  have hu : d.natAbs ≤ 2 ^ 63 := by omega
  generalize hud : d.natAbs = u at *
  have fmt : ∀ s : Str, ((if size s ≤ 32 then .ok s else .error .panic : Go Str) = .error .panic) ↔ 32 < size s := by
    intro s; by_cases h : size s ≤ 32 <;> simp [h]; omega
  have hsz : format d frac = .error .panic ↔ 32 < (if d < 0 then 1 else 0) + size (fmtAbs u frac) := by
    rw [format, hud]
    refine (fmt _).trans ?_
    split
    · rw [size_cons, show size ['-'] = 1 by decide]
    · rw [Nat.zero_add]
  rw [hsz]
  by_cases hsmall : frac = true ∨ u < second
  · have := fmtAbs_size hu frac hsmall
    constructor
    · intro h; split at h <;> omega
    · rintro ⟨hf, _, hd, _⟩
      rcases hsmall with h | h
      · rw [hf] at h; cases h
      · simp only [hour, minute, second, milli, micro] at *; omega
  · have hfr : frac = false := by cases frac <;> simp_all
    have hge : ¬ u < second := fun h => hsmall (Or.inr h)
    subst hfr
    rw [show fmtAbs u false = fmtParts u by simp [fmtAbs, hge], fmtParts]
    simp only [divs_eq]
    have e1 : u % (24 * hour) % hour = u % hour := Nat.mod_mul_left_mod u 24 hour
    have e2 : u % hour % minute = u % minute := Nat.mod_mul_left_mod u 60 minute
    have e3 : u % minute % second = u % second := Nat.mod_mul_left_mod u 60 second
    have e4 : u % second % milli = u % milli := Nat.mod_mul_left_mod u 1000 milli
    have e5 : u % milli % micro = u % micro := Nat.mod_mul_left_mod u 1000 micro
    simp only [e1, e2, e3, e4, e5]
    have b1 : u / (24 * hour) < 10 ^ 6 := by simp only [hour, minute, second, milli, micro]; omega
    have b2 : u % (24 * hour) / hour < 10 ^ 2 := by simp only [hour, minute, second, milli, micro]; omega
    have b3 : u % hour / minute < 10 ^ 2 := by simp only [hour, minute, second, milli, micro]; omega
    have b4 : u % minute / second < 10 ^ 2 := by simp only [minute, second, milli, micro]; omega
    have b5 : u % second / milli < 10 ^ 3 := by simp only [second, milli, micro]; omega
    have b6 : u % milli / micro < 10 ^ 3 := by simp only [milli, micro]; omega
    have b7 : u % micro < 10 ^ 3 := by simp only [micro]; omega
    generalize u / (24 * hour) = n1 at *
    generalize u % (24 * hour) / hour = n2 at *
    generalize u % hour / minute = n3 at *
    generalize u % minute / second = n4 at *
    generalize u % second / milli = n5 at *
    generalize u % milli / micro = n6 at *
    generalize u % micro = n7 at *
    obtain ⟨l7, s7, t7, w7⟩ := part_size (n := n7) (k := 3) (unit := ['n', 's']) (out := []) (by omega) b7 (by omega)
    obtain ⟨l6, s6, t6, w6⟩ := part_size (n := n6) (k := 3) (unit := ['µ', 's'])
      (out := part n7 ['n', 's'] []) (by omega) b6 (by omega)
    obtain ⟨l5, s5, t5, w5⟩ := part_size (n := n5) (k := 3) (unit := ['m', 's'])
      (out := part n6 ['µ', 's'] (part n7 ['n', 's'] [])) (by omega) b5 (by omega)
    obtain ⟨l4, s4, t4, w4⟩ := part_size (n := n4) (k := 2) (unit := ['s'])
      (out := part n5 ['m', 's'] (part n6 ['µ', 's'] (part n7 ['n', 's'] []))) (by omega) b4 (by omega)
    obtain ⟨l3, s3, t3, w3⟩ := part_size (n := n3) (k := 2) (unit := ['m'])
      (out := part n4 ['s'] (part n5 ['m', 's'] (part n6 ['µ', 's'] (part n7 ['n', 's'] [])))) (by omega) b3 (by omega)
    obtain ⟨l2, s2, t2, w2⟩ := part_size (n := n2) (k := 2) (unit := ['h'])
      (out := part n3 ['m'] (part n4 ['s'] (part n5 ['m', 's'] (part n6 ['µ', 's'] (part n7 ['n', 's'] [])))))
      (by omega) b2 (by omega)
    obtain ⟨l1, s1, t1, w1⟩ := part_size (n := n1) (k := 6) (unit := ['d'])
      (out := part n2 ['h'] (part n3 ['m'] (part n4 ['s'] (part n5 ['m', 's'] (part n6 ['µ', 's']
        (part n7 ['n', 's'] [])))))) (by omega) b1 (by omega)
    rw [s1, s2, s3, s4, s5, s6, s7]
    rw [show size ['n', 's'] = 2 by decide] at t7 w7
    rw [show size ['µ', 's'] = 3 by decide] at t6 w6
    rw [show size ['m', 's'] = 2 by decide] at t5 w5
    rw [show size ['s'] = 1 by decide] at t4 w4
    rw [show size ['m'] = 1 by decide] at t3 w3
    rw [show size ['h'] = 1 by decide] at t2 w2
    rw [show size ['d'] = 1 by decide] at t1 w1
    rw [show size [] = 0 from rfl]
    norm_num only at w1 w2 w3 w4 w5 w6 w7
    constructor
    · intro h
      split at h
      · refine ⟨trivial, by assumption, ?_, ?_, ?_, ?_, ?_, ?_, ?_⟩
        · exact w1.mp (by omega)
        · exact w2.mp (by omega)
        · exact w3.mp (by omega)
        · exact w4.mp (by omega)
        · exact w5.mp (by omega)
        · exact w6.mp (by omega)
        · exact w7.mp (by omega)
      · omega
    · rintro ⟨_, hneg, h1, h2, h3, h4, h5, h6, h7⟩
      rw [if_pos hneg, w1.mpr h1, w2.mpr h2, w3.mpr h3, w4.mpr h4, w5.mpr h5, w6.mpr h6, w7.mpr h7]
      omega

/-- The full claim for the durations that are not negative, for the fraction mode, and for durations of less than a hundred
thousand days. -/
theorem C23_roundtrip_range_partial (d : Int) (hlo : -2 ^ 63 ≤ d) (hhi : d < 2 ^ 63) (frac : Bool)
    (h : 0 ≤ d ∨ frac = true ∨ d.natAbs < 100000 * (24 * hour)) :
    ∃ s, format d frac = .ok s ∧ parse s = some d := by
  rcases hf : format d frac with e | s
  · cases e with
    | panic =>
      obtain ⟨h1, h2, h3, _⟩ := (C23_panic_iff d hlo hhi frac).mp hf
      rcases h with h | h | h
      · omega
      · rw [h1] at h; cases h
      · simp only [hour, minute, second, milli, micro] at *; omega
    | hang =>
      rw [format] at hf
      split at hf <;> split at hf <;> cases hf
  · exact ⟨s, rfl, C23_roundtrip_partial d hlo hhi frac s hf⟩

/-- The claim fails for the smallest duration: its text does not fit into the buffer. -/
theorem C23_roundtrip_fails : format (-2 ^ 63) false = .error .panic := by decide +kernel

/-- A sum that overflows uint64 is accepted as zero: the overflow test runs on the wrapped sum. -/
theorem C23_overflow_accepted : parse "9223372036854775808ns9223372036854775808ns".toList = some 0 := by
  decide +kernel

example : format 123456789012345 false = .ok "1d10h17m36s789ms12µs345ns".toList ∧
    parse "1d10h17m36s789ms12µs345ns".toList = some 123456789012345 := by decide +kernel

example : format 123456789012345 true = .ok "34h17m36.789012345s".toList ∧
    parse "34h17m36.789012345s".toList = some 123456789012345 := by decide +kernel

example : format (-2 ^ 63) true = .ok "-2562047h47m16.854775808s".toList ∧
    parse "-2562047h47m16.854775808s".toList = some (-2 ^ 63) := by decide +kernel

example : format 1200000 false = .ok "1.2ms".toList ∧ parse "1.2ms".toList = some 1200000 := by decide +kernel

end Dur
end Verif

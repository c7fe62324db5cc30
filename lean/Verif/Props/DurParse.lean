import Verif.Props.Dur
/-
C100: parsing of durations.
-/
namespace Verif
namespace Dur

/-- One part of the text of a duration: digits, perhaps a point and digits, a unit. -/
structure Part where
  whole : Str
  frac : Option Str
  unit : Str

def Part.text (p : Part) : Str := p.whole ++ ((match p.frac with | some f => '.' :: f | none => []) ++ p.unit)

/-- The digits after the point. -/
def Part.after (p : Part) : Str := p.frac.getD []

/-- The units of the comment at internal/times/dur.go:263-270, in nanoseconds. -/
def units : List (Str × Nat) :=
  [("ns".toList, 1), ("us".toList, 1000), ("µs".toList, 1000), ("μs".toList, 1000), ("ms".toList, 1000000), ("s".toList, 1000000000),
   ("m".toList, 60000000000), ("h".toList, 3600000000000), ("d".toList, 86400000000000)]

/-- A part that the comment allows, with the nanoseconds of its unit: at least one digit, and a unit. -/
structure Part.Fine (p : Part) (m : Nat) : Prop where
  whole : Digits p.whole
  frac : Digits p.after
  some : p.whole ≠ [] ∨ p.after ≠ []
  unit : (p.unit, m) ∈ units

/-- The part stands for `a` nanoseconds: the digits before and after the point, times the unit. The digits after the point are zeros, or at most
as many as the unit has zeros at its end. -/
def Part.Is (p : Part) (a : Nat) : Prop :=
  ∃ m, p.Fine m ∧ (val 0 p.after = 0 ∨ 10 ^ p.after.length ∣ m) ∧
    a * 10 ^ p.after.length = (val 0 p.whole * 10 ^ p.after.length + val 0 p.after) * m

def texts (ps : List Part) : Str := ps.flatMap Part.text

theorem units_unit {u : Str} {m : Nat} (h : (u, m) ∈ units) : Unit u m ∧ m < 2 ^ 53 := by
  simp only [units, List.mem_cons, List.not_mem_nil, or_false] at h
  rcases h with h | h | h | h | h | h | h | h | h <;> cases h <;>
    exact ⟨⟨by decide, by decide, by decide, by decide⟩, by decide⟩

theorem units_of {u : Str} {m : Nat} (h : unitOf u = some m) : (u, m) ∈ units := by
  unfold unitOf at h
  repeat' split at h
  all_goals (cases h <;> (rename_i e; rw [e]; decide))

theorem digit_lt {c : Char} (h : c.isDigit = true) : c.toNat - 48 < 10 := by
  simp only [Char.isDigit, Bool.and_eq_true, decide_eq_true_eq] at h
  have := UInt32.le_iff_toNat_le.mp h.2
  have e : c.toNat = c.val.toNat := rfl
  have e2 : '9'.val.toNat = 57 := rfl
  omega

theorem val_lt {s : Str} (h : Digits s) : val 0 s < 10 ^ s.length := by
  induction s with
  | nil => simp [val]
  | cons c s ih =>
    have h1 := ih (fun c hc => h c (by simp [hc]))
    have h2 := digit_lt (h c (by simp))
    show val (0 * 10 + (c.toNat - 48)) s < 10 ^ (s.length + 1)
    rw [val_pow, Nat.pow_succ]
    have : (0 * 10 + (c.toNat - 48)) * 10 ^ s.length ≤ 9 * 10 ^ s.length := Nat.mul_le_mul_right _ (by omega)
    omega

/-- `leadingInt` on digits: the number, or an error if it is more than 2^63. -/
theorem leadingInt_all {rest : Str} (hr : ∀ c r, rest = c :: r → c.isDigit = false) (ds : Str) :
    ∀ x, x ≤ 2 ^ 63 → Digits ds → leadingInt x (ds ++ rest) = if val x ds ≤ 2 ^ 63 then some (val x ds, rest) else none := by
  induction ds with
  | nil =>
    intro x hx _
    have : val x [] = x := rfl
    rw [this, if_pos hx]
    cases rest with
    | nil => rfl
    | cons c r => simp [leadingInt, hr c r rfl]
  | cons c s ih =>
    intro x hx h
    have hc := h c (by simp)
    have hv : val x (c :: s) = val (x * 10 + (c.toNat - 48)) s := rfl
    simp only [List.cons_append, leadingInt, hc, Bool.not_true, Bool.false_eq_true, if_false]
    have hge := val_ge s (x * 10 + (c.toNat - 48))
    by_cases h1 : x * 10 + (c.toNat - 48) ≤ 2 ^ 63
    · rw [if_neg (by omega), if_neg (by omega), ih _ h1 (fun c hc => h c (by simp [hc])), hv]
    · rw [if_neg (show ¬ val x (c :: s) ≤ 2 ^ 63 by omega)]
      by_cases h2 : x > 2 ^ 63 / 10
      · rw [if_pos h2]
      · rw [if_neg h2, if_pos (by omega)]

/-- A text that can follow a unit: empty, or beginning with a digit or a point. -/
def Start' (s : Str) : Prop := ∀ c r, s = c :: r → unitChar c = false

theorem takeWhile_unit' {u rest : Str} (hu : ∀ c ∈ u, unitChar c = true) (hr : Start' rest) :
    (u ++ rest).takeWhile unitChar = u ∧ (u ++ rest).dropWhile unitChar = rest := by
  induction u with
  | nil =>
    cases rest with
    | nil => exact ⟨rfl, rfl⟩
    | cons c r => simp [hr c r rfl]
  | cons c u ih =>
    have hc := hu c (by simp)
    have := ih (fun c h => hu c (by simp [h]))
    exact ⟨by simp [hc, this.1], by simp [hc, this.2]⟩

theorem Part.Fine.start {p : Part} {m : Nat} (h : p.Fine m) (rest : Str) : ∃ c r, p.text ++ rest = c :: r ∧ unitChar c = false := by
  rcases hw : p.whole with _ | ⟨c, w⟩
  · cases hf : p.frac with
    | none =>
      rcases h.some with h | h
      · exact absurd hw h
      · exact absurd (by simp [Part.after, hf]) h
    | some f => exact ⟨'.', f ++ p.unit ++ rest, by simp [Part.text, hw, hf], by decide⟩
  · refine ⟨c, _, by simp [Part.text, hw]; rfl, ?_⟩
    simp [unitChar, h.whole c (by simp [hw])]

/-- What `optFrac` finds behind the digits. -/
theorem optFrac_text {p : Part} {m : Nat} (h : p.Fine m) (hv : val 0 p.after < 2 ^ 59) (rest : Str) :
    ∃ post, optFrac ((match p.frac with | some f => '.' :: f | none => []) ++ p.unit ++ rest) =
      (val 0 p.after, scaleAfter p.after.length 1, p.unit ++ rest, post) ∧ (p.after ≠ [] → post = true) := by
  obtain ⟨c0, u, hu, hc0⟩ := (units_unit h.unit).1.head
  obtain ⟨hn, hd⟩ := unitChar_not hc0
  cases hf : p.frac with
  | none =>
    refine ⟨false, ?_, ?_⟩
    · simp [optFrac, Part.after, hf, hu, hd, val, scaleAfter]
    · simp [Part.after, hf]
  | some es =>
    have ha : p.after = es := by simp [Part.after, hf]
    rw [ha] at hv ⊢
    have hl := leadingFraction_spec (rest := p.unit ++ rest) (by rw [hu]; rintro c r e; cases e; exact hn) es 0 1 (ha ▸ h.frac) hv
    refine ⟨(p.unit ++ rest).length != (es ++ (p.unit ++ rest)).length, ?_, ?_⟩
    · simp only [List.cons_append, optFrac, if_true, List.append_assoc, hl]
    · intro he
      have : 0 < es.length := List.length_pos_iff.mpr he
      simp
      omega

/-- One round of the loop on a part that stands for `a`. -/
theorem Part.Is.step {p : Part} {a : Nat} (h : p.Is a) {rest : Str} (hr : Start' rest) :
    parseStep (p.text ++ rest) = if a ≤ 2 ^ 63 then some (a, rest) else none := by
  obtain ⟨m, h, hs, he⟩ := h
  obtain ⟨hu, hm⟩ := units_unit h.unit
  obtain ⟨c, r, hc, hcu⟩ := h.start rest
  have hv : val 0 p.after < 2 ^ 53 := by
    rcases hs with hs | hs
    · rw [hs]; decide
    · have := val_lt h.frac
      have := Nat.le_of_dvd hu.pos hs
      omega
  obtain ⟨post, ho, hp⟩ := optFrac_text h (by omega) rest
  have hw := takeWhile_unit' hu.chars hr
  obtain ⟨c0, u, hu0, hc0⟩ := hu.head
  obtain ⟨hn, _⟩ := unitChar_not hc0
  have hl := leadingInt_all (rest := (match p.frac with | some f => '.' :: f | none => []) ++ p.unit ++ rest)
    (by
      intro c r e
      cases hf : p.frac with
      | none => rw [hf, hu0] at e; cases e; exact hn
      | some f => rw [hf] at e; cases e; decide) p.whole 0 (by omega) h.whole
  have htext : p.text ++ rest = p.whole ++ ((match p.frac with | some f => '.' :: f | none => []) ++ p.unit ++ rest) := by
    simp [Part.text]
  have hpos : 0 < 10 ^ p.after.length := Nat.pow_pos (by omega)
  -- the amount
  obtain ⟨q, hq, hql, ha⟩ : ∃ q, (val 0 p.after > 0 → fracVal (val 0 p.after) m (scaleAfter p.after.length 1) = q) ∧ q < 2 ^ 53 ∧
      a = val 0 p.whole * m + q ∧ (val 0 p.after = 0 → q = 0) := by
    rcases hs with hs | ⟨q, hq⟩
    · refine ⟨0, by omega, by decide, ?_, fun _ => rfl⟩
      rw [hs, Nat.add_zero, Nat.mul_right_comm] at he
      exact Nat.eq_of_mul_eq_mul_right hpos he
    · have hlt := val_lt h.frac
      have hle : val 0 p.after * q ≤ 10 ^ p.after.length * q := Nat.mul_le_mul_right _ (Nat.le_of_lt hlt)
      refine ⟨val 0 p.after * q, fun _ => ?_, by omega, ?_, fun h0 => by rw [h0, Nat.zero_mul]⟩
      · rw [scaleAfter_one (by have := Nat.le_of_dvd hu.pos (Dvd.intro q hq.symm); omega), hq]
        exact fracVal_exact (by omega) (by omega) hv (by omega)
      · apply Nat.eq_of_mul_eq_mul_right hpos
        rw [he, hq]
        ring
  obtain ⟨ha, hq0⟩ := ha
  have hcond : (decide (((match p.frac with | some f => '.' :: f | none => []) ++ p.unit ++ rest).length = (p.text ++ rest).length) && !post) =
      false := by
    rw [Bool.and_eq_false_iff]
    rcases h.some with h' | h'
    · left
      have : 0 < p.whole.length := List.length_pos_iff.mpr h'
      rw [htext, List.length_append]
      simp
      omega
    · right; rw [hp h']; rfl
  rw [hc]
  unfold parseStep
  simp only [hcu, Bool.false_eq_true, if_false]
  rw [← hc]
  conv => lhs; rw [htext]
  rw [hl]
  by_cases hb : val 0 p.whole ≤ 2 ^ 63
  · rw [if_pos hb]
    simp only
    rw [ho]
    simp only
    rw [← htext, hcond]
    simp only [Bool.false_eq_true, if_false, hw.1, hw.2, hu.ne, hu.eq]
    by_cases hd : val 0 p.whole * m ≤ 2 ^ 63
    · rw [if_neg (by have := (Nat.le_div_iff_mul_le hu.pos).mpr hd; omega)]
      have hmod : (val 0 p.whole * m + q) % 2 ^ 64 = val 0 p.whole * m + q := Nat.mod_eq_of_lt (by omega)
      by_cases hf : val 0 p.after > 0
      · rw [if_pos hf, hq hf, hmod, ← ha]
        by_cases h3 : a ≤ 2 ^ 63
        · rw [if_neg (by omega), if_pos h3]
        · rw [if_pos (by omega), if_neg h3]
      · have := hq0 (by omega)
        rw [if_neg hf, if_pos (by omega), ha, this, Nat.add_zero, Nat.mod_eq_of_lt (by omega)]
    · have hd' : val 0 p.whole > 2 ^ 63 / m := by
        by_contra hc
        exact hd ((Nat.le_div_iff_mul_le hu.pos).mp (by omega))
      rw [if_pos hd', if_neg (by omega)]
  · have : val 0 p.whole ≤ val 0 p.whole * m := Nat.le_mul_of_pos_right _ hu.pos
    rw [if_neg hb, if_neg (by omega)]

theorem texts_start {ps : List Part} (h : ∀ p ∈ ps, ∃ m, p.Fine m) : Start' (texts ps) := by
  intro c r e
  cases ps with
  | nil => cases e
  | cons p ps =>
    obtain ⟨m, hp⟩ := h p (by simp)
    obtain ⟨c', r', e', hc⟩ := hp.start (texts ps)
    simp only [texts, List.flatMap_cons] at e e'
    rw [e'] at e
    cases e
    exact hc

/-- The loop adds the parts up, as long as none is 2^63 nanoseconds. -/
theorem loop_all {ps : List Part} {as : List Nat} (h : List.Forall₂ Part.Is ps as) :
    ∀ d fuel, d ≤ 2 ^ 63 → (∀ a ∈ as, a ≠ 2 ^ 63) → (texts ps).length ≤ fuel →
      parseLoop fuel d (texts ps) = if d + as.sum ≤ 2 ^ 63 then some (d + as.sum) else none := by
  induction h with
  | nil =>
    intro d fuel hd _ _
    have : parseLoop fuel d [] = some d := by cases fuel <;> rfl
    show parseLoop fuel d [] = _
    rw [this, List.sum_nil, Nat.add_zero, if_pos hd]
  | @cons p a ps as hp hps ih =>
    intro d fuel hd hn hf
    have hfine : ∀ p ∈ ps, ∃ m, p.Fine m := by
      intro p' hp'
      obtain ⟨i, hi, rfl⟩ := List.mem_iff_getElem.mp hp'
      obtain ⟨m, hm, _⟩ := hps.get hi (hps.length_eq ▸ hi)
      exact ⟨m, hm⟩
    obtain ⟨m, hpm, _⟩ := hp
    obtain ⟨c, r, e, _⟩ := hpm.start (texts ps)
    have hst := Part.Is.step ⟨m, hpm, ‹_›⟩ (texts_start hfine)
    have htx : texts (p :: ps) = p.text ++ texts ps := by simp [texts]
    have hlen : (texts ps).length < (p.text ++ texts ps).length := by
      have := (units_unit hpm.unit).1.ne
      have : 0 < p.unit.length := List.length_pos_iff.mpr this
      simp [Part.text]
      omega
    rw [htx] at hf ⊢
    cases fuel with
    | zero => omega
    | succ n =>
      rw [e] at hst hf hlen ⊢
      rw [parseLoop, hst, List.sum_cons]
      have ha := hn a (by simp)
      by_cases h1 : a ≤ 2 ^ 63
      · simp only [if_pos h1]
        have hmod : (d + a) % 2 ^ 64 = d + a := Nat.mod_eq_of_lt (by omega)
        rw [hmod]
        by_cases h2 : d + a ≤ 2 ^ 63
        · rw [if_neg (by omega), ih (d + a) n h2 (fun a h => hn a (by simp [h])) (by omega), Nat.add_assoc]
        · rw [if_pos (by omega), if_neg (by omega)]
      · simp only [if_neg h1]
        rw [if_neg (by omega)]

/-- Neither empty nor a sign nor `0` alone. -/
theorem texts_plain {ps : List Part} (hne : ps ≠ []) (h : ∀ p ∈ ps, ∃ m, p.Fine m) :
    ∃ c r, texts ps = c :: r ∧ c ≠ '-' ∧ c ≠ '+' ∧ texts ps ≠ ['0'] := by
  obtain ⟨p, ps, rfl⟩ := List.exists_cons_of_ne_nil hne
  obtain ⟨m, hp⟩ := h p (by simp)
  obtain ⟨c, r, e, hc⟩ := hp.start (texts ps)
  have htx : texts (p :: ps) = p.text ++ texts ps := by simp [texts]
  refine ⟨c, r, by rw [htx, e], by rintro rfl; exact absurd hc (by decide), by rintro rfl; exact absurd hc (by decide), ?_⟩
  intro h0
  obtain ⟨c0, u, hu, hcu⟩ := (units_unit hp.unit).1.head
  have : c0 ∈ texts (p :: ps) := by rw [htx]; simp [Part.text, hu]
  rw [h0, List.mem_singleton] at this
  rw [this] at hcu
  exact absurd hcu (by decide)

/-- **C100** A sequence of parts, without a sign or behind `+` or `-`, is the sum of its parts, and an error exactly if the sum is out of range.
Missing for the full claim: fractions with more digits than the unit has zeros (`C100_float_fails`; see `C100_near`), and parts of exactly 2^63 nanoseconds
(`C100_wrap_fails`). -/
theorem C100_sum_partial {ps : List Part} {as : List Nat} (hne : ps ≠ []) (h : List.Forall₂ Part.Is ps as) (hn : ∀ a ∈ as, a ≠ 2 ^ 63) :
    parse (texts ps) = (if as.sum < 2 ^ 63 then some (as.sum : Int) else none) ∧
    parse ('+' :: texts ps) = (if as.sum < 2 ^ 63 then some (as.sum : Int) else none) ∧
    parse ('-' :: texts ps) = (if as.sum ≤ 2 ^ 63 then some (-(as.sum : Int)) else none) := by
  have hfine : ∀ p ∈ ps, ∃ m, p.Fine m := by
    intro p' hp'
    obtain ⟨i, hi, rfl⟩ := List.mem_iff_getElem.mp hp'
    obtain ⟨m, hm, _⟩ := h.get hi (h.length_eq ▸ hi)
    exact ⟨m, hm⟩
  obtain ⟨c, r, e, h1, h2, h3⟩ := texts_plain hne hfine
  have hl := loop_all h 0 (texts ps).length (by omega) hn (Nat.le_refl _)
  rw [Nat.zero_add] at hl
  have hn0 : texts ps ≠ [] := by rw [e]; simp
  have plus : (match (if as.sum ≤ 2 ^ 63 then some as.sum else none : Option Nat) with
      | none => (none : Option Int)
      | some d => if d > 2 ^ 63 - 1 then none else some (d : Int)) = (if as.sum < 2 ^ 63 then some (as.sum : Int) else none) := by
    by_cases h4 : as.sum ≤ 2 ^ 63
    · rw [if_pos h4]
      by_cases h5 : as.sum < 2 ^ 63
      · rw [if_pos h5]; simp only; rw [if_neg (by omega)]
      · rw [if_neg h5]; simp only; rw [if_pos (by omega)]
    · rw [if_neg h4, if_neg (by omega)]
  refine ⟨?_, ?_, ?_⟩
  · rw [← plus, ← hl]
    unfold parse
    rw [e] at h3 ⊢
    have hh : (some c == some '-') = false := by simpa using h1
    simp only [List.head?_cons, hh, if_neg (not_or.mpr ⟨h1, h2⟩), if_neg h3, List.cons_ne_nil, if_false, Bool.false_eq_true]
    cases parseLoop (c :: r).length 0 (c :: r) <;> rfl
  · rw [← plus, ← hl]
    simp only [parse, List.head?_cons, or_true, if_true, if_neg h3, if_neg hn0]
    cases parseLoop (texts ps).length 0 (texts ps) <;> rfl
  · have minus : (match (if as.sum ≤ 2 ^ 63 then some as.sum else none : Option Nat) with
        | none => (none : Option Int)
        | some d => some (-(d : Int))) = (if as.sum ≤ 2 ^ 63 then some (-(as.sum : Int)) else none) := by
      by_cases h4 : as.sum ≤ 2 ^ 63
      · rw [if_pos h4, if_pos h4]
      · rw [if_neg h4, if_neg h4]
    rw [← minus, ← hl]
    simp only [parse, List.head?_cons, true_or, if_true, if_neg h3, if_neg hn0]
    cases parseLoop (texts ps).length 0 (texts ps) <;> rfl

/-! What is accepted. -/

theorem leadingInt_inv (s : Str) : ∀ x v r, leadingInt x s = some (v, r) → ∃ ds, Digits ds ∧ s = ds ++ r := by
  induction s with
  | nil => intro x v r h; simp only [leadingInt, Option.some.injEq, Prod.mk.injEq] at h; exact ⟨[], by simp [Digits], by simp [h.2]⟩
  | cons c s ih =>
    intro x v r h
    by_cases hc : c.isDigit = true
    · simp only [leadingInt, hc, Bool.not_true, Bool.false_eq_true, if_false] at h
      split at h
      · cases h
      · split at h
        · cases h
        · obtain ⟨ds, h1, h2⟩ := ih _ _ _ h
          refine ⟨c :: ds, ?_, by simp [h2]⟩
          intro c' hc'
          rcases List.mem_cons.mp hc' with rfl | hc'
          · exact hc
          · exact h1 c' hc'
    · simp only [leadingInt, hc, Bool.not_false, if_true, Option.some.injEq, Prod.mk.injEq] at h
      exact ⟨[], by simp [Digits], by simp [h.2]⟩

theorem leadingFraction_inv (s : Str) : ∀ x sc o v sc' r, leadingFraction x sc o s = (v, sc', r) → ∃ ds, Digits ds ∧ s = ds ++ r := by
  induction s with
  | nil => intro x sc o v sc' r h; simp only [leadingFraction, Prod.mk.injEq] at h; exact ⟨[], by simp [Digits], by simp [h.2.2]⟩
  | cons c s ih =>
    intro x sc o v sc' r h
    by_cases hc : c.isDigit = true
    · have : ∃ x sc o, leadingFraction x sc o s = (v, sc', r) := by
        simp only [leadingFraction, hc, Bool.not_true, Bool.false_eq_true, if_false] at h
        split at h
        · exact ⟨_, _, _, h⟩
        · split at h
          · exact ⟨_, _, _, h⟩
          · split at h
            · exact ⟨_, _, _, h⟩
            · exact ⟨_, _, _, h⟩
      obtain ⟨x, sc, o, h⟩ := this
      obtain ⟨ds, h1, h2⟩ := ih _ _ _ _ _ _ h
      refine ⟨c :: ds, ?_, by simp [h2]⟩
      intro c' hc'
      rcases List.mem_cons.mp hc' with rfl | hc'
      · exact hc
      · exact h1 c' hc'
    · simp only [leadingFraction, hc, Bool.not_false, if_true, Prod.mk.injEq] at h
      exact ⟨[], by simp [Digits], by simp [h.2.2]⟩

/-- What a round of the loop consumes is a part. -/
theorem step_inv {s rest : Str} {v : Nat} (h : parseStep s = some (v, rest)) : ∃ p m, Part.Fine p m ∧ s = p.text ++ rest := by
  unfold parseStep at h
  split at h
  · cases h
  · rename_i c r
    split at h
    · cases h
    · split at h
      · cases h
      · rename_i v1 s1 hl
        obtain ⟨ds, hds, hs⟩ := leadingInt_inv _ _ _ _ hl
        obtain ⟨f, sc, s2, post, ho⟩ : ∃ f sc s2 post, optFrac s1 = (f, sc, s2, post) := ⟨_, _, _, _, rfl⟩
        rw [ho] at h
        simp only at h
        -- the text between the digits and the unit
        obtain ⟨fr, hfr, hs1, hpost⟩ : ∃ fr : Option Str, Digits (fr.getD []) ∧
            s1 = (match fr with | some f => '.' :: f | none => []) ++ s2 ∧ (post = true → fr.getD [] ≠ []) := by
          unfold optFrac at ho
          split at ho
          · cases ho; exact ⟨none, by simp [Digits], rfl, by simp⟩
          · rename_i c2 r2
            split at ho
            · rename_i hdot
              subst hdot
              obtain ⟨v', sc', r', hf⟩ : ∃ v' sc' r', leadingFraction 0 1 false r2 = (v', sc', r') := ⟨_, _, _, rfl⟩
              obtain ⟨es, h1, h2⟩ := leadingFraction_inv _ _ _ _ _ _ _ hf
              rw [hf] at ho
              simp only [Prod.mk.injEq] at ho
              obtain ⟨_, _, rfl, rfl⟩ := ho
              refine ⟨some es, h1, by simp [h2], ?_⟩
              intro hp he
              simp only [Option.getD_some] at he
              rw [h2, he] at hp
              simp at hp
            · cases ho; exact ⟨none, by simp [Digits], rfl, by simp⟩
        split at h
        · cases h
        · rename_i hcond
          split at h
          · cases h
          · rename_i hu
            split at h
            · cases h
            · rename_i m hm
              have hrest : rest = s2.dropWhile unitChar := by
                split at h
                · cases h
                · split at h
                  · split at h
                    · cases h
                    · cases h; rfl
                  · cases h; rfl
              refine ⟨⟨ds, fr, s2.takeWhile unitChar⟩, m, ⟨hds, hfr, ?_, units_of hm⟩, ?_⟩
              · by_cases hd : ds = []
                · right
                  apply hpost
                  by_contra hp
                  apply hcond
                  rw [hd, List.nil_append] at hs
                  simp [hs, hp]
                · exact .inl hd
              · rw [hs, hs1, hrest]
                simp [Part.text, List.takeWhile_append_dropWhile]

theorem loop_inv : ∀ fuel d s a, parseLoop fuel d s = some a → ∃ ps : List Part, (∀ p ∈ ps, ∃ m, p.Fine m) ∧ s = texts ps := by
  intro fuel
  induction fuel with
  | zero =>
    intro d s a h
    cases s with
    | nil => exact ⟨[], by simp, rfl⟩
    | cons => simp [parseLoop] at h
  | succ n ih =>
    intro d s a h
    cases s with
    | nil => exact ⟨[], by simp, rfl⟩
    | cons c r =>
      rw [parseLoop] at h
      split at h
      · cases h
      · rename_i v rest hst
        split at h
        · cases h
        · obtain ⟨ps, h1, h2⟩ := ih _ _ _ h
          obtain ⟨p, m, hp, e⟩ := step_inv hst
          refine ⟨p :: ps, ?_, by rw [e, h2]; simp [texts]⟩
          intro p' hp'
          rcases List.mem_cons.mp hp' with rfl | hp'
          · exact ⟨m, hp⟩
          · exact h1 p' hp'

/-- **C100** Nothing else is accepted: a text that is parsed is `0` or a sequence of parts, perhaps behind a sign. -/
theorem C100_grammar {s : Str} {d : Int} (h : parse s = some d) :
    ∃ sign body, s = sign ++ body ∧ sign ∈ [[], ['+'], ['-']] ∧
      (body = ['0'] ∧ d = 0 ∨ ∃ ps : List Part, ps ≠ [] ∧ (∀ p ∈ ps, ∃ m, p.Fine m) ∧ body = texts ps) := by
  have main : ∀ body, (body = ['0'] ∧ d = 0 ∨ (body ≠ [] ∧ ∃ a, parseLoop body.length 0 body = some a)) →
      (body = ['0'] ∧ d = 0 ∨ ∃ ps : List Part, ps ≠ [] ∧ (∀ p ∈ ps, ∃ m, p.Fine m) ∧ body = texts ps) := by
    rintro body (h | ⟨h, a, ha⟩)
    · exact .inl h
    · obtain ⟨ps, h1, h2⟩ := loop_inv _ _ _ _ ha
      refine .inr ⟨ps, ?_, h1, h2⟩
      rintro rfl
      exact h h2
  have inv : ∀ (neg : Bool) (body : Str), (if body = ['0'] then some 0 else if body = [] then none else
      match parseLoop body.length 0 body with
      | none => none
      | some d => if neg then some (-(d : Int)) else if d > 2 ^ 63 - 1 then none else some (d : Int)) = some d →
      (body = ['0'] ∧ d = 0 ∨ (body ≠ [] ∧ ∃ a, parseLoop body.length 0 body = some a)) := by
    intro neg body hb
    split at hb
    · rename_i e; cases hb; exact .inl ⟨e, rfl⟩
    · split at hb
      · cases hb
      · rename_i e
        split at hb
        · cases hb
        · rename_i a ha; exact .inr ⟨e, a, ha⟩
  cases s with
  | nil => exact ⟨[], [], rfl, by simp, main _ (inv false [] h)⟩
  | cons c r =>
    by_cases hc : c = '-' ∨ c = '+'
    · refine ⟨[c], r, rfl, by rcases hc with rfl | rfl <;> simp, main _ (inv ((c :: r).head? == some '-') r ?_)⟩
      have := h
      unfold parse at this
      simp only [if_pos hc] at this
      exact this
    · refine ⟨[], c :: r, rfl, by simp, main _ (inv ((c :: r).head? == some '-') (c :: r) ?_)⟩
      have := h
      unfold parse at this
      simp only [if_neg hc] at this
      exact this

/-- **C100 fails:** a part of 2^63 nanoseconds is accepted twice and the sum is zero. -/
theorem C100_wrap_fails : parse "9223372036854775808ns9223372036854775808ns".toList = some 0 ∧
    parse "-9223372036854775808ns9223372036854775808ns1h".toList = some (-3600000000000) := by
  decide +kernel

/-- **C100 fails:** fractions with many digits are rounded up to the next nanosecond, through floating point: a third of an hour with nineteen
digits, which is less than twenty minutes, is twenty minutes. -/
theorem C100_float_fails : parse "0.3333333333333333333h".toList = some 1200000000000 ∧
    3333333333333333333 * 3600000000000 < 1200000000000 * 10 ^ 19 := by
  decide +kernel

/-- **C100** `MustParseDuration` gives zero where `ParseDuration` gives an error, and its result elsewhere. -/
theorem C100_must {ps : List Part} {as : List Nat} (hne : ps ≠ []) (h : List.Forall₂ Part.Is ps as) (hn : ∀ a ∈ as, a ≠ 2 ^ 63) :
    mustParse (texts ps) = (if as.sum < 2 ^ 63 then (as.sum : Int) else 0) ∧
    mustParse ('-' :: texts ps) = (if as.sum ≤ 2 ^ 63 then -(as.sum : Int) else 0) := by
  obtain ⟨h1, _, h3⟩ := C100_sum_partial hne h hn
  unfold mustParse
  rw [h1, h3]
  constructor <;> split <;> rfl

/-- "-1.5h" and "3d7s" and ".5m". -/
theorem ex_parts : Part.Is ⟨['1'], some ['5'], ['h']⟩ 5400000000000 ∧ Part.Is ⟨['3'], none, ['d']⟩ 259200000000000 ∧
    Part.Is ⟨['7'], none, ['s']⟩ 7000000000 ∧ Part.Is ⟨[], some ['5', '0'], ['m']⟩ 30000000000 := by
  refine ⟨⟨3600000000000, ⟨?_, ?_, ?_, ?_⟩, ?_, ?_⟩, ⟨86400000000000, ⟨?_, ?_, ?_, ?_⟩, ?_, ?_⟩, ⟨1000000000, ⟨?_, ?_, ?_, ?_⟩, ?_, ?_⟩,
    ⟨60000000000, ⟨?_, ?_, ?_, ?_⟩, ?_, ?_⟩⟩ <;> first | decide | simp [Digits, Part.after]

example : parse "-1.5h".toList = some (-5400000000000) ∧ parse "3d7s".toList = some 259207000000000 ∧ parse "+.50m".toList = some 30000000000 ∧
    parse "1.5".toList = none ∧ parse "5x".toList = none := by decide +kernel

end Dur
end Verif

import Verif.Props.Integers
/-
C99: sizes whose number is written as in Go.
-/
namespace Verif
namespace Bytes

/-- What the code that cuts off units and blanks needs to know of a number. -/
structure Plainly (x : Str) : Prop where
  ne : x ≠ []
  each : ∀ c ∈ x, isSpace c = false ∧ c.toNat < 128 ∧ c ≠ 'i'

theorem Spells.mem {b n m : Nat} {s : Str} (h : Spells b n s m) {c : Char} (hc : c ∈ s) : c = '_' ∨ ∃ d, (c, d) ∈ digits := by
  induction h with
  | nil => simp at hc
  | cons h1 _ _ ih =>
    rcases List.mem_cons.mp hc with rfl | h
    · exact .inr ⟨_, h1⟩
    · exact ih h
  | under h1 _ _ ih =>
    rcases List.mem_cons.mp hc with rfl | h
    · exact .inl rfl
    · rcases List.mem_cons.mp h with rfl | h
      · exact .inr ⟨_, h1⟩
      · exact ih h

/-- The last digit. -/
theorem Spells.last {b n m : Nat} {s : Str} (h : Spells b n s m) : ∀ t c, s = t ++ [c] → ∃ d, (c, d) ∈ digits := by
  induction h with
  | nil => intro t c e; simp at e
  | @cons n m d c0 s h1 h2 hs ih =>
    intro t c e
    cases t with
    | nil => cases e; exact ⟨_, h1⟩
    | cons a t => simp only [List.cons_append, List.cons.injEq] at e; exact ih t c e.2
  | @under n m d c0 s h1 h2 hs ih =>
    intro t c e
    match t with
    | [] => cases e
    | [a] => simp only [List.cons_append, List.nil_append, List.cons.injEq] at e; obtain ⟨_, rfl, rfl⟩ := e; exact ⟨_, h1⟩
    | a :: a' :: t => simp only [List.cons_append, List.cons.injEq] at e; exact ih t c e.2.2

theorem Number.last {x : Str} {n : Nat} (h : Number x n) {t : Str} {c : Char} (e : x = t ++ [c]) : ∃ d, (c, d) ∈ digits := by
  cases h with
  | zero =>
    cases t with
    | nil => cases e; exact ⟨0, by decide⟩
    | cons a t => simp at e
  | @dec c0 d s n hc _ _ hs =>
    cases t with
    | nil => cases e; exact ⟨_, hc⟩
    | cons a t => simp only [List.cons_append, List.cons.injEq] at e; exact hs.last t c e.2
  | @base p b s n hp hne hs =>
    obtain ⟨s2, c2, e2⟩ : ∃ s2 c2, s = s2 ++ [c2] := by
      rcases List.eq_nil_or_concat s with e | ⟨s2, c2, e2⟩
      · exact absurd e hne
      · exact ⟨s2, c2, by rw [e2, List.concat_eq_append]⟩
    obtain ⟨d, hd⟩ := hs.last s2 c2 e2
    rw [e2, ← List.append_assoc] at e
    have := (List.append_inj' e rfl).2
    simp only [List.cons.injEq, and_true] at this
    rw [← this]
    exact ⟨d, hd⟩

theorem Number.chars {x : Str} {n : Nat} (h : Number x n) :
    x ≠ [] ∧ ∀ c ∈ x, isSpace c = false ∧ c ≠ '.' ∧ c.toNat < 128 ∧ c ≠ 'i' := by
  have dig : ∀ {c d}, (c, d) ∈ digits → isSpace c = false ∧ c ≠ '.' ∧ c.toNat < 128 ∧ c ≠ 'i' := fun h => by
    obtain ⟨_, _, f1, f2, f3, _, _, _, f4⟩ := digit_all h
    exact ⟨f1, f2, f3, f4⟩
  have sp : ∀ {b n m s c}, Spells b n s m → c ∈ s → isSpace c = false ∧ c ≠ '.' ∧ c.toNat < 128 ∧ c ≠ 'i' := fun h hc => by
    rcases h.mem hc with rfl | ⟨d, hd⟩
    · decide
    · exact dig hd
  cases h with
  | zero => exact ⟨by simp, fun c hc => by cases List.mem_singleton.mp hc; decide⟩
  | dec hc _ _ hs =>
    refine ⟨by simp, fun c hc' => ?_⟩
    rcases List.mem_cons.mp hc' with rfl | h
    · exact dig hc
    · exact sp hs h
  | @base p b s _ hp hs h =>
    refine ⟨by simp [hs], fun c hc => ?_⟩
    rcases List.mem_append.mp hc with hc | hc
    · simp only [prefixes, List.mem_cons, List.not_mem_nil, or_false] at hp
      have key : ∀ q ∈ prefixes, ∀ c ∈ q.1, isSpace c = false ∧ c ≠ '.' ∧ c.toNat < 128 ∧ c ≠ 'i' := by decide
      exact key (p, b) (by simpa [prefixes] using hp) c hc
    · exact sp h hc

theorem Number.plainly {x : Str} {n : Nat} (h : Number x n) : Plainly x :=
  ⟨h.chars.1, fun c hc => ⟨(h.chars.2 c hc).1, (h.chars.2 c hc).2.2⟩⟩

theorem Number.noDot {x : Str} {n : Nat} (h : Number x n) : x.contains '.' = false := by
  rw [Bool.eq_false_iff]
  intro hc
  exact (h.chars.2 '.' (by simpa using hc)).2.1 rfl

theorem Plainly.last {x : Str} (h : Plainly x) : ∃ s c, x = s ++ [c] ∧ isSpace c = false := by
  rcases List.eq_nil_or_concat x with e | ⟨s, c, e⟩
  · exact absurd e h.ne
  · rw [List.concat_eq_append] at e
    exact ⟨s, c, e, (h.each c (by simp [e])).1⟩

theorem Plainly.drop {x : Str} (h : Plainly x) (t : Str) : (x ++ t).dropWhile isSpace = x ++ t := by
  obtain ⟨c, r, rfl⟩ := List.exists_cons_of_ne_nil h.ne
  simp [(h.each c (by simp)).1]

theorem Plainly.trim {x : Str} (h : Plainly x) {sp1 sp2 : Str} (h1 : Blank sp1) (h2 : Blank sp2) : trimSpace (sp1 ++ x ++ sp2) = x := by
  rw [trimSpace, List.append_assoc, dropWhile_space (fun c hc => (h1 c hc).1), h.drop, trimRight_append (fun c hc => (h2 c hc).1)]
  obtain ⟨s, c, rfl, hc⟩ := h.last
  exact trimRight_keep hc

theorem Plainly.ascii {x : Str} (h : Plainly x) {c : Char} (hc : c ∈ x) : c.toNat < 128 := (h.each c hc).2.1

/-- What is left of the number and its unit when the unit is cut off. -/
theorem Plainly.cut {x sp : Str} (hP : Plainly x) {u : Char} {i : Nat} (hu : (u, i) ∈ unitExp) (hs : Blank sp)
    (hl : sp ≠ [] ∨ ∀ s c, x = s ++ [c] → unitChars.contains c = false) :
    trimRight (fun c => unitChars.contains c) (x ++ sp ++ [u]) = x ++ sp ∧ trimSpace (x ++ sp) = x ∧ lastRune (x ++ sp ++ [u]) = .ok u := by
  obtain ⟨_, h2, _, _, _, _, h7⟩ := unit_facts hu 0
  refine ⟨?_, ?_, ?_⟩
  · rw [trimRight_append (by intro c hc; rw [List.mem_singleton.mp hc]; exact h2)]
    rcases List.eq_nil_or_concat sp with rfl | ⟨s, c, rfl⟩
    · obtain ⟨s, c, e, _⟩ := hP.last
      have := hl.resolve_left (by simp) s c e
      rw [List.append_nil, e]
      exact trimRight_keep this
    · rw [List.concat_eq_append, ← List.append_assoc]
      exact trimRight_keep (space_facts (hs c (by simp)).1 (hs c (by simp)).2).1
  · simpa using hP.trim (sp1 := []) (by intro c hc; cases hc) hs
  · rw [lastRune, ascii_size (by
      intro c hc
      simp only [List.mem_append, List.mem_singleton] at hc
      rcases hc with (hc | hc) | hc
      · exact hP.ascii hc
      · exact (hs c hc).2
      · rw [hc]; exact h7)]
    simp

/-- With a unit: blanks before it, or the number does not end in a digit that is also a unit. -/
theorem fromUnits_number {base n i : Nat} {u : Char} {x sp : Str} (pf : Str → Option (Nat → Nat)) (hx : Number x n) (hu : (u, i) ∈ unitExp)
    (hs : Blank sp) (hl : sp ≠ [] ∨ x.getLast? ≠ some 'e' ∧ x.getLast? ≠ some 'E') (hb : 1 ≤ base) (h : n * base ^ i < 2 ^ 64) :
    fromUnits base pf (x ++ sp ++ [u]) = .ok (n * base ^ i) := by
  obtain ⟨h1, _⟩ := unit_facts hu base
  have hP := hx.plainly
  have hn : n < 2 ^ 64 := Nat.lt_of_le_of_lt (Nat.le_mul_of_pos_right n (Nat.pow_pos hb)) h
  obtain ⟨e1, e2, e4⟩ := hP.cut hu hs (hl.imp id (fun ⟨n1, n2⟩ s c e => by
    rw [e] at n1 n2
    simp only [List.getLast?_append, List.getLast?_singleton, Option.some_or, ne_eq, Option.some.injEq] at n1 n2
    obtain ⟨d, hd⟩ := hx.last e
    have key : ∀ q ∈ digits, q.1 ≠ 'e' → q.1 ≠ 'E' → unitChars.contains q.1 = false := by decide
    exact key (c, d) hd n1 n2))
  simp only [fromUnits, e1, e2, hx.noDot, hx.parse hn, e4, h1, Nat.mod_eq_of_lt h]
  simp

theorem Plainly.mid {x : Str} (h : Plainly x) {sp1 mid sp3 : Str} {c : Char} (h1 : Blank sp1) (h3 : Blank sp3)
    (hc : isSpace c = false) : trimSpace (sp1 ++ (x ++ (mid ++ [c])) ++ sp3) = x ++ (mid ++ [c]) := by
  rw [trimSpace, List.append_assoc, dropWhile_space (fun c hc => (h1 c hc).1), List.append_assoc, h.drop,
    ← List.append_assoc, trimRight_append (fun c hc => (h3 c hc).1), ← List.append_assoc]
  exact trimRight_keep hc

/-- What is left when the byte suffix is cut off. -/
theorem Plainly.kibi {x : Str} (hP : Plainly x) {u : Char} {i : Nat} (hu : (u, i) ∈ unitExp) {suf : Str}
    (hsuf : suf ∈ ["".toList, "iB".toList, "ib".toList, "i".toList, "B".toList, "b".toList])
    {sp1 sp2 sp3 : Str} (h1 : Blank sp1) (h3 : Blank sp3) :
    trimRight (fun c => c == 'i' || c == 'b') (trimRight (fun c => c == 'i' || c == 'B')
      (trimSpace (sp1 ++ (x ++ (sp2 ++ u :: suf)) ++ sp3))) = x ++ sp2 ++ [u] := by
  obtain ⟨_, _, f1, f2, f3, f4, _⟩ := unit_facts hu 1024
  have hi : isSpace 'i' = false := by decide
  have hB : isSpace 'B' = false := by decide
  have hb : isSpace 'b' = false := by decide
  have k1 : ∀ s, trimRight (fun c => c == 'i' || c == 'B') (s ++ [u]) = s ++ [u] := fun s =>
    trimRight_keep (by simp [f1, f3])
  have k2 : ∀ s, trimRight (fun c => c == 'i' || c == 'b') (s ++ [u]) = s ++ [u] := fun s =>
    trimRight_keep (by simp [f1, f2])
  simp only [List.mem_cons, List.not_mem_nil, or_false] at hsuf
  rcases hsuf with rfl | rfl | rfl | rfl | rfl | rfl
  · rw [show sp2 ++ u :: "".toList = sp2 ++ [u] from rfl, hP.mid h1 h3 f4, ← List.append_assoc, k1, k2]
  · rw [show sp2 ++ u :: "iB".toList = (sp2 ++ [u, 'i']) ++ ['B'] by simp, hP.mid h1 h3 hB,
      show x ++ (sp2 ++ [u, 'i'] ++ ['B']) = (x ++ sp2 ++ [u]) ++ ['i', 'B'] by simp,
      trimRight_append (by simp), k1, k2]
  · rw [show sp2 ++ u :: "ib".toList = (sp2 ++ [u, 'i']) ++ ['b'] by simp, hP.mid h1 h3 hb,
      show x ++ (sp2 ++ [u, 'i'] ++ ['b']) = (x ++ sp2 ++ [u, 'i']) ++ ['b'] by simp,
      trimRight_keep (by simp), show (x ++ sp2 ++ [u, 'i']) ++ ['b'] = (x ++ sp2 ++ [u]) ++ ['i', 'b'] by simp,
      trimRight_append (by simp), k2]
  · rw [show sp2 ++ u :: "i".toList = (sp2 ++ [u]) ++ ['i'] by simp, hP.mid h1 h3 hi,
      show x ++ (sp2 ++ [u] ++ ['i']) = (x ++ sp2 ++ [u]) ++ ['i'] by simp,
      trimRight_append (by simp), k1, k2]
  · rw [show sp2 ++ u :: "B".toList = (sp2 ++ [u]) ++ ['B'] by simp, hP.mid h1 h3 hB,
      show x ++ (sp2 ++ [u] ++ ['B']) = (x ++ sp2 ++ [u]) ++ ['B'] by simp,
      trimRight_append (by simp), k1, k2]
  · rw [show sp2 ++ u :: "b".toList = (sp2 ++ [u]) ++ ['b'] by simp, hP.mid h1 h3 hb,
      show x ++ (sp2 ++ [u] ++ ['b']) = (x ++ sp2 ++ [u]) ++ ['b'] by simp,
      trimRight_keep (by simp), trimRight_append (by simp), k2]

theorem Plainly.kilo {x : Str} (hP : Plainly x) {u : Char} {i : Nat} (hu : (u, i) ∈ unitExp) {suf : Str}
    (hsuf : suf ∈ ["".toList, "B".toList, "b".toList])
    {sp1 sp2 sp3 : Str} (h1 : Blank sp1) (h3 : Blank sp3) :
    trimRight (fun c => c == 'b') (trimRight (fun c => c == 'B')
      (trimSpace (sp1 ++ (x ++ (sp2 ++ u :: suf)) ++ sp3))) = x ++ sp2 ++ [u] := by
  obtain ⟨_, _, f1, f2, f3, f4, _⟩ := unit_facts hu 1000
  have hB : isSpace 'B' = false := by decide
  have hb : isSpace 'b' = false := by decide
  have k1 : ∀ s, trimRight (fun c => c == 'B') (s ++ [u]) = s ++ [u] := fun s => trimRight_keep (by simp [f3])
  have k2 : ∀ s, trimRight (fun c => c == 'b') (s ++ [u]) = s ++ [u] := fun s => trimRight_keep (by simp [f2])
  simp only [List.mem_cons, List.not_mem_nil, or_false] at hsuf
  rcases hsuf with rfl | rfl | rfl
  · rw [show sp2 ++ u :: "".toList = sp2 ++ [u] from rfl, hP.mid h1 h3 f4, ← List.append_assoc, k1, k2]
  · rw [show sp2 ++ u :: "B".toList = (sp2 ++ [u]) ++ ['B'] by simp, hP.mid h1 h3 hB,
      show x ++ (sp2 ++ [u] ++ ['B']) = (x ++ sp2 ++ [u]) ++ ['B'] by simp,
      trimRight_append (by simp), k1, k2]
  · rw [show sp2 ++ u :: "b".toList = (sp2 ++ [u]) ++ ['b'] by simp, hP.mid h1 h3 hb,
      show x ++ (sp2 ++ [u] ++ ['b']) = (x ++ sp2 ++ [u]) ++ ['b'] by simp,
      trimRight_keep (by simp), trimRight_append (by simp), k2]

/-- **C99** A number in any of Go's notations, a unit and optionally `iB`, `ib`, `i`, `B` or `b`: the number times the power of 1024.
Missing for the full claim: a hexadecimal number that ends in the digit `e` with the unit right behind it (`C99_digit_fails`). -/
theorem C99_kibi_partial (pf : Str → Option (Nat → Nat)) {x : Str} {n i : Nat} {u : Char} (hx : Number x n) (hu : (u, i) ∈ unitExp) {suf : Str}
    (hsuf : suf ∈ ["".toList, "iB".toList, "ib".toList, "i".toList, "B".toList, "b".toList])
    {sp1 sp2 sp3 : Str} (h1 : Blank sp1) (h2 : Blank sp2) (h3 : Blank sp3)
    (hl : sp2 ≠ [] ∨ x.getLast? ≠ some 'e' ∧ x.getLast? ≠ some 'E') (h : n * 1024 ^ i < 2 ^ 64) :
    fromKibi pf (sp1 ++ (x ++ (sp2 ++ u :: suf)) ++ sp3) = .ok (n * 1024 ^ i) := by
  rw [fromKibi, hx.plainly.kibi hu hsuf h1 h3]
  exact fromUnits_number pf hx hu h2 hl (by omega) h

/-- **C99** The same with powers of 1000; the suffixes are `B` and `b`. -/
theorem C99_kilo_partial (pf : Str → Option (Nat → Nat)) {x : Str} {n i : Nat} {u : Char} (hx : Number x n) (hu : (u, i) ∈ unitExp) {suf : Str}
    (hsuf : suf ∈ ["".toList, "B".toList, "b".toList])
    {sp1 sp2 sp3 : Str} (h1 : Blank sp1) (h2 : Blank sp2) (h3 : Blank sp3)
    (hl : sp2 ≠ [] ∨ x.getLast? ≠ some 'e' ∧ x.getLast? ≠ some 'E') (h : n * 1000 ^ i < 2 ^ 64) :
    fromKilo pf (sp1 ++ (x ++ (sp2 ++ u :: suf)) ++ sp3) = .ok (n * 1000 ^ i) := by
  rw [fromKilo, hx.plainly.kilo hu hsuf h1 h3]
  exact fromUnits_number pf hx hu h2 hl (by omega) h

theorem unitTimes_one (base : Nat) {c : Char} (hu : unitChars.contains c = false) : unitTimes base c = 1 := by
  have ne : ∀ d, unitChars.contains d = true → c ≠ d := fun d hd hcd => by rw [← hcd, hu] at hd; cases hd
  have or : ∀ d e, unitChars.contains d = true → unitChars.contains e = true → ¬ (c = d ∨ c = e) := fun d e hd he h =>
    h.elim (ne d hd) (ne e he)
  rw [unitTimes, if_neg (or 'k' 'K' (by decide) (by decide)), if_neg (or 'm' 'M' (by decide) (by decide)), if_neg (or 'g' 'G' (by decide) (by decide)),
    if_neg (or 't' 'T' (by decide) (by decide)), if_neg (or 'p' 'P' (by decide) (by decide)), if_neg (or 'e' 'E' (by decide) (by decide))]

/-- A number that ends in none of the digits that are cut off. -/
theorem fromUnits_bare {base n : Nat} {x s : Str} {c : Char} (pf : Str → Option (Nat → Nat)) (hx : Number x n) (hn : n < 2 ^ 64) (e : x = s ++ [c])
    (hu : unitChars.contains c = false) : fromUnits base pf x = .ok n := by
  have hP := hx.plainly
  have e1 : trimRight (fun c => unitChars.contains c) x = x := by
    rw [e]; exact trimRight_keep hu
  have e2 : trimSpace x = x := by
    simpa using hP.trim (sp1 := []) (sp2 := []) (by intro c hc; cases hc) (by intro c hc; cases hc)
  have e4 : lastRune x = .ok c := by
    rw [lastRune, ascii_size (fun c hc => hP.ascii hc), e]
    simp
  have h1 := unitTimes_one base hu
  simp only [fromUnits, e1, e2, hx.noDot, hx.parse hn, e4, h1, Nat.mul_one, Nat.mod_eq_of_lt hn]
  simp

/-- **C99** A number alone, without unit or suffix, is itself, unless it ends in one of the hexadecimal digits `b` and `e`
(`C99_digit_fails`). -/
theorem C99_bare_partial (pf : Str → Option (Nat → Nat)) {x : Str} {n : Nat} (hx : Number x n) {sp1 sp3 : Str} (h1 : Blank sp1) (h3 : Blank sp3)
    (hl : ∀ c ∈ ['b', 'B', 'e', 'E'], x.getLast? ≠ some c) (hn : n < 2 ^ 64) :
    fromKibi pf (sp1 ++ x ++ sp3) = .ok n ∧ fromKilo pf (sp1 ++ x ++ sp3) = .ok n := by
  have hP := hx.plainly
  obtain ⟨s, c, e, _⟩ := hP.last
  have hl' : c ≠ 'b' ∧ c ≠ 'B' ∧ c ≠ 'e' ∧ c ≠ 'E' := by
    simpa [e] using hl
  have hi : c ≠ 'i' := (hP.each c (by simp [e])).2.2
  have hu : unitChars.contains c = false := by
    obtain ⟨d, hd⟩ := hx.last e
    have key : ∀ q ∈ digits, q.1 ≠ 'e' → q.1 ≠ 'E' → unitChars.contains q.1 = false := by decide
    exact key (c, d) hd hl'.2.2.1 hl'.2.2.2
  constructor
  · rw [fromKibi, hP.trim h1 h3, show trimRight (fun c => c == 'i' || c == 'B') x = x by rw [e]; exact trimRight_keep (by simp [hi, hl']),
      show trimRight (fun c => c == 'i' || c == 'b') x = x by rw [e]; exact trimRight_keep (by simp [hi, hl'])]
    exact fromUnits_bare pf hx hn e hu
  · rw [fromKilo, hP.trim h1 h3, show trimRight (fun c => c == 'B') x = x by rw [e]; exact trimRight_keep (by simp [hl']),
      show trimRight (fun c => c == 'b') x = x by rw [e]; exact trimRight_keep (by simp [hl'])]
    exact fromUnits_bare pf hx hn e hu

/-- **C99** A decimal number of bytes: the suffixes `B` and `b` without a unit. -/
theorem C99_bytes (pf : Str → Option (Nat → Nat)) (n : Nat) {b : Char} (hb : b = 'B' ∨ b = 'b') {sp1 sp3 : Str} (h1 : Blank sp1) (h3 : Blank sp3)
    (hn : n < 2 ^ 64) :
    fromKibi pf (sp1 ++ ((toString n).toList ++ [b]) ++ sp3) = .ok n ∧ fromKilo pf (sp1 ++ ((toString n).toList ++ [b]) ++ sp3) = .ok n := by
  have hx := number_dec n
  have hP := hx.plainly
  obtain ⟨s, c, e, _⟩ := hP.last
  have hd : c.isDigit = true := dec_digits (n := n) (show c ∈ (toString n).toList by rw [e]; simp)
  have f1 : c ≠ 'i' := by rintro rfl; exact absurd hd (by decide)
  have f2 : c ≠ 'B' := by rintro rfl; exact absurd hd (by decide)
  have f3 : c ≠ 'b' := by rintro rfl; exact absurd hd (by decide)
  have hu := (digit_facts hd).2.1
  have ht : trimSpace (sp1 ++ ((toString n).toList ++ [b]) ++ sp3) = (toString n).toList ++ [b] :=
    hP.mid (mid := []) h1 h3 (by rcases hb with rfl | rfl <;> decide)
  have k : ∀ p : Char → Bool, p c = false → trimRight p (toString n).toList = (toString n).toList := fun p hp => by
    rw [e]; exact trimRight_keep hp
  rw [fromKibi, fromKilo, ht]
  constructor
  · have : trimRight (fun c => c == 'i' || c == 'b') (trimRight (fun c => c == 'i' || c == 'B') ((toString n).toList ++ [b])) =
        (toString n).toList := by
      rcases hb with rfl | rfl
      · rw [trimRight_append (by simp), k _ (by simp [f1, f2]), k _ (by simp [f1, f3])]
      · rw [trimRight_keep (by simp), trimRight_append (by simp), k _ (by simp [f1, f3])]
    rw [this]
    exact fromUnits_bare pf hx hn e hu
  · have : trimRight (fun c => c == 'b') (trimRight (fun c => c == 'B') ((toString n).toList ++ [b])) = (toString n).toList := by
      rcases hb with rfl | rfl
      · rw [trimRight_append (by simp), k _ (by simp [f2]), k _ (by simp [f3])]
      · rw [trimRight_keep (by simp), trimRight_append (by simp), k _ (by simp [f3])]
    rw [this]
    exact fromUnits_bare pf hx hn e hu

/-- **C99 fails:** a final digit `e` is taken for a unit, or cut off together with the unit; a final digit `b` is cut off. `0001b`, which the
comment at radix/cvter.go:1521 gives as an example of a number, is read as the octal number 0001. -/
theorem C99_digit_fails :
    Number "0x1e".toList 30 ∧ fromKibi (fun _ => none) "0x1e".toList = .ok (1024 ^ 6) ∧
    fromKibi (fun _ => none) "0x1ek".toList = .ok 1024 ∧ fromKilo (fun _ => none) "0x1eKB".toList = .ok 1000 ∧
    Number "0x1b".toList 27 ∧ fromKibi (fun _ => none) "0x1b".toList = .ok 1 ∧ fromKilo (fun _ => none) "0x1b".toList = .ok 1 ∧
    fromKibi (fun _ => none) "0010b".toList = .ok 8 := by
  refine ⟨?_, by decide +kernel, by decide +kernel, by decide +kernel, ?_, by decide +kernel, by decide +kernel, by decide +kernel⟩
  · exact .base (p := "0x".toList) (b := 16) (s := ['1', 'e']) (by decide) (by simp)
      (.cons (d := 1) (by decide) (by decide) (.cons (d := 14) (by decide) (by decide) (.nil _)))
  · exact .base (p := "0x".toList) (b := 16) (s := ['1', 'b']) (by decide) (by simp)
      (.cons (d := 1) (by decide) (by decide) (.cons (d := 11) (by decide) (by decide) (.nil _)))

/-- **C99 fails:** the digit is lost with every number and unit: a number in base 16 whose last digit is `e` and the unit right behind it
give what the number without that digit gives. -/
theorem C99_lost_fails (pf : Str → Option (Nat → Nat)) {s : Str} {n i : Nat} {u : Char} (hx : Number ("0x".toList ++ s) n)
    (hu : (u, i) ∈ unitExp) (hl : s.getLast? ≠ some 'e' ∧ s.getLast? ≠ some 'E') (hs : s ≠ []) (h : n * 1024 ^ i < 2 ^ 64) :
    fromKibi pf ("0x".toList ++ s ++ ['e', u]) = .ok (n * 1024 ^ i) := by
  obtain ⟨_, h2, f1, f2, f3, f4, h7⟩ := unit_facts hu 1024
  have hl' : ("0x".toList ++ s).getLast? ≠ some 'e' ∧ ("0x".toList ++ s).getLast? ≠ some 'E' := by
    obtain ⟨c, hc⟩ := Option.ne_none_iff_exists'.mp (by simpa using hs : s.getLast? ≠ none)
    simp only [List.getLast?_append, hc, Option.some_or] at hl ⊢
    exact hl
  have base := C99_kibi_partial pf hx hu (suf := []) (sp1 := []) (sp2 := []) (sp3 := []) (by simp) (by intro c hc; cases hc)
    (by intro c hc; cases hc) (by intro c hc; cases hc) (.inr hl') h
  have hP := hx.plainly
  generalize "0x".toList ++ s = x at *
  rw [← base]
  have t1 : trimSpace (x ++ ['e', u]) = x ++ ['e', u] := by
    have := hP.mid (sp1 := []) (mid := ['e']) (sp3 := []) (by intro c hc; cases hc) (by intro c hc; cases hc) f4
    simpa using this
  have t2 : trimSpace ([] ++ (x ++ ([] ++ [u])) ++ []) = x ++ [u] :=
    hP.mid (sp1 := []) (mid := []) (sp3 := []) (by intro c hc; cases hc) (by intro c hc; cases hc) f4
  have k1 : ∀ s, trimRight (fun c => c == 'i' || c == 'B') (s ++ [u]) = s ++ [u] := fun s => trimRight_keep (by simp [f1, f3])
  have k2 : ∀ s, trimRight (fun c => c == 'i' || c == 'b') (s ++ [u]) = s ++ [u] := fun s => trimRight_keep (by simp [f1, f2])
  rw [fromKibi, fromKibi, t1, t2, show x ++ ['e', u] = (x ++ ['e']) ++ [u] by simp, k1, k2, k1, k2]
  have e1 : trimRight (fun c => unitChars.contains c) (x ++ ['e'] ++ [u]) = trimRight (fun c => unitChars.contains c) (x ++ [u]) := by
    have hh : ∀ c ∈ [u], unitChars.contains c = true := by intro c hc; rw [List.mem_singleton.mp hc]; exact h2
    rw [trimRight_append hh, trimRight_append hh, trimRight_append (by simp; decide)]
  have asc : ∀ c ∈ x ++ ['e'] ++ [u], c.toNat < 128 := by
    intro c hc
    simp only [List.mem_append, List.mem_singleton] at hc
    rcases hc with (hc | rfl) | rfl
    · exact hP.ascii hc
    · decide
    · exact h7
  have e2 : lastRune (x ++ ['e'] ++ [u]) = lastRune (x ++ [u]) := by
    rw [lastRune, lastRune, ascii_size asc, ascii_size (fun c hc => asc c (by simp at hc ⊢; rcases hc with h | h <;> simp [h]))]
    simp
  simp only [fromUnits, e1, e2]

/-- Numbers and texts of the theorems. -/
theorem ex_number : Number "0x99".toList 153 :=
  .base (p := "0x".toList) (b := 16) (s := ['9', '9']) (by decide) (by simp)
    (.cons (d := 9) (by decide) (by decide) (.cons (d := 9) (by decide) (by decide) (.nil _)))

example : fromKibi (fun _ => none) "1_000 k".toList = .ok (1000 * 1024) ∧ fromKibi (fun _ => none) "1_000_k".toList = .ok 0 := by decide +kernel

example : Number "0700".toList 448 :=
  .base (p := "0".toList) (b := 8) (s := ['7', '0', '0']) (by decide) (by simp)
    (.cons (d := 7) (by decide) (by decide) (.cons (d := 0) (by decide) (by decide) (.cons (d := 0) (by decide) (by decide) (.nil _))))

example : fromKibi (fun _ => none) " 0x99 KiB".toList = .ok (153 * 1024) ∧ fromKilo (fun _ => none) "0x99k".toList = .ok 153000 ∧
    fromKibi (fun _ => none) "0700".toList = .ok 448 ∧ fromKibi (fun _ => none) "0x99ek".toList = .ok (153 * 1024) ∧
    fromKilo (fun _ => none) "512B".toList = .ok 512 ∧ 153 * 1024 ^ 1 < 2 ^ 64 ∧ ('k', 1) ∈ unitExp ∧ "0x99".toList.getLast? ≠ some 'e' := by
  refine ⟨by decide +kernel, by decide +kernel, by decide +kernel, by decide +kernel, by decide +kernel, by decide, by decide, by decide⟩

end Bytes
end Verif

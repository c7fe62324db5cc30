import Verif.Lemmas.Match
import Mathlib.Data.Finset.Card
/-
The `retriever` loop of `matchR`: the fuel of the model is exact, and the loop ends on fragments that do
not end with ':'.
-/
namespace Verif
namespace Node

theorem extractor_bounds (d : Char) (src : Str) (start stop : Nat) :
    (extractor d src start stop).2.1 ≤ stop ∧
    (start < stop → (extractor d src start stop).2.2 = false → start ≤ (extractor d src start stop).2.1 ∧ (extractor d src start stop).2.1 < stop) := by
  simp only [extractor]
  split
  · simp; omega
  · split
    · simp only; omega
    · simp

theorem cmpLoop_bounds (d : Char) (a b : Str) (f : Bool) :
    (cmpLoop d a b f).1 ≤ a.length ∧ (cmpLoop d a b f).1 ≤ b.length ∧
    (0 < (cmpLoop d a b f).1 → (cmpLoop d a b f).2 = (a[(cmpLoop d a b f).1 - 1]? == some d)) ∧
    ((cmpLoop d a b f).1 = 0 → (cmpLoop d a b f).2 = f) := by
  obtain ⟨s, x, y, rfl, rfl, h, _⟩ := cmpLoop_spec d a b f
  rw [h]
  refine ⟨by simp, by simp, ?_, ?_⟩
  · intro hs
    simp only at hs
    have hne : s ≠ [] := by intro e; simp [e] at hs
    simp only [hne, if_false, endsW, List.getLast?_eq_getElem?]
    rw [List.getElem?_append_left (by omega)]
  · intro hs
    simp only [List.length_eq_zero_iff] at hs
    simp [hs]

/-- One jump back to the label: the next values of the loop variables, or `none` if the loop ends. -/
def rstep (d : Char) (path word : Str) (hasKids : Bool) (s : Char × Nat × Nat × Bool) : Option (Char × Nat × Nat × Bool) :=
  if s.2.2.2 = true ∧ s.1 = ':' then
    let e := extractor d path (s.2.1 + 1) path.length
    let x := extractor d word s.2.2.1 word.length
    if e.2.2 || x.2.2 then none
    else
      let c := cmpLoop d (path.drop e.2.1) (word.drop x.2.1) true
      let src := e.2.1 + c.1
      let dst := x.2.1 + c.1
      if (src = path.length ∧ dst = word.length) ∨ (src = path.length ∧ dst < word.length ∧ hasKids = true) then none
      else some
        (if src < path.length ∧ dst < word.length then path.getD src ':'
         else if c.1 > 0 then path.getD (src - 1) ':'
         else ':', src, dst, c.2)
  else none

theorem retriever_some {d : Char} {path word : Str} {hk : Bool} {ch : Char} {src dst : Nat} {lrid : Bool} {s'}
    (h : rstep d path word hk (ch, src, dst, lrid) = some s') (kv : KV) :
    ∃ kv', ∀ f, retriever d path word hk (f + 1) ch src dst lrid kv =
      retriever d path word hk f s'.1 s'.2.1 s'.2.2.1 s'.2.2.2 kv' := by
  simp only [rstep] at h
  split at h
  · rename_i hc
    obtain ⟨rfl, rfl⟩ := hc
    split at h
    · simp at h
    · rename_i hx
      simp only [Bool.or_eq_true, not_or, Bool.not_eq_true] at hx
      split at h
      · simp at h
      · rename_i hy
        simp only [not_or] at hy
        simp only [Option.some.injEq] at h
        subst h
        refine ⟨kv ++ [((extractor d path (src + 1) path.length).1, (extractor d word dst word.length).1)], fun f => ?_⟩
        rw [retriever]
        simp [hx.1, hx.2, hy.1]
        intro h1 h2 h3
        exact absurd ⟨h1, h2, h3⟩ hy.2
  · simp at h

theorem retriever_none {d : Char} {path word : Str} {hk : Bool} {ch : Char} {src dst : Nat} {lrid : Bool}
    (h : rstep d path word hk (ch, src, dst, lrid) = none) (kv : KV) :
    ∃ r, ∀ f, retriever d path word hk (f + 1) ch src dst lrid kv = .ok r := by
  simp only [rstep] at h
  split at h
  · rename_i hc
    obtain ⟨rfl, rfl⟩ := hc
    split at h
    · rename_i hx
      simp only [retriever]
      cases h1 : (extractor d path (src + 1) path.length).2.2 <;> cases h2 : (extractor d word dst word.length).2.2 <;>
        simp [h1, h2] at hx ⊢
    · rename_i hx
      simp only [Bool.or_eq_true, not_or, Bool.not_eq_true] at hx
      split at h
      · rename_i hy
        simp only [retriever]
        simp only [hx.1, hx.2]
        rcases hy with hy | hy
        · simp [hy]
        · have : ¬ (extractor d word dst word.length).2.1 + (cmpLoop d (path.drop (extractor d path (src + 1) path.length).2.1) (word.drop (extractor d word dst word.length).2.1) true).1 = word.length := by omega
          simp [hy, this]
      · simp at h
  · rename_i hc
    cases lrid with
    | false => exact ⟨(.nothing, kv), fun f => by rw [retriever]; simp⟩
    | true =>
      simp only [true_and] at hc
      by_cases hs : ch = '*'
      · exact ⟨(.found, kv ++ [((extractor d path (src + 1) path.length).1, word.drop dst)]), fun f => by rw [retriever]; simp [hs]⟩
      · exact ⟨(.nothing, kv), fun f => by rw [retriever]; simp [hs, hc]⟩

/-- States after `n` jumps. -/
def rrun (d : Char) (path word : Str) (hk : Bool) (s : Char × Nat × Nat × Bool) : Nat → Option (Char × Nat × Nat × Bool)
  | 0 => some s
  | n + 1 => (rrun d path word hk s n).bind (rstep d path word hk)

theorem rrun_shift {d : Char} {path word : Str} {hk : Bool} {s s'} (h : rstep d path word hk s = some s') (n : Nat) :
    rrun d path word hk s (n + 1) = rrun d path word hk s' n := by
  induction n with
  | zero => simp [rrun, h]
  | succ n ih => rw [rrun, ih]; rfl

/-- The loop runs out of fuel exactly when it makes that many jumps. -/
theorem retriever_hang_iff {d : Char} {path word : Str} {hk : Bool} (f : Nat) : ∀ (ch : Char) (src dst : Nat) (lrid : Bool) (kv : KV),
    retriever d path word hk f ch src dst lrid kv = .error .hang ↔ (rrun d path word hk (ch, src, dst, lrid) f).isSome := by
  induction f with
  | zero => intro ch src dst lrid kv; simp [retriever, rrun]
  | succ f ih =>
    intro ch src dst lrid kv
    cases h : rstep d path word hk (ch, src, dst, lrid) with
    | none =>
      obtain ⟨r, hr⟩ := retriever_none h kv
      rw [hr]
      have : ∀ n, rrun d path word hk (ch, src, dst, lrid) (n + 1) = none := by
        intro n
        induction n with
        | zero => simp [rrun, h]
        | succ n ih => rw [rrun, ih]; rfl
      simp [this]
    | some s' =>
      obtain ⟨kv', hr⟩ := retriever_some h kv
      rw [hr, ih, rrun_shift h]

theorem retriever_mono {d : Char} {path word : Str} {hk : Bool} (f : Nat) : ∀ (ch : Char) (src dst : Nat) (lrid : Bool) (kv : KV) {r},
    retriever d path word hk f ch src dst lrid kv = .ok r → ∀ f', f ≤ f' → retriever d path word hk f' ch src dst lrid kv = .ok r := by
  induction f with
  | zero => intro ch src dst lrid kv r h; simp [retriever] at h
  | succ f ih =>
    intro ch src dst lrid kv r h f' hf
    obtain ⟨g, rfl⟩ : ∃ g, f' = g + 1 := ⟨f' - 1, by omega⟩
    cases hs : rstep d path word hk (ch, src, dst, lrid) with
    | none =>
      obtain ⟨r', hr⟩ := retriever_none hs kv
      rw [hr] at h ⊢
      exact h
    | some s' =>
      obtain ⟨kv', hr⟩ := retriever_some hs kv
      rw [hr] at h ⊢
      exact ih _ _ _ _ _ h g (by omega)

theorem rstep_bounds {d : Char} {path word : Str} {hk : Bool} {s s'} (h : rstep d path word hk s = some s') :
    s'.2.1 ≤ path.length ∧ s'.2.2.1 ≤ word.length ∧ s.1 = ':' ∧ s.2.2.2 = true := by
  simp only [rstep] at h
  split at h
  · rename_i hc
    split at h
    · simp at h
    · split at h
      · simp at h
      · simp only [Option.some.injEq] at h
        subst h
        have h1 := (extractor_bounds d path (s.2.1 + 1) path.length).1
        have h2 := (extractor_bounds d word s.2.2.1 word.length).1
        have h3 := cmpLoop_bounds d (path.drop (extractor d path (s.2.1 + 1) path.length).2.1) (word.drop (extractor d word s.2.2.1 word.length).2.1) true
        simp only [List.length_drop] at h3
        refine ⟨by simp only; omega, by simp only; omega, hc.2, hc.1⟩
  · simp at h

/-- A deterministic run that stays in a finite set for longer than its size never ends. -/
theorem run_periodic {σ : Type} {g : σ → Option σ} {f : Nat → Option σ} (hf : ∀ n, f (n + 1) = (f n).bind g) {i j : Nat} (hij : i < j)
    (e : f i = f j) (hsome : (f j).isSome) : ∀ n, (f n).isSome := by
  have hdown : ∀ n k, (f (n + k)).isSome → (f n).isSome := by
    intro n k
    induction k with
    | zero => exact fun h => h
    | succ k ih =>
      intro h
      apply ih
      rw [← Nat.add_assoc, hf] at h
      cases hn : f (n + k) with
      | none => rw [hn] at h; simp at h
      | some x => rfl
  have hper : ∀ k, f (i + k) = f (j + k) := by
    intro k
    induction k with
    | zero => exact e
    | succ k ih => rw [← Nat.add_assoc, ← Nat.add_assoc, hf, hf, ih]
  intro n
  induction n using Nat.strong_induction_on with
  | _ n ih =>
    by_cases hn : n ≤ j
    · obtain ⟨k, rfl⟩ := Nat.exists_eq_add_of_le hn
      exact hdown n k hsome
    · obtain ⟨k, rfl⟩ : ∃ k, n = j + k := ⟨n - j, by omega⟩
      rw [← hper]
      exact ih (i + k) (by omega)

/-- The fuel in the model is exact: if the loop exhausts it, it never ends. -/
theorem retriever_adequate {d : Char} {path word : Str} {hk : Bool} {ch : Char} {src dst : Nat} {lrid : Bool} {kv : KV}
    (hs : src ≤ path.length) (hd : dst ≤ word.length)
    (h : retriever d path word hk (retrFuel path.length word.length) ch src dst lrid kv = .error .hang) :
    ∀ f, retriever d path word hk f ch src dst lrid kv = .error .hang := by
  intro f
  rw [retriever_hang_iff] at h ⊢
  generalize hF : rrun d path word hk (ch, src, dst, lrid) = F at h ⊢
  have hf : ∀ n, F (n + 1) = (F n).bind (rstep d path word hk) := fun n => by rw [← hF]; rfl
  have hdown : ∀ n k, (F (n + k)).isSome → (F n).isSome := by
    intro n k
    induction k with
    | zero => exact fun h => h
    | succ k ih =>
      intro h
      apply ih
      rw [← Nat.add_assoc, hf] at h
      cases hn : F (n + k) with
      | none => rw [hn] at h; simp at h
      | some x => rfl
  have hall : ∀ n, n ≤ retrFuel path.length word.length → (F n).isSome := by
    intro n hn
    obtain ⟨k, hk'⟩ := Nat.exists_eq_add_of_le hn
    exact hdown n k (by rw [← hk']; exact h)
  -- all states but the last lie in a finite set
  have hst : ∀ n, n < retrFuel path.length word.length → ∃ a b, F n = some (':', a, b, true) ∧ a ≤ path.length ∧ b ≤ word.length := by
    intro n hn
    obtain ⟨s, hs1⟩ := Option.isSome_iff_exists.mp (hall n (by omega))
    obtain ⟨s', hs2⟩ := Option.isSome_iff_exists.mp (hall (n + 1) (by omega))
    have hs3 : rstep d path word hk s = some s' := by rw [hf, hs1] at hs2; exact hs2
    have hb := rstep_bounds hs3
    obtain ⟨c, a, b, l⟩ := s
    simp only at hb
    obtain ⟨_, _, rfl, rfl⟩ := hb
    refine ⟨a, b, hs1, ?_⟩
    cases n with
    | zero => rw [← hF] at hs1; simp only [rrun, Option.some.injEq, Prod.mk.injEq] at hs1; omega
    | succ m =>
      obtain ⟨s0, hs0⟩ := Option.isSome_iff_exists.mp (hall m (by omega))
      have hs4 : rstep d path word hk s0 = some (':', a, b, true) := by rw [hf, hs0] at hs1; exact hs1
      have := rstep_bounds hs4
      exact ⟨this.1, this.2.1⟩
  let code : Nat → Nat := fun n => match F n with
    | some (_, a, b, _) => a * (word.length + 1) + b
    | none => 0
  have hmaps : ∀ n ∈ Finset.range ((path.length + 1) * (word.length + 1) + 1), code n ∈ Finset.range ((path.length + 1) * (word.length + 1)) := by
    intro n hn
    rw [Finset.mem_range] at hn ⊢
    have hlt : n < retrFuel path.length word.length := by
      have : (path.length + 1) * (word.length + 1) ≤ (path.length + 2) * (word.length + 2) := Nat.mul_le_mul (by omega) (by omega)
      simp only [retrFuel, Nat.mul_assoc]; omega
    obtain ⟨a, b, h1, h2, h3⟩ := hst n hlt
    simp only [code, h1]
    have : a * (word.length + 1) ≤ path.length * (word.length + 1) := Nat.mul_le_mul_right _ h2
    have h4 : (path.length + 1) * (word.length + 1) = path.length * (word.length + 1) + (word.length + 1) := by rw [Nat.succ_mul]
    omega
  obtain ⟨i, hi, j, hj, hne, hcode⟩ := Finset.exists_ne_map_eq_of_card_lt_of_maps_to (by simp) hmaps
  have key : ∀ i j, i ∈ Finset.range ((path.length + 1) * (word.length + 1) + 1) → j ∈ Finset.range ((path.length + 1) * (word.length + 1) + 1) →
      i < j → code i = code j → (F f).isSome := by
    intro i j hi hj hij hcode
    rw [Finset.mem_range] at hi hj
    have hb : ∀ n, n < (path.length + 1) * (word.length + 1) + 1 → n < retrFuel path.length word.length := by
      intro n hn
      have : (path.length + 1) * (word.length + 1) ≤ (path.length + 2) * (word.length + 2) := Nat.mul_le_mul (by omega) (by omega)
      simp only [retrFuel, Nat.mul_assoc]; omega
    obtain ⟨a, b, h1, h2, h3⟩ := hst i (hb i hi)
    obtain ⟨a', b', h1', h2', h3'⟩ := hst j (hb j hj)
    simp only [code, h1, h1'] at hcode
    have hd1 : a = a' := by
      have e1 : (a * (word.length + 1) + b) / (word.length + 1) = a := by
        rw [Nat.mul_comm, Nat.mul_add_div (by omega), Nat.div_eq_of_lt (by omega)]; rfl
      have e2 : (a' * (word.length + 1) + b') / (word.length + 1) = a' := by
        rw [Nat.mul_comm, Nat.mul_add_div (by omega), Nat.div_eq_of_lt (by omega)]; rfl
      rw [← e1, ← e2, hcode]
    subst hd1
    have hd2 : b = b' := by omega
    subst hd2
    exact run_periodic hf hij (h1.trans h1'.symm) (by rw [h1']; rfl) f
  rcases Nat.lt_or_gt_of_ne hne with hlt | hlt
  · exact key i j hi hj hlt hcode
  · exact key j i hj hi hlt hcode.symm

/-- The loop ends on fragments that do not end with ':' (when ':' is not the delimiter). -/
theorem retriever_total {d : Char} (hd : d ≠ ':') {path word : Str} (hp : path.getLast? ≠ some ':') (hw : word ≠ []) {hk : Bool} (f : Nat) :
    ∀ (ch : Char) (src dst : Nat) (lrid : Bool) (kv : KV), (ch = ':' → lrid = true → path[src]? = some ':') → path.length - src < f →
      ∃ r, retriever d path word hk f ch src dst lrid kv = .ok r := by
  induction f with
  | zero => intro ch src dst lrid kv _ h; omega
  | succ f ih =>
    intro ch src dst lrid kv hch hf
    cases h : rstep d path word hk (ch, src, dst, lrid) with
    | none =>
      obtain ⟨r, hr⟩ := retriever_none h kv
      exact ⟨r, hr f⟩
    | some s' =>
      obtain ⟨kv', hr⟩ := retriever_some h kv
      rw [hr]
      have hb := rstep_bounds h
      simp only at hb
      obtain ⟨hb1, hb2, rfl, rfl⟩ := hb
      have hsrc := hch rfl rfl
      have hlt : src < path.length := by
        rcases Nat.lt_or_ge src path.length with h1 | h1
        · exact h1
        · rw [List.getElem?_eq_none h1] at hsrc; simp at hsrc
      have hlt' : src + 1 < path.length := by
        rcases Nat.lt_or_ge (src + 1) path.length with h1 | h1
        · exact h1
        · exfalso; apply hp
          rw [List.getLast?_eq_getElem?, show path.length - 1 = src by omega]; exact hsrc
      simp only [rstep, and_self, if_true] at h
      split at h
      · simp at h
      · rename_i hx
        simp only [Bool.or_eq_true, not_or, Bool.not_eq_true] at hx
        split at h
        · simp at h
        · rename_i hy
          simp only [Option.some.injEq] at h
          have he := (extractor_bounds d path (src + 1) path.length).2 hlt' hx.1
          have hxb := extractor_bounds d word dst word.length
          have hc := cmpLoop_bounds d (path.drop (extractor d path (src + 1) path.length).2.1) (word.drop (extractor d word dst word.length).2.1) true
          generalize hE : (extractor d path (src + 1) path.length).2.1 = E at *
          generalize hX : (extractor d word dst word.length).2.1 = X at *
          generalize hC : cmpLoop d (path.drop E) (word.drop X) true = C at *
          subst h
          simp only at hb1 hb2 ⊢
          refine ih _ _ _ _ _ ?_ (by omega)
          intro hch' hl'
          by_cases h1 : E + C.1 < path.length ∧ X + C.1 < word.length
          · simp only [h1, and_self, if_true, List.getD_eq_getElem?_getD, List.getElem?_eq_getElem h1.1, Option.getD_some] at hch'
            rw [List.getElem?_eq_getElem h1.1, hch']
          · simp only [h1, if_false] at hch'
            by_cases h2 : C.1 > 0
            · simp only [h2, if_true] at hch'
              have h3 := hc.2.2.1 h2
              rw [hl'] at h3
              simp only [List.getElem?_drop, List.length_drop] at h3 hc
              have h4 : E + (C.1 - 1) = E + C.1 - 1 := by omega
              rw [h4] at h3
              have h5 : E + C.1 - 1 < path.length := by omega
              simp only [List.getD_eq_getElem?_getD, List.getElem?_eq_getElem h5, Option.getD_some] at hch'
              rw [List.getElem?_eq_getElem h5, hch'] at h3
              exact absurd (Option.some.inj (beq_iff_eq.mp h3.symm)).symm hd
            · exfalso
              have hwl : 0 < word.length := List.length_pos_iff.mpr hw
              have h0 : C.1 = 0 := by omega
              rw [h0] at h1
              rcases Nat.lt_or_ge dst word.length with h3 | h3
              · have := hxb.2 h3 hx.2
                omega
              · have : X = 0 := by rw [← hX]; simp [extractor, h3]
                omega

end Node
end Verif

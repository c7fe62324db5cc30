import Mathlib.Data.List.Nodup
import Verif.Model.Env
import Verif.Props.Load
import Verif.Props.Ctx
/-
C44: environment variables and flags as a provider.
-/
namespace Verif
variable {α κ : Type}

/-! ### Underscores and dots -/

/-- Does the rest start with a character that is no underscore? -/
def startsPlain : Str → Bool
  | [] => false
  | e :: _ => e != '_'

theorem undersToDots_plain (e : Char) (he : e ≠ '_') (r : Str) : undersToDots (e :: r) = e :: undersToDots r := by
  cases r with
  | nil => simp [undersToDots]
  | cons a r => simp [undersToDots, he]

theorem undersToDots_cons (c : Char) (r : Str) :
    undersToDots (c :: r) = (if c = '_' ∧ startsPlain r = true then '.' else c) :: undersToDots r := by
  cases r with
  | nil => simp [undersToDots, startsPlain]
  | cons e r =>
    simp only [undersToDots, startsPlain, bne_iff_ne]
    by_cases h : c = '_' ∧ e ≠ '_'
    · rw [if_pos h, if_pos h, undersToDots_plain e h.2]
    · rw [if_neg h, if_neg h]

/-- **C44** With underline-to-dot, character by character after the first: an underscore becomes a dot exactly when the next
character exists and is no underscore; nothing else changes. -/
theorem C44_dots (s : Str) : (undersToDots s).length = s.length ∧ ∀ i (c : Char), s[i]? = some c →
    (undersToDots s)[i]? = some (if c = '_' ∧ (s[i + 1]?).any (· ≠ '_') = true then '.' else c) := by
  induction s with
  | nil => simp [undersToDots]
  | cons a s ih =>
    rw [undersToDots_cons]
    refine ⟨by simp [ih.1], fun i c hc => ?_⟩
    cases i with
    | zero =>
      simp only [List.getElem?_cons_zero, Option.some.injEq] at hc
      subst hc
      have : startsPlain s = ((a :: s)[0 + 1]?).any (· ≠ '_') := by
        cases s with
        | nil => simp [startsPlain]
        | cons e s => simp [startsPlain, bne, BEq.beq]
      simp only [List.getElem?_cons_zero, this]
    | succ i =>
      simp only [List.getElem?_cons_succ] at hc ⊢
      exact ih.2 i c hc

/-- Turning dots back into underscores. -/
def dotsBack (s : Str) : Str := s.map (fun c => if c = '.' then '_' else c)

theorem dotsBack_undersToDots {s : Str} (h : '.' ∉ s) : dotsBack (undersToDots s) = s := by
  induction s with
  | nil => rfl
  | cons a s ih =>
    have h1 : a ≠ '.' := fun e => h (by simp [e])
    have h2 : '.' ∉ s := fun e => h (by simp [e])
    have := ih h2
    rw [undersToDots_cons]
    unfold dotsBack at this ⊢
    simp only [List.map_cons, this]
    by_cases hc : a = '_' ∧ startsPlain s = true
    · rw [if_pos hc]; simp [hc.1]
    · rw [if_neg hc]; simp [h1]

/-! ### The key of a name -/

namespace EnvCfg

/-- **C44** A name is dropped exactly if it does not start with the (upper-cased) prefix. -/
theorem C44_filter (c : EnvCfg) (k : Str) : c.keyFor k = .ok none ↔ c.pre ≠ [] ∧ ¬ c.pre <+: k := by
  unfold keyFor
  by_cases h : c.pre ≠ [] ∧ c.pre.isPrefixOf k = false
  · rw [if_pos h]
    simp only [true_iff]
    refine ⟨h.1, fun hp => ?_⟩
    have := List.isPrefixOf_iff_prefix.mpr hp
    rw [h.2] at this; cases this
  · rw [if_neg h]
    have h2 : ¬ (c.pre ≠ [] ∧ ¬ c.pre <+: k) := by
      rintro ⟨h1, h2⟩
      refine h ⟨h1, ?_⟩
      rw [Bool.eq_false_iff]
      exact fun e => h2 (List.isPrefixOf_iff_prefix.mp e)
    simp only [h2, iff_false]
    generalize (if c.lower = true then c.lo k else k) = k1
    generalize (if c.stripped ≠ [] then Remote.trimPrefix c.stripped k1 else k1) = k2
    cases hd : c.dots with
    | false => simp
    | true => cases k2 <;> simp

/-- The key of an accepted name: lower-cased if wanted, without the part to be stripped, underscores replaced if wanted, passed
through the callback, below the store prefix. -/
def keySpec (c : EnvCfg) (k : Str) : Str :=
  let a := if c.lower then c.lo k else k
  let b := if c.stripped <+: a then a.drop c.stripped.length else a
  let e := if c.dots then b.take 1 ++ undersToDots (b.drop 1) else b
  let f := (c.cb.getD id) e
  if c.storePre ≠ [] then c.storePre ++ ['.'] ++ f else f

/-- **C44** The key of an accepted name; the code panics if underscores are to be replaced and nothing is left after stripping. -/
theorem C44_key (c : EnvCfg) (k : Str) (h : c.pre = [] ∨ c.pre <+: k) :
    c.keyFor k = if c.dots = true ∧ ((if c.lower then c.lo k else k) = c.stripped ∨ (if c.lower then c.lo k else k) = []) then .error .panic
      else .ok (some (c.keySpec k)) := by
  unfold keyFor
  have h0 : ¬ (c.pre ≠ [] ∧ c.pre.isPrefixOf k = false) := by
    rintro ⟨h1, h2⟩
    rcases h with h | h
    · exact h1 h
    · rw [List.isPrefixOf_iff_prefix.mpr h] at h2; cases h2
  rw [if_neg h0]
  unfold keySpec
  simp only
  generalize (if c.lower = true then c.lo k else k) = a
  have hb : (if c.stripped ≠ [] then Remote.trimPrefix c.stripped a else a) = if c.stripped <+: a then a.drop c.stripped.length else a := by
    unfold Remote.trimPrefix
    by_cases hs : c.stripped = []
    · simp [hs]
    · rw [if_pos hs]
      by_cases hp : c.stripped <+: a
      · rw [if_pos hp, if_pos (List.isPrefixOf_iff_prefix.mpr hp)]
      · rw [if_neg hp, if_neg (fun e => hp (List.isPrefixOf_iff_prefix.mp e))]
  rw [hb]
  have hnil : (if c.stripped <+: a then a.drop c.stripped.length else a) = [] ↔ a = c.stripped ∨ a = [] := by
    by_cases hp : c.stripped <+: a
    · rw [if_pos hp, List.drop_eq_nil_iff]
      constructor
      · intro hl; exact .inl (hp.eq_of_length (Nat.le_antisymm hp.length_le hl)).symm
      · rintro (rfl | rfl) <;> simp
    · rw [if_neg hp]
      constructor
      · exact .inr
      · rintro (rfl | h)
        · exact absurd (List.prefix_refl _) hp
        · exact h
  simp only [← hnil]
  generalize (if c.stripped <+: a then a.drop c.stripped.length else a) = b
  cases hd : c.dots with
  | false =>
    simp only [Bool.false_eq_true, false_and, if_false]
    cases c.cb <;> simp
  | true =>
    cases b with
    | nil => simp
    | cons x r =>
      simp only [true_and]
      cases c.cb <;> simp

/-- **C44** No accepted name hides another: different names get different keys, if lower-casing keeps them apart, they all have
the part to be stripped, contain no dot, and there is no callback. -/
theorem C44_injective (c : EnvCfg) (hcb : c.cb = none) {k k' : Str} {q : Str} (h : c.keyFor k = .ok (some q)) (h' : c.keyFor k' = .ok (some q))
    (hlo : c.lower = true → c.lo k = c.lo k' → k = k')
    (hs : c.stripped <+: (if c.lower then c.lo k else k) ∧ c.stripped <+: (if c.lower then c.lo k' else k'))
    (hd : '.' ∉ (if c.lower then c.lo k else k) ∧ '.' ∉ (if c.lower then c.lo k' else k')) : k = k' := by
  have acc : ∀ k q, c.keyFor k = .ok (some q) → c.keySpec k = q := by
    intro k q h
    by_cases hp : c.pre = [] ∨ c.pre <+: k
    · rw [C44_key c k hp] at h
      by_cases hc : c.dots = true ∧ ((if c.lower then c.lo k else k) = c.stripped ∨ (if c.lower then c.lo k else k) = [])
      · rw [if_pos hc] at h; cases h
      · rw [if_neg hc] at h; cases h; rfl
    · have := (C44_filter c k).mpr ⟨fun e => hp (.inl e), fun e => hp (.inr e)⟩
      rw [this] at h; cases h
  have e := (acc k q h).trans (acc k' q h').symm
  unfold keySpec at e
  simp only [hcb, Option.getD_none, id] at e
  have e1 : (if c.lower then c.lo k else k) = (if c.lower then c.lo k' else k') := by
    generalize (if c.lower = true then c.lo k else k) = a at *
    generalize (if c.lower = true then c.lo k' else k') = a' at *
    rw [if_pos hs.1, if_pos hs.2] at e
    have e2 : (if c.dots = true then (a.drop c.stripped.length).take 1 ++ undersToDots ((a.drop c.stripped.length).drop 1) else a.drop c.stripped.length) =
        (if c.dots = true then (a'.drop c.stripped.length).take 1 ++ undersToDots ((a'.drop c.stripped.length).drop 1) else a'.drop c.stripped.length) := by
      split at e
      · exact List.append_cancel_left e
      · exact e
    have e3 : a.drop c.stripped.length = a'.drop c.stripped.length := by
      split at e2
      · have m1 : '.' ∉ a.drop c.stripped.length := fun h => hd.1 (List.mem_of_mem_drop h)
        have m2 : '.' ∉ a'.drop c.stripped.length := fun h => hd.2 (List.mem_of_mem_drop h)
        have key : ∀ b : Str, '.' ∉ b → dotsBack (b.take 1 ++ undersToDots (b.drop 1)) = b := by
          intro b hb
          cases b with
          | nil => rfl
          | cons x r =>
            have hr : '.' ∉ r := fun e => hb (by simp [e])
            have hx : x ≠ '.' := fun e => hb (by simp [e])
            have := dotsBack_undersToDots hr
            simp only [dotsBack] at this ⊢
            simp [this, hx]
        rw [← key _ m1, e2, key _ m2]
      · exact e2
    have := List.prefix_iff_eq_append.mp hs.1
    have := List.prefix_iff_eq_append.mp hs.2
    rw [← List.prefix_iff_eq_append.mp hs.1, ← List.prefix_iff_eq_append.mp hs.2, e3]
  by_cases hl : c.lower = true
  · rw [if_pos hl, if_pos hl] at e1; exact hlo hl e1
  · rw [if_neg hl, if_neg hl] at e1; exact e1

end EnvCfg

/-! ### The table -/

/-- The accepted names with their keys, in order. -/
def accepted (c : EnvCfg) (l : List (Str × ValPkg α κ)) : List (Str × ValPkg α κ) :=
  (l.filter (fun a => c.pre = [] || c.pre.isPrefixOf a.1)).map (fun a => (c.keySpec a.1, a.2))

theorem collect_spec (c : EnvCfg) : ∀ (l : List (Str × ValPkg α κ)) (keys : List Str) (m : List (Str × ValPkg α κ)),
    (∀ a ∈ l, c.keyFor a.1 ≠ .error .panic) → (m.map (·.1)).Nodup →
    ∃ m', c.collect keys m l = .ok (keys ++ (accepted c l).map (·.1), m') ∧ (m'.map (·.1)).Nodup ∧
      ∀ q, assoc m' q = (lastWrite (accepted c l) q).or (assoc m q)
  | [], keys, m, _, hnd => ⟨m, by simp [EnvCfg.collect, accepted], hnd, by simp [accepted, lastWrite]⟩
  | (k, x) :: l, keys, m, h, hnd => by
    have hl := fun a ha => h a (List.mem_cons_of_mem _ ha)
    unfold EnvCfg.collect
    by_cases hp : c.pre = [] ∨ c.pre <+: k
    · have hk := EnvCfg.C44_key c k hp
      have hb : (c.pre = [] || c.pre.isPrefixOf k) = true := by
        rcases hp with hp | hp
        · simp [hp]
        · simp [List.isPrefixOf_iff_prefix.mpr hp]
      by_cases hc : c.dots = true ∧ ((if c.lower then c.lo k else k) = c.stripped ∨ (if c.lower then c.lo k else k) = [])
      · rw [if_pos hc] at hk
        exact absurd hk (h (k, x) (by simp))
      · rw [if_neg hc] at hk
        rw [hk]
        simp only
        obtain ⟨m', e1, e2, e3⟩ := collect_spec c l (keys ++ [c.keySpec k]) (Ctx.put (c.keySpec k) x m) hl (Ctx.put_nodup _ _ _ hnd)
        refine ⟨m', ?_, e2, fun q => ?_⟩
        · rw [e1]; simp only [accepted, List.filter_cons, hb, if_true, List.map_cons, List.append_assoc, List.cons_append, List.nil_append]
        · rw [e3, Ctx.assoc_put]
          simp only [accepted, List.filter_cons, hb, if_true, List.map_cons, lastWrite]
          generalize lastWrite ((l.filter (fun a => c.pre = [] || c.pre.isPrefixOf a.1)).map (fun a => (c.keySpec a.1, a.2))) q = w
          cases w with
          | some y => simp
          | none => by_cases e : c.keySpec k = q <;> simp [e]
    · have hk := (EnvCfg.C44_filter c k).mpr ⟨fun e => hp (.inl e), fun e => hp (.inr e)⟩
      have hb : (c.pre = [] || c.pre.isPrefixOf k) = false := by
        rw [Bool.eq_false_iff]
        intro hb
        simp only [Bool.or_eq_true, decide_eq_true_eq, List.isPrefixOf_iff_prefix] at hb
        exact hp hb
      rw [hk]
      simp only
      obtain ⟨m', e1, e2, e3⟩ := collect_spec c l keys m hl hnd
      refine ⟨m', ?_, e2, fun q => ?_⟩
      · rw [e1]; simp only [accepted, List.filter_cons, hb, if_false, Bool.false_eq_true]
      · rw [e3]; simp only [accepted, List.filter_cons, hb, if_false, Bool.false_eq_true]

theorem lastWrite_mem' {β : Type} {l : List (Str × β)} {q : Str} {x : β} (h : lastWrite l q = some x) : (q, x) ∈ l := by
  induction l with
  | nil => simp [lastWrite] at h
  | cons a l ih =>
    obtain ⟨k, y⟩ := a
    simp only [lastWrite] at h
    split at h
    · rename_i z hz
      cases h
      exact List.mem_cons_of_mem _ (ih hz)
    · split at h
      · rename_i e; cases h; subst e; simp
      · cases h

namespace EnvProv

/-- **C44** The table of a provider: its keys in byte order, one for each accepted name, and under each key the value of the last
accepted name with that key. -/
theorem C44_table (c : EnvCfg) (l : List (Str × ValPkg α κ)) (h : ∀ a ∈ l, c.keyFor a.1 ≠ .error .panic) :
    ∃ s : EnvProv α κ, prepare c l = .ok s ∧ s.keys.Pairwise (fun a b => byteLe a b = true) ∧
      s.keys.Perm ((accepted c l).map (·.1)) ∧ (s.m.map (·.1)).Nodup ∧
      (∀ q, assoc s.m q = lastWrite (accepted c l) q) ∧
      (∀ q, s.has q = true ↔ q ∈ s.keys) := by
  obtain ⟨m', e1, e2, e3⟩ := collect_spec c l [] [] h (by simp)
  refine ⟨⟨c, sortStrings ((accepted c l).map (·.1)), m', 0⟩, ?_, sortStrings_sorted _, sortStrings_perm _, e2, fun q => by simp [e3, assoc], fun q => ?_⟩
  · unfold prepare; rw [e1]; simp
  · unfold has
    simp only [e3, assoc, Option.or_none, lastWrite_isSome, (sortStrings_perm _).mem_iff, List.mem_map]
    constructor
    · rintro ⟨x, hx⟩; exact ⟨_, hx, rfl⟩
    · rintro ⟨a, ha, rfl⟩; exact ⟨a.2, ha⟩

theorem dash_nospace {k : Str} (h : ' ' ∉ k) : View.dash k = k := by
  unfold View.dash
  conv_rhs => rw [← List.map_id k]
  refine List.map_congr_left (fun c hc => ?_)
  rw [if_neg (fun e : c = ' ' => h (e ▸ hc))]; rfl

theorem leafKey_inj {d : Char} {pos k k' : Str} (h : ' ' ∉ k) (h' : ' ' ∉ k') (e : leafKey d pos [k] = leafKey d pos [k']) : k = k' := by
  unfold leafKey at e
  have key : ∀ k : Str, ' ' ∉ k → View.dash (joinSpec d [pos, k]) =
      if pos = [] then k else if k = [] then View.dash pos else View.dash (pos ++ [d]) ++ k := by
    intro k hk
    rw [joinSpec_eq]
    by_cases hp : pos = []
    · subst hp
      by_cases hk0 : k = []
      · subst hk0; rfl
      · simp [joinWith, hk0, dash_nospace hk]
    · by_cases hk0 : k = []
      · subst hk0; simp [joinWith, hp]
      · have : View.dash (pos ++ d :: k) = View.dash (pos ++ [d]) ++ View.dash k := by simp [View.dash]
        simp [joinWith, hp, hk0, this, dash_nospace hk]
  rw [key k h, key k' h'] at e
  have hlen : (View.dash (pos ++ [d])).length = pos.length + 1 := by simp [View.dash]
  have hlen' : (View.dash pos).length = pos.length := by simp [View.dash]
  split at e
  · exact e
  · split at e <;> split at e
    · simp_all
    · exfalso; have := congrArg List.length e; simp [hlen, hlen'] at this; omega
    · exfalso; have := congrArg List.length e; simp [hlen, hlen'] at this; omega
    · exact List.append_cancel_left e

/-- **C44** Loading a provider of plain values: every key of its table reads back as the value of the last accepted name with that
key, at the load position. -/
theorem C44_load (str : κ → Str) {s : Store α κ} (hs : s.loading = false) (h : Reach (NoRoute s.view.delim) s.tree)
    (prefix' : Option Str) (flat : Option Bool) (c : EnvCfg) (l : List (Str × ValPkg α κ)) (hl : ∀ a ∈ l, c.keyFor a.1 ≠ .error .panic)
    (hatom : ∀ a ∈ l, ∃ x, a.2.value = .atom x)
    (hkey : ∀ a ∈ accepted c l, a.1 ≠ [] ∧ ' ' ∉ a.1 ∧ NoRoute s.view.delim (leafKey s.view.delim (s.loadAt prefix') [a.1])) :
    ∃ pv : EnvProv α κ, prepare c l = .ok pv ∧ ∀ q pkg, lastWrite (accepted c l) q = some pkg →
      ∀ (r : View) (p : Str), r.delim = s.view.delim → r.full p = leafKey s.view.delim (s.loadAt prefix') [q] →
        r.mustGet (s.load str prefix' flat pv.read).1.tree p = .ok pkg.value := by
  obtain ⟨pv, e1, -, -, e2, e3, -⟩ := C44_table c l hl
  refine ⟨pv, e1, fun q pkg hq r p hr hp => ?_⟩
  have hmem : ∀ a ∈ pv.m, (a.1, a.2) ∈ accepted c l := by
    intro a ha
    have : assoc pv.m a.1 = some a.2 := (assoc_eq_some e2).mpr ha
    rw [e3] at this
    exact lastWrite_mem' this
  have hval : ∀ a ∈ accepted c l, ∃ x, a.2.value = .atom x := by
    intro a ha
    unfold accepted at ha
    obtain ⟨b, hb, rfl⟩ := List.mem_map.mp ha
    exact hatom b (List.mem_filter.mp hb).1
  have hleaves : ∀ fl, Store.pkgLeaves fl str pv.m = pv.m.map (fun a => ([a.1], a.2.value)) := by
    intro fl
    have : ∀ m : List (Str × ValPkg α κ), (∀ a ∈ m, ∃ x, a.2.value = .atom x) → Store.pkgLeaves fl str m = m.map (fun a => ([a.1], a.2.value)) := by
      intro m hm
      induction m with
      | nil => rfl
      | cons a m ih =>
        obtain ⟨k, v⟩ := a
        obtain ⟨x, hx⟩ := hm (k, v) (by simp)
        simp only at hx
        simp only [Store.pkgLeaves, hx, leaves, under, List.map_cons, List.map_nil, List.cons_append, List.nil_append, ih (fun a ha => hm a (by simp [ha]))]
    exact this _ (fun a ha => hval _ (hmem a ha))
  have hg := Store.C29_load str hs h prefix' flat pv.read (L := pv.m.map (fun a => ([a.1], a.2.value)))
    (by simp only [read, Store.Source.leaves, hleaves])
    (fun _ => by
      simp only [read, Store.Source.NE, Store.pkgNE]
      intro a ha
      obtain ⟨x, hx⟩ := hval _ (hmem a ha)
      simp only at hx
      exact ⟨(hkey _ (hmem a ha)).1, by rw [hx]; trivial⟩)
    (by
      intro l' x hx
      obtain ⟨a, ha, e⟩ := List.mem_map.mp hx
      cases e
      exact (hkey _ (hmem a ha)).2.2)
    (by
      rw [List.map_map]
      have : pv.m.Nodup := e2.of_map _
      refine List.Nodup.map_on ?_ this
      intro a ha b hb hab
      have := leafKey_inj (hkey _ (hmem a ha)).2.1 (hkey _ (hmem b hb)).2.1 hab
      exact List.inj_on_of_nodup_map e2 ha hb this)
    r hr p
  refine hg.1 [q] pkg.value ?_ hp
  rw [← e3] at hq
  exact List.mem_map.mpr ⟨(q, pkg), (assoc_eq_some e2).mp hq, rfl⟩

/-- **C44** is false of `Next`: its test is inverted. Right after `prepare` it reports the end at once and for ever although there
are keys, and panics if there are none. -/
theorem C44_next_fails (c : EnvCfg) (l : List (Str × ValPkg α κ)) {s : EnvProv α κ} (h : prepare c l = .ok s) :
    (s.keys ≠ [] → s.next = .ok (s, [], true)) ∧ (s.keys = [] → s.next = .error .panic) := by
  unfold prepare at h
  split at h
  · cases h
  · cases h
    unfold next
    constructor
    · intro hk
      rw [if_pos (List.length_pos_iff.mpr hk)]
    · intro hk
      simp only at hk
      simp [hk]

/-- **C44** `Count` is the number of accepted names, `Value` gives the value of the last one with the key. -/
theorem C44_count (c : EnvCfg) (l : List (Str × ValPkg α κ)) {s : EnvProv α κ} (h : prepare c l = .ok s) (hl : ∀ a ∈ l, c.keyFor a.1 ≠ .error .panic) :
    s.count = (l.filter (fun a => c.pre = [] || c.pre.isPrefixOf a.1)).length ∧
    ∀ q, s.value q = (lastWrite (accepted c l) q).map (·.value) := by
  obtain ⟨s', e, _, h2, _, h4, _⟩ := C44_table c l hl
  obtain rfl : s' = s := Except.ok.inj (e.symm.trans h)
  refine ⟨?_, fun q => by rw [value, h4]⟩
  rw [count, h2.length_eq, accepted, List.length_map, List.length_map]

/-- The option `WithPosition` of `Load` has no effect: the table is made before. -/
theorem C44_position_ignored (s : EnvProv α κ) (p : Str) : (s.withPosition p).read = s.read := rfl

end EnvProv

/-! ### Other observations -/

/-- ASCII case mapping. -/
def lowerAscii (s : Str) : Str := s.map Char.toLower
def upperAscii (s : Str) : Str := s.map Char.toUpper

/-- **C44** The options: of each kind the last one counts, and of its optional arguments the last; without any, all names are
accepted, in lower case, unstripped, with their underscores, not below a prefix. -/
theorem C44_options (up lo : Str → Str) (os : List EnvOpt) : EnvCfg.new up lo os =
    { pre := (os.filterMap (fun | .withPrefix p _ => some (up p) | _ => none)).getLastD []
      stripped := (os.flatMap (fun | .withPrefix _ l => l | _ => [])).getLastD []
      storePre := (os.filterMap (fun | .withStorePrefix p => some p | _ => none)).getLastD []
      cb := (os.filterMap (fun | .withKeyCB f => some f | _ => none)).getLastD none
      lower := (os.filterMap (fun | .withLowerCase b => some (b.getLastD true) | _ => none)).getLastD true
      dots := (os.filterMap (fun | .withUnderlineToDot b => some (b.getLastD true) | _ => none)).getLastD false
      lo := lo } := by
  suffices h : ∀ (os : List EnvOpt) (c : EnvCfg), os.foldl (EnvCfg.opt up) c =
      { pre := (os.filterMap (fun | .withPrefix p _ => some (up p) | _ => none)).getLastD c.pre
        stripped := (os.flatMap (fun | .withPrefix _ l => l | _ => [])).getLastD c.stripped
        storePre := (os.filterMap (fun | .withStorePrefix p => some p | _ => none)).getLastD c.storePre
        cb := (os.filterMap (fun | .withKeyCB f => some f | _ => none)).getLastD c.cb
        lower := (os.filterMap (fun | .withLowerCase b => some (b.getLastD true) | _ => none)).getLastD c.lower
        dots := (os.filterMap (fun | .withUnderlineToDot b => some (b.getLastD true) | _ => none)).getLastD c.dots
        lo := c.lo } from h os (EnvCfg.default lo)
  have app : ∀ (a b : List Str) (d : Str), (a ++ b).getLastD d = b.getLastD (a.getLastD d) := by
    intro a
    induction a with
    | nil => intro b d; rfl
    | cons x a ih =>
      intro b d
      rw [List.cons_append, List.getLastD_cons, ih, List.getLastD_cons]
  intro os
  induction os with
  | nil => intro c; rfl
  | cons o os ih =>
    intro c
    rw [List.foldl_cons, ih]
    cases o with
    | withPrefix q l =>
      rw [show (List.flatMap (fun | .withPrefix _ l => l | _ => []) (EnvOpt.withPrefix q l :: os) : List Str) =
        l ++ os.flatMap (fun | .withPrefix _ l => l | _ => []) from List.flatMap_cons .., app]
      simp only [EnvCfg.opt, EnvCfg.withPrefix, List.filterMap_cons, List.getLastD_cons]
    | _ => simp only [EnvCfg.opt, List.filterMap_cons, List.flatMap_cons, List.getLastD_cons, List.nil_append]

/-- **C44** `WithPosition` after the fact would put the keys below the new position: it changes the store prefix and nothing else. -/
theorem C44_position (s : EnvProv α κ) (p k : Str) :
    ((s.withPosition p).cfg.pre = s.cfg.pre ∧ (s.withPosition p).m = s.m ∧ (s.withPosition p).keys = s.keys ∧ (s.withPosition p).pos = s.pos) ∧
    (p ≠ [] → (s.withPosition p).cfg.keySpec k = p ++ ['.'] ++ ({ s.cfg with storePre := [] } : EnvCfg).keySpec k) :=
  ⟨⟨rfl, rfl, rfl, rfl⟩, fun h => if_pos h⟩

/-- The prefix is upper-cased, so that for flags, whose names are usually in lower case, `WithPrefix("app")` accepts nothing
spelled "app...". -/
theorem C44_flag_prefix_fails : ((EnvCfg.default lowerAscii).withPrefix upperAscii "app".toList []).keyFor "app-name".toList = .ok none := by
  decide +kernel

/-- A variable whose name is exactly the part to be stripped panics when underscores are to become dots. -/
theorem C44_strip_panics : ({ (EnvCfg.default lowerAscii).withPrefix upperAscii "app".toList ["app".toList] with dots := true } : EnvCfg).keyFor "APP".toList = .error .panic := by
  decide +kernel

/-- Names that share a key are counted twice by `Count`: it is 2, with one key in the table. -/
theorem C44_count_fails : ∃ s : EnvProv Str Nat, EnvProv.env (EnvCfg.default lowerAscii) (fun s => s) ["PATH=1".toList, "Path=2".toList] = .ok s ∧
    s.count = 2 ∧ s.m.length = 1 := by
  have hd : (match (EnvProv.env (EnvCfg.default lowerAscii) (fun s => s) ["PATH=1".toList, "Path=2".toList] : Go (EnvProv Str Nat)) with
    | .ok s => decide (s.count = 2 ∧ s.m.length = 1)
    | .error _ => false) = true := by decide +kernel
  split at hd
  · next s e => exact ⟨s, e, of_decide_eq_true hd⟩
  · cases hd

/-- The conditions of `C44_injective` are needed: names that differ in case only, and names with and without the part to be
stripped, share a key. -/
theorem C44_collision_fails : ∃ c : EnvCfg, c.cb = none ∧ c.keyFor "PATH".toList = c.keyFor "Path".toList ∧
    c.keyFor "APP_X".toList = c.keyFor "X".toList := by
  refine ⟨{ EnvCfg.default lowerAscii with stripped := "app_".toList }, rfl, ?_, ?_⟩ <;> decide +kernel

/-! ### Examples -/

def exEnv : EnvCfg := { (EnvCfg.default lowerAscii).withPrefix upperAscii "app_".toList ["app_".toList] with dots := true, storePre := "app".toList }

example : cutEq "APP_LOG_LEVEL=a=b".toList = some ("APP_LOG_LEVEL".toList, "a=b".toList) := by decide +kernel
example : exEnv.keyFor "APP_LOG_LEVEL".toList = .ok (some "app.log.level".toList) := by decide +kernel
example : exEnv.keyFor "APP_LOG__LEVEL_".toList = .ok (some "app.log_.level_".toList) := by decide +kernel
example : exEnv.keyFor "HOME".toList = .ok none := by decide +kernel
example {s : EnvProv Str Nat} (h : EnvProv.prepare exEnv [("APP_Z".toList, ⟨.atom "1".toList, [], [], .nil⟩), ("HOME".toList, ⟨.atom "x".toList, [], [], .nil⟩)] = .ok s) : s.count = 1 :=
  (EnvProv.C44_count _ _ h (by
    intro a ha
    simp only [List.mem_cons, List.not_mem_nil, or_false] at ha
    rcases ha with rfl | rfl
    · decide +kernel
    · decide +kernel)).1.trans (by decide +kernel)
example : (match (EnvProv.env exEnv (fun s => s) ["APP_Z=1".toList, "HOME=x".toList, "APP_LOG_LEVEL=2".toList] : Go (EnvProv Str Nat)) with
    | .ok s => s.keys
    | .error _ => []) = ["app.log.level".toList, "app.z".toList] := by decide +kernel
example : (EnvCfg.new upperAscii lowerAscii [.withPrefix "app_".toList ["x".toList, "app_".toList], .withUnderlineToDot [], .withStorePrefix "a".toList,
    .withStorePrefix "app".toList, .withLowerCase [false, true]]).keyFor "APP_LOG_LEVEL".toList = .ok (some "app.log.level".toList) := by decide +kernel

end Verif

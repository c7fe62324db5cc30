import Verif.Spec.Nested
import Mathlib.Tactic.ByContra
import Mathlib.Data.List.Induction
/-
`submap` and sequences of it, by lookups.
-/
namespace Verif
variable {α κ : Type}

theorem mget_mput (m : SMap α κ) (k k' : Str) (v : Any α κ) :
    mget (mput m k v) k' = if k = k' then some v else mget m k' := by
  induction m with
  | nil => simp [mput, mget, assoc]
  | cons a m ih =>
    obtain ⟨k1, v1⟩ := a
    simp only [mget] at ih
    by_cases h : k1 = k
    · subst h
      simp only [mput, if_true, mget, assoc]
      by_cases h' : k1 = k' <;> simp [h']
    · simp only [mput, h, if_false, mget, assoc, ih]
      by_cases h1 : k1 = k'
      · have : ¬ k = k' := fun e => h (h1.trans e.symm)
        simp [h1, this]
      · simp [h1]

theorem status_nil (ks : List Str) : status ([] : SMap α κ) ks = if ks = [] then some none else none := by
  cases ks <;> simp [status, mget, assoc]

theorem status_cons (m : SMap α κ) (k : Str) (ks : List Str) :
    status m (k :: ks) = (mget m k).bind (fun a => match a with
      | .map m2 => status m2 ks
      | x => if ks = [] then some (some x) else none) := by
  simp only [status]
  cases mget m k with
  | none => rfl
  | some a => cases a <;> rfl

/-- Some proper prefix of the keys already holds a value. -/
def Blocked (m : SMap α κ) (keys : List Str) : Prop :=
  ∃ p x, p <+: keys ∧ p ≠ keys ∧ status m p = some (some x)

theorem status_one {m : SMap α κ} {k : Str} {x : Any α κ} (h : mget m k = some x) (hx : x.isMap = false) :
    status m [k] = some (some x) := by
  rw [status_cons, h]
  cases x <;> simp_all [Any.isMap]

theorem status_val_cons {m : SMap α κ} {k : Str} {x : Any α κ} {ks : List Str} (h : mget m k = some x) (hx : x.isMap = false) :
    status m (k :: ks) = if ks = [] then some (some x) else none := by
  rw [status_cons, h]
  cases x <;> simp_all [Any.isMap]

/-- One `submap` step. -/
theorem status_submap (m : SMap α κ) (keys : List Str) (v : Any α κ) (hk : keys ≠ []) (hv : v.isMap = false) (ks : List Str) :
    (Blocked m keys → status (submap m keys v) ks = status m ks) ∧
    (¬ Blocked m keys →
      (ks = keys → status (submap m keys v) ks = some (some v)) ∧
      (ks ≠ keys → ks <+: keys → status (submap m keys v) ks = some none) ∧
      (ks ≠ keys → keys <+: ks → status (submap m keys v) ks = none) ∧
      (¬ ks <+: keys → ¬ keys <+: ks → status (submap m keys v) ks = status m ks)) := by
  induction keys generalizing m ks with
  | nil => exact absurd rfl hk
  | cons k rest ih =>
    cases rest with
    | nil =>
      have hnb : ¬ Blocked m [k] := by
        rintro ⟨p, x, h1, h2, h3⟩
        cases p with
        | nil => simp [status] at h3
        | cons a p =>
          have := List.IsPrefix.length_le h1
          simp at this
          subst this
          obtain ⟨rfl, _⟩ := List.cons_prefix_cons.mp h1
          exact h2 rfl
      refine ⟨fun h => absurd h hnb, fun _ => ?_⟩
      simp only [submap]
      cases ks with
      | nil => simp [status]
      | cons a as =>
        rw [status_cons, status_cons m, mget_mput]
        by_cases e : k = a
        · subst e
          simp only [if_true, Option.bind_some]
          cases as with
          | nil => cases v <;> simp_all [Any.isMap]
          | cons b bs => cases v <;> simp_all [Any.isMap]
        · have e' : ¬ a = k := fun x => e x.symm
          simp [e, e']
    | cons k2 rest =>
      simp only [submap]
      cases hm : mget m k with
      | none =>
        have hb : Blocked m (k :: k2 :: rest) → False := by
          rintro ⟨p, x, h1, h2, h3⟩
          cases p with
          | nil => simp [status] at h3
          | cons a p =>
            obtain ⟨rfl, _⟩ := List.cons_prefix_cons.mp h1
            rw [status_cons, hm] at h3
            simp at h3
        have hb0 : ¬ Blocked ([] : SMap α κ) (k2 :: rest) := by
          rintro ⟨p, x, h1, h2, h3⟩
          rw [status_nil] at h3
          split at h3 <;> simp at h3
        refine ⟨fun h => (hb h).elim, fun _ => ?_⟩
        cases ks with
        | nil => simp [status]
        | cons a as =>
          rw [status_cons, status_cons m, mget_mput]
          by_cases e : k = a
          · subst e
            have := (ih [] (by simp) as).2 hb0
            simp only [if_true, Option.bind_some, hm, Option.bind_none, List.cons.injEq, true_and, ne_eq,
              List.cons_prefix_cons]
            refine ⟨this.1, this.2.1, this.2.2.1, fun h1 h2 => ?_⟩
            rw [this.2.2.2 h1 h2, status_nil]
            rw [if_neg]
            rintro rfl
            simp at h1
          · have e' : ¬ a = k := fun x => e x.symm
            simp [e, e', List.cons_prefix_cons]
      | some x =>
        cases hx : x.isMap with
        | false =>
          have hb : Blocked m (k :: k2 :: rest) := ⟨[k], x, by simp, by simp, status_one hm hx⟩
          refine ⟨fun _ => ?_, fun h => absurd hb h⟩
          cases x <;> first | rfl | simp [Any.isMap] at hx
        | true =>
          obtain ⟨m2, rfl⟩ : ∃ m2, x = .map m2 := by cases x <;> simp_all [Any.isMap]
          have hb : Blocked m (k :: k2 :: rest) ↔ Blocked m2 (k2 :: rest) := by
            constructor
            · rintro ⟨p, y, h1, h2, h3⟩
              cases p with
              | nil => simp [status] at h3
              | cons a p =>
                obtain ⟨rfl, h1'⟩ := List.cons_prefix_cons.mp h1
                rw [status_cons, hm] at h3
                exact ⟨p, y, h1', fun e => h2 (by rw [e]), h3⟩
            · rintro ⟨p, y, h1, h2, h3⟩
              refine ⟨k :: p, y, List.cons_prefix_cons.mpr ⟨rfl, h1⟩, fun e => h2 (List.cons.inj e).2, ?_⟩
              rw [status_cons, hm]; exact h3
          rw [hb]
          cases ks with
          | nil => simp [status]
          | cons a as =>
            rw [status_cons, status_cons m, mget_mput]
            by_cases e : k = a
            · subst e
              have := ih m2 (by simp) as
              simp only [if_true, Option.bind_some, hm, List.cons.injEq, true_and, ne_eq, List.cons_prefix_cons]
              exact this
            · have e' : ¬ a = k := fun x => e x.symm
              simp [e, e', List.cons_prefix_cons]

/-- A sequence of `submap` steps. -/
def submaps (F : List (List Str × Any α κ)) : SMap α κ := F.foldl (fun out a => submap out a.1 a.2) []

/-- Looking up in the result depends only on the set of assignments. -/
structure NestSpec (F : List (List Str × Any α κ)) (m : SMap α κ) : Prop where
  leaf : ∀ ks x, status m ks = some (some x) ↔ (ks, x) ∈ F ∧ ∀ a ∈ F, a.1 <+: ks → a.1 = ks
  dir : ∀ ks, status m ks = some none ↔ (ks = [] ∨ ∃ a ∈ F, ks <+: a.1) ∧ ∀ a ∈ F, ¬ a.1 <+: ks

theorem exists_minimal {F : List (List Str × Any α κ)} {ks : List Str} (n : Nat) :
    ∀ a ∈ F, a.1.length ≤ n → a.1 <+: ks → ∃ b ∈ F, b.1 <+: ks ∧ b.1 <+: a.1 ∧ ∀ c ∈ F, c.1 <+: b.1 → c.1 = b.1 := by
  induction n with
  | zero =>
    intro a ha hl hp
    have h0 : a.1 = [] := List.length_eq_zero_iff.mp (by omega)
    exact ⟨a, ha, hp, by simp, fun c _ hc => by rw [h0] at hc ⊢; simpa using hc⟩
  | succ n ih =>
    intro a ha hl hp
    by_cases h : ∃ c ∈ F, c.1 <+: a.1 ∧ c.1 ≠ a.1
    · obtain ⟨c, hc, h1, h2⟩ := h
      have : c.1.length < a.1.length := by
        have := h1.length_le
        rcases Nat.lt_or_ge c.1.length a.1.length with h | h
        · exact h
        · exact absurd (h1.eq_of_length (by omega)) h2
      obtain ⟨b, hb, h3, h4, h5⟩ := ih c hc (by omega) (h1.trans hp)
      exact ⟨b, hb, h3, h4.trans h1, h5⟩
    · refine ⟨a, ha, hp, List.prefix_refl _, fun c hc h1 => ?_⟩
      by_contra h2
      exact h ⟨c, hc, h1, h2⟩

theorem prefix_antisymm {β : Type} {a b : List β} (h1 : a <+: b) (h2 : b <+: a) : a = b :=
  h1.eq_of_length (Nat.le_antisymm h1.length_le h2.length_le)

theorem submaps_spec (F : List (List Str × Any α κ)) (hne : ∀ a ∈ F, a.1 ≠ []) (hv : ∀ a ∈ F, a.2.isMap = false)
    (hnd : (F.map (·.1)).Nodup) : NestSpec F (submaps F) := by
  induction F using List.reverseRecOn with
  | nil =>
    refine ⟨fun ks x => ?_, fun ks => ?_⟩
    · simp only [submaps, List.foldl_nil, status_nil]; split <;> simp
    · simp only [submaps, List.foldl_nil, status_nil]; by_cases h : ks = [] <;> simp [h]
  | append_singleton F a ih =>
    obtain ⟨keys, v⟩ := a
    have hnd' : (F.map (·.1)).Nodup ∧ ∀ a ∈ F, a.1 ≠ keys := by
      simp only [List.map_append, List.map_cons, List.map_nil] at hnd
      rw [List.nodup_append] at hnd
      exact ⟨hnd.1, fun a ha => hnd.2.2 _ (List.mem_map_of_mem ha) keys (by simp)⟩
    have S := ih (fun a ha => hne a (by simp [ha])) (fun a ha => hv a (by simp [ha])) hnd'.1
    have hk : keys ≠ [] := hne (keys, v) (by simp)
    have hvv : v.isMap = false := hv (keys, v) (by simp)
    have e : submaps (F ++ [(keys, v)]) = submap (submaps F) keys v := by simp [submaps]
    rw [e]
    generalize submaps F = m at S
    have hblk : Blocked m keys ↔ ∃ a ∈ F, a.1 <+: keys := by
      constructor
      · rintro ⟨p, x, h1, _, h3⟩
        exact ⟨(p, x), ((S.leaf p x).mp h3).1, h1⟩
      · rintro ⟨a, ha, h1⟩
        obtain ⟨b, hb, h2, h3, h4⟩ := exists_minimal a.1.length a ha (Nat.le_refl _) h1
        exact ⟨b.1, b.2, h2, hnd'.2 b hb, (S.leaf b.1 b.2).mpr ⟨hb, h4⟩⟩
    have step := fun ks => status_submap m keys v hk hvv ks
    by_cases hb : Blocked m keys
    · obtain ⟨a0, ha0, hp0⟩ := hblk.mp hb
      refine ⟨fun ks x => ?_, fun ks => ?_⟩
      · rw [(step ks).1 hb, S.leaf]
        simp only [List.mem_append, List.mem_singleton, Prod.mk.injEq]
        constructor
        · rintro ⟨h1, h2⟩
          refine ⟨.inl h1, ?_⟩
          rintro a (ha | rfl) hp
          · exact h2 a ha hp
          · have h3 := h2 a0 ha0 (hp0.trans hp)
            rw [h3] at hp0
            exact prefix_antisymm hp hp0
        · rintro ⟨h1 | ⟨rfl, rfl⟩, h2⟩
          · exact ⟨h1, fun a ha hp => h2 a (.inl ha) hp⟩
          · exact absurd (h2 a0 (.inl ha0) hp0) (hnd'.2 a0 ha0)
      · rw [(step ks).1 hb, S.dir]
        simp only [List.mem_append, List.mem_singleton]
        constructor
        · rintro ⟨h1, h2⟩
          refine ⟨?_, ?_⟩
          · rcases h1 with h1 | ⟨a, ha, h1⟩
            · exact .inl h1
            · exact .inr ⟨a, .inl ha, h1⟩
          · rintro a (ha | rfl)
            · exact h2 a ha
            · exact fun hp => h2 a0 ha0 (hp0.trans hp)
        · rintro ⟨h1, h2⟩
          refine ⟨?_, fun a ha => h2 a (.inl ha)⟩
          rcases h1 with h1 | ⟨a, ha | rfl, h1⟩
          · exact .inl h1
          · exact .inr ⟨a, ha, h1⟩
          · have := h2 a0 (.inl ha0)
            rcases List.prefix_or_prefix_of_prefix hp0 h1 with h3 | h3
            · exact absurd h3 this
            · exact .inr ⟨a0, ha0, h3⟩
    · have hb' : ∀ a ∈ F, ¬ a.1 <+: keys := fun a ha hp => hb (hblk.mpr ⟨a, ha, hp⟩)
      refine ⟨fun ks x => ?_, fun ks => ?_⟩
      · obtain ⟨s1, s2, s3, s4⟩ := (step ks).2 hb
        simp only [List.mem_append, List.mem_singleton, Prod.mk.injEq]
        by_cases e1 : ks = keys
        · rw [s1 e1]
          subst e1
          constructor
          · intro h
            simp only [Option.some.injEq] at h
            subst h
            refine ⟨.inr ⟨rfl, rfl⟩, ?_⟩
            rintro a (ha | rfl) hp
            · exact absurd hp (hb' a ha)
            · rfl
          · rintro ⟨h1 | ⟨_, rfl⟩, _⟩
            · exact absurd (List.prefix_refl _) (hb' _ h1)
            · rfl
        · by_cases e2 : ks <+: keys
          · rw [s2 e1 e2]
            constructor
            · intro h; simp at h
            · rintro ⟨h1 | ⟨h1, _⟩, _⟩
              · exact absurd e2 (hb' _ h1)
              · exact absurd h1 e1
          · by_cases e3 : keys <+: ks
            · rw [s3 e1 e3]
              constructor
              · intro h; simp at h
              · rintro ⟨_, h2⟩
                exact absurd (h2 (keys, v) (.inr rfl) e3) (fun h => e1 h.symm)
            · rw [s4 e2 e3, S.leaf]
              constructor
              · rintro ⟨h1, h2⟩
                refine ⟨.inl h1, ?_⟩
                rintro a (ha | rfl) hp
                · exact h2 a ha hp
                · exact absurd hp e3
              · rintro ⟨h1 | ⟨h1, _⟩, h2⟩
                · exact ⟨h1, fun a ha => h2 a (.inl ha)⟩
                · exact absurd h1 e1
      · obtain ⟨s1, s2, s3, s4⟩ := (step ks).2 hb
        simp only [List.mem_append, List.mem_singleton]
        by_cases e1 : ks = keys
        · rw [s1 e1]
          constructor
          · intro h; simp at h
          · rintro ⟨_, h2⟩
            exact absurd (e1 ▸ List.prefix_refl ks) (h2 (keys, v) (.inr rfl))
        · by_cases e2 : ks <+: keys
          · rw [s2 e1 e2]
            simp only [true_iff]
            refine ⟨.inr ⟨(keys, v), .inr rfl, e2⟩, ?_⟩
            rintro a (ha | rfl) hp
            · exact hb' a ha (hp.trans e2)
            · exact e1 (prefix_antisymm e2 hp)
          · by_cases e3 : keys <+: ks
            · rw [s3 e1 e3]
              constructor
              · intro h; simp at h
              · rintro ⟨_, h2⟩
                exact absurd e3 (h2 (keys, v) (.inr rfl))
            · rw [s4 e2 e3, S.dir]
              constructor
              · rintro ⟨h1, h2⟩
                refine ⟨?_, ?_⟩
                · rcases h1 with h1 | ⟨a, ha, h1⟩
                  · exact .inl h1
                  · exact .inr ⟨a, .inl ha, h1⟩
                · rintro a (ha | rfl)
                  · exact h2 a ha
                  · exact e3
              · rintro ⟨h1, h2⟩
                refine ⟨?_, fun a ha => h2 a (.inl ha)⟩
                rcases h1 with h1 | ⟨a, ha | rfl, h1⟩
                · exact .inl h1
                · exact .inr ⟨a, ha, h1⟩
                · exact absurd h1 e2

theorem NestSpec.same {F F' : List (List Str × Any α κ)} {m m' : SMap α κ} (S : NestSpec F m) (S' : NestSpec F' m')
    (h : ∀ a, a ∈ F ↔ a ∈ F') : SameMap m m' := by
  intro ks
  have hl : ∀ x, status m ks = some (some x) ↔ status m' ks = some (some x) := by
    intro x; rw [S.leaf, S'.leaf]; simp only [h]
  have hd : status m ks = some none ↔ status m' ks = some none := by
    rw [S.dir, S'.dir]; simp only [h]
  cases h1 : status m ks with
  | none =>
    cases h2 : status m' ks with
    | none => rfl
    | some y =>
      cases y with
      | none => rw [hd.mpr h2] at h1; simp at h1
      | some x => rw [(hl x).mpr h2] at h1; simp at h1
  | some y =>
    cases y with
    | none => rw [hd.mp h1]
    | some x => rw [(hl x).mp h1]

end Verif

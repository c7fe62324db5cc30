import Verif.Model.Cvt
import Verif.Spec.Paths
import Verif.Lemmas.Nested
/-
Splitting by a string; `Deflate` by lookups.
-/
namespace Verif

/-! ## strings.Split -/

/-- `strings.Join(parts, sep)`. -/
def joinStr (sep : Str) : List Str → Str
  | [] => []
  | [w] => w
  | w :: ws => w ++ sep ++ joinStr sep ws

theorem joinStr_cons {sep w : Str} {ws : List Str} (h : ws ≠ []) : joinStr sep (w :: ws) = w ++ sep ++ joinStr sep ws := by
  cases ws with
  | nil => exact absurd rfl h
  | cons a as => rfl

theorem indexOf_some {sep s : Str} {i : Nat} (h : indexOf sep s = some i) :
    s = s.take i ++ sep ++ s.drop (i + sep.length) ∧ i + sep.length ≤ s.length := by
  induction s generalizing i with
  | nil =>
    simp only [indexOf] at h
    split at h
    · rename_i hs; cases h; simp [hs]
    · simp at h
  | cons c s ih =>
    simp only [indexOf] at h
    split at h
    · rename_i hp
      cases h
      obtain ⟨r, hr⟩ := List.isPrefixOf_iff_prefix.mp hp
      rw [← hr]
      simp
    · cases hi : indexOf sep s with
      | none => rw [hi] at h; simp at h
      | some j =>
        rw [hi] at h
        simp only [Option.map_some, Option.some.injEq] at h
        subst h
        obtain ⟨h1, h2⟩ := ih hi
        refine ⟨?_, by simp; omega⟩
        have e : j + 1 + sep.length = (j + sep.length) + 1 := by omega
        rw [e]
        simp only [List.take_succ_cons, List.drop_succ_cons, List.cons_append]
        rw [← h1]

theorem indexOf_none {sep s : Str} (h : indexOf sep s = none) : ¬ sep <:+: s := by
  induction s with
  | nil =>
    simp only [indexOf] at h
    split at h
    · simp at h
    · rename_i hs
      intro hi
      exact hs (by simpa using hi)
  | cons c s ih =>
    simp only [indexOf] at h
    split at h
    · simp at h
    · rename_i hp
      simp only [Option.map_eq_none_iff] at h
      rw [List.infix_cons_iff]
      rintro (h1 | h1)
      · exact hp (List.isPrefixOf_iff_prefix.mpr h1)
      · exact ih h h1

/-- The part before the first occurrence contains no occurrence, not even together with a proper part of
the separator. -/
theorem indexOf_first {sep s : Str} {i : Nat} (h : indexOf sep s = some i) (hs : sep ≠ []) : ¬ sep <:+: s.take i := by
  induction s generalizing i with
  | nil =>
    simp only [indexOf, hs, if_false] at h
    simp at h
  | cons c s ih =>
    simp only [indexOf] at h
    split at h
    · cases h
      simp [hs]
    · rename_i hp
      cases hi : indexOf sep s with
      | none => rw [hi] at h; simp at h
      | some j =>
        rw [hi] at h
        simp only [Option.map_some, Option.some.injEq] at h
        subst h
        simp only [List.take_succ_cons]
        rw [List.infix_cons_iff]
        rintro (h1 | h1)
        · refine hp (List.isPrefixOf_iff_prefix.mpr (h1.trans ?_))
          exact List.cons_prefix_cons.mpr ⟨rfl, List.take_prefix _ _⟩
        · exact ih hi h1

theorem splitFuel_ne (sep : Str) (n : Nat) (s : Str) : splitFuel sep n s ≠ [] := by
  cases n with
  | zero => simp [splitFuel]
  | succ n => simp only [splitFuel]; split <;> simp

theorem splitFuel_join (sep : Str) (n : Nat) : ∀ s, joinStr sep (splitFuel sep n s) = s := by
  induction n with
  | zero => intro s; rfl
  | succ n ih =>
    intro s
    simp only [splitFuel]
    split
    · rfl
    · rename_i i hi
      rw [joinStr_cons (splitFuel_ne _ _ _), ih]
      exact (indexOf_some hi).1.symm

theorem splitFuel_pieces {sep : Str} (hs : sep ≠ []) (n : Nat) : ∀ s : Str, s.length ≤ n → ∀ w ∈ splitFuel sep n s, ¬ sep <:+: w := by
  have hpos : 0 < sep.length := List.length_pos_iff.mpr hs
  induction n with
  | zero =>
    intro s hl w hw
    have : s = [] := List.length_eq_zero_iff.mp (by omega)
    subst this
    simp only [splitFuel, List.mem_singleton] at hw
    subst hw
    simp [hs]
  | succ n ih =>
    intro s hl w hw
    simp only [splitFuel] at hw
    split at hw
    · rename_i hi
      simp only [List.mem_singleton] at hw
      subst hw
      exact indexOf_none hi
    · rename_i i hi
      simp only [List.mem_cons] at hw
      rcases hw with rfl | hw
      · exact indexOf_first hi hs
      · refine ih _ ?_ w hw
        have := (indexOf_some hi).2
        simp; omega

theorem splitStr_ne {sep : Str} (hs : sep ≠ []) (s : Str) : splitStr sep s ≠ [] := by
  simp only [splitStr, hs, if_false]; exact splitFuel_ne _ _ _

theorem splitStr_join {sep : Str} (hs : sep ≠ []) (s : Str) : joinStr sep (splitStr sep s) = s := by
  simp only [splitStr, hs, if_false]; exact splitFuel_join _ _ _

theorem splitStr_pieces {sep : Str} (hs : sep ≠ []) (s : Str) : ∀ w ∈ splitStr sep s, ¬ sep <:+: w := by
  simp only [splitStr, hs, if_false]; exact splitFuel_pieces hs _ _ (Nat.le_refl _)

/-! ## Deflate -/

section
variable {α κ : Type}

theorem look_cons (m : SMap α κ) (k : Str) (ks : List Str) : look (.map m) (k :: ks) = (mget m k).bind (fun a => look a ks) := rfl

theorem look_empty (ks : List Str) : look (.map ([] : SMap α κ)) ks = if ks = [] then some (.map []) else none := by
  cases ks <;> simp [look, assoc]

/-- Only maps on the way. -/
def Clear (m : SMap α κ) (keys : List Str) : Prop :=
  ∀ p x, p <+: keys → p ≠ keys → look (.map m) p = some x → x.isMap = true

theorem deflate1_spec (m : SMap α κ) (keys : List Str) (v : Any α κ) (hk : keys ≠ []) (hc : Clear m keys) :
    (∀ r, look (.map (deflate1 m keys v)) (keys ++ r) = look v r) ∧
    (∀ ks, ks <+: keys → ks ≠ keys → ∃ m', look (.map (deflate1 m keys v)) ks = some (.map m')) ∧
    (∀ ks, ¬ ks <+: keys → ¬ keys <+: ks → look (.map (deflate1 m keys v)) ks = look (.map m) ks) := by
  induction keys generalizing m with
  | nil => exact absurd rfl hk
  | cons k rest ih =>
    cases rest with
    | nil =>
      simp only [deflate1]
      refine ⟨fun r => ?_, fun ks h1 h2 => ?_, fun ks h1 h2 => ?_⟩
      · rw [List.singleton_append, look_cons, mget_mput]; simp
      · cases ks with
        | nil => exact ⟨_, rfl⟩
        | cons a as =>
          exfalso
          obtain ⟨rfl, h3⟩ := List.cons_prefix_cons.mp h1
          simp at h3
          exact h2 (by rw [h3])
      · cases ks with
        | nil => simp at h1
        | cons a as =>
          have : ¬ k = a := by rintro rfl; simp at h2
          rw [look_cons, look_cons, mget_mput]; simp [this]
    | cons k2 rest =>
      have key : ∀ m2 : SMap α κ, Clear m2 (k2 :: rest) → (mget m k = none → m2 = []) →
          (∀ x, mget m k = some x → x = .map m2) →
          let res := mput m k (.map (deflate1 m2 (k2 :: rest) v))
          (∀ r, look (.map res) (k :: k2 :: rest ++ r) = look v r) ∧
          (∀ ks, ks <+: k :: k2 :: rest → ks ≠ k :: k2 :: rest → ∃ m', look (.map res) ks = some (.map m')) ∧
          (∀ ks, ¬ ks <+: k :: k2 :: rest → ¬ k :: k2 :: rest <+: ks → look (.map res) ks = look (.map m) ks) := by
        intro m2 hc2 hn hsome res
        obtain ⟨i1, i2, i3⟩ := ih m2 (by simp) hc2
        refine ⟨fun r => ?_, fun ks h1 h2 => ?_, fun ks h1 h2 => ?_⟩
        · simp only [res, List.cons_append, look_cons, mget_mput, if_true, Option.bind_some]
          exact i1 r
        · cases ks with
          | nil => exact ⟨_, rfl⟩
          | cons a as =>
            obtain ⟨rfl, h3⟩ := List.cons_prefix_cons.mp h1
            simp only [res, look_cons, mget_mput, if_true, Option.bind_some]
            exact i2 as h3 (fun e => h2 (by rw [e]))
        · cases ks with
          | nil => simp at h1
          | cons a as =>
            simp only [res, look_cons, mget_mput]
            by_cases e : k = a
            · subst e
              simp only [List.cons_prefix_cons, true_and] at h1 h2
              rw [if_pos rfl]
              simp only [Option.bind_some]
              rw [i3 as (by simpa [List.cons_prefix_cons] using h1) (by simpa [List.cons_prefix_cons] using h2)]
              cases hm : mget m k with
              | none =>
                rw [hn hm, look_empty, if_neg]
                · rfl
                · rintro rfl; simp at h1
              | some x => rw [hsome x hm]; rfl
            · simp [e]
      simp only [deflate1]
      cases hm : mget m k with
      | none =>
        refine key [] ?_ (fun _ => rfl) (by simp [hm])
        intro p x _ _ hp
        rw [look_empty] at hp
        split at hp
        · cases hp; rfl
        · simp at hp
      | some x =>
        have hx := hc [k] x (by simp) (by simp) (by rw [look_cons, hm]; rfl)
        obtain ⟨m2, rfl⟩ : ∃ m2, x = .map m2 := by cases x <;> simp_all [Any.isMap]
        refine key m2 ?_ (by simp [hm]) (fun y hy => by rw [hm] at hy; cases hy; rfl)
        intro p y h1 h2 h3
        exact hc (k :: p) y (List.cons_prefix_cons.mpr ⟨rfl, h1⟩) (fun e => h2 (List.cons.inj e).2)
          (by rw [look_cons, hm]; exact h3)

/-- Assignments whose key lists do not extend each other. -/
def PrefixFree (F : List (List Str × Any α κ)) : Prop :=
  F.Pairwise (fun a b => ¬ a.1 <+: b.1 ∧ ¬ b.1 <+: a.1)

structure DeflateSpec (F : List (List Str × Any α κ)) (m : SMap α κ) : Prop where
  value : ∀ a ∈ F, ∀ r, look (.map m) (a.1 ++ r) = look a.2 r
  inner : ∀ ks, (ks = [] ∨ ∃ a ∈ F, ks <+: a.1) → (∀ a ∈ F, ¬ a.1 <+: ks) → ∃ m', look (.map m) ks = some (.map m')
  other : ∀ ks, ks ≠ [] → (∀ a ∈ F, ¬ ks <+: a.1) → (∀ a ∈ F, ¬ a.1 <+: ks) → look (.map m) ks = none

theorem deflates_spec (F : List (List Str × Any α κ)) (hne : ∀ a ∈ F, a.1 ≠ []) (hpf : PrefixFree F) :
    DeflateSpec F (F.foldl (fun out a => deflate1 out a.1 a.2) []) := by
  induction F using List.reverseRecOn with
  | nil =>
    refine ⟨by simp, fun ks h _ => ?_, fun ks h _ _ => ?_⟩
    · simp only [List.not_mem_nil, false_and, exists_false, or_false] at h
      exact ⟨[], by rw [h]; rfl⟩
    · simp [look_empty, h]
  | append_singleton F a ih =>
    obtain ⟨keys, v⟩ := a
    have hpf' := List.pairwise_append.mp hpf
    have S := ih (fun a ha => hne a (by simp [ha])) hpf'.1
    have hap : ∀ a ∈ F, ¬ a.1 <+: keys ∧ ¬ keys <+: a.1 := fun a ha => hpf'.2.2 a ha (keys, v) (by simp)
    have hk : keys ≠ [] := hne (keys, v) (by simp)
    rw [List.foldl_append, List.foldl_cons, List.foldl_nil]
    generalize F.foldl (fun out a => deflate1 out a.1 a.2) [] = m at S
    have hclear : Clear m keys := by
      intro p x h1 h2 h3
      have hno : ∀ a ∈ F, ¬ a.1 <+: p := fun a ha h => (hap a ha).1 (h.trans h1)
      by_cases h4 : p = [] ∨ ∃ a ∈ F, p <+: a.1
      · obtain ⟨m', hm'⟩ := S.inner p h4 hno
        rw [hm'] at h3; cases h3; rfl
      · simp only [not_or, not_exists, not_and] at h4
        rw [S.other p h4.1 h4.2 hno] at h3
        simp at h3
    obtain ⟨d1, d2, d3⟩ := deflate1_spec m keys v hk hclear
    refine ⟨fun a ha r => ?_, fun ks h1 h2 => ?_, fun ks h0 h1 h2 => ?_⟩
    · simp only [List.mem_append, List.mem_singleton] at ha
      rcases ha with ha | rfl
      · rw [d3, S.value a ha r]
        · intro h; exact (hap a ha).1 ((List.prefix_append _ _).trans h)
        · intro h
          rcases List.prefix_or_prefix_of_prefix h (List.prefix_append a.1 r) with h | h
          · exact (hap a ha).2 h
          · exact (hap a ha).1 h
      · exact d1 r
    · have hne2 : ¬ keys <+: ks := h2 (keys, v) (by simp)
      by_cases h3 : ks <+: keys
      · exact d2 ks h3 (fun e => hne2 (e ▸ List.prefix_refl _))
      · rw [d3 ks h3 hne2]
        refine S.inner ks ?_ (fun a ha => h2 a (by simp [ha]))
        rcases h1 with h1 | ⟨a, ha, h1⟩
        · exact .inl h1
        · simp only [List.mem_append, List.mem_singleton] at ha
          rcases ha with ha | rfl
          · exact .inr ⟨a, ha, h1⟩
          · exact absurd h1 h3
    · have h3 : ¬ ks <+: keys := h1 (keys, v) (by simp)
      have h4 : ¬ keys <+: ks := h2 (keys, v) (by simp)
      rw [d3 ks h3 h4]
      exact S.other ks h0 (fun a ha => h1 a (by simp [ha])) (fun a ha => h2 a (by simp [ha]))

theorem deflate_eq {sep : Str} (hs : sep ≠ []) (m : SMap α κ) :
    deflate sep m = .ok ((m.map (fun a => (splitStr sep a.1, a.2))).foldl (fun out a => deflate1 out a.1 a.2) []) := by
  unfold deflate
  simp only [splitStr_ne hs, if_false]
  generalize ([] : SMap α κ) = acc
  induction m generalizing acc with
  | nil => rfl
  | cons a m ih => simp only [foldGo, ih, List.map_cons, List.foldl_cons]

end
end Verif

import Verif.Spec.MapRefs
import Verif.Lemmas.Export
/-
Maps in memory: what an export writes, and what it holds.
-/
namespace Verif
variable {α κ : Type}

theorem mput_self {m : SMap α κ} {k : Str} {x : Any α κ} (h : mget m k = some x) : mput m k x = m := by
  induction m with
  | nil => simp [mget, assoc] at h
  | cons a m ih =>
    obtain ⟨k', v'⟩ := a
    simp only [mget, assoc] at h ih
    simp only [mput]
    split
    · rename_i e
      rw [if_pos e] at h
      cases h; rw [e]
    · rename_i e
      rw [if_neg e] at h
      rw [ih h]

theorem mem_mput {m : SMap α κ} {k : Str} {x : Any α κ} {e : Str × Any α κ} (h : e ∈ mput m k x) : e ∈ m ∨ e = (k, x) := by
  induction m with
  | nil => simp only [mput, List.mem_singleton] at h; exact .inr h
  | cons a m ih =>
    obtain ⟨k', v'⟩ := a
    simp only [mput] at h
    split at h
    · rcases List.mem_cons.mp h with h | h
      · exact .inr h
      · exact .inl (List.mem_cons_of_mem _ h)
    · rcases List.mem_cons.mp h with h | h
      · exact .inl (h ▸ List.mem_cons_self)
      · exact (ih h).imp (List.mem_cons_of_mem _) id

theorem mem_of_mget {m : SMap α κ} {k : Str} {x : Any α κ} (h : mget m k = some x) : (k, x) ∈ m := by
  induction m with
  | nil => simp [mget, assoc] at h
  | cons a m ih =>
    obtain ⟨k', v'⟩ := a
    simp only [mget, assoc] at h ih
    split at h
    · rename_i e; cases h; simp [e]
    · exact List.mem_cons_of_mem _ (ih h)

namespace MapHeap

theorem follow_append (H : MapHeap α κ) (x : Any (RVal α) κ) (p q : List Str) :
    H.follow x (p ++ q) = (H.follow x p).bind (fun y => H.follow y q) := by
  induction p generalizing x with
  | nil => rfl
  | cons k p ih =>
    simp only [List.cons_append, follow]
    cases asRef x with
    | none => rfl
    | some r =>
      simp only []
      cases mget (H.maps r) k with
      | none => rfl
      | some y => exact ih y

theorem Closed.put {H : MapHeap α κ} (h : H.Closed) {r : Nat} {k : Str} {v : Any (RVal α) κ}
    (hv : ∀ r', asRef v = some r' → r' < H.next) : (H.put r k v).Closed := by
  intro i e hi he r' hr'
  simp only [MapHeap.put] at hi he ⊢
  split at he
  · rename_i e1; subst e1
    rcases mem_mput he with he | rfl
    · exact h _ e hi he r' hr'
    · exact hv r' hr'
  · exact h _ e hi he r' hr'

theorem Closed.alloc {H : MapHeap α κ} (h : H.Closed) {m : SMap (RVal α) κ}
    (hm : ∀ e ∈ m, ∀ r', asRef e.2 = some r' → r' < H.next) : (H.alloc m).Closed := by
  intro i e hi he r' hr'
  simp only [MapHeap.alloc] at hi he ⊢
  split at he
  · exact Nat.lt_succ_of_lt (hm e he r' hr')
  · exact Nat.lt_succ_of_lt (h _ e (by omega) he r' hr')

theorem Closed.submap {H : MapHeap α κ} (h : H.Closed) {r : Nat} {ks : List Str} {v : Any (RVal α) κ}
    (hv : ∀ r', asRef v = some r' → r' < H.next) : (H.submap r ks v).Closed ∧ H.next ≤ (H.submap r ks v).next := by
  induction ks generalizing H r with
  | nil => exact ⟨h, Nat.le_refl _⟩
  | cons k ks ih =>
    cases ks with
    | nil => exact ⟨h.put hv, Nat.le_refl _⟩
    | cons k2 ks =>
      simp only [MapHeap.submap]
      split
      · split
        · exact ih h hv
        · exact ⟨h, Nat.le_refl _⟩
      · have h0 : (H.alloc []).Closed := h.alloc (by simp)
        have h1 : ((H.alloc []).put r k (.atom (.ref H.next))).Closed := h0.put (by
          intro r' hr'
          simp only [asRef, Option.some.injEq] at hr'
          subst hr'
          exact Nat.lt_succ_self _)
        have h2 := ih (H := (H.alloc []).put r k (.atom (.ref H.next))) (r := H.next) h1
          (fun r' hr' => Nat.lt_succ_of_lt (hv r' hr'))
        exact ⟨h2.1, Nat.le_trans (Nat.le_succ _) h2.2⟩

theorem Closed.submaps {F : List (List Str × Any (RVal α) κ)} {H : MapHeap α κ} (h : H.Closed) {r : Nat}
    (hv : ∀ a ∈ F, ∀ r', asRef a.2 = some r' → r' < H.next) : (H.submaps r F).Closed ∧ H.next ≤ (H.submaps r F).next := by
  induction F generalizing H with
  | nil => exact ⟨h, Nat.le_refl _⟩
  | cons a F ih =>
    have h1 := h.submap (r := r) (ks := a.1) (hv a (by simp))
    have h2 := ih (H := H.submap r a.1 a.2) h1.1 (fun b hb r' hr' =>
      Nat.lt_of_lt_of_le (hv b (List.mem_cons_of_mem _ hb) r' hr') h1.2)
    exact ⟨h2.1, Nat.le_trans h1.2 h2.2⟩

/-- What old values lead to depends on old maps only. -/
theorem follow_old {H H' : MapHeap α κ} (hc : H.Closed) (he : ∀ r, r < H.next → H'.maps r = H.maps r) (ks : List Str)
    {x : Any (RVal α) κ} (hx : ∀ r, asRef x = some r → r < H.next) : H'.follow x ks = H.follow x ks := by
  induction ks generalizing x with
  | nil => rfl
  | cons k ks ih =>
    simp only [follow]
    cases hr : asRef x with
    | none => rfl
    | some r =>
      simp only []
      rw [he r (hx r hr)]
      cases hg : mget (H.maps r) k with
      | none => rfl
      | some y => exact ih (hc r (k, y) (hx r hr) (mem_of_mget hg))

mutual
/-- The value `x` in memory is `a`, the maps made since `lo` being those of `a`, at the addresses `S`. -/
def repV (H : MapHeap α κ) (lo : Nat) : Any (RVal α) κ → Any (RVal α) κ → List Nat → Prop
  | .map m, x, S => ∃ r S', x = .atom (.ref r) ∧ lo ≤ r ∧ S = r :: S' ∧ r ∉ S' ∧ repM H lo m (H.maps r) S'
  | .nil, x, S => x = .nil ∧ S = []
  | .atom a, x, S => x = .atom a ∧ (∀ r, a = .ref r → r < lo) ∧ S = []
  | .amap m, x, S => x = .amap m ∧ S = []
  | .list m, x, S => x = .list m ∧ S = []
  | .maps m, x, S => x = .maps m ∧ S = []
  | .amaps m, x, S => x = .amaps m ∧ S = []
  | .pkg m, x, S => x = .pkg m ∧ S = []
def repM (H : MapHeap α κ) (lo : Nat) : List (Str × Any (RVal α) κ) → SMap (RVal α) κ → List Nat → Prop
  | [], es, S => es = [] ∧ S = []
  | (k, a) :: m, es, S => ∃ x es' S1 S2, es = (k, x) :: es' ∧ repV H lo a x S1 ∧ repM H lo m es' S2 ∧ S = S1 ++ S2 ∧
      ∀ r ∈ S1, r ∉ S2
end

theorem repV_val {H : MapHeap α κ} {lo : Nat} {a x : Any (RVal α) κ} {S : List Nat} (ha : a.isMap = false) :
    repV H lo a x S ↔ x = a ∧ (∀ r, asRef a = some r → r < lo) ∧ S = [] := by
  cases a with
  | atom a => cases a <;> simp [repV, asRef]
  | map m => simp [Any.isMap] at ha
  | _ => simp [repV, asRef]

mutual
theorem repV_frame {H H' : MapHeap α κ} {lo : Nat} : (a : Any (RVal α) κ) → {x : Any (RVal α) κ} → {S : List Nat} →
    (∀ r ∈ S, H'.maps r = H.maps r) → repV H lo a x S → repV H' lo a x S
  | .map m, x, S, he, h => by
    simp only [repV] at h ⊢
    obtain ⟨r, S', rfl, h1, rfl, h2, h3⟩ := h
    refine ⟨r, S', rfl, h1, rfl, h2, ?_⟩
    rw [he r (by simp)]
    exact repM_frame m (fun r hr => he r (by simp [hr])) h3
  | .nil, x, S, he, h => by simpa only [repV] using h
  | .atom a, x, S, he, h => by simpa only [repV] using h
  | .amap m, x, S, he, h => by simpa only [repV] using h
  | .list m, x, S, he, h => by simpa only [repV] using h
  | .maps m, x, S, he, h => by simpa only [repV] using h
  | .amaps m, x, S, he, h => by simpa only [repV] using h
  | .pkg m, x, S, he, h => by simpa only [repV] using h
theorem repM_frame {H H' : MapHeap α κ} {lo : Nat} : (m : List (Str × Any (RVal α) κ)) → {es : SMap (RVal α) κ} → {S : List Nat} →
    (∀ r ∈ S, H'.maps r = H.maps r) → repM H lo m es S → repM H' lo m es S
  | [], es, S, he, h => by simpa only [repM] using h
  | (k, a) :: m, es, S, he, h => by
    simp only [repM] at h ⊢
    obtain ⟨x, es', S1, S2, rfl, h1, h2, rfl, h3⟩ := h
    exact ⟨x, es', S1, S2, rfl, repV_frame a (fun r hr => he r (by simp [hr])) h1,
      repM_frame m (fun r hr => he r (by simp [hr])) h2, rfl, h3⟩
end

/-- Taking a key out of a map and putting something in. -/
theorem repM_key {H : MapHeap α κ} {lo : Nat} (k : Str) {m : List (Str × Any (RVal α) κ)} {es : SMap (RVal α) κ} {S : List Nat}
    (h : repM H lo m es S) : ∃ Sk Sr : List Nat, (∀ r, r ∈ S ↔ r ∈ Sk ∨ r ∈ Sr) ∧ (∀ r ∈ Sk, r ∉ Sr) ∧
      (mget m k = none → mget es k = none) ∧
      (∀ a, mget m k = some a → ∃ x, mget es k = some x ∧ repV H lo a x Sk) ∧
      ∀ H' a' x' S2, (∀ r ∈ Sr, H'.maps r = H.maps r) → repV H' lo a' x' S2 → (∀ r ∈ S2, r ∉ Sr) →
        ∃ S3, (∀ r, r ∈ S3 ↔ r ∈ S2 ∨ r ∈ Sr) ∧ repM H' lo (mput m k a') (mput es k x') S3 := by
  induction m generalizing es S with
  | nil =>
    simp only [repM] at h
    obtain ⟨rfl, rfl⟩ := h
    refine ⟨[], [], by simp, by simp, fun _ => rfl, fun a ha => by simp [mget, assoc] at ha, ?_⟩
    intro H' a' x' S2 _ h2 _
    refine ⟨S2, by simp, ?_⟩
    simp only [mput, repM]
    exact ⟨x', [], S2, [], rfl, h2, ⟨rfl, rfl⟩, by simp, by simp⟩
  | cons e m ih =>
    obtain ⟨k1, a⟩ := e
    simp only [repM] at h
    obtain ⟨x, es', S1, S2, rfl, h1, h2, rfl, h3⟩ := h
    by_cases e : k1 = k
    · refine ⟨S1, S2, by simp, h3, fun hn => ?_, fun b hb => ?_, ?_⟩
      · simp only [mget, assoc, if_pos e] at hn; cases hn
      · simp only [mget, assoc, if_pos e] at hb ⊢; cases hb; exact ⟨x, rfl, h1⟩
      · intro H' a' x' S' hf hr hd
        refine ⟨S' ++ S2, by simp, ?_⟩
        simp only [mput, if_pos e, repM]
        exact ⟨x', es', S', S2, rfl, hr, repM_frame m hf h2, rfl, hd⟩
    · obtain ⟨Sk, Sr, g1, g2, g3, g4, g5⟩ := ih h2
      refine ⟨Sk, S1 ++ Sr, ?_, ?_, fun hn => ?_, fun b hb => ?_, ?_⟩
      · intro r
        simp only [List.mem_append, g1]
        constructor <;> rintro (h | h | h) <;> simp [h]
      · intro r hr hm
        rcases List.mem_append.mp hm with hm | hm
        · exact h3 r hm ((g1 r).mpr (.inl hr))
        · exact g2 r hr hm
      · simp only [mget, assoc, if_neg e] at hn ⊢; exact g3 hn
      · simp only [mget, assoc, if_neg e] at hb ⊢; exact g4 b hb
      · intro H' a' x' S' hf hr hd
        obtain ⟨S3, q1, q2⟩ := g5 H' a' x' S' (fun r hr => hf r (by simp [hr])) hr (fun r hr h => hd r hr (by simp [h]))
        refine ⟨S1 ++ S3, ?_, ?_⟩
        · intro r
          simp only [List.mem_append, q1]
          constructor <;> rintro (h | h | h) <;> simp [h]
        · simp only [mput, if_neg e, repM]
          refine ⟨x, mput es' k x', S1, S3, rfl, repV_frame a (fun r hr => hf r (by simp [hr])) h1, q2, rfl, ?_⟩
          intro r hr hm
          rcases (q1 r).mp hm with hm | hm
          · exact hd r hm (by simp [hr])
          · exact h3 r hr ((g1 r).mpr (.inr hm))

/-- One `submap` writes to maps that are part of the export only. -/
theorem submap_rep {lo : Nat} {v : Any (RVal α) κ} (hv : v.isMap = false) (hlo : ∀ r, asRef v = some r → r < lo)
    (keys : List Str) {H : MapHeap α κ} {r : Nat} {m : SMap (RVal α) κ} {S : List Nat}
    (h : repM H lo m (H.maps r) S) (hr : r ∉ S) (hl : lo ≤ r) (hn : ∀ s ∈ r :: S, s < H.next)
    (hb : ∀ p a, p <+: keys → p ≠ keys → status m p = some (some a) → asRef a = none) :
    ∃ S', repM (H.submap r keys v) lo (Verif.submap m keys v) ((H.submap r keys v).maps r) S' ∧ r ∉ S' ∧
      (∀ s ∈ S', s ∈ S ∨ H.next ≤ s) ∧ (∀ s ∈ r :: S', s < (H.submap r keys v).next) ∧ H.next ≤ (H.submap r keys v).next ∧
      ∀ s, s < H.next → s ≠ r → s ∉ S → (H.submap r keys v).maps s = H.maps s := by
  induction keys generalizing H r m S with
  | nil =>
    simp only [MapHeap.submap, Verif.submap]
    exact ⟨S, h, hr, fun s hs => .inl hs, hn, Nat.le_refl _, fun _ _ _ _ => by trivial⟩
  | cons k rest ih =>
    obtain ⟨Sk, Sr, g1, g2, g3, g4, g5⟩ := repM_key k h
    have hrSr : r ∉ Sr := fun hm => hr ((g1 r).mpr (.inr hm))
    have hrSk : r ∉ Sk := fun hm => hr ((g1 r).mpr (.inl hm))
    cases rest with
    | nil =>
      obtain ⟨S3, q1, q2⟩ := g5 (H.put r k v) v v [] (fun s hs => by
        have : s ≠ r := fun e => hrSr (e ▸ hs)
        simp [MapHeap.put, this]) ((repV_val hv).mpr ⟨rfl, hlo, rfl⟩) (by simp)
      simp only [MapHeap.submap, Verif.submap]
      refine ⟨S3, by simpa [MapHeap.put] using q2, ?_, ?_, ?_, Nat.le_refl _, ?_⟩
      · intro hm; rcases (q1 r).mp hm with hm | hm
        · simp at hm
        · exact hrSr hm
      · intro s hs; rcases (q1 s).mp hs with hm | hm
        · simp at hm
        · exact .inl ((g1 s).mpr (.inr hm))
      · intro s hs
        rcases List.mem_cons.mp hs with rfl | hs
        · exact hn s (by simp)
        · rcases (q1 s).mp hs with hm | hm
          · simp at hm
          · exact hn s (List.mem_cons_of_mem _ ((g1 s).mpr (.inr hm)))
      · intro s _ hs _; simp [MapHeap.put, hs]
    | cons k2 rest =>
      simp only [MapHeap.submap, Verif.submap]
      cases hm : mget m k with
      | none =>
        rw [g3 hm]
        simp only []
        have hne : r ≠ H.next := Nat.ne_of_lt (hn r (by simp))
        generalize hH0 : (H.alloc []).put r k (.atom (.ref H.next)) = H0
        have e0 : H0.maps H.next = [] := by rw [← hH0]; simp [MapHeap.put, MapHeap.alloc, hne.symm]
        have e1 : H0.maps r = mput (H.maps r) k (.atom (.ref H.next)) := by
          rw [← hH0]; simp [MapHeap.put, MapHeap.alloc, hne]
        have e2 : H0.next = H.next + 1 := by rw [← hH0]; rfl
        have e3 : ∀ s, s < H.next → s ≠ r → H0.maps s = H.maps s := by
          intro s h1 h2
          rw [← hH0]
          have h1 : s ≠ H.next := Nat.ne_of_lt h1
          simp [MapHeap.put, MapHeap.alloc, h1, h2]
        have hlo' : lo ≤ H.next := Nat.le_of_lt (Nat.lt_of_le_of_lt hl (hn r (by simp)))
        obtain ⟨S', p1, p2, p3, p4, p5, p6⟩ := ih (H := H0) (r := H.next) (m := []) (S := [])
          (by rw [e0]; simp [repM]) (by simp) hlo' (by simp [e2])
          (fun p a _ _ h => by rw [status_nil] at h; split at h <;> simp at h)
        generalize hH1 : H0.submap H.next (k2 :: rest) v = H1 at *
        have f1 : ∀ s, s < H.next → s ≠ r → H1.maps s = H.maps s := fun s h1 h2 => by
          rw [p6 s (by omega) (Nat.ne_of_lt h1) (by simp), e3 s h1 h2]
        have f2 : H1.maps r = mput (H.maps r) k (.atom (.ref H.next)) := by
          rw [p6 r (by have := hn r (by simp); omega) hne (by simp), e1]
        have hge : ∀ s ∈ H.next :: S', H.next ≤ s := fun s hs => by
          rcases List.mem_cons.mp hs with rfl | hs
          · exact Nat.le_refl _
          · rcases p3 s hs with h | h
            · simp at h
            · omega
        obtain ⟨S3, q1, q2⟩ := g5 H1 (.map (Verif.submap [] (k2 :: rest) v)) (.atom (.ref H.next)) (H.next :: S')
          (fun s hs => f1 s (hn s (List.mem_cons_of_mem _ ((g1 s).mpr (.inr hs)))) (fun e => hrSr (e ▸ hs)))
          (by simp only [repV]; exact ⟨H.next, S', rfl, hlo', rfl, p2, p1⟩)
          (fun s hs hm' => by
            have := hge s hs
            have := hn s (List.mem_cons_of_mem _ ((g1 s).mpr (.inr hm')))
            omega)
        refine ⟨S3, by rw [f2]; exact q2, ?_, ?_, ?_, by omega, ?_⟩
        · intro hm'
          rcases (q1 r).mp hm' with h' | h'
          · have := hge r h'; have := hn r (by simp); omega
          · exact hrSr h'
        · intro s hs
          rcases (q1 s).mp hs with h' | h'
          · exact .inr (hge s h')
          · exact .inl ((g1 s).mpr (.inr h'))
        · intro s hs
          rcases List.mem_cons.mp hs with rfl | hs
          · have := hn s (by simp); omega
          · rcases (q1 s).mp hs with h' | h'
            · exact p4 s h'
            · have := hn s (List.mem_cons_of_mem _ ((g1 s).mpr (.inr h'))); omega
        · intro s h1 h2 _; exact f1 s h1 h2
      | some a =>
        obtain ⟨x, hx, hrep⟩ := g4 a hm
        rw [hx]
        simp only []
        cases ha : a.isMap with
        | false =>
          obtain ⟨rfl, _, _⟩ := (repV_val ha).mp hrep
          have := hb [k] x (by simp) (by simp) (status_one hm ha)
          rw [this]
          have e' : Verif.submap m (k :: k2 :: rest) v = m := by
            simp only [Verif.submap, hm]; cases x <;> first | rfl | simp [Any.isMap] at ha
          simp only [Verif.submap, hm] at e'
          simp only []
          refine ⟨S, ?_, hr, fun s hs => .inl hs, hn, Nat.le_refl _, fun _ _ _ _ => by trivial⟩
          convert h using 1
        | true =>
          obtain ⟨m2, rfl⟩ : ∃ m2, a = .map m2 := by cases a <;> simp_all [Any.isMap]
          simp only [repV] at hrep
          obtain ⟨b, S1, rfl, hb1, hSk, hb2, hb3⟩ := hrep
          simp only [asRef]
          have hbr : ∀ s ∈ b :: S1, s ∈ S := fun s hs => (g1 s).mpr (.inl (hSk ▸ hs))
          obtain ⟨S', p1, p2, p3, p4, p5, p6⟩ := ih (H := H) (r := b) (m := m2) (S := S1) hb3 hb2 hb1
            (fun s hs => hn s (List.mem_cons_of_mem _ (hbr s hs)))
            (fun p a h1 h2 h3 => hb (k :: p) a (List.cons_prefix_cons.mpr ⟨rfl, h1⟩) (fun e => h2 (List.cons.inj e).2)
              (by rw [status_cons, hm]; exact h3))
          generalize hH1 : H.submap b (k2 :: rest) v = H1 at *
          have f1 : ∀ s, s < H.next → s ∉ Sk → H1.maps s = H.maps s := fun s h1 h2 =>
            p6 s h1 (fun e => h2 (by simp [hSk, e])) (fun h => h2 (by simp [hSk, h]))
          have f2 : H1.maps r = H.maps r := f1 r (hn r (by simp)) hrSk
          obtain ⟨S3, q1, q2⟩ := g5 H1 (.map (Verif.submap m2 (k2 :: rest) v)) (.atom (.ref b)) (b :: S')
            (fun s hs => f1 s (hn s (List.mem_cons_of_mem _ ((g1 s).mpr (.inr hs)))) (fun h => g2 s h hs))
            (by simp only [repV]; exact ⟨b, S', rfl, hb1, rfl, p2, p1⟩)
            (fun s hs hm' => by
              rcases List.mem_cons.mp hs with rfl | hs
              · exact g2 s (by simp [hSk]) hm'
              · rcases p3 s hs with h | h
                · exact g2 s (by simp [hSk, h]) hm'
                · have := hn s (List.mem_cons_of_mem _ ((g1 s).mpr (.inr hm'))); omega)
          rw [mput_self hx] at q2
          refine ⟨S3, by rw [f2]; exact q2, ?_, ?_, ?_, p5, ?_⟩
          · intro hm'
            rcases (q1 r).mp hm' with h' | h'
            · rcases List.mem_cons.mp h' with rfl | h'
              · exact hr (hbr r (by simp))
              · rcases p3 r h' with h | h
                · exact hr (hbr r (by simp [h]))
                · have := hn r (by simp); omega
            · exact hrSr h'
          · intro s hs
            rcases (q1 s).mp hs with h' | h'
            · rcases List.mem_cons.mp h' with rfl | h'
              · exact .inl (hbr s (by simp))
              · exact (p3 s h').imp (fun h => hbr s (by simp [h])) id
            · exact .inl ((g1 s).mpr (.inr h'))
          · intro s hs
            rcases List.mem_cons.mp hs with rfl | hs
            · have := hn s (by simp); omega
            · rcases (q1 s).mp hs with h' | h'
              · exact p4 s h'
              · have := hn s (List.mem_cons_of_mem _ ((g1 s).mpr (.inr h'))); omega
          · intro s h1 h2 h3; exact f1 s h1 (fun h => h3 ((g1 s).mpr (.inl h)))

/-- Values in a nested map come from the assignments. -/
theorem status_submaps {F : List (List Str × Any α κ)} (hv : ∀ a ∈ F, a.2.isMap = false) {ks : List Str} {x : Any α κ}
    (h : status (Verif.submaps F) ks = some (some x)) : (ks, x) ∈ F := by
  induction F using List.reverseRecOn with
  | nil => simp only [Verif.submaps, List.foldl_nil, status_nil] at h; split at h <;> simp at h
  | append_singleton F a ih =>
    obtain ⟨keys, v⟩ := a
    have e : Verif.submaps (F ++ [(keys, v)]) = Verif.submap (Verif.submaps F) keys v := by simp [Verif.submaps]
    rw [e] at h
    have ih' := ih (fun a ha => hv a (by simp [ha]))
    by_cases hk : keys = []
    · subst hk
      exact List.mem_append_left _ (ih' h)
    · have st := status_submap (Verif.submaps F) keys v hk (hv (keys, v) (by simp)) ks
      by_cases hb : Blocked (Verif.submaps F) keys
      · rw [st.1 hb] at h; exact List.mem_append_left _ (ih' h)
      · obtain ⟨s1, s2, s3, s4⟩ := st.2 hb
        by_cases e1 : ks = keys
        · rw [s1 e1] at h; cases h; subst e1; simp
        · by_cases e2 : ks <+: keys
          · rw [s2 e1 e2] at h; simp at h
          · by_cases e3 : keys <+: ks
            · rw [s3 e1 e3] at h; simp at h
            · rw [s4 e2 e3] at h; exact List.mem_append_left _ (ih' h)

/-- No map lies above another assignment. -/
def Sep (F : List (List Str × Any (RVal α) κ)) : Prop :=
  ∀ a ∈ F, ∀ b ∈ F, (asRef a.2).isSome = true → a.1 <+: b.1 → a.1 = b.1

/-- A sequence of assignments into a new map: what it holds, and that nothing else is written. -/
theorem submaps_rep {H : MapHeap α κ} (F : List (List Str × Any (RVal α) κ)) (hv : ∀ a ∈ F, a.2.isMap = false)
    (hlo : ∀ a ∈ F, ∀ r, asRef a.2 = some r → r < H.next) (hs : Sep F) :
    ∃ S, repM ((H.alloc []).submaps H.next F) H.next (Verif.submaps F) (((H.alloc []).submaps H.next F).maps H.next) S ∧
      H.next ∉ S ∧ (∀ s ∈ S, H.next ≤ s) ∧ (∀ s ∈ H.next :: S, s < ((H.alloc []).submaps H.next F).next) ∧
      H.next < ((H.alloc []).submaps H.next F).next ∧
      ∀ s, s < H.next → ((H.alloc []).submaps H.next F).maps s = H.maps s := by
  induction F using List.reverseRecOn with
  | nil =>
    refine ⟨[], ?_, by simp, by simp, ?_, Nat.lt_succ_self _, ?_⟩
    · simp [MapHeap.submaps, Verif.submaps, MapHeap.alloc, repM]
    · simp [MapHeap.submaps, MapHeap.alloc]
    · intro s h; have : s ≠ H.next := Nat.ne_of_lt h; simp [MapHeap.submaps, MapHeap.alloc, this]
  | append_singleton F a ih =>
    have hv' : ∀ a ∈ F, a.2.isMap = false := fun a ha => hv a (by simp [ha])
    obtain ⟨S, p1, p2, p3, p4, p5, p6⟩ := ih hv' (fun a ha => hlo a (by simp [ha]))
      (fun a ha b hb => hs a (by simp [ha]) b (by simp [hb]))
    have e : (H.alloc []).submaps H.next (F ++ [a]) = ((H.alloc []).submaps H.next F).submap H.next a.1 a.2 := by
      simp [MapHeap.submaps]
    have e' : Verif.submaps (F ++ [a]) = Verif.submap (Verif.submaps F) a.1 a.2 := by simp [Verif.submaps]
    rw [e, e']
    generalize (H.alloc []).submaps H.next F = H1 at *
    obtain ⟨S', q1, q2, q3, q4, q5, q6⟩ := submap_rep (hv a (by simp)) (hlo a (by simp)) a.1 p1 p2 (Nat.le_refl _) p4
      (fun p x h1 h2 h3 => by
        have := hs (p, x) (List.mem_append_left _ (status_submaps hv' h3)) a (by simp)
        cases hx : asRef x with
        | none => rfl
        | some r => exact absurd (this (by simp [hx]) h1) h2)
    refine ⟨S', q1, q2, ?_, q4, by omega, ?_⟩
    · intro s hs
      rcases q3 s hs with h | h
      · exact p3 s h
      · omega
    · intro s h
      rw [q6 s (by omega) (Nat.ne_of_lt h) (fun hm => by have := p3 s hm; omega), p6 s h]

theorem split_eq (d : Char) (H : MapHeap α κ) (m : SMap (RVal α) κ) :
    H.split d m = (H.alloc []).submaps H.next (m.map (fun a => (splitOn d a.1, a.2))) := by
  unfold MapHeap.split MapHeap.submaps
  rw [List.foldl_map]
  congr 1
  funext H' a
  split
  · rfl
  · rename_i h
    rw [splitOn_self h]; rfl

/-- Reading the map in memory. -/
theorem repM_follow {H : MapHeap α κ} {lo : Nat} (ks : List Str) {m : SMap (RVal α) κ} {r : Nat} {S : List Nat}
    (h : repM H lo m (H.maps r) S) (hl : lo ≤ r) :
    (∀ x, status m ks = some (some x) → H.follow (.atom (.ref r)) ks = some x) ∧
    (status m ks = some none → ∃ r', lo ≤ r' ∧ H.follow (.atom (.ref r)) ks = some (.atom (.ref r'))) ∧
    (status m ks = none → H.follow (.atom (.ref r)) ks = none ∨
      ∃ p q x, ks = p ++ q ∧ status m p = some (some x) ∧ H.follow (.atom (.ref r)) ks = H.follow x q) := by
  induction ks generalizing m r S with
  | nil =>
    refine ⟨fun x hx => by simp [status] at hx, fun _ => ⟨r, hl, rfl⟩, fun h => by simp [status] at h⟩
  | cons k ks ih =>
    obtain ⟨Sk, Sr, -, -, g3, g4, -⟩ := repM_key k h
    simp only [follow, asRef]
    cases hm : mget m k with
    | none =>
      rw [status_cons, hm, g3 hm]
      refine ⟨fun x hx => by simp at hx, fun hx => by simp at hx, fun _ => .inl rfl⟩
    | some a =>
      obtain ⟨x, hx, hrep⟩ := g4 a hm
      rw [hx]
      cases ha : a.isMap with
      | false =>
        obtain ⟨rfl, -, -⟩ := (repV_val ha).mp hrep
        rw [status_val_cons hm ha]
        by_cases hk : ks = []
        · subst hk
          simp [follow]
        · rw [if_neg hk]
          refine ⟨fun x hx => by simp at hx, fun hx => by simp at hx, fun _ => .inr ⟨[k], ks, x, rfl, status_one hm ha, rfl⟩⟩
      | true =>
        obtain ⟨m2, rfl⟩ : ∃ m2, a = .map m2 := by cases a <;> simp_all [Any.isMap]
        simp only [repV] at hrep
        obtain ⟨b, S1, rfl, hb1, -, -, hb3⟩ := hrep
        obtain ⟨i1, i2, i3⟩ := ih hb3 hb1
        rw [status_cons, hm]
        refine ⟨i1, i2, fun hn => (i3 hn).imp id ?_⟩
        rintro ⟨p, q, y, rfl, h1, h2⟩
        exact ⟨k :: p, q, y, rfl, by rw [status_cons, hm]; exact h1, h2⟩

end MapHeap
end Verif

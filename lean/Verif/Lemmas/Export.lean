import Verif.Lemmas.Nested
import Verif.Lemmas.Runes
import Verif.Lemmas.Join
import Verif.Spec.Leaves
import Verif.Props.Entry
import Mathlib.Data.List.Nodup
/-
What `GetM` collects, and the leaves of nested maps by lookups.
-/
namespace Verif
variable {α κ : Type}

theorem mput_fresh {m : SMap α κ} {k : Str} {v : Any α κ} (h : ∀ a ∈ m, a.1 ≠ k) : mput m k v = m ++ [(k, v)] := by
  induction m with
  | nil => rfl
  | cons a m ih =>
    obtain ⟨k', v'⟩ := a
    have h1 : k' ≠ k := h (k', v') (by simp)
    simp only [mput, h1, if_false, ih (fun a ha => h a (by simp [ha])), List.cons_append]

/-- The entry of a visited node in the exported map. -/
def selected (d : Char) (o : MOpts α κ) (a : Str × Node (Any α κ)) : Option (Str × Any α κ) :=
  if a.2.core.leaf && !endsW d a.1 && o.pass a.2 then some (a.1, a.2.core.data) else none

theorem eq_nil_of_utf8 {s : Str} (h : utf8 s = []) : s = [] := utf8_inj (h.trans utf8_nil.symm)

theorem exportable_eq {d : Char} {q : Str} {n : Node (Any α κ)} (h : n.core.leaf = true → n.core.pathS = utf8 q) :
    exportable d n = (n.core.leaf && !endsW d q) := by
  unfold exportable Core.isBranch
  cases hl : n.core.leaf with
  | false => simp
  | true =>
    rw [h hl]
    have h1 : simpleEndsWith (utf8 q) d = endsW d q := by simp [simpleEndsWith, endsW, runes_utf8]
    rw [h1]
    by_cases e : q = []
    · subst e; simp [endsW, utf8_nil]
    · have : utf8 q ≠ [] := fun x => e (eq_nil_of_utf8 x)
      simp [this]

theorem collect_step {L : List (Str × Node (Any α κ))} {acc : SMap α κ} {a : Str × Node (Any α κ)}
    (hacc : ∀ b ∈ acc, b.1 ∉ (a :: L).map (·.1)) (hnd : ((a :: L).map (·.1)).Nodup) (x : Any α κ) :
    ∀ b ∈ acc ++ [(a.1, x)], b.1 ∉ L.map (·.1) := by
  simp only [List.map_cons, List.nodup_cons] at hnd
  intro b hb
  simp only [List.mem_append, List.mem_singleton] at hb
  rcases hb with hb | rfl
  · have := hacc b hb
    simp only [List.map_cons, List.mem_cons, not_or] at this
    exact this.2
  · exact hnd.1

theorem foldGo_rootStep {d : Char} {o : MOpts α κ} (L : List (Str × Node (Any α κ))) (acc : SMap α κ)
    (hp : ∀ a ∈ L, a.2.core.leaf = true → a.2.core.pathS = utf8 a.1)
    (hnd : (L.map (·.1)).Nodup) (hacc : ∀ b ∈ acc, b.1 ∉ L.map (·.1)) :
    foldGo (rootStep d 0 o) acc (L.map (·.2)) = .ok (acc ++ L.filterMap (selected d o)) := by
  induction L generalizing acc with
  | nil => simp [foldGo]
  | cons a L ih =>
    have hnd' := (List.nodup_cons.mp (by simpa using hnd : (a.1 :: L.map (·.1)).Nodup))
    have hp' := fun b hb => hp b (List.mem_cons_of_mem a hb)
    have e := exportable_eq (d := d) (hp a (by simp))
    simp only [List.map_cons, foldGo]
    have hacc' : ∀ b ∈ acc, b.1 ∉ L.map (·.1) := fun b hb h => hacc b hb (by simp only [List.map_cons]; exact List.mem_cons_of_mem _ h)
    by_cases h : selected d o a = none
    · have : rootStep d 0 o acc a.2 = .ok acc := by
        unfold rootStep
        rw [e]
        unfold selected at h
        by_cases h1 : (a.2.core.leaf && !endsW d a.1) = true
        · have h2 : o.pass a.2 = false := by simpa [h1] using h
          simp [h1, h2]
        · simp [h1]
      rw [this]
      simp only
      rw [ih acc hp' hnd'.2 hacc']
      simp [h]
    · have hs : (a.2.core.leaf && !endsW d a.1 && o.pass a.2) = true := by
        by_contra hc
        exact h (by unfold selected; rw [if_neg hc])
      have hs' : selected d o a = some (a.1, a.2.core.data) := by unfold selected; rw [if_pos hs]
      simp only [Bool.and_eq_true] at hs
      have : rootStep d 0 o acc a.2 = .ok (acc ++ [(a.1, a.2.core.data)]) := by
        unfold rootStep
        rw [e]
        simp only [hs.1, hs.2, hp a (by simp) hs.1.1, runes_utf8]
        rw [mput_fresh]
        · simp
        · intro b hb he
          exact hacc b hb (by simp [he])
      rw [this]
      simp only
      rw [ih _ hp' hnd'.2 (collect_step hacc hnd _)]
      simp [hs']

theorem collectR {d : Char} (L : List (Str × Node (Any α κ))) (acc : SMap α κ)
    (hp : ∀ a ∈ L, a.2.core.leaf = true → a.2.core.pathS = utf8 a.1)
    (hnd : (L.map (·.1)).Nodup) (hacc : ∀ b ∈ acc, b.1 ∉ L.map (·.1)) :
    (L.map (·.2)).foldl (fun ret n => if exportable d n then mput ret (runes n.core.pathS) n.core.data else ret) acc =
      acc ++ L.filterMap (selected d MOpts.default) := by
  induction L generalizing acc with
  | nil => simp
  | cons a L ih =>
    have hnd' := (List.nodup_cons.mp (by simpa using hnd : (a.1 :: L.map (·.1)).Nodup))
    have hp' := fun b hb => hp b (List.mem_cons_of_mem a hb)
    have e := exportable_eq (d := d) (hp a (by simp))
    simp only [List.map_cons, List.foldl_cons]
    have hacc' : ∀ b ∈ acc, b.1 ∉ L.map (·.1) := fun b hb h => hacc b hb (by simp only [List.map_cons]; exact List.mem_cons_of_mem _ h)
    by_cases h1 : (a.2.core.leaf && !endsW d a.1) = true
    · have hs' : selected d MOpts.default a = some (a.1, a.2.core.data) := by
        unfold selected; rw [if_pos]; simp [h1, MOpts.pass, MOpts.default]
      have hl : a.2.core.leaf = true := by simp only [Bool.and_eq_true] at h1; exact h1.1
      rw [e, if_pos h1, hp a (by simp) hl, runes_utf8, mput_fresh, ih _ hp' hnd'.2 (collect_step hacc hnd _)]
      · simp [hs']
      · intro b hb he
        exact hacc b hb (by simp [he])
    · have hs' : selected d MOpts.default a = none := by
        unfold selected; rw [if_neg]; simp [h1]
      rw [e, if_neg h1, ih _ hp' hnd'.2 hacc']
      simp [hs']

theorem splitCompactKeys_eq (d : Char) (m : SMap α κ) :
    splitCompactKeys d m = submaps (m.map (fun a => (splitOn d a.1, a.2))) := by
  unfold splitCompactKeys submaps
  rw [List.foldl_map]
  congr 1
  funext out a
  split
  · rfl
  · rename_i h
    rw [splitOn_self h]; rfl

theorem splitOn_inj {d : Char} {s t : Str} (h : splitOn d s = splitOn d t) : s = t := by
  rw [← joinWith_splitOn d s, h, joinWith_splitOn]

theorem splitCompactKeys_spec (d : Char) (m : SMap α κ) (hnd : (m.map (·.1)).Nodup) (hv : ∀ a ∈ m, a.2.isMap = false) :
    NestSpec (m.map (fun a => (splitOn d a.1, a.2))) (splitCompactKeys d m) := by
  rw [splitCompactKeys_eq]
  refine submaps_spec _ ?_ ?_ ?_
  · intro a ha
    obtain ⟨b, _, rfl⟩ := List.mem_map.mp ha
    exact splitOn_ne_nil d b.1
  · intro a ha
    obtain ⟨b, hb, rfl⟩ := List.mem_map.mp ha
    exact hv b hb
  · rw [List.map_map]
    have : ((fun a : List Str × Any α κ => a.1) ∘ fun a : Str × Any α κ => (splitOn d a.1, a.2)) =
        splitOn d ∘ (·.1) := rfl
    rw [this, ← List.map_map]
    exact List.Nodup.map (fun s t h => splitOn_inj h) hnd

/-! ## Leaves by lookups -/

mutual
/-- The keys of every map are distinct (always so for Go maps). -/
def Any.uniq : Any α κ → Prop
  | .map m => uniqM m
  | _ => True
def uniqM : List (Str × Any α κ) → Prop
  | [] => True
  | (k, v) :: m => (∀ a ∈ m, a.1 ≠ k) ∧ v.uniq ∧ uniqM m
end

theorem mget_none {m : SMap α κ} {k : Str} (h : ∀ a ∈ m, a.1 ≠ k) : mget m k = none := by
  induction m with
  | nil => rfl
  | cons a m ih =>
    obtain ⟨k', v'⟩ := a
    have h1 : k' ≠ k := h (k', v') (by simp)
    simp only [mget] at ih
    simp only [mget, assoc, h1, if_false]
    exact ih (fun a ha => h a (by simp [ha]))

theorem status_cons_eq (m : SMap α κ) (k : Str) (v : Any α κ) (ks : List Str) :
    status ((k, v) :: m) (k :: ks) = match v with
      | .map m2 => status m2 ks
      | x => if ks = [] then some (some x) else none := by
  rw [status_cons]
  simp only [mget, assoc, if_true, Option.bind_some]
  cases v <;> rfl

theorem status_cons_ne (m : SMap α κ) {k k' : Str} (h : k ≠ k') (v : Any α κ) (ks : List Str) :
    status ((k, v) :: m) (k' :: ks) = status m (k' :: ks) := by
  rw [status_cons, status_cons]
  simp [mget, assoc, h]

theorem leaves_simple_nomap {fl : Bool} {str : κ → Str} {v : Any α κ} (h : leaves fl str v = [([], v)]) : v.isMap = false := by
  cases v with
  | map m =>
    exfalso
    have : ∀ a ∈ leavesM fl str m, a.1 ≠ [] := by
      intro a ha
      cases m with
      | nil => simp [leavesM] at ha
      | cons b m =>
        clear h
        revert a
        generalize (b :: m) = mm
        induction mm with
        | nil => intro a ha; simp [leavesM] at ha
        | cons b mm ih =>
          intro a ha
          simp only [leavesM, List.mem_append, under, List.mem_map] at ha
          rcases ha with ⟨c, _, rfl⟩ | ha
          · simp
          · exact ih a ha
    simp only [leaves] at h
    exact this ([], .map m) (by rw [h]; simp) rfl
  | _ => rfl

mutual
theorem leaves_status (fl : Bool) (str : κ → Str) : (v : Any α κ) → v.uniq →
    (∀ m, v = .map m → (∀ ks y, status m ks = some (some y) → leaves fl str y = [([], y)]) →
      (∀ l x, (l, x) ∈ leavesM fl str m ↔ status m l = some (some x)) ∧ ((leavesM fl str m).map (·.1)).Nodup)
  | .map m, hu, m', e, hs => by
    cases e
    exact leavesM_status fl str m hu hs
  | .nil, _, _, e, _ => by cases e
  | .atom _, _, _, e, _ => by cases e
  | .amap _, _, _, e, _ => by cases e
  | .list _, _, _, e, _ => by cases e
  | .maps _, _, _, e, _ => by cases e
  | .amaps _, _, _, e, _ => by cases e
  | .pkg _, _, _, e, _ => by cases e
theorem leavesM_status (fl : Bool) (str : κ → Str) : (m : List (Str × Any α κ)) → uniqM m →
    (∀ ks y, status m ks = some (some y) → leaves fl str y = [([], y)]) →
    (∀ l x, (l, x) ∈ leavesM fl str m ↔ status m l = some (some x)) ∧ ((leavesM fl str m).map (·.1)).Nodup
  | [], _, _ => by simp [leavesM, status_nil]
  | (k, v) :: m, hu, hs => by
    simp only [uniqM] at hu
    obtain ⟨hk, hu1, hu2⟩ := hu
    have hm0 : ∀ ks, status m (k :: ks) = none := fun ks => by rw [status_cons, mget_none hk]; rfl
    have ihm := leavesM_status fl str m hu2 (fun ks y h => by
      cases ks with
      | nil => simp [status] at h
      | cons k' ks =>
        by_cases e : k = k'
        · subst e; rw [hm0] at h; simp at h
        · exact hs (k' :: ks) y (by rw [status_cons_ne m e]; exact h))
    have hv : (∀ l x, (l, x) ∈ leaves fl str v ↔ status ((k, v) :: m) (k :: l) = some (some x)) ∧
        ((leaves fl str v).map (·.1)).Nodup := by
      by_cases hmap : v.isMap = true
      · obtain ⟨m2, rfl⟩ : ∃ m2, v = .map m2 := by cases v <;> simp_all [Any.isMap]
        have := leaves_status fl str (.map m2) hu1 m2 rfl (fun ks y h => hs (k :: ks) y (by rw [status_cons_eq]; exact h))
        simpa only [leaves, status_cons_eq] using this
      · have hmap : v.isMap = false := by simpa using hmap
        have e1 : ∀ ks, status ((k, v) :: m) (k :: ks) = if ks = [] then some (some v) else none := fun ks =>
          status_val_cons (by simp [mget, assoc]) hmap
        have e2 := hs [k] v (by rw [e1]; simp)
        rw [e2]
        refine ⟨fun l x => ?_, by simp⟩
        rw [e1]
        by_cases h : l = []
        · subst h; simp only [List.mem_singleton, Prod.mk.injEq, true_and, if_true, Option.some.injEq]; exact eq_comm
        · simp [h]
    refine ⟨fun l x => ?_, ?_⟩
    · simp only [leavesM, List.mem_append, ihm.1, under, List.mem_map, Prod.mk.injEq]
      cases l with
      | nil => simp [status]
      | cons k' l =>
        by_cases e : k = k'
        · subst e
          rw [hm0, ← hv.1]
          constructor
          · rintro (⟨a, ha, h1, h2⟩ | h)
            · obtain ⟨-, h1⟩ := List.cons.inj h1
              rw [← h1, ← h2]; exact ha
            · simp at h
          · intro h; exact .inl ⟨(l, x), h, rfl, rfl⟩
        · rw [status_cons_ne m e]
          constructor
          · rintro (⟨a, ha, h1, h2⟩ | h)
            · exact absurd (List.cons.inj h1).1 e
            · exact h
          · exact .inr
    · simp only [leavesM, List.map_append, under, List.map_map]
      rw [List.nodup_append]
      refine ⟨?_, ihm.2, ?_⟩
      · have : ((fun a : List Str × Any α κ => a.1) ∘ fun a : List Str × Any α κ => (k :: a.1, a.2)) =
            (fun l => k :: l) ∘ (·.1) := rfl
        rw [this, ← List.map_map]
        exact List.Nodup.map (fun _ _ h => (List.cons.inj h).2) hv.2
      · intro a ha b hb e
        obtain ⟨c, _, rfl⟩ := List.mem_map.mp ha
        obtain ⟨c', hc', rfl⟩ := List.mem_map.mp hb
        have h1 := (ihm.1 c'.1 c'.2).mp hc'
        rw [← e] at h1
        simp only [Function.comp] at h1
        rw [hm0] at h1
        simp at h1
end

mutual
theorem keysNE_status (str : κ → Str) : (v : Any α κ) → v.uniq → ∀ m, v = .map m →
    (∀ ks st, status m ks = some st → [] ∉ ks) → (∀ ks y, status m ks = some (some y) → keysNE str y) → keysNEM str m
  | .map m, hu, m', e, h1, h2 => by
    cases e
    exact keysNEM_status str m hu h1 h2
  | .nil, _, _, e, _, _ => by cases e
  | .atom _, _, _, e, _, _ => by cases e
  | .amap _, _, _, e, _, _ => by cases e
  | .list _, _, _, e, _, _ => by cases e
  | .maps _, _, _, e, _, _ => by cases e
  | .amaps _, _, _, e, _, _ => by cases e
  | .pkg _, _, _, e, _, _ => by cases e
theorem keysNEM_status (str : κ → Str) : (m : List (Str × Any α κ)) → uniqM m →
    (∀ ks st, status m ks = some st → [] ∉ ks) → (∀ ks y, status m ks = some (some y) → keysNE str y) → keysNEM str m
  | [], _, _, _ => trivial
  | (k, v) :: m, hu, h1, h2 => by
    simp only [uniqM] at hu
    obtain ⟨hk, hu1, hu2⟩ := hu
    have hm0 : ∀ ks, status m (k :: ks) = none := fun ks => by rw [status_cons, mget_none hk]; rfl
    have hsub : ∀ ks st, ks ≠ [] → status m ks = some st → status ((k, v) :: m) ks = some st := by
      intro ks st hne h
      cases ks with
      | nil => exact absurd rfl hne
      | cons k' ks =>
        by_cases e : k = k'
        · subst e; rw [hm0] at h; simp at h
        · rw [status_cons_ne m e]; exact h
    refine ⟨?_, ?_, keysNEM_status str m hu2 ?_ ?_⟩
    · have : ∃ st, status ((k, v) :: m) [k] = some st := by
        by_cases hmap : v.isMap = true
        · obtain ⟨m2, rfl⟩ : ∃ m2, v = .map m2 := by cases v <;> simp_all [Any.isMap]
          exact ⟨none, by rw [status_cons_eq]; rfl⟩
        · exact ⟨some v, status_one (by simp [mget, assoc]) (by simpa using hmap)⟩
      obtain ⟨st, hst⟩ := this
      have := h1 _ _ hst
      simp only [List.mem_singleton] at this
      exact fun e => this e.symm
    · by_cases hmap : v.isMap = true
      · obtain ⟨m2, rfl⟩ : ∃ m2, v = .map m2 := by cases v <;> simp_all [Any.isMap]
        exact keysNE_status str (.map m2) hu1 m2 rfl
          (fun ks st h => fun h' => h1 (k :: ks) st (by rw [status_cons_eq]; exact h) (List.mem_cons_of_mem _ h'))
          (fun ks y h => h2 (k :: ks) y (by rw [status_cons_eq]; exact h))
      · exact h2 [k] v (status_one (by simp [mget, assoc]) (by simpa using hmap))
    · intro ks st h
      by_cases e : ks = []
      · simp [e]
      · exact h1 ks st (hsub ks st e h)
    · intro ks y h
      by_cases e : ks = []
      · subst e; simp [status] at h
      · exact h2 ks y (hsub ks _ e h)
end

end Verif

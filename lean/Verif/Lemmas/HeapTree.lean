import Verif.Lemmas.Heap
import Verif.Lemmas.Modify
/-
Removal, copying, reading and walking in memory.
-/
namespace Verif
namespace Node
variable {α : Type}

theorem recsL_ids_of (k : List (Node α)) (h : ∀ n ∈ k, (recs n).map (·.id) = n.ids) :
    (recsL k).map (·.id) = k.flatMap ids := by
  induction k with
  | nil => rfl
  | cons a as ih =>
    rw [recsL, List.map_append, h a (by simp), ih (fun n hn => h n (by simp [hn]))]; rfl

theorem recs_ids (n : Node α) : (recs n).map (·.id) = n.ids := by
  induction n using ind with
  | h i p c k ih => rw [recs, List.map_cons, recsL_ids_of k ih, ids_mk]

theorem recsL_ids (k : List (Node α)) : (recsL k).map (·.id) = k.flatMap ids :=
  recsL_ids_of k (fun n _ => recs_ids n)

theorem inj_of_nodup {β γ : Type} {f : β → γ} {l : List β} (h : (l.map f).Nodup) {a b : β} (ha : a ∈ l) (hb : b ∈ l)
    (e : f a = f b) : a = b := by
  induction l with
  | nil => cases ha
  | cons x xs ih =>
    rw [List.map_cons, List.nodup_cons] at h
    rcases List.mem_cons.mp ha with h1 | h1 <;> rcases List.mem_cons.mp hb with h2 | h2
    · rw [h1, h2]
    · exact absurd (List.mem_map.mpr ⟨b, h2, by rw [← e, h1]⟩) h.1
    · exact absurd (List.mem_map.mpr ⟨a, h1, by rw [e, h2]⟩) h.1
    · exact ih h.2 h1 h2

/-- A node of a tree and the rest of the tree. -/
theorem modify_recs (pid : Nat) (n : Node α) (hn : n.ids.Nodup) (hm : pid ∈ n.ids) :
    ∃ m Q, m.id = pid ∧ m ∈ walk n ∧ (recs n).Perm (recs m ++ Q) ∧
      ∀ g : Node α → Node α, (g m).id = m.id →
        (recs (modify pid g n)).Perm (recs (g m) ++ Q) ∧ (modify pid g n).id = n.id := by
  induction n using ind with
  | h i p c k ih =>
    rw [ids_mk] at hn hm
    have hn' := List.nodup_cons.mp hn
    by_cases hi : i = pid
    · subst hi
      have hk : k.map (fun d => d) = k := List.map_id k
      refine ⟨mk i p c k, [], rfl, by simp [walk], by simp, fun g hg => ?_⟩
      have : ∀ g : Node α → Node α, modifyL i g k = k := by
        intro g
        rw [modifyL_eq]
        conv => rhs; rw [← hk]
        refine List.map_congr_left (fun d hd => modify_absent (fun h => hn'.1 ?_))
        exact List.mem_flatMap.mpr ⟨d, hd, h⟩
      simp only [modify, this, if_true, List.append_nil, hg, id_mk, and_true]
      exact List.Perm.refl _
    · have hm' : pid ∈ k.flatMap ids := by
        rcases List.mem_cons.mp hm with h | h
        · exact absurd h.symm hi
        · exact h
      obtain ⟨d, hd, hpd⟩ := List.mem_flatMap.mp hm'
      obtain ⟨pre, post, rfl⟩ := List.append_of_mem hd
      have hnd := hn'.2
      rw [List.flatMap_append, List.flatMap_cons, List.nodup_append, List.nodup_append] at hnd
      obtain ⟨m, Q, h1, h2, h3, h4⟩ := ih d hd hnd.2.1.1 hpd
      have hpre : ∀ x ∈ pre, pid ∉ x.ids := fun x hx h =>
        hnd.2.2 pid (List.mem_flatMap.mpr ⟨x, hx, h⟩) pid (List.mem_append_left _ hpd) rfl
      have hpost : ∀ x ∈ post, pid ∉ x.ids := fun x hx h =>
        hnd.2.1.2.2 pid hpd pid (List.mem_flatMap.mpr ⟨x, hx, h⟩) rfl
      have habs : ∀ (g : Node α → Node α) (l : List (Node α)), (∀ x ∈ l, pid ∉ x.ids) → l.map (modify pid g) = l := by
        intro g l hl
        conv => rhs; rw [← List.map_id l]
        exact List.map_congr_left (fun x hx => modify_absent (hl x hx))
      refine ⟨m, ⟨i, p, c, (pre ++ d :: post).map id⟩ :: (recsL pre ++ recsL post ++ Q), h1, ?_, ?_, fun g hg => ?_⟩
      · rw [walk]
        refine List.mem_cons_of_mem _ ?_
        have : ∀ (a b : List (Node α)), walkL (a ++ b) = walkL a ++ walkL b := by
          intro a b
          induction a with
          | nil => simp [walkL]
          | cons x xs ihx => simp [walkL, ihx]
        rw [this, walkL]; simp [h2]
      · rw [recs, recsL_append, recsL]
        refine List.Perm.trans ?_ List.perm_middle.symm
        refine List.Perm.cons _ ?_
        refine ((h3.append_right _).append_left _).trans ?_
        rw [List.append_assoc]
        refine (List.perm_append_comm_assoc ..).trans (List.Perm.append_left _ ?_)
        rw [List.append_assoc]
        exact List.Perm.append_left _ List.perm_append_comm
      · obtain ⟨h5, h6⟩ := h4 g hg
        have e : modifyL pid g (pre ++ d :: post) = pre ++ modify pid g d :: post := by
          rw [modifyL_eq, List.map_append, List.map_cons, habs g pre hpre, habs g post hpost]
        have hi' : ¬ i = pid := hi
        simp only [modify, e, hi', if_false, id_mk, and_true]
        rw [recs, recsL_append, recsL]
        have e2 : (pre ++ modify pid g d :: post).map id = (pre ++ d :: post).map id := by simp [h6]
        rw [e2]
        refine List.Perm.trans ?_ List.perm_middle.symm
        refine List.Perm.cons _ ?_
        refine ((h5.append_right _).append_left _).trans ?_
        rw [List.append_assoc]
        refine (List.perm_append_comm_assoc ..).trans (List.Perm.append_left _ ?_)
        rw [List.append_assoc]
        exact List.Perm.append_left _ List.perm_append_comm

end Node

namespace Heap
variable {α : Type} [Inhabited α]

omit [Inhabited α] in
theorem Holds.ids {H : Heap α} {n : Node α} {R : List (Rec α)} (h : Holds H (n.recs ++ R)) :
    n.ids.Nodup ∧ (∀ r ∈ R, r.id ∉ n.ids) := by
  have := h.nodup
  rw [List.map_append, Node.recs_ids, List.nodup_append] at this
  exact ⟨this.1, fun r hr hm => this.2.2 _ hm _ (List.mem_map_of_mem hr) rfl⟩

omit [Inhabited α] in
/-- Removal in memory: the subtree is taken out of the tree and stays in memory as it was. -/
theorem remove_holds {H : Heap α} {n : Node α} {R : List (Rec α)} (h : Holds H (n.recs ++ R)) {p d : Node α}
    (hp : p ∈ n.walk) (hd : d ∈ p.kids) :
    Holds (H.remove p.id d.id) ((n.modify p.id (Node.removeChild d.id)).recs ++ (d.recs ++ R)) ∧
      Keeps (d.recs ++ R) H (H.remove p.id d.id) := by
  obtain ⟨hnd, _⟩ := h.ids
  have hwalk : n.walk.map (·.id) = n.ids := by
    rw [← Node.recs_ids, Node.recs_walk, List.map_map]; rfl
  have hpm : p.id ∈ n.ids := by rw [← hwalk]; exact List.mem_map_of_mem hp
  obtain ⟨m, Q, h1, h2, h3, h4⟩ := Node.modify_recs p.id n hnd hpm
  have hmp : m = p := by
    have hnd' := hnd
    rw [← hwalk] at hnd'
    exact Node.inj_of_nodup hnd' h2 hp h1
  subst hmp
  obtain ⟨pre, post, hk⟩ := List.append_of_mem hd
  -- the identities of the children
  have hndk : (m.kids.map Node.id).Nodup := by
    have hh : (m.recs.map (·.id)).Nodup := by
      have := (h3.map (·.id)).nodup_iff.mp (by rw [Node.recs_ids]; exact hnd)
      rw [List.map_append, List.nodup_append] at this
      exact this.1
    rw [Node.recs_eq, List.map_cons, List.nodup_cons, Node.recsL_ids] at hh
    refine List.Sublist.nodup ?_ hh.2
    generalize m.kids = k
    induction k with
    | nil => exact List.Sublist.slnil
    | cons a as ih =>
      rw [List.map_cons, List.flatMap_cons, Node.ids_cons, List.cons_append]
      exact List.Sublist.cons_cons _ (ih.trans (List.sublist_append_right _ _))
  have hpre : ∀ x ∈ pre, x.id ≠ d.id := by
    intro x hx e
    rw [hk, List.map_append, List.nodup_append] at hndk
    exact hndk.2.2 _ (List.mem_map_of_mem hx) _ (by simp) e
  have hidx : (m.kids.map Node.id).findIdx? (fun j => j = d.id) = some pre.length := by
    rw [List.findIdx?_eq_some_iff_getElem]
    refine ⟨by rw [hk]; simp, by simp [hk], ?_⟩
    intro j hj
    have hj' : j < pre.length := hj
    have hg : (m.kids.map Node.id)[j]'(by rw [hk]; simp; omega) = (pre[j]).id := by
      simp only [hk, List.map_append, List.map_cons]
      rw [List.getElem_append_left (by simpa using hj'), List.getElem_map]
    rw [hg]
    simpa using hpre _ (List.getElem_mem hj')
  have herase : (Node.removeChild d.id m).kids = pre ++ post := by
    obtain ⟨i, q, c, k⟩ := m
    simp only [Node.kids_mk] at hk
    subst hk
    simp only [Node.removeChild, Node.kids_mk]
    rw [List.eraseP_append_right]
    · simp
    · intro x hx; simpa using hpre x hx
  have hrid : (Node.removeChild d.id m).id = m.id := by cases m; rfl
  have hrp : (Node.removeChild d.id m).path = m.path := by cases m; rfl
  have hrc : (Node.removeChild d.id m).core = m.core := by cases m; rfl
  obtain ⟨h5, _⟩ := h4 (Node.removeChild d.id) hrid
  have hL : (n.recs ++ R).Perm (m.toRec :: (Node.recsL pre ++ Node.recsL post ++ Q ++ (d.recs ++ R))) := by
    refine (h3.append_right R).trans ?_
    rw [Node.recs_eq, hk, Node.recsL_append, Node.recsL]
    simp only [List.cons_append, List.append_assoc]
    refine List.Perm.cons _ (List.Perm.append_left _ ?_)
    refine (List.perm_append_comm_assoc ..).trans (List.Perm.append_left _ ?_)
    exact List.perm_append_comm_assoc ..
  obtain ⟨h6, h7⟩ := (h.perm hL).remove d.id pre.length hidx
  refine ⟨h6.perm ?_, h7.mono (fun r hr => List.mem_append_right _ hr)⟩
  refine List.Perm.trans ?_ (h5.append_right _).symm
  rw [Node.recs_eq (Node.removeChild d.id m), herase, Node.recsL_append]
  have e : (Node.removeChild d.id m).toRec = { m.toRec with kids := m.toRec.kids.eraseIdx pre.length } := by
    simp only [Node.toRec, hrid, hrp, hrc, herase]
    congr 1
    rw [hk, List.map_append, List.map_append, List.map_cons]
    rw [List.eraseIdx_append_of_length_le (by simp)]
    simp
  rw [e]
  simp only [List.cons_append, List.append_assoc]
  exact List.Perm.refl _

omit [Inhabited α] in
/-- A write to a node of the tree, or to one elsewhere. -/
theorem write_holds {H : Heap α} {n : Node α} {R : List (Rec α)} (h : Holds H (n.recs ++ R)) (i : Nat)
    (f : Core α → Core α) (hi : ∀ r ∈ R, r.id ≠ i) :
    Holds (H.write i f) ((n.modify i (Node.mapCore f)).recs ++ R) ∧ Keeps R H (H.write i f) := by
  obtain ⟨hnd, _⟩ := h.ids
  have hk : Keeps R H (H.write i f) :=
    ⟨fun q hq => by simp [write, setCell, hi q hq], fun _ _ => rfl, Nat.le_refl _⟩
  refine ⟨?_, hk⟩
  by_cases hm : i ∈ n.ids
  · obtain ⟨m, Q, h1, h2, h3, h4⟩ := Node.modify_recs i n hnd hm
    subst h1
    obtain ⟨h5, _⟩ := h4 (Node.mapCore f) (by cases m; rfl)
    have hL : (n.recs ++ R).Perm (m.toRec :: (Node.recsL m.kids ++ Q ++ R)) := by
      refine (h3.append_right R).trans ?_
      rw [Node.recs_eq]; simp
    have h6 := h.perm hL
    obtain ⟨h7, _⟩ := h6.write (f m.core)
    have hc : (H.cell m.id).core = m.core := h6.core m.toRec (by simp)
    refine Holds.perm (L := { m.toRec with core := f m.core } :: (Node.recsL m.kids ++ Q ++ R)) ?_ ?_
    · rw [write, hc]
      exact h7
    · refine List.Perm.trans ?_ (h5.append_right _).symm
      rw [Node.recs_eq]
      obtain ⟨a, b, c, k⟩ := m
      simp [Node.mapCore, Node.toRec]
  · rw [Node.modify_absent hm]
    have hm' : ∀ r ∈ n.recs ++ R, r.id ≠ i := by
      intro r hr
      rcases List.mem_append.mp hr with hr | hr
      · intro e; refine hm ?_; rw [← Node.recs_ids]; exact List.mem_map.mpr ⟨r, hr, e⟩
      · exact hi r hr
    have := h.put (N := []) (H' := H.write i f)
      ⟨fun q hq => by simp [write, setCell, hm' q hq], fun _ _ => rfl, Nat.le_refl _⟩
      (by simp) (by simp) (by simp) (by simp) (by simpa using h.nodup) (by simp) (by simp) (by simp)
    simpa using this

omit [Inhabited α] in
/-- A child and the rest. -/
theorem kid_perm {n c : Node α} {pre post : List (Node α)} (hk : n.kids = pre ++ c :: post) (R : List (Rec α)) :
    (n.recs ++ R).Perm (c.recs ++ (n.toRec :: (Node.recsL pre ++ Node.recsL post) ++ R)) := by
  rw [Node.recs_eq, hk, Node.recsL_append, Node.recsL]
  simp only [List.cons_append, List.append_assoc]
  refine List.Perm.trans ?_ List.perm_middle.symm
  refine List.Perm.cons _ ?_
  rw [← List.append_assoc, ← List.append_assoc c.recs]
  exact List.perm_append_comm.append_right _

/-! Reading. -/

omit [Inhabited α] in
theorem read_holds {H : Heap α} (fuel : Nat) : ∀ (n : Node α) {R : List (Rec α)}, Holds H (n.recs ++ R) →
    n.recs.length ≤ fuel + 1 → H.read fuel n.id = n := by
  induction fuel with
  | zero =>
    intro n R h hl
    have hrec : n.toRec ∈ n.recs ++ R := List.mem_append_left _ (mem_recs_self n)
    have h1 : (H.cell n.id).path = n.path := h.path _ hrec
    have h2 : (H.cell n.id).core = n.core := h.core _ hrec
    rw [read, h1, h2]
    obtain ⟨i, p, c, k⟩ := n
    cases k with
    | nil => rfl
    | cons a as => rw [Node.recs, Node.recsL, Node.recs_eq] at hl; simp at hl
  | succ fuel ih =>
    intro n R h hl
    have hrec : n.toRec ∈ n.recs ++ R := List.mem_append_left _ (mem_recs_self n)
    have h1 : (H.cell n.id).path = n.path := h.path _ hrec
    have h2 : (H.cell n.id).core = n.core := h.core _ hrec
    have h3 : H.kids n.id = n.kids.map Node.id := h.kids _ hrec
    rw [read, h1, h2, h3, List.map_map]
    have : n.kids.map (H.read fuel ∘ Node.id) = n.kids := by
      conv => rhs; rw [← List.map_id n.kids]
      refine List.map_congr_left (fun c hc => ?_)
      obtain ⟨pre, post, hk⟩ := List.append_of_mem hc
      refine ih c (h.perm (kid_perm hk R)) ?_
      · rw [Node.recs_eq, hk, Node.recsL_append, Node.recsL] at hl
        simp at hl; omega
    rw [this]
    cases n; rfl

/-! Copying. -/

omit [Inhabited α] in
theorem dup_holds (grow : Nat → Nat) (fuel : Nat) :
    (∀ (n : Node α) (H : Heap α) (R : List (Rec α)) (f : Nat), Holds H (n.recs ++ R) →
      (∀ r ∈ n.recs ++ R, r.id < f) → 2 * n.recs.length ≤ fuel + 1 →
      Holds (dup grow fuel f n.id H).1 ((n.dup f).1.recs ++ (n.recs ++ R)) ∧
      Keeps (n.recs ++ R) H (dup grow fuel f n.id H).1 ∧ (dup grow fuel f n.id H).2 = (n.dup f).2 ∧
      (n.dup f).1.id = f ∧ f < (n.dup f).2 ∧ ∀ q ∈ (n.dup f).1.recs, f ≤ q.id ∧ q.id < (n.dup f).2) ∧
    (∀ (k : List (Node α)) (H : Heap α) (r : Rec α) (S S' : List (Rec α)) (f : Nat), Holds H (r :: S) →
      S.Perm (Node.recsL k ++ S') → (∀ q ∈ r :: S, q.id < f) → 2 * (Node.recsL k).length ≤ fuel →
      Holds (dupKids grow fuel f r.id (k.map Node.id) H).1
        ({ r with kids := r.kids ++ (Node.dupL f k).1.map Node.id } :: (Node.recsL (Node.dupL f k).1 ++ S)) ∧
      Keeps S H (dupKids grow fuel f r.id (k.map Node.id) H).1 ∧
      (dupKids grow fuel f r.id (k.map Node.id) H).2 = (Node.dupL f k).2 ∧ f ≤ (Node.dupL f k).2 ∧
      ∀ q ∈ Node.recsL (Node.dupL f k).1, f ≤ q.id ∧ q.id < (Node.dupL f k).2) := by
  induction fuel with
  | zero =>
    refine ⟨?_, ?_⟩
    · intro n H R f h hlt hl
      rw [Node.recs_eq] at hl; simp at hl; omega
    · intro k H r S S' f h hS hlt hl
      cases k with
      | nil => simp only [dupKids, Node.dupL, Node.recsL, List.map_nil, List.append_nil, List.nil_append]
               exact ⟨h, Keeps.refl _ _, trivial, Nat.le_refl _, by simp⟩
      | cons a as => rw [Node.recsL, Node.recs_eq] at hl; simp at hl
  | succ fuel ih =>
    refine ⟨?_, ?_⟩
    · intro n H R f h hlt hl
      have hrec : n.toRec ∈ n.recs ++ R := List.mem_append_left _ (mem_recs_self n)
      have h1 : (H.cell n.id).path = n.path := h.path _ hrec
      have h2 : (H.cell n.id).core = n.core := h.core _ hrec
      have h3 : H.kids n.id = n.kids.map Node.id := h.kids _ hrec
      have hf : f ∉ (n.recs ++ R).map (·.id) := by
        intro hm
        obtain ⟨q, hq, e⟩ := List.mem_map.mp hm
        have := hlt q hq
        omega
      rw [dup, h1, h2, h3]
      obtain ⟨h4, k4⟩ := h.make f hf n.path { n.core with desc := [], comment := [], tag := none } (H.cell n.id).len
      obtain ⟨h5, k5, e5, l5, b5⟩ := ih.2 n.kids _ _ _ (n.toRec :: R) (f + 1) h4
        (by rw [Node.recs_eq, List.cons_append]; exact List.perm_middle.symm)
        (by
          intro q hq
          rcases List.mem_cons.mp hq with rfl | hq
          · exact Nat.lt_succ_self f
          · have := hlt q hq; omega)
        (by rw [Node.recs_eq] at hl; simp at hl; omega)
      have ed : n.dup f = (.mk f n.path { n.core with desc := [], comment := [], tag := none } (Node.dupL (f + 1) n.kids).1,
          (Node.dupL (f + 1) n.kids).2) := by cases n; rfl
      rw [ed]
      refine ⟨?_, k4.trans k5, e5, rfl, by simp only; omega, ?_⟩
      · rw [Node.recs]; simpa using h5
      · intro q hq
        rw [Node.recs] at hq
        rcases List.mem_cons.mp hq with rfl | hq
        · simp only; omega
        · have := b5 q hq; simp only; omega
    · intro k H r S S' f h hS hlt hl
      cases k with
      | nil => simp only [dupKids, Node.dupL, Node.recsL, List.map_nil, List.append_nil, List.nil_append]
               exact ⟨h, Keeps.refl _ _, trivial, Nat.le_refl _, by simp⟩
      | cons a as =>
        have hal : 1 ≤ a.recs.length := by rw [Node.recs_eq]; simp
        rw [Node.recsL, List.length_append] at hl
        rw [Node.recsL, List.append_assoc] at hS
        have hp : (r :: S).Perm (a.recs ++ (r :: (Node.recsL as ++ S'))) := by
          exact (hS.cons r).trans List.perm_middle.symm
        obtain ⟨h1, k1, e1, i1, l1, b1⟩ := ih.1 a H _ f (h.perm hp) (fun q hq => hlt q (hp.mem_iff.mpr hq)) (by omega)
        rw [List.map_cons, dupKids, Node.dupL]
        simp only
        rw [e1]
        have h2 : Holds (dup grow fuel f a.id H).1 (r :: ((a.dup f).1.recs ++ S)) := by
          refine h1.perm ?_
          refine (hp.symm.append_left _).trans ?_
          exact List.perm_middle
        obtain ⟨h3, k3⟩ := h2.append grow f
        obtain ⟨h4, k4, e4, l4, b4⟩ := ih.2 as _ _ _ ((a.dup f).1.recs ++ (a.recs ++ S')) (a.dup f).2 h3
          (by
            refine (hS.append_left _).trans ?_
            refine (List.Perm.append_left _ (List.perm_append_comm_assoc ..)).trans ?_
            exact List.perm_append_comm_assoc ..)
          (by
            intro q hq
            rcases List.mem_cons.mp hq with rfl | hq
            · have : r.id < f := hlt r (by simp)
              simp only; omega
            · rcases List.mem_append.mp hq with hq | hq
              · exact (b1 q hq).2
              · have := hlt q (by simp [hq]); omega)
          (by omega)
        refine ⟨?_, ?_, e4, by omega, ?_⟩
        · refine h4.perm ?_
          simp only [List.map_cons, i1, List.append_assoc, List.cons_append, List.nil_append, Node.recsL]
          refine List.Perm.cons _ ?_
          exact List.perm_append_comm_assoc ..
        · refine (k1.mono (fun q hq => hp.mem_iff.mp (by simp [hq]))).trans (k3.mono (fun q hq => by simp [hq])) |>.trans
            (k4.mono (fun q hq => by simp [hq]))
        · intro q hq
          rw [Node.recsL] at hq
          rcases List.mem_append.mp hq with hq | hq
          · have := b1 q hq; omega
          · have := b4 q hq; omega

end Heap
end Verif

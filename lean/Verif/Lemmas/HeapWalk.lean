import Verif.Lemmas.HeapOps
/- Walking while the callback changes the memory. -/
namespace Verif
variable {α : Type}

/-- The trees that a walk leaves, and the nodes that it visits, if the callback makes of the node `n` (with all below it) a node `m`
with `P n m`. -/
inductive Walked (P : Node α → Node α → Prop) : List (Node α) → List (Node α) → List Nat → Prop
  | nil : Walked P [] [] []
  | cons {n m : Node α} {ks as as' : List (Node α)} {vs ws : List Nat} (h : P n m) (hk : Walked P m.kids ks vs)
      (ha : Walked P as as' ws) : Walked P (n :: as) (.mk m.id m.path m.core ks :: as') (n.id :: vs ++ ws)

theorem Walked.ids {P : Node α → Node α → Prop} (hP : ∀ n m, P n m → m.id = n.id) {l l' : List (Node α)} {vs : List Nat}
    (h : Walked P l l' vs) : l'.map Node.id = l.map Node.id ∧ vs = (Node.walkL l').map Node.id := by
  induction h with
  | nil => exact ⟨rfl, rfl⟩
  | cons h _ _ ih1 ih2 =>
    refine ⟨?_, ?_⟩
    · rw [List.map_cons, List.map_cons, ih2.1, ← hP _ _ h]
      rfl
    · rw [Node.walkL, Node.walk, ih1.2, ih2.2, List.map_append, List.map_cons]
      rw [← hP _ _ h]
      rfl

namespace Heap

/-- A callback that changes nothing but the node it is called with and what is below it. `I` is what the callback may rely on. -/
def Local (I : Heap α → List (Rec α) → Prop) (P : Node α → Node α → Prop) (cb : Nat → Heap α → Heap α) : Prop :=
  ∀ (n : Node α) (H : Heap α) (R : List (Rec α)), Holds H (n.recs ++ R) → I H (n.recs ++ R) →
    ∃ (m : Node α) (D : List (Rec α)), P n m ∧ m.id = n.id ∧ Holds (cb n.id H) (m.recs ++ (D ++ R)) ∧
      I (cb n.id H) (m.recs ++ (D ++ R)) ∧ Keeps R H (cb n.id H)

theorem walk_local {I : Heap α → List (Rec α) → Prop} (hI : ∀ H L L', L.Perm L' → I H L → I H L')
    {P : Node α → Node α → Prop} (hP : ∀ n m, P n m → m.id = n.id) {cb : Nat → Heap α → Heap α} (hc : Local I P cb) (fuel : Nat) :
    (∀ (n : Node α) (H H' : Heap α) (R : List (Rec α)) (vs : List Nat), Holds H (n.recs ++ R) → I H (n.recs ++ R) →
      walk cb fuel n.id H = some (H', vs) →
      ∃ n' D, Walked P [n] [n'] vs ∧ Holds H' (n'.recs ++ (D ++ R)) ∧ I H' (n'.recs ++ (D ++ R)) ∧ Keeps R H H') ∧
    (∀ (r : Rec α) (pre : List Nat) (todo : List (Node α)) (H H' : Heap α) (R : List (Rec α)) (vs : List Nat),
      Holds H (r :: (Node.recsL todo ++ R)) → I H (r :: (Node.recsL todo ++ R)) → r.kids = pre ++ todo.map Node.id →
      range cb fuel (H.cell r.id).arr r.kids.length pre.length H = some (H', vs) →
      ∃ todo' D, Walked P todo todo' vs ∧ Holds H' (r :: (Node.recsL todo' ++ (D ++ R))) ∧
        I H' (r :: (Node.recsL todo' ++ (D ++ R))) ∧ Keeps (r :: R) H H') := by
  induction fuel with
  | zero =>
    refine ⟨?_, ?_⟩
    · intro n H H' R vs _ _ e; simp [walk] at e
    · intro r pre todo H H' R vs _ _ _ e; simp [range] at e
  | succ fuel ih =>
    refine ⟨?_, ?_⟩
    · intro n H H' R vs h hi e
      obtain ⟨m, D, h1, h2, h3, h4, h5⟩ := hc n H R h hi
      rw [walk] at e
      have hrec : m.toRec ∈ m.recs ++ (D ++ R) := List.mem_append_left _ (mem_recs_self m)
      have hlen : ((cb n.id H).cell n.id).len = m.toRec.kids.length := by
        have := h3.len _ hrec
        rwa [show m.toRec.id = n.id from h2] at this
      rw [hlen] at e
      cases hr : range cb fuel ((cb n.id H).cell n.id).arr m.toRec.kids.length 0 (cb n.id H) with
      | none => rw [hr] at e; cases e
      | some q =>
        rw [hr] at e
        simp only [Option.map_some, Option.some.injEq, Prod.mk.injEq] at e
        rw [Node.recs_eq, List.cons_append] at h3 h4
        obtain ⟨ks, D', g1, g2, g3, g4⟩ := ih.2 m.toRec [] m.kids _ q.1 (D ++ R) q.2 h3 h4 rfl (by
          have : m.toRec.id = n.id := h2
          rw [this]; exact hr)
        refine ⟨.mk m.id m.path m.core ks, D' ++ D, ?_, ?_, ?_, ?_⟩
        · rw [← e.2]
          have := Walked.cons h1 g1 (Walked.nil (P := P))
          rwa [List.append_nil] at this
        · rw [← e.1, Node.recs, (g1.ids hP).1]
          rw [List.cons_append, List.append_assoc]; exact g2
        · rw [← e.1, Node.recs, (g1.ids hP).1]
          rw [List.cons_append, List.append_assoc]; exact g3
        · rw [← e.1]
          exact h5.trans (g4.mono (fun q hq => by simp [hq]))
    · intro r pre todo H H' R vs h hi hk e
      have hkl : r.kids.length = pre.length + todo.length := by rw [hk]; simp
      rw [range] at e
      cases todo with
      | nil =>
        rw [if_neg (by simp at hkl; omega)] at e
        simp only [Option.some.injEq, Prod.mk.injEq] at e
        obtain ⟨rfl, rfl⟩ := e
        exact ⟨[], [], .nil, h, hi, Keeps.refl _ _⟩
      | cons b bs =>
        rw [if_pos (by simp at hkl; omega)] at e
        have hb : (H.arr (H.cell r.id).arr).getD pre.length 0 = b.id := by
          have h1 : H.kids r.id = r.kids := h.kids r (by simp)
          have h2 : (H.kids r.id)[pre.length]? = some b.id := by rw [h1, hk]; simp
          rw [Heap.kids, List.getElem?_take] at h2
          split at h2
          · rw [List.getD_eq_getElem?_getD, h2]; rfl
          · cases h2
        rw [hb] at e
        cases hw : walk cb fuel b.id H with
        | none => rw [hw] at e; cases e
        | some q =>
          rw [hw] at e
          simp only at e
          have hp : (r :: (Node.recsL (b :: bs) ++ R)).Perm (b.recs ++ (r :: (Node.recsL bs ++ R))) := by
            rw [Node.recsL, List.append_assoc]
            exact List.perm_middle.symm
          obtain ⟨b', D, g1, g2, g3, g4⟩ := ih.1 b H q.1 _ q.2 (h.perm hp) (hI _ _ _ hp hi) hw
          have hp2 : (b'.recs ++ (D ++ (r :: (Node.recsL bs ++ R)))).Perm (r :: (Node.recsL bs ++ (b'.recs ++ (D ++ R)))) := by
            refine (List.Perm.append_left _ List.perm_middle).trans ?_
            refine List.perm_middle.trans ?_
            refine List.Perm.cons _ ?_
            refine (List.Perm.append_left _ (List.perm_append_comm_assoc ..)).trans ?_
            exact List.perm_append_comm_assoc ..
          have hcell : q.1.cell r.id = H.cell r.id := g4.cell r (by simp)
          have hq : range cb fuel (q.1.cell r.id).arr r.kids.length (pre ++ [b.id]).length q.1 =
              range cb fuel (H.cell r.id).arr r.kids.length (pre.length + 1) q.1 := by rw [hcell]; simp
          rw [← hq] at e
          cases hr : range cb fuel (q.1.cell r.id).arr r.kids.length (pre ++ [b.id]).length q.1 with
          | none => rw [hr] at e; cases e
          | some z =>
            rw [hr] at e
            simp only [Option.map_some, Option.some.injEq, Prod.mk.injEq] at e
            obtain ⟨bs', D', f1, f2, f3, f4⟩ := ih.2 r (pre ++ [b.id]) bs q.1 z.1 (b'.recs ++ (D ++ R)) z.2 (g2.perm hp2)
              (hI _ _ _ hp2 g3) (by rw [hk]; simp) hr
            have hp3 : (r :: (Node.recsL bs' ++ (D' ++ (b'.recs ++ (D ++ R))))).Perm
                (r :: (Node.recsL (b' :: bs') ++ ((D' ++ D) ++ R))) := by
              refine List.Perm.cons _ ?_
              rw [Node.recsL]
              simp only [List.append_assoc]
              refine (List.Perm.append_left _ (List.perm_append_comm_assoc ..)).trans ?_
              exact List.perm_append_comm_assoc ..
            refine ⟨b' :: bs', D' ++ D, ?_, ?_, ?_, ?_⟩
            · rw [← e.2]
              clear hw hr hq hcell hp2 g2 g3 g4 f2 f3 f4 hp3 e
              generalize q.2 = v2 at *
              cases g1 with
              | cons a1 a2 a3 =>
                cases a3
                rw [List.append_nil]
                exact Walked.cons a1 a2 f1
            · rw [← e.1]; exact f2.perm hp3
            · rw [← e.1]; exact hI _ _ _ hp3 f3
            · rw [← e.1]
              refine (g4.mono (fun x hx => ?_)).trans (f4.mono (fun x hx => ?_))
              · rcases List.mem_cons.mp hx with rfl | hx
                · simp
                · simp [hx]
              · rcases List.mem_cons.mp hx with rfl | hx
                · simp
                · simp [hx]

/-- If no callback makes its node larger, the walk ends. -/
theorem walk_ends {I : Heap α → List (Rec α) → Prop} (hI : ∀ H L L', L.Perm L' → I H L → I H L')
    {P : Node α → Node α → Prop} (hP : ∀ n m, P n m → m.id = n.id) (hs : ∀ n m, P n m → m.recs.length ≤ n.recs.length)
    {cb : Nat → Heap α → Heap α} (hc : Local I P cb) (fuel : Nat) :
    (∀ (n : Node α) (H : Heap α) (R : List (Rec α)), Holds H (n.recs ++ R) → I H (n.recs ++ R) →
      2 * n.recs.length ≤ fuel → ∃ q, walk cb fuel n.id H = some q) ∧
    (∀ (r : Rec α) (pre : List Nat) (todo : List (Node α)) (H : Heap α) (R : List (Rec α)),
      Holds H (r :: (Node.recsL todo ++ R)) → I H (r :: (Node.recsL todo ++ R)) → r.kids = pre ++ todo.map Node.id →
      2 * (Node.recsL todo).length + 1 ≤ fuel →
      ∃ q, range cb fuel (H.cell r.id).arr r.kids.length pre.length H = some q) := by
  induction fuel with
  | zero =>
    refine ⟨?_, ?_⟩
    · intro n H R _ _ e
      rw [Node.recs_eq] at e; simp at e
    · intro r pre todo H R _ _ _ e; omega
  | succ fuel ih =>
    refine ⟨?_, ?_⟩
    · intro n H R h hi hf
      obtain ⟨m, D, h1, h2, h3, h4, h5⟩ := hc n H R h hi
      rw [walk]
      have hrec : m.toRec ∈ m.recs ++ (D ++ R) := List.mem_append_left _ (mem_recs_self m)
      have hlen : ((cb n.id H).cell n.id).len = m.toRec.kids.length := by
        have := h3.len _ hrec
        rwa [show m.toRec.id = n.id from h2] at this
      rw [hlen]
      have hms := hs n m h1
      rw [Node.recs_eq m] at hms
      rw [Node.recs_eq, List.cons_append] at h3 h4
      simp only [List.length_cons] at hms
      obtain ⟨q, hq⟩ := ih.2 m.toRec [] m.kids _ (D ++ R) h3 h4 rfl (by omega)
      rw [show m.toRec.id = n.id from h2] at hq
      rw [show (0 : Nat) = ([] : List Nat).length from rfl, hq]
      exact ⟨_, rfl⟩
    · intro r pre todo H R h hi hk hf
      have hkl : r.kids.length = pre.length + todo.length := by rw [hk]; simp
      rw [range]
      cases todo with
      | nil =>
        rw [if_neg (by simp at hkl; omega)]
        exact ⟨_, rfl⟩
      | cons b bs =>
        rw [if_pos (by simp at hkl; omega)]
        have hb : (H.arr (H.cell r.id).arr).getD pre.length 0 = b.id := by
          have h1 : H.kids r.id = r.kids := h.kids r (by simp)
          have h2 : (H.kids r.id)[pre.length]? = some b.id := by rw [h1, hk]; simp
          rw [Heap.kids, List.getElem?_take] at h2
          split at h2
          · rw [List.getD_eq_getElem?_getD, h2]; rfl
          · cases h2
        rw [hb]
        have hbl : 1 ≤ b.recs.length := by rw [Node.recs_eq]; simp
        rw [Node.recsL, List.length_append] at hf
        have hp : (r :: (Node.recsL (b :: bs) ++ R)).Perm (b.recs ++ (r :: (Node.recsL bs ++ R))) := by
          rw [Node.recsL, List.append_assoc]
          exact List.perm_middle.symm
        obtain ⟨q, hw⟩ := ih.1 b H _ (h.perm hp) (hI _ _ _ hp hi) (by omega)
        obtain ⟨b', D, g1, g2, g3, g4⟩ := (walk_local hI hP hc fuel).1 b H q.1 _ q.2 (h.perm hp) (hI _ _ _ hp hi) hw
        have hp2 : (b'.recs ++ (D ++ (r :: (Node.recsL bs ++ R)))).Perm (r :: (Node.recsL bs ++ (b'.recs ++ (D ++ R)))) := by
          refine (List.Perm.append_left _ List.perm_middle).trans ?_
          refine List.perm_middle.trans ?_
          refine List.Perm.cons _ ?_
          refine (List.Perm.append_left _ (List.perm_append_comm_assoc ..)).trans ?_
          exact List.perm_append_comm_assoc ..
        obtain ⟨z, hz⟩ := ih.2 r (pre ++ [b.id]) bs q.1 (b'.recs ++ (D ++ R)) (g2.perm hp2) (hI _ _ _ hp2 g3) (by rw [hk]; simp) (by omega)
        have hcell : q.1.cell r.id = H.cell r.id := g4.cell r (by simp)
        rw [hcell, List.length_append, List.length_singleton] at hz
        rw [hw]
        simp only
        rw [hz]
        exact ⟨_, rfl⟩

/-- A callback that always leaves a child: the walk does not end. -/
theorem walk_endless {I : Heap α → List (Rec α) → Prop} (hI : ∀ H L L', L.Perm L' → I H L → I H L')
    {P : Node α → Node α → Prop} (hP : ∀ n m, P n m → m.id = n.id) (hk : ∀ n m, P n m → m.kids ≠ [])
    {cb : Nat → Heap α → Heap α} (hc : Local I P cb) (fuel : Nat) (n : Node α) (H : Heap α) (R : List (Rec α))
    (h : Holds H (n.recs ++ R)) (hi : I H (n.recs ++ R)) : walk cb fuel n.id H = none := by
  cases e : walk cb fuel n.id H with
  | none => rfl
  | some q =>
    obtain ⟨n', _, h1, _⟩ := (walk_local hI hP hc fuel).1 n H q.1 R q.2 h hi e
    have key : ∀ (l l' : List (Node α)) (vs : List Nat), Walked P l l' vs → l = [] := by
      intro l l' vs h
      induction h with
      | nil => rfl
      | cons a _ _ ih _ => exact absurd ih (hk _ _ a)
    cases key _ _ _ h1

theorem recsL_len {k : List (Node α)} : k.length ≤ (Node.recsL k).length ∧
    ∀ c ∈ k, c.recs.length + k.length ≤ (Node.recsL k).length + 1 := by
  induction k with
  | nil => simp [Node.recsL]
  | cons a as ih =>
    have h1 : 1 ≤ a.recs.length := by rw [Node.recs_eq]; simp
    rw [Node.recsL, List.length_append, List.length_cons]
    refine ⟨by omega, ?_⟩
    intro c hc
    rcases List.mem_cons.mp hc with rfl | hc
    · omega
    · have := ih.2 c hc; omega

/-- Where the callback does nothing. -/
theorem range_noop {cb : Nat → Heap α → Heap α} {H : Heap α} (fuel a len : Nat) (l : List (Node α)) : ∀ k,
    (∀ n ∈ l, ∀ f, fuel ≤ f → walk cb f n.id H = some (H, n.ids)) → k + l.length ≤ len →
    (∀ j n, l[j]? = some n → (H.arr a).getD (k + j) 0 = n.id) →
    range cb (fuel + l.length) a len k H =
      (range cb fuel a len (k + l.length) H).map (fun q => (q.1, l.flatMap Node.ids ++ q.2)) := by
  induction l with
  | nil =>
    intro k _ _ _
    cases range cb fuel a len k H <;> simp
  | cons b bs ih =>
    intro k hw hl he
    rw [List.length_cons] at hl
    rw [List.length_cons, ← Nat.add_assoc, range, if_pos (by omega)]
    have h0 := he 0 b rfl
    rw [Nat.add_zero] at h0
    rw [h0, hw b (by simp) _ (Nat.le_add_right ..)]
    simp only
    rw [ih (k + 1) (fun n hn => hw n (by simp [hn])) (by omega) (fun j n hj => by
      have := he (j + 1) n (by simpa using hj)
      rwa [show k + 1 + j = k + (j + 1) by omega])]
    rw [show k + 1 + bs.length = k + (bs.length + 1) by omega]
    cases range cb fuel a len (k + (bs.length + 1)) H <;> simp

theorem walk_noop {cb : Nat → Heap α → Heap α} {H : Heap α} (n : Node α) : ∀ (R : List (Rec α)), Holds H (n.recs ++ R) →
    (∀ i ∈ n.ids, cb i H = H) → ∀ f, 2 * n.recs.length ≤ f → walk cb f n.id H = some (H, n.ids) := by
  induction n using Node.ind with
  | h i p c k ih =>
    intro R h hcb f hf
    have hl := recsL_len (k := k)
    rw [Node.recs, List.length_cons] at hf
    obtain ⟨g, rfl⟩ : ∃ g, f = g + k.length + 1 := ⟨f - k.length - 1, by omega⟩
    rw [walk, hcb _ (by rw [Node.ids_mk]; simp [Node.id])]
    have hrec : (Node.mk i p c k).toRec ∈ (Node.mk i p c k).recs ++ R := List.mem_append_left _ (mem_recs_self _)
    have hlen : (H.cell (Node.mk i p c k).id).len = k.length := by
      have := h.len _ hrec
      simpa [Node.toRec] using this
    have hkids : H.kids (Node.mk i p c k).id = k.map Node.id := h.kids _ hrec
    have hr : range cb (g + k.length) (H.cell (Node.mk i p c k).id).arr (H.cell (Node.mk i p c k).id).len 0 H =
        (range cb g (H.cell (Node.mk i p c k).id).arr (H.cell (Node.mk i p c k).id).len (0 + k.length) H).map
          (fun q => (q.1, k.flatMap Node.ids ++ q.2)) := by
      refine range_noop g _ _ k 0 ?_ (by omega) ?_
      · intro m hm f hf'
        obtain ⟨pre, post, e⟩ := List.append_of_mem hm
        refine ih m hm _ (h.perm (kid_perm (n := .mk i p c k) e R)) (fun j hj => hcb j ?_) f ?_
        · rw [Node.ids_mk]; exact List.mem_cons_of_mem _ (List.mem_flatMap.mpr ⟨m, hm, hj⟩)
        · have := hl.2 m hm
          have := List.length_pos_of_mem hm
          omega
      · intro j m hj
        have h2 : (H.kids (Node.mk i p c k).id)[j]? = some m.id := by rw [hkids]; simp [hj]
        rw [Heap.kids, List.getElem?_take] at h2
        split at h2
        · rw [Nat.zero_add, List.getD_eq_getElem?_getD, h2]; rfl
        · cases h2
    rw [hr]
    obtain ⟨g', rfl⟩ : ∃ g', g = g' + 1 := ⟨g - 1, by omega⟩
    rw [range, if_neg (by omega)]
    simp only [Option.map_some, List.append_nil, Node.ids_mk]
    rfl

end Heap
end Verif

import Verif.Lemmas.RaceTidy
import Verif.Lemmas.RaceBeside
/-
What the goroutines come to in the end; and schedules on which a lookup goes wrong.
-/
namespace Verif
namespace Prune
variable {α : Type} [Inhabited α]

section
variable {v : View} {t : Tree α}

/-- What a lookup comes to. -/
theorem get_result (h : t.OK) (hp : t.Plain v.delim) (hm : v.mode ≠ .up) {cs : List Call} (ht : Tidy v t cs)
    {k : Nat} {p : Str} (hk : cs[k]? = some (.get p)) {Q : Pc α → Prop} (hQ : ∀ pc, Q pc → ∃ a, pc = .done a) {N : Nat}
    (hL : ∀ σ, Leads (.get p) v.delim (mems (start v t cs).mem (planOf v t cs)) Q N σ (.enter (v.full p) t.root.id none []))
    (S : List Nat) :
    let r := ((start v t cs).run v.delim cs S).pcs k
    r ≠ .crash ∧ (N ≤ S.count k → ∃ a, r = .done a) ∧ ∀ a, r = .done a → Q (.done a) := by
  obtain ⟨B, hB, I⟩ := start_inv (Tr := fun l => l = k) (Q := fun _ => Q) (N := fun _ => N) h hp hm ht
    (by rintro l rfl; exact ⟨p, hk, hL⟩)
  have I' := I.run (planOf_fits h hp hm ht) (fun l pc hq M => done_fixed (hQ pc hq) M) S
  have hnone : planOf v t cs k = none := by simp only [planOf, hk]
  have g := (I'.get k hnone).2.2 rfl
  rw [hB k rfl] at g
  refine ⟨fun e => ?_, fun hn => ?_, fun a e => ?_⟩
  · rw [e] at g
    obtain ⟨a, ha⟩ := hQ _ (leads_fixed (fun _ => rfl) g)
    cases ha
  · rw [show N - S.count k = 0 from by omega] at g
    exact hQ _ g
  · rw [e] at g
    exact leads_fixed (fun _ => rfl) g

/-- What the removals come to, and the memory at every moment. -/
theorem remove_result (h : t.OK) (hp : t.Plain v.delim) (hm : v.mode ≠ .up) {cs : List Call} (ht : Tidy v t cs) :
    ∃ B : Nat → Nat, ∀ S : List Nat, let W := (start v t cs).run v.delim cs S
      W.mem = mems (start v t cs).mem (planOf v t cs) (stages (planOf v t cs) W.pcs) ∧
      (∀ k, planOf v t cs k = none → (W.pcs k).reads = true) ∧
      ∀ k T, planOf v t cs k = some T → W.pcs k ≠ .crash ∧ W.pcs k ≠ .gone false ∧ (B k ≤ S.count k → W.pcs k = .gone true) := by
  obtain ⟨B, _, I⟩ := start_inv (Tr := fun _ => False) (Q := fun _ _ => False) (N := fun _ => 0) h hp hm ht (fun _ e => e.elim)
  refine ⟨B, fun S => ?_⟩
  have I' := I.run (planOf_fits h hp hm ht) (fun l pc hq M => hq.elim) S
  refine ⟨I'.mem, fun k hk => (I'.get k hk).1, fun k T hk => ?_⟩
  rcases (I'.rem k T hk).2 with ⟨h1, b, h2, h3⟩ | h1
  · refine ⟨fun e => ?_, fun e => ?_, fun hB => ?_⟩
    · rw [e] at h3
      have := leads_fixed (fun _ => rfl) h3
      cases this
    · rw [e] at h1; cases h1
    · have : B k - S.count k = b + (2 * T.n + 5) := h2
      omega
  · have h1 : Doing T (B k - S.count k) (((start v t cs).run v.delim cs S).pcs k) := h1
    generalize ((start v t cs).run v.delim cs S).pcs k = pc at h1
    refine ⟨fun e => ?_, fun e => ?_, fun hB => ?_⟩
    · subst e; cases h1
    · subst e; cases h1
    · rw [show B k - S.count k = 0 from by omega] at h1
      cases h1 with
      | gone => rfl
      | pick _ hb | scan _ _ _ hb | cut _ hb | move _ _ _ hb => omega
end

section
variable {d : Char} {cs : List Call}

theorem run_other (W : World α) {k : Nat} (S : List Nat) (h : k ∉ S) : (W.run d cs S).pcs k = W.pcs k := by
  induction S generalizing W with
  | nil => rfl
  | cons l S ih =>
    simp only [List.mem_cons, not_or] at h
    rw [World.run, ih _ h.2]
    simp [World.tick, if_neg h.1]

/-- A lookup runs alone for a while. -/
theorem drive {k : Nat} {p : Str} (hk : cs[k]? = some (.get p)) {Q : Pc α → Prop} : ∀ {n : Nat} {s : Nat → Nat} {W : World α},
    (W.pcs k).reads = true → Leads (.get p) d (fun _ => W.mem) Q n s (W.pcs k) →
    ∃ n', (W.run d cs (List.replicate n' k)).mem = W.mem ∧ ((W.run d cs (List.replicate n' k)).pcs k).reads = true ∧
      Q ((W.run d cs (List.replicate n' k)).pcs k)
  | 0, s, W, hr, h => ⟨0, rfl, hr, h⟩
  | n + 1, s, W, hr, h => by
    rcases h with h | h
    · exact ⟨0, rfl, hr, h⟩
    · have hc : cs[k]?.getD (.get []) = .get p := by rw [hk]; rfl
      have e1 : (W.tick d cs k).mem = W.mem := by simp only [World.tick, hc]; exact reads_mem hr
      have e2 : (W.tick d cs k).pcs k = (step (.get p) d W.mem (W.pcs k)).2 := by simp only [World.tick, hc, if_true]
      have h' := h s (.refl s)
      obtain ⟨n', h1, h2⟩ := drive (n := n) (s := s) (W := W.tick d cs k) hk (by rw [e2]; exact get_reads hr) (by rw [e1, e2]; exact h')
      exact ⟨n' + 1, h1.trans e1, h2⟩
end

/-- A loop that will not find anything any more. -/
def Idle (M : Mem α) (L : Loop) : Prop :=
  ∃ b y, L.word = b :: y ∧ ∀ j, L.next ≤ j → j < L.len → ∃ a x, (M ((M L.node).arr.getD j 0)).path = a :: x ∧ a ≠ b

section
variable {d : Char} {M : Mem α}

/-- A lookup on whose stack are only such loops finds nothing. -/
theorem idle_none (p : Str) : ∀ (stk : List Loop), (∀ L ∈ stk, Idle M L) →
    ∃ N, ∀ σ, Leads (.get p) d (fun _ => M) (fun r => r = .done ansNone) N σ (.ret false false none none stk)
  | [], _ => ⟨1, fun σ => .to (.done ansNone) (fun _ _ => rfl) (.at 0)⟩
  | L :: stk, h => by
    obtain ⟨N, hN⟩ := idle_none p stk fun L hL => h L (List.mem_cons_of_mem _ hL)
    obtain ⟨b, y, hw, hj⟩ := h L (by simp)
    obtain ⟨node, len, next, word⟩ := L
    subst hw
    have : ∀ j nx, nx + j = len → next ≤ nx → ∃ N, ∀ σ, Leads (.get p) d (fun _ => M) (fun r => r = .done ansNone) N σ
        (.ret false false none none (⟨node, len, nx, b :: y⟩ :: stk)) := by
      intro j
      induction j with
      | zero =>
        intro nx e _
        refine ⟨N + 1, fun σ => .to (.ret false false none none stk) (fun _ _ => ?_) (hN σ)⟩
        simp only [step, Bool.or_self, Bool.false_eq_true, if_false]
        rw [if_neg (by omega)]
      | succ j ih =>
        intro nx e he
        obtain ⟨N', hN'⟩ := ih (nx + 1) (by omega) (by omega)
        obtain ⟨a, x, h1, h2⟩ := hj nx he (by show nx < len; omega)
        refine ⟨2 + N' + 1, fun σ => .to _ (fun _ _ => ?_) ((leads_miss h2 (fun _ => h1)
          (⟨node, len, nx + 1, b :: y⟩ :: stk) σ (par := some node) (y := y)).trans fun s r _ hr => by rw [hr]; exact hN' s)⟩
        simp only [step, Bool.or_self, Bool.false_eq_true, if_false]
        rw [if_pos (by omega)]
    rcases Nat.lt_or_ge len next with hlt | hge
    · refine ⟨N + 1, fun σ => .to (.ret false false none none stk) (fun _ _ => ?_) (hN σ)⟩
      simp only [step, Bool.or_self, Bool.false_eq_true, if_false]
      rw [if_neg (by omega)]
    · exact this (len - next) next (by omega) (Nat.le_refl _)

omit [Inhabited α] in
theorem static_shows {m : Node α} (h : M m.id = cellOf m) : Shows (fun _ => M) m := by
  refine ⟨fun _ => by rw [h]; rfl, fun _ => by rw [h]; rfl, fun _ => by rw [h]; exact Nat.le_refl _, fun _ _ k _ hk => ?_⟩
  rw [h] at hk ⊢
  exact ⟨_, List.getElem_mem hk, ids_getD hk⟩

/-- The loop over the children of a node goes on to the child at `k'`, if none before has the first rune. -/
theorem leads_on {c : Call} {n : Node α} {b : Char} {y : Str} {stk : List Loop} {A C : List (Node α)} (hw : n.WF)
    (hn : M n.id = cellOf n) (hk : n.kids = A ++ C) (hA : ∀ e ∈ A, M e.id = cellOf e ∧ e.path.head? ≠ some b) (σ : Nat → Nat) :
    ∀ j k, k + j = A.length → Leads c d (fun _ => M) (fun r => r = .ret false false none none (⟨n.id, n.kids.length, A.length, b :: y⟩ :: stk))
      (3 * j) σ (.ret false false none none (⟨n.id, n.kids.length, k, b :: y⟩ :: stk)) := by
  have hwn := (Node.wf_iff n).mp hw
  have hlen : n.kids.length = A.length + C.length := by rw [hk, List.length_append]
  intro j
  induction j with
  | zero => intro k e; rw [show k = A.length from by omega]; exact .at _
  | succ j ih =>
    intro k e
    have hkA : k < A.length := by omega
    have hin : A[k] ∈ n.kids := by rw [hk]; exact List.mem_append_left _ (List.getElem_mem hkA)
    obtain ⟨h1, h2⟩ := hA A[k] (List.getElem_mem hkA)
    refine Leads.mono (n := 2 + 3 * j + 1) (by omega) (.to (.enter (b :: y) A[k].id (some n.id) (⟨n.id, n.kids.length, k + 1, b :: y⟩ :: stk))
      (fun _ _ => ?_) ((leads_other (hwn.2 _ hin).1 h2 (static_shows h1) _ σ).trans fun s r _ hr => ?_))
    · simp only [step, Bool.or_self, Bool.false_eq_true, if_false]
      rw [if_pos (by omega), hn]
      simp only [cellOf]
      rw [ids_getD (by omega)]
      simp only [hk, List.getElem_append_left hkA]
    · rw [hr]
      exact (ih (k + 1) (by omega)).up (s := σ) (by assumption)

/-- A lookup comes to the node where its way leads. -/
theorem goes_leads {c : Call} {n m : Node α} {w w' : Str} (hg : Race.Goes n w m w') (hw : n.WF) (u : Str)
    (hl : ∀ q e, (q, e) ∈ n.nodes u → M e.id = cellOf e) (hnd : n.ids.Nodup) (par : Option Nat) (stk : List Loop) :
    ∃ N par' new, (∀ σ, Leads c d (fun _ => M) (fun r => r = .enter w' m.id par' (new ++ stk)) N σ (.enter w n.id par stk)) ∧
      ∀ L ∈ new, L.node ≠ m.id ∧ Idle M L := by
  have here : ∀ {n : Node α} {u : Str}, (u ++ n.path, n) ∈ n.nodes u := fun {n u} => (Node.mem_nodes u n _).mpr (.inl rfl)
  have below : ∀ {n e : Node α} {u q : Str} {m : Node α}, e ∈ n.kids → (q, m) ∈ e.nodes (u ++ n.path) → (q, m) ∈ n.nodes u :=
    fun {n e u q m} he hm => (Node.mem_nodes u n _).mpr (.inr ⟨e, he, hm⟩)
  induction hg generalizing u par stk with
  | here n w => exact ⟨0, par, [], fun σ => .at 0, by simp⟩
  | @down n w ch m w' hp hg ih =>
    have hwn := (Node.wf_iff n).mp hw
    have hch := hp.mem
    obtain ⟨h1, h2, A, C, h3, h4, h5⟩ := hp
    obtain ⟨x, rfl⟩ := h1
    rw [List.drop_left] at h4 h5 ih
    cases x with
    | nil => simp at h2
    | cons b y =>
      have hhead : ch.path.head? = some b := by simpa using h5
      have hcids : ch.ids.Nodup := by
        rw [Node.ids_cons, List.nodup_cons] at hnd
        exact Node.ids_nodup_kid hnd.2 hch
      obtain ⟨N, par', new, hN, hnew⟩ := ih (hwn.2 ch hch).2 (u ++ n.path) (fun q e he => hl q e (below hch he)) hcids
        (some n.id) (⟨n.id, n.kids.length, A.length + 1, b :: y⟩ :: stk)
      have hn := hl _ n here
      have hlen : n.kids.length = A.length + C.length + 1 := by rw [h3]; simp; omega
      have hA : ∀ e ∈ A, M e.id = cellOf e ∧ e.path.head? ≠ some b := fun e he => by
        have hek : e ∈ n.kids := by rw [h3]; exact List.mem_append_left _ he
        exact ⟨hl _ e (below hek here), by simpa using h4 e he⟩
      refine ⟨(3 * A.length + (N + 1)) + 1 + 1 + 1 + 1 + n.path.length + 1, par', new ++ [⟨n.id, n.kids.length, A.length + 1, b :: y⟩],
        fun σ => leads_through (by simp) (by simp) rfl (static_shows hn) (.to (.range (n.path ++ b :: y) n.id par n.path.length stk)
          (fun _ _ => ?_) (.to (.ret false false none none (⟨n.id, n.kids.length, 0, b :: y⟩ :: stk)) (fun _ _ => ?_)
          ((leads_on hw hn h3 hA σ A.length 0 (by omega)).trans fun s r _ hr => ?_))), ?_⟩
      · simp only [step]
        rw [hn, if_neg (by simp only [cellOf]; omega)]
      · simp only [step]
        rw [hn, if_neg (by simp only [cellOf]; omega), List.drop_left]
        rfl
      · rw [hr]
        refine .to (.enter (b :: y) ch.id (some n.id) (⟨n.id, n.kids.length, A.length + 1, b :: y⟩ :: stk)) (fun _ _ => ?_) ?_
        · simp only [step, Bool.or_self, Bool.false_eq_true, if_false]
          rw [if_pos (by omega), hn]
          simp only [cellOf]
          rw [ids_getD (by omega)]
          simp [h3]
        · rw [List.append_assoc]
          exact hN s
      · intro L hL
        rcases List.mem_append.mp hL with hL | hL
        · exact hnew L hL
        · obtain rfl : L = _ := by simpa using hL
          obtain ⟨u', hu', _⟩ := hg.path []
          refine ⟨?_, b, y, rfl, fun j hj1 hj2 => ?_⟩
          · intro e
            rw [Node.ids_cons, List.nodup_cons] at hnd
            refine hnd.1 (List.mem_flatMap.mpr ⟨ch, hch, ?_⟩)
            have e' : n.id = m.id := e
            rw [e']
            exact Node.id_mem_ids hu'
          · have hj1 : A.length + 1 ≤ j := hj1
            have hj2 : j < n.kids.length := hj2
            show ∃ a x, (M ((M n.id).arr.getD j 0)).path = a :: x ∧ a ≠ b
            rw [hn]
            simp only [cellOf]
            rw [ids_getD hj2]
            have hin : n.kids[j] ∈ n.kids := List.getElem_mem hj2
            obtain ⟨a, x, hax⟩ := List.exists_cons_of_ne_nil (hwn.2 _ hin).1
            refine ⟨a, x, by rw [hl _ _ (below hin here)]; exact hax, ?_⟩
            rintro rfl
            have e : n.kids[j] = ch := Node.heads_inj hwn.1 hin hch (by rw [hax, hhead]; rfl)
            have hnd' : n.kids.Nodup := by
              rw [List.nodup_iff_pairwise_ne]
              have := hwn.1
              rw [List.nodup_iff_pairwise_ne, List.pairwise_map] at this
              exact this.imp fun hne e => hne (by rw [e])
            have hA' : n.kids[A.length]'(by omega) = ch := by simp [h3]
            exact List.pairwise_iff_getElem.mp (List.nodup_iff_pairwise_ne.mp hnd') A.length j (by omega) hj2 (by omega) (hA'.trans e.symm)
end

section
variable {v : View} {t : Tree α}

omit [Inhabited α] in
theorem tidy_one {p : Str} {P x : Node α} (htk : Takes v t (.remove p) P x) :
    Tidy v t [.remove p] := by
  have one : ∀ {i j : Nat} {c c' : Call}, i ≠ j → ([.remove p] : List Call)[i]? = some c → ([.remove p] : List Call)[j]? = some c' → False := by
    intro i j c c' hij hi hj
    have h1 := (List.getElem?_eq_some_iff.mp hi).1
    have h2 := (List.getElem?_eq_some_iff.mp hj).1
    simp only [List.length_cons, List.length_nil] at h1 h2
    omega
  refine ⟨fun p' hp' => ?_, fun i j c c' _ _ _ _ hij hi hj => (one hij hi hj).elim, fun i j c c' _ _ _ _ _ hij hi hj => (one hij hi hj).elim⟩
  obtain rfl : p' = p := by simpa using hp'
  exact ⟨P, x, htk⟩

/-- One goroutine alone does the same whatever the others are. -/
theorem sync {d : Char} {cs cs' : List Call} {r r' : Nat} (hc : cs[r]? = cs'[r']?) : ∀ (n : Nat) {W W' : World α}, W.mem = W'.mem →
    W.pcs r = W'.pcs r' → (W.run d cs (List.replicate n r)).mem = (W'.run d cs' (List.replicate n r')).mem ∧
      (W.run d cs (List.replicate n r)).pcs r = (W'.run d cs' (List.replicate n r')).pcs r'
  | 0, W, W', h1, h2 => ⟨h1, h2⟩
  | n + 1, W, W', h1, h2 => by
    rw [List.replicate_succ, List.replicate_succ, World.run, World.run]
    refine sync hc n ?_ ?_
    · simp only [World.tick, hc, h1, h2]
    · simp only [World.tick, hc, h1, h2, if_true]

/-- A removal runs from its beginning to its end. -/
theorem solo_remove (h : t.OK) (hp : t.Plain v.delim) (hm : v.mode ≠ .up) {cs : List Call} {r : Nat} {p : Str}
    (hr : cs[r]? = some (.remove p)) {P x : Node α} (htk : Takes v t (.remove p) P x) {W : World α}
    (hW : W.mem = (start v t cs).mem) (hpc : W.pcs r = .enter (v.full p) t.root.id none []) :
    ∃ n, let W' := W.run v.delim cs (List.replicate n r)
      W'.pcs r = .gone true ∧ (∀ l, l ≠ r → W'.pcs l = W.pcs l) ∧ (∀ i, i ≠ P.id → W'.mem i = (start v t cs).mem i) ∧
      W'.mem P.id = slid ((start v t cs).mem P.id) ((P.kids.map Node.id).idxOf x.id)
        (P.kids.length - (P.kids.map Node.id).idxOf x.id) := by
  have ht := tidy_one htk
  have F := planOf_fits h hp hm ht
  have hT : planOf v t [.remove p] 0 = _ := planOf_takes rfl htk
  obtain ⟨B, hB⟩ := remove_result h hp hm ht
  obtain ⟨b1, b2, b3⟩ := hB (List.replicate (B 0) 0)
  have hgone := (b3 0 _ hT).2.2 (by simp)
  obtain ⟨s1, s2⟩ := sync (d := v.delim) (cs := cs) (cs' := [.remove p]) (r := r) (r' := 0) (by rw [hr]; rfl) (B 0)
    (W := W) (W' := start v t [.remove p]) hW hpc
  have hbase : (start v t [.remove p]).mem = (start v t cs).mem := rfl
  refine ⟨B 0, s2.trans hgone, fun l hl => run_other W _ (fun h => hl (List.eq_of_mem_replicate h)), fun i hi => ?_, ?_⟩
  · have hwho : who (planOf v t [.remove p]) i = none := by
      refine who_none fun l T' hl e => ?_
      obtain ⟨p', _, x', P', g1, g2, rfl⟩ := planOf_some hl
      obtain ⟨rfl⟩ : l = 0 := by
        have := (List.getElem?_eq_some_iff.mp g1).1
        simp only [List.length_cons, List.length_nil] at this
        omega
      rw [hT] at hl
      have := congrArg Task.par (Option.some.inj hl)
      exact hi (e.symm.trans this.symm)
    rw [s1, b1]
    simp only [mems, hwho]
    rfl
  · rw [s1, b1]
    have := F.at hT (stages (planOf v t [.remove p]) ((start v t [.remove p]).run v.delim [.remove p] (List.replicate (B 0) 0)).pcs)
    refine this.trans ?_
    rw [hbase]
    congr 1
    simp only [stages, hT, hgone, stage]

/-- A lookup begins, then a removal runs from its beginning to its end, then the lookup goes on. -/
theorem interrupt (h : t.OK) (hp : t.Plain v.delim) (hm : v.mode ≠ .up) {cs : List Call}
    {k : Nat} {p : Str} (hk : cs[k]? = some (.get p)) {r : Nat} {pr : Str} (hr : cs[r]? = some (.remove pr)) {P x : Node α}
    (htk : Takes v t (.remove pr) P x) {Q1 Q2 : Pc α → Prop} {N1 : Nat}
    (h1 : ∀ σ, Leads (.get p) v.delim (fun _ => (start v t cs).mem) Q1 N1 σ (.enter (v.full p) t.root.id none []))
    (h2 : ∀ (M : Mem α) pc, Q1 pc → (∀ i, i ≠ P.id → M i = (start v t cs).mem i) →
      M P.id = slid ((start v t cs).mem P.id) ((P.kids.map Node.id).idxOf x.id)
        (P.kids.length - (P.kids.map Node.id).idxOf x.id) → ∃ N, ∀ σ, Leads (.get p) v.delim (fun _ => M) Q2 N σ pc) :
    ∃ S, Q2 (((start v t cs).run v.delim cs S).pcs k) := by
  have hkr : k ≠ r := by rintro rfl; rw [hk] at hr; cases hr
  have e3 : (start v t cs).pcs k = .enter (v.full p) t.root.id none [] := by simp only [start, hk]; rfl
  have e4 : (start v t cs).pcs r = .enter (v.full pr) t.root.id none [] := by simp only [start, hr]; rfl
  obtain ⟨n1, a1, a3, a2⟩ := drive (d := v.delim) hk (W := start v t cs) (by rw [e3]; rfl) (by rw [e3]; exact h1 fun _ => 0)
  obtain ⟨n2, _, b2, b3, b4⟩ := solo_remove h hp hm hr htk a1
    (by rw [run_other _ _ (fun h => hkr (List.eq_of_mem_replicate h).symm)]; exact e4)
  rw [← run_append] at b2 b3 b4
  obtain ⟨N, hN⟩ := h2 _ _ a2 b3 b4
  rw [← b2 k hkr] at hN
  obtain ⟨n3, _, _, c2⟩ := drive (d := v.delim) hk (W := (start v t cs).run v.delim cs (List.replicate n1 k ++ List.replicate n2 r))
    (by rw [b2 k hkr]; exact a3) (hN fun _ => 0)
  refine ⟨(List.replicate n1 k ++ List.replicate n2 r) ++ List.replicate n3 k, ?_⟩
  rw [run_append]
  exact c2

/-- A child further back is missed. -/
theorem missed (h : t.OK) (hp : t.Plain v.delim) (hm : v.mode ≠ .up) {cs : List Call} 
    {k : Nat} {p : Str} (hk : cs[k]? = some (.get p)) {r : Nat} {pr : Str} (hr : cs[r]? = some (.remove pr)) {P x : Node α}
    (htk : Takes v t (.remove pr) P x) {u : Str} (hP : (u, P) ∈ t.root.nodes []) {A C : List (Node α)} {ch : Node α}
    (hkids : P.kids = A ++ ch :: C) (hx : x ∈ A) (hC : C ≠ []) {rest : Str} (hw : v.full p = u ++ rest)
    (hh : ch.path.head? = rest.head?) : ∃ S, ((start v t cs).run v.delim cs S).pcs k = .done ansNone := by
  have hl := start_lays (v := v) h cs
  have hwP := (Node.wf_iff P).mp (Node.wf_of_mem h.wf hP)
  have hchm : ch ∈ P.kids := by rw [hkids]; simp
  have hlen : P.kids.length = A.length + C.length + 1 := by rw [hkids]; simp; omega
  have hClen := List.length_pos_iff.mpr hC
  have hdisj : ∀ e ∈ A ++ C, e.path.head? ≠ ch.path.head? := by
    intro e he
    have := hwP.1
    rw [hkids, List.map_append, List.map_cons, List.nodup_append, List.nodup_cons] at this
    rcases List.mem_append.mp he with he | he
    · exact this.2.2 _ (List.mem_map.mpr ⟨e, he, rfl⟩) _ (by simp)
    · exact fun e' => this.2.1.1 (List.mem_map.mpr ⟨e, he, e'⟩)
  cases rest with
  | nil => rw [List.head?_nil, List.head?_eq_none_iff] at hh; exact absurd hh (hwP.2 ch hchm).1
  | cons b y =>
  have hhb : ch.path.head? = some b := hh
  have kid : ∀ e ∈ P.kids, (start v t cs).mem e.id = cellOf e := fun e he => hl (u ++ e.path) e (Node.nodes_trans hP (by
    rw [Node.mem_nodesL]; exact ⟨e, he, by rw [Node.mem_nodes]; simp⟩))
  have hT := planOf_takes hr htk
  have hg := (Race.goes_stored h hP).1.append (b :: y)
  rw [← hw] at hg
  obtain ⟨N, par', new, hN, hnew⟩ := goes_leads (c := .get p) (d := v.delim) hg h.wf [] hl h.ids_nodup none []
  rw [List.append_nil] at hN
  have hPm := hl _ P hP
  have hAm : ∀ e ∈ A, (start v t cs).mem e.id = cellOf e ∧ e.path.head? ≠ some b := fun e he =>
    ⟨kid e (by rw [hkids]; simp [he]), by rw [← hhb]; exact hdisj e (by simp [he])⟩
  refine interrupt h hp hm hk hr htk (Q1 := fun r => r = .ret false false none none (⟨P.id, P.kids.length, A.length, b :: y⟩ :: new))
    (Q2 := fun r => r = .done ansNone) (N1 := N + ((3 * A.length) + 1 + 1 + 1 + 1 + P.path.length + 1))
    (fun σ => (hN σ).trans fun s r _ hr => ?_) (fun M pc hpc hM hMP => ?_)
  · rw [hr]
    refine leads_through (by simp) (by simp) rfl (static_shows hPm) (.to (.range (P.path ++ b :: y) P.id par' P.path.length new)
      (fun _ _ => ?_) (.to (.ret false false none none (⟨P.id, P.kids.length, 0, b :: y⟩ :: new)) (fun _ _ => ?_)
        (leads_on (Node.wf_of_mem h.wf hP) hPm hkids hAm s A.length 0 (by omega))))
    · simp only [step]
      rw [hPm, if_neg (by simp only [cellOf]; omega)]
    · simp only [step]
      rw [hPm, if_neg (by simp only [cellOf]; omega), List.drop_left]
      rfl
  · subst hpc
    have hM : ∀ i, i ≠ P.id → M i = (start v t cs).mem i := hM
    have hMP : M P.id = slid ((start v t cs).mem P.id) ((P.kids.map Node.id).idxOf x.id)
      (P.kids.length - (P.kids.map Node.id).idxOf x.id) := hMP
    have hpath : ∀ i, (M i).path = ((start v t cs).mem i).path := by
      intro i
      by_cases e : i = P.id
      · rw [e, hMP]; rfl
      · rw [hM i e]
    have hix : (P.kids.map Node.id).idxOf x.id < A.length := by
      rw [hkids, List.map_append, List.idxOf_append, if_pos (List.mem_map.mpr ⟨x, hx, rfl⟩)]
      have := List.idxOf_lt_length_of_mem (List.mem_map.mpr ⟨x, hx, rfl⟩ : x.id ∈ A.map Node.id)
      simpa using this
    refine idle_none p _ fun L hL => ?_
    rcases List.mem_cons.mp hL with rfl | hL
    · refine ⟨b, y, rfl, fun j hj1 hj2 => ?_⟩
      have hj1 : A.length ≤ j := hj1
      have hj2 : j < P.kids.length := hj2
      show ∃ a x, (M ((M P.id).arr.getD j 0)).path = a :: x ∧ a ≠ b
      rw [hMP, hPm]
      simp only [slid, cellOf]
      rw [slide_getD (by simpa using hj2)]
      generalize (P.kids.map Node.id).idxOf x.id = ix at hix
      have : ∃ i, A.length < i ∧ i < P.kids.length ∧
          (if ix ≤ j ∧ j < ix + (P.kids.length - ix) ∧ j + 1 < (P.kids.map Node.id).length then j + 1 else j) = i := by
        refine ⟨_, ?_, ?_, rfl⟩ <;> rw [List.length_map] <;> split <;> omega
      obtain ⟨i, i1, i2, i3⟩ := this
      rw [i3, ids_getD i2]
      have hiC : P.kids[i] ∈ C := by
        have : P.kids[i] = C[i - (A.length + 1)]'(by omega) := by
          simp only [hkids]
          rw [List.getElem_append_right (by omega), List.getElem_cons, dif_neg (by omega)]
          congr 1
        rw [this]; exact List.getElem_mem _
      obtain ⟨a, z, haz⟩ := List.exists_cons_of_ne_nil (hwP.2 _ (List.getElem_mem i2)).1
      refine ⟨a, z, by rw [hpath, kid _ (List.getElem_mem i2)]; exact haz, ?_⟩
      rintro rfl
      exact hdisj _ (List.mem_append_right _ hiC) (by rw [haz, hhb]; rfl)
    · obtain ⟨n1, b', y', n2, n3⟩ := hnew L hL
      refine ⟨b', y', n2, fun j hj1 hj2 => ?_⟩
      obtain ⟨a, z, n4, n5⟩ := n3 j hj1 hj2
      exact ⟨a, z, by rw [hpath, hM _ n1]; exact n4, n5⟩

/-- When the only child of a node is removed, a lookup of anything below that node may give the value of the node. -/
theorem fooled (h : t.OK) (hp : t.Plain v.delim) (hm : v.mode ≠ .up) {cs : List Call} 
    {k : Nat} {p : Str} (hk : cs[k]? = some (.get p)) {r : Nat} {pr : Str} (hr : cs[r]? = some (.remove pr)) {P x : Node α}
    (htk : Takes v t (.remove pr) P x) {u : Str} (hP : (u, P) ∈ t.root.nodes []) (hu : P.path ≠ []) (hkids : P.kids = [x])
    {b : Char} {y : Str} (hw : v.full p = u ++ b :: y) :
    ∃ S, ((start v t cs).run v.delim cs S).pcs k = .done (ansOf v.delim u P.core) := by
  have hl := start_lays (v := v) h cs
  have hT := planOf_takes hr htk
  have hg := (Race.goes_stored h hP).1.append (b :: y)
  rw [← hw] at hg
  obtain ⟨N, par', new, hN, hnew⟩ := goes_leads (c := .get p) (d := v.delim) hg h.wf [] hl h.ids_nodup none []
  rw [List.append_nil] at hN
  have hPm := hl _ P hP
  have hpl := List.length_pos_iff.mpr hu
  refine interrupt h hp hm hk hr htk (Q1 := fun r => r = .range (P.path ++ b :: y) P.id par' P.path.length new)
    (Q2 := fun r => r = .done (ansOf v.delim u P.core)) (N1 := N + (0 + 1 + 1 + 1 + P.path.length + 1))
    (fun σ => (hN σ).trans fun s r _ hr => ?_) (fun M pc hpc hM hMP => ?_)
  · rw [hr]
    refine leads_through (by simp) (by simp) rfl (static_shows hPm) (.to (.range (P.path ++ b :: y) P.id par' P.path.length new)
      (fun _ _ => ?_) (.at 0))
    simp only [step]
    rw [hPm, if_neg (by simp [cellOf, hkids])]
  · subst hpc
    have hMP : M P.id = slid ((start v t cs).mem P.id) ((P.kids.map Node.id).idxOf x.id)
      (P.kids.length - (P.kids.map Node.id).idxOf x.id) := hMP
    rw [hPm] at hMP
    have hlen : (M P.id).len = 0 := by
      rw [hMP, slid_len, hkids]
      simp
    have hS : Shows (fun _ => M) P := ⟨fun _ => by rw [hMP]; rfl, fun _ => by rw [hMP]; rfl, fun _ => by rw [hlen]; omega,
      fun _ _ j _ hj => by rw [hlen] at hj; omega⟩
    refine ⟨5 + 1, fun σ => .to (.ret true false (some P.id) par' new) (fun _ _ => ?_) (leads_answer h hP hS p par' new σ)⟩
    simp only [step]
    rw [if_pos hlen, if_pos hpl, if_pos hpl]
    simp [hpl]

/-! ### Two removals from one node -/

/-- A removal searches alone. -/
theorem drive_pick {d : Char} {cs : List Call} {k : Nat} {p : Str} (hk : cs[k]? = some (.remove p)) {P x : Nat} :
    ∀ {n : Nat} {s : Nat → Nat} {W : World α}, (W.pcs k).reads = true →
      Leads (.remove p) d (fun _ => W.mem) (fun r => r = .pick P x) n s (W.pcs k) →
      ∃ n', (W.run d cs (List.replicate n' k)).mem = W.mem ∧ (W.run d cs (List.replicate n' k)).pcs k = .pick P x
  | 0, s, W, _, h => ⟨0, rfl, h⟩
  | n + 1, s, W, hr, h => by
    rcases h with h | h
    · exact ⟨0, rfl, h⟩
    · have hc : cs[k]?.getD (.get []) = .remove p := by rw [hk]; rfl
      have e1 : (W.tick d cs k).mem = W.mem := by simp only [World.tick, hc]; exact reads_mem hr
      have e2 : (W.tick d cs k).pcs k = (step (.remove p) d W.mem (W.pcs k)).2 := by simp only [World.tick, hc, if_true]
      have h' := h s (.refl s)
      rcases remove_reads (p := p) (d := d) (M := W.mem) hr with h1 | ⟨P', x', h1⟩ | h1
      · obtain ⟨n', h2, h3⟩ := drive_pick (n := n) (s := s) (W := W.tick d cs k) hk (by rw [e2]; exact h1) (by rw [e1, e2]; exact h')
        exact ⟨n' + 1, h2.trans e1, h3⟩
      · refine ⟨1, e1, e2.trans ?_⟩
        rw [h1] at h' ⊢
        cases n with
        | zero => exact h'
        | succ n =>
          rcases h' with h' | h'
          · exact h'
          · exact (leads_late (h' s (.refl s)) rfl).elim
      · rw [h1] at h'
        exact (leads_late h' rfl).elim

/-- The loop in `remove`, alone. -/
theorem scan_run {d : Char} {cs : List Call} {k : Nat} {P x n ix : Nat} (hn : ix < n) : ∀ (j : Nat) {W : World α} (i : Nat), i + j = ix →
    W.pcs k = .scan P x n i → (W.mem P).arr.getD ix 0 = x → (∀ l, l < ix → (W.mem P).arr.getD l 0 ≠ x) →
    (W.run d cs (List.replicate (j + 1) k)).mem = W.mem ∧ (W.run d cs (List.replicate (j + 1) k)).pcs k = .cut P ix
  | 0, W, i, e, hp, h1, h2 => by
    rw [show i = ix from by omega] at hp
    refine ⟨?_, ?_⟩
    · show (step _ _ _ _).1 = _
      rw [hp]; rfl
    · show (if k = k then _ else _) = _
      rw [if_pos rfl, hp]
      simp only [step]
      rw [if_pos hn, if_pos h1]
  | j + 1, W, i, e, hp, h1, h2 => by
    rw [List.replicate_succ, World.run]
    have e1 : (W.tick d cs k).mem = W.mem := by
      show (step _ _ _ _).1 = _
      rw [hp]; rfl
    have e2 : (W.tick d cs k).pcs k = .scan P x n (i + 1) := by
      show (if k = k then _ else _) = _
      rw [if_pos rfl, hp]
      simp only [step]
      rw [if_pos (by omega), if_neg (h2 i (by omega))]
    have := scan_run (d := d) (cs := cs) hn j (i + 1) (by omega) e2 (by rw [e1]; exact h1) (by rw [e1]; exact h2)
    rw [e1] at this
    exact this

/-- The search of a removal that nobody disturbs. -/
theorem static_pick (h : t.OK) (hp : t.Plain v.delim) (hm : v.mode ≠ .up) {M : Mem α} (hl : Lays M t) {p : Str} {P x : Node α}
    (htk : Takes v t (.remove p) P x) :
    ∃ N, ∀ σ, Leads (.remove p) v.delim (fun _ => M) (fun r => r = .pick P.id x.id) N σ (.enter (v.full p) t.root.id none []) := by
  obtain ⟨p', t', e, h2⟩ := htk
  cases e
  obtain ⟨hw, _, u, h3, h4, h5, h6⟩ := takes_spec h hp hm h2
  obtain ⟨P', u', g1, g2, N, hN⟩ := leads_found (ms := fun _ => M) (.remove p) h (hp.at (v.full p)) hw
    (fun q m hm => static_shows (hl q m hm)) h6 (fun u m ch hmem hch _ s => by
      obtain ⟨k, hk, rfl⟩ := List.getElem_of_mem hch
      refine ⟨k, ?_, fun _ _ => ?_⟩
      · show k < (M m.id).len
        rw [hl _ _ hmem]; exact hk
      · show (M m.id).arr.getD k 0 = _
        rw [hl _ _ hmem]; exact ids_getD hk)
  have hu : (u' ++ x.path, x) ∈ t.root.nodes [] := by
    refine Node.nodes_trans g1 ?_
    rw [Node.mem_nodesL]
    exact ⟨x, g2, by rw [Node.mem_nodes]; simp⟩
  have hue : u' = u := List.append_cancel_right (congrArg Prod.fst (h.id_inj hu h5 rfl))
  subst hue
  have hP : P' = P := Option.some.inj (((Tree.nodeAt_some h).mpr g1).symm.trans ((Tree.nodeAt_some h).mpr h3))
  subst hP
  refine ⟨N + 1, fun σ => (hN σ).trans fun s r hs hr => ?_⟩
  obtain ⟨stk, rfl⟩ := hr
  exact .to (.pick P'.id x.id) (fun _ _ => rfl) (.at 0)

/-- A removal has found the index of its child; then another one removes a child of the same node. -/
theorem collide (h : t.OK) (hp : t.Plain v.delim) (hm : v.mode ≠ .up) {cs : List Call} {r1 r2 : Nat} (hne : r1 ≠ r2) {p1 p2 : Str}
    (h1 : cs[r1]? = some (.remove p1)) (h2 : cs[r2]? = some (.remove p2)) {P x1 x2 : Node α}
    (ht1 : Takes v t (.remove p1) P x1) (ht2 : Takes v t (.remove p2) P x2) :
    ∃ S, let W := (start v t cs).run v.delim cs S
      W.pcs r1 = .gone true ∧ W.pcs r2 = .cut P.id ((P.kids.map Node.id).idxOf x2.id) ∧
      (∀ i, i ≠ P.id → W.mem i = (start v t cs).mem i) ∧
      W.mem P.id = slid (cellOf P) ((P.kids.map Node.id).idxOf x1.id) (P.kids.length - (P.kids.map Node.id).idxOf x1.id) := by
  have hl := start_lays (v := v) h cs
  obtain ⟨p', t', e, hrm⟩ := ht2
  cases e
  obtain ⟨_, _, u, hP, hx, _⟩ := takes_spec h hp hm hrm
  have ht2 : Takes v t (.remove p2) P x2 := ⟨p2, t', rfl, hrm⟩
  have F := planOf_fits h hp hm (tidy_one ht2)
  have hT : planOf v t [.remove p2] 0 = _ := planOf_takes rfl ht2
  have e3 : (start v t cs).pcs r1 = .enter (v.full p1) t.root.id none [] := by simp only [start, h1]; rfl
  have e4 : (start v t cs).pcs r2 = .enter (v.full p2) t.root.id none [] := by simp only [start, h2]; rfl
  obtain ⟨N, hN⟩ := static_pick h hp hm hl ht2
  obtain ⟨n1, a1, a2⟩ := drive_pick (d := v.delim) h2 (W := start v t cs) (by rw [e4]; rfl) (by rw [e4]; exact hN fun _ => 0)
  -- from `pick` to `cut`
  generalize hW1 : (start v t cs).run v.delim cs (List.replicate n1 r2) = W1 at a1 a2
  have b1 : (W1.tick v.delim cs r2).mem = W1.mem := by
    show (step _ _ _ _).1 = _
    rw [a2]; rfl
  have b2 : (W1.tick v.delim cs r2).pcs r2 = .scan P.id x2.id P.kids.length 0 := by
    show (if r2 = r2 then _ else _) = _
    rw [if_pos rfl, a2]
    simp only [step]
    rw [a1, hl _ _ hP]
    rfl
  obtain ⟨c1, c2⟩ := scan_run (d := v.delim) (cs := cs) (k := r2) (x := x2.id) (F.lt 0 _ hT) ((P.kids.map Node.id).idxOf x2.id) 0 (by simp) b2
    (by rw [b1, a1]; exact F.item 0 _ hT) (by rw [b1, a1]; exact F.first 0 _ hT)
  rw [← World.run, b1, a1] at c1
  rw [← World.run] at c2
  obtain ⟨n2, d1, d2, d3, d4⟩ := solo_remove h hp hm h1 ht1 (W := W1.run v.delim cs (r2 :: List.replicate ((P.kids.map Node.id).idxOf x2.id + 1) r2)) c1
    (by
      rw [run_other _ _ (by
        intro hmem
        rcases List.mem_cons.mp hmem with e | hmem
        · exact hne e
        · exact hne (List.eq_of_mem_replicate hmem)), ← hW1, run_other _ _ (fun hmem => hne (List.eq_of_mem_replicate hmem))]
      exact e3)
  refine ⟨List.replicate n1 r2 ++ (r2 :: List.replicate ((P.kids.map Node.id).idxOf x2.id + 1) r2 ++ List.replicate n2 r1), ?_⟩
  rw [run_append, run_append, hW1]
  exact ⟨d1, (d2 r2 (Ne.symm hne)).trans c2, d3, by rw [d4, hl _ _ hP]⟩

end

end Prune
end Verif

import Verif.Lemmas.RaceApart
/-
Several goroutines inserting at the same time.
-/
namespace Verif
namespace Race
variable {α : Type} [Inhabited α]

open Node (commonPrefixLen)

theorem run_append (Js : Nat → Job α) (W : World α) (A B : List Nat) : W.run Js (A ++ B) = (W.run Js A).run Js B := by
  induction A generalizing W with
  | nil => rfl
  | cons k ks ih => exact ih (W.tick Js k)

theorem after_ok {t : Tree α} (h : t.OK) (kvs : List (Str × α)) : (after t kvs).OK := by
  induction kvs generalizing t with
  | nil => exact h
  | cons kv kvs ih => exact ih (View.insertAt_ok h kv.1 kv.2)

theorem after_snoc (t : Tree α) (kvs : List (Str × α)) (kv : Str × α) :
    after t (kvs ++ [kv]) = (View.insertAt (after t kvs) kv.1 kv.2).1 := by
  rw [after, List.foldl_append]; rfl

theorem after_next (t : Tree α) (kvs : List (Str × α)) : (after t kvs).next = t.next + 2 * kvs.length := by
  induction kvs generalizing t with
  | nil => rfl
  | cons kv kvs ih =>
    have := ih (View.insertAt t kv.1 kv.2).1
    rw [after, List.foldl_cons]
    rw [after] at this
    rw [this]
    simp only [View.insertAt, List.length_cons]
    omega

theorem insertAt_id {t : Tree α} (h : t.OK) (key : Str) (x : α) : (View.insertAt t key x).1.root.id = t.root.id :=
  (Node.insertFuel_ok t.next (utf8 key) x (key.length + 2) key t.root [] h.wf (.inl ⟨h.nil, by omega⟩)).id

theorem after_id {t : Tree α} (h : t.OK) (kvs : List (Str × α)) : (after t kvs).root.id = t.root.id := by
  induction kvs generalizing t with
  | nil => rfl
  | cons kv kvs ih => exact (ih (View.insertAt_ok h kv.1 kv.2)).trans (insertAt_id h kv.1 kv.2)

omit [Inhabited α] in
theorem ok_lt {t : Tree α} (h : t.OK) {x : Nat} (hx : x ∈ t.root.ids) : x < t.next := by
  obtain ⟨y, hy, rfl⟩ := List.mem_map.mp hx
  exact h.lt y hy

omit [Inhabited α] in
theorem setup {t : Tree α} (h : t.OK) {M : Mem α} (hM : Holds M t.root) (J : Job α) (hf : t.next ≤ J.fresh) {w : Str}
    {m : Node α} {w' : Str} (hg : Goes t.root w m w') (hs : Stop w' m) : Setup J M t.root w m w' :=
  ⟨hM, h.wf, hg, hs, fun hx => by have := ok_lt h hx; omega, fun hx => by have := ok_lt h hx; omega⟩

/-- One goroutine alone does what `Set` does. -/
theorem alone_set {t : Tree α} (h : t.OK) {M : Mem α} (hM : Holds M t.root) (J : Job α) (hf : J.fresh = t.next) {N : Nat}
    {M' : Mem α} (hd : alone J N (M, .enter J.key t.root.id) = (M', .done)) :
    Holds M' (View.insertAt t J.key J.val).1.root := by
  obtain ⟨m, w', hg, hs⟩ := target t.root J.key
  have S := setup h hM J (by omega) hg hs
  have ha := alone_at S N (At.enter (.here _ _))
  rw [hd] at ha
  cases ha with
  | tail ht =>
    cases ht with
    | done =>
      have hm := final_holds J M (hg.holds hM) (hg.nodup h.nodup) (fun hx => S.f1 (hg.ids hx))
        (fun hx => S.f2 (hg.ids hx)) w'
      have := insert_holds J hg hs hM h.nodup
        (fun x h1 h2 => final_out J M m.id w' h1 (S.ne1 h2) (S.ne2 h2)) hm
        (fuel := J.key.length + 2) ⟨h.wf, .inl ⟨h.nil, by omega⟩⟩
      rw [hf] at this
      exact this

omit [Inhabited α] in
theorem jobs_key {t : Tree α} {kvs : List (Str × α)} {k : Nat} {kv : Str × α} (h : kvs[k]? = some kv) [Inhabited α] :
    jobs t kvs k = ⟨kv.1, kv.2, t.next + 2 * k⟩ := by
  rw [jobs, h]; rfl

/-- A goroutine that is scheduled `N` times in a row. -/
theorem run_alone (Js : Nat → Job α) (W : World α) (k N : Nat) :
    W.run Js (List.replicate N k) =
      ⟨(alone (Js k) N (W.mem, W.pcs k)).1, fun l => if l = k then (alone (Js k) N (W.mem, W.pcs k)).2 else W.pcs l⟩ := by
  induction N generalizing W with
  | zero =>
    obtain ⟨M, pcs⟩ := W
    simp only [List.replicate, World.run, alone]
    congr 1
    funext l
    by_cases h : l = k
    · subst h; simp
    · simp [h]
  | succ N ih =>
    rw [List.replicate_succ, World.run, ih]
    simp only [World.tick, if_true, alone]
    congr
    funext l
    by_cases h : l = k
    · simp [h]
    · simp [h]

/-- One after the other. -/
theorem sequential {t : Tree α} (h : t.OK) (kvs : List (Str × α)) (n : Nat) (hn : n ≤ kvs.length) :
    ∃ S : List Nat,
      Holds ((start t kvs).run (jobs t kvs) S).mem (after t (kvs.take n)).root ∧
      ∀ k, ((start t kvs).run (jobs t kvs) S).pcs k = if k < n then .done else (start t kvs).pcs k := by
  induction n with
  | zero =>
    refine ⟨[], ?_, fun k => by simp [World.run]⟩
    simp only [World.run, start, List.take_zero]
    exact lay_holds _ _ h.nodup
  | succ n ih =>
    obtain ⟨S, h1, h2⟩ := ih (by omega)
    obtain ⟨kv, hkv⟩ : ∃ kv, kvs[n]? = some kv := ⟨kvs[n], by simp⟩
    have hok := after_ok h (kvs.take n)
    have hJ : jobs t kvs n = ⟨kv.1, kv.2, t.next + 2 * n⟩ := jobs_key hkv
    have hnext : (after t (kvs.take n)).next = t.next + 2 * n := by
      rw [after_next, List.length_take]; congr 2; omega
    obtain ⟨m, w', hg, hs⟩ := target (after t (kvs.take n)).root kv.1
    have Su := setup hok h1 (jobs t kvs n) (by rw [hJ, hnext]; exact Nat.le_refl _) hg hs
    obtain ⟨N, hN⟩ := enter_ends Su (after t (kvs.take n)).root kv.1 (.here _ _)
    have hpc : ((start t kvs).run (jobs t kvs) S).pcs n = .enter kv.1 (after t (kvs.take n)).root.id := by
      rw [h2, if_neg (by omega), after_id h, start]
      simp only [hkv]
    refine ⟨S ++ List.replicate N n, ?_, ?_⟩
    · rw [run_append, run_alone, hpc]
      have := alone_set hok h1 (jobs t kvs n) (by rw [hJ, hnext]) (N := N)
        (M' := (alone (jobs t kvs n) N (((start t kvs).run (jobs t kvs) S).mem, .enter kv.1 (after t (kvs.take n)).root.id)).1) (by
          rw [hJ] at hN ⊢
          exact Prod.ext rfl hN)
      rw [hJ] at this
      rw [List.take_add_one, hkv, Option.toList_some, after_snoc, hJ]
      exact this
    · intro k
      rw [run_append, run_alone, hpc]
      by_cases hk : k = n
      · subst hk
        simp only [if_true]
        rw [hN, if_pos (by omega)]
      · simp only [hk, if_false]
        rw [h2]
        by_cases hk' : k < n
        · rw [if_pos hk', if_pos (by omega)]
        · rw [if_neg hk', if_neg (by omega)]

/-! ### Any schedule -/

/-- The state after the goroutines have made `c k` steps each: what each of them wrote is what it would have
written alone. -/
structure Inv (t : Tree α) (kvs : List (Str × α)) (tgt : Nat → Node α) (c : Nat → Nat) (W : World α) : Prop where
  pc : ∀ k, k < kvs.length →
    W.pcs k = (alone (jobs t kvs k) (c k) ((start t kvs).mem, .enter (jobs t kvs k).key t.root.id)).2
  idle : ∀ k, kvs.length ≤ k → W.pcs k = .done
  own : ∀ k, k < kvs.length → ∀ x, Own (jobs t kvs k) (tgt k).id x →
    W.mem x = (alone (jobs t kvs k) (c k) ((start t kvs).mem, .enter (jobs t kvs k).key t.root.id)).1 x
  rest : ∀ x, (∀ k, k < kvs.length → ¬ Own (jobs t kvs k) (tgt k).id x) → W.mem x = (start t kvs).mem x

/-- Where the goroutines stop, and that they do not meet there. -/
structure Targets (t : Tree α) (kvs : List (Str × α)) (tgt : Nat → Node α) (rem : Nat → Str) : Prop where
  goes : ∀ k, Goes t.root (jobs t kvs k).key (tgt k) (rem k)
  stop : ∀ k, Stop (rem k) (tgt k)
  apart : ∀ k l, k < kvs.length → l < kvs.length → k ≠ l → ∀ m1 w1, Goes t.root (jobs t kvs k).key m1 w1 →
    m1.id = (tgt l).id → rem l = (tgt l).path ∧ (tgt l).id ≠ (tgt k).id

theorem targets {t : Tree α} (h : t.OK) (kvs : List (Str × α)) (ha : Apart t (kvs.map (·.1))) :
    ∃ tgt rem, Targets t kvs tgt rem := by
  have h1 : ∀ k : Nat, ∃ T : Node α × Str, Goes t.root (jobs t kvs k).key T.1 T.2 ∧ Stop T.2 T.1 := by
    intro k
    obtain ⟨m, w', h1, h2⟩ := target t.root (jobs t kvs k).key
    exact ⟨(m, w'), h1, h2⟩
  obtain ⟨f, hf⟩ := Classical.skolem.mp h1
  refine ⟨fun k => (f k).1, fun k => (f k).2, fun k => (hf k).1, fun k => (hf k).2, ?_⟩
  intro k l hk hl hkl m1 w1 hg he
  have key : ∀ k, k < kvs.length → (kvs.map (·.1))[k]? = some (jobs t kvs k).key := by
    intro k hk
    rw [List.getElem?_map, jobs]
    simp [hk]
  exact free_apart h (ha k l hkl _ _ (key k hk) (key l hl)) (ha l k (Ne.symm hkl) _ _ (key l hl) (key k hk))
    (hf k).1 (hf k).2 (hf l).1 (hf l).2 hg he

section
variable {t : Tree α} {kvs : List (Str × α)} {tgt : Nat → Node α} {rem : Nat → Str}

theorem start_holds (h : t.OK) : Holds (start t kvs).mem t.root := lay_holds _ _ h.nodup

theorem Targets.setup (T : Targets t kvs tgt rem) (h : t.OK) (k : Nat) :
    Setup (jobs t kvs k) (start t kvs).mem t.root (jobs t kvs k).key (tgt k) (rem k) :=
  Race.setup h (start_holds h) _ (by simp [jobs]) (T.goes k) (T.stop k)

theorem Targets.at (T : Targets t kvs tgt rem) (h : t.OK) (k N : Nat) :
    At (jobs t kvs k) (start t kvs).mem t.root (jobs t kvs k).key (tgt k) (rem k)
      (alone (jobs t kvs k) N ((start t kvs).mem, .enter (jobs t kvs k).key t.root.id)).1
      (alone (jobs t kvs k) N ((start t kvs).mem, .enter (jobs t kvs k).key t.root.id)).2 :=
  alone_at (T.setup h k) N (.enter (.here _ _))

/-- The pointers of different goroutines are different. -/
theorem Targets.disjoint (T : Targets t kvs tgt rem) (h : t.OK) {k l : Nat} (hk : k < kvs.length) (hl : l < kvs.length)
    (hkl : k ≠ l) {x : Nat} (h1 : Own (jobs t kvs k) (tgt k).id x) (h2 : Own (jobs t kvs l) (tgt l).id x) : False := by
  have a := ok_lt h ((T.goes k).ids (id_ids (tgt k)))
  have b := ok_lt h ((T.goes l).ids (id_ids (tgt l)))
  have c : (tgt k).id ≠ (tgt l).id := fun e => (T.apart k l hk hl hkl _ _ (T.goes k) e).2 e.symm
  simp only [Own, jobs] at h1 h2
  omega

omit [Inhabited α] in
/-- `At` in a memory: what lies outside the own pointers is untouched. -/
theorem At.out [Inhabited α] {J : Job α} {M0 : Mem α} {n : Node α} {w : Str} {m : Node α} {w' : Str} {M : Mem α} {pc : Pc}
    (h : At J M0 n w m w' M pc) {x : Nat} (hx : ¬ Own J m.id x) : M x = M0 x := by
  cases h with
  | enter h => rfl
  | look h hp => rfl
  | scan h hp k pre post hk hpre => rfl
  | tail h => exact h.out hx

omit [Inhabited α] in
theorem Setup.pos {J : Job α} {M0 : Mem α} {n : Node α} {w : Str} {m : Node α} {w' : Str} (S : Setup J M0 n w m w')
    (hn : n.path = []) :
    commonPrefixLen w' (M0 m.id).path < (M0 m.id).path.length → 0 < commonPrefixLen w' (M0 m.id).path := by
  rw [S.cell]
  simp only
  intro hlt
  -- either the root, or a child whose first rune agrees
  have key : ∀ {n : Node α} {w : Str} {m : Node α} {w' : Str}, Goes n w m w' → n.WF →
      (n.path = [] ∨ (n.path ≠ [] ∧ n.path.head? = w.head?)) → (m.path = [] ∨ (m.path ≠ [] ∧ m.path.head? = w'.head?)) := by
    intro n w m w' h
    induction h with
    | here n w => exact fun _ h => h
    | down hp _ ih =>
      intro hw _
      have hwn := (Node.wf_iff _).mp hw
      refine ih (hwn.2 _ hp.mem).2 (.inr ⟨(hwn.2 _ hp.mem).1, ?_⟩)
      obtain ⟨_, _, _, _, _, _, h5⟩ := hp
      exact h5
  rcases key S.goes S.wf (.inl hn) with h | ⟨h, h'⟩
  · rw [h] at hlt; simp at hlt
  · cases hm : m.path with
    | nil => exact absurd hm h
    | cons b bs =>
      rw [hm] at h'
      cases hw : w' with
      | nil => rw [hw] at h'; simp at h'
      | cons c cs =>
        rw [hw] at h'
        simp at h'
        rw [commonPrefixLen, if_pos h'.symm]
        omega

theorem At.head {J : Job α} {M0 : Mem α} {n : Node α} {w : Str} {m : Node α} {w' : Str} (S : Setup J M0 n w m w')
    (hn : n.path = []) {M : Mem α} {pc : Pc} (h : At J M0 n w m w' M pc) :
    (M m.id).path.head? = (M0 m.id).path.head? := by
  cases h with
  | enter h => rfl
  | look h hp => rfl
  | scan h hp k pre post hk hpre => rfl
  | tail h => exact h.head (S.ne2 S.mid) (S.pos hn)

theorem At.soft {J : Job α} {M0 : Mem α} {n : Node α} {w : Str} {m : Node α} {w' : Str} (S : Setup J M0 n w m w')
    (hw : w' = m.path) {M : Mem α} {pc : Pc} (h : At J M0 n w m w' M pc) :
    (M m.id).path = (M0 m.id).path ∧ (M m.id).kids = (M0 m.id).kids := by
  cases h with
  | enter h => exact ⟨rfl, rfl⟩
  | look h hp => exact ⟨rfl, rfl⟩
  | scan h hp k pre post hk hpre => exact ⟨rfl, rfl⟩
  | tail h => exact h.soft (by rw [S.cell]; exact hw)

/-- One more step of one goroutine. -/
theorem Inv.tick (T : Targets t kvs tgt rem) (h : t.OK) {c : Nat → Nat} {W : World α} (I : Inv t kvs tgt c W) (k : Nat) :
    Inv t kvs tgt (fun l => if l = k then c l + 1 else c l) (W.tick (jobs t kvs) k) := by
  by_cases hk : k < kvs.length
  · have hS := T.setup h k
    have hA := T.at h k (c k)
    have hsim : Sim (jobs t kvs k) (tgt k).id W.mem
        (alone (jobs t kvs k) (c k) ((start t kvs).mem, .enter (jobs t kvs k).key t.root.id)).1 (W.pcs k) := by
      rw [I.pc k hk]
      refine hA.sim hS (I.own k hk) ?_ (fun m1 w1 c hg hp => (T.goes k).pass_ne h.nodup (T.stop k) hg hp) ?_
      · intro m1 w1 hg hne
        by_cases hex : ∃ l, l < kvs.length ∧ Own (jobs t kvs l) (tgt l).id m1.id
        · obtain ⟨l, hl, ho⟩ := hex
          have hlt := ok_lt h (hg.ids (id_ids m1))
          have he : m1.id = (tgt l).id := by
            simp only [Own, jobs] at ho; omega
          have hkl : k ≠ l := fun e => hne (e ▸ he)
          have hap := T.apart k l hk hl hkl m1 w1 hg he
          rw [I.own l hl _ ho, he]
          exact (T.at h l (c l)).soft (T.setup h l) hap.1
        · rw [I.rest m1.id fun l hl ho => hex ⟨l, hl, ho⟩]
          exact ⟨rfl, rfl⟩
      · intro x hx
        by_cases hox : Own (jobs t kvs k) (tgt k).id x
        · rw [I.own k hk x hox]
        · rw [hA.out hox]
          by_cases hex : ∃ l, l < kvs.length ∧ Own (jobs t kvs l) (tgt l).id x
          · obtain ⟨l, hl, ho⟩ := hex
            have hlt := ok_lt h hx
            have he : x = (tgt l).id := by
              simp only [Own, jobs] at ho; omega
            rw [I.own l hl x ho, he]
            exact (T.at h l (c l)).head (T.setup h l) h.nil
          · rw [I.rest x fun l hl ho => hex ⟨l, hl, ho⟩]
    obtain ⟨s1, s2⟩ := hsim
    refine ⟨?_, ?_, ?_, ?_⟩
    · intro l hl
      by_cases hlk : l = k
      · subst hlk
        simp only [World.tick, if_true]
        rw [alone_succ, ← I.pc l hl]
        exact s1
      · simp only [World.tick, hlk, if_false]
        exact I.pc l hl
    · intro l hl
      have hlk : l ≠ k := by omega
      simp only [World.tick, hlk, if_false]
      exact I.idle l hl
    · intro l hl x ho
      by_cases hlk : l = k
      · subst hlk
        simp only [World.tick, if_true]
        rw [s2 x, if_pos ho, alone_succ, ← I.pc l hl]
      · simp only [World.tick, hlk, if_false]
        rw [s2 x, if_neg fun ho' => T.disjoint h hk hl (Ne.symm hlk) ho' ho]
        exact I.own l hl x ho
    · intro x hx
      simp only [World.tick]
      rw [s2 x, if_neg (hx k hk)]
      exact I.rest x hx
  · have hd := I.idle k (by omega)
    have hW : W.tick (jobs t kvs) k = W := by
      rw [World.tick, hd]
      simp only [step]
      congr
      funext l
      by_cases hl : l = k
      · subst hl; simp [hd]
      · simp [hl]
    rw [hW]
    have hne : ∀ l, l < kvs.length → l ≠ k := fun l hl e => hk (e ▸ hl)
    refine ⟨?_, I.idle, ?_, I.rest⟩
    · intro l hl; simp only [hne l hl, if_false]; exact I.pc l hl
    · intro l hl; simp only [hne l hl, if_false]; exact I.own l hl

theorem Inv.start (t : Tree α) (kvs : List (Str × α)) (tgt : Nat → Node α) : Inv t kvs tgt (fun _ => 0) (start t kvs) := by
  refine ⟨?_, ?_, fun _ _ _ _ => rfl, fun _ _ => rfl⟩
  · intro k hk
    simp only [alone, Race.start, jobs]
    simp [hk]
  · intro k hk
    simp only [Race.start]
    simp [hk]

theorem Inv.run (T : Targets t kvs tgt rem) (h : t.OK) (S : List Nat) {c : Nat → Nat} {W : World α} (I : Inv t kvs tgt c W) :
    Inv t kvs tgt (fun l => c l + S.count l) (W.run (jobs t kvs) S) := by
  induction S generalizing c W with
  | nil => exact I
  | cons k ks ih =>
    have := ih (I.tick T h k)
    refine cast ?_ this
    congr 1
    funext l
    rw [List.count_cons]
    by_cases hl : l = k
    · subst hl; simp; omega
    · have : (k == l) = false := by simp [Ne.symm hl]
      simp [hl, this]

/-- When all are done, what is in memory does not depend on the schedule. -/
theorem Inv.unique {c c' : Nat → Nat} {W W' : World α} (I : Inv t kvs tgt c W) (I' : Inv t kvs tgt c' W')
    (hd : W.Done) (hd' : W'.Done) : W.mem = W'.mem := by
  funext x
  by_cases hex : ∃ l, l < kvs.length ∧ Own (jobs t kvs l) (tgt l).id x
  · obtain ⟨l, hl, ho⟩ := hex
    rw [I.own l hl x ho, I'.own l hl x ho]
    have e := (I.pc l hl).symm.trans (hd l)
    have e' := (I'.pc l hl).symm.trans (hd' l)
    have key : ∀ {A B : Nat} {s : Mem α × Pc}, A ≤ B → (alone (jobs t kvs l) A s).2 = .done →
        alone (jobs t kvs l) B s = alone (jobs t kvs l) A s := by
      intro A B s hAB hA
      obtain ⟨r, rfl⟩ : ∃ r, B = A + r := ⟨B - A, by omega⟩
      rw [alone_add]
      have : alone (jobs t kvs l) A s = ((alone (jobs t kvs l) A s).1, .done) := Prod.ext rfl hA
      rw [this, alone_done]
    rcases Nat.le_total (c l) (c' l) with hle | hle
    · rw [key hle e]
    · rw [key hle e']
  · rw [I.rest x fun l hl ho => hex ⟨l, hl, ho⟩, I'.rest x fun l hl ho => hex ⟨l, hl, ho⟩]

end

end Race
end Verif

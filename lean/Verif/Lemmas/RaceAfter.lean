import Verif.Lemmas.RaceEnd
import Verif.Props.Remove
/-
The memory when all removals have returned.
-/
namespace Verif
namespace Prune
variable {α : Type} [Inhabited α]

/-- The memory holds the node; what lies behind the slice does not matter. -/
def Holds (M : Mem α) (m : Node α) : Prop :=
  (M m.id).path = m.path ∧ (M m.id).core = m.core ∧ (M m.id).arr.take (M m.id).len = m.kids.map Node.id ∧
    (M m.id).len = m.kids.length

omit [Inhabited α] in
theorem Holds.shows {M : Mem α} {m : Node α} (h : Holds M m) : Shows (fun _ => M) m := by
  obtain ⟨h1, h2, h3, h4⟩ := h
  refine ⟨fun _ => h1, fun _ => h2, fun _ => by rw [h4]; exact Nat.le_refl _, fun _ _ k _ hk => ?_⟩
  have hk' : k < m.kids.length := by rw [← h4]; exact hk
  refine ⟨_, List.getElem_mem hk', ?_⟩
  rw [← ids_getD hk', ← h3, List.getD_eq_getElem?_getD, List.getD_eq_getElem?_getD, List.getElem?_take, if_pos hk]

omit [Inhabited α] in
theorem Holds.at {M : Mem α} {m : Node α} (h : Holds M m) {k : Nat} (hk : k < m.kids.length) :
    (M m.id).arr.getD k 0 = m.kids[k].id := by
  obtain ⟨h1, h2, h3, h4⟩ := h
  rw [← ids_getD hk, ← h3, List.getD_eq_getElem?_getD, List.getD_eq_getElem?_getD, List.getElem?_take, if_pos (by omega)]

omit [Inhabited α] in
theorem Holds.firm {M : Mem α} {m : Node α} (h : Holds M m) : Firm (fun _ => M) m := by
  intro _ hk _ e
  have h4 := h.2.2.2
  rw [e] at h4
  exact hk (List.eq_nil_of_length_eq_zero h4.symm)

omit [Inhabited α] in
theorem Holds.sure {M : Mem α} {m ch : Node α} (h : Holds M m) (hch : ch ∈ m.kids) : Sure (fun _ => M) m ch := by
  intro _
  obtain ⟨k, hk, rfl⟩ := List.getElem_of_mem hch
  exact ⟨k, by rw [h.2.2.2]; exact hk, fun _ _ => h.at hk⟩

omit [Inhabited α] in
theorem read_holds {M : Mem α} (n : Node α) : ∀ u, (∀ q m, (q, m) ∈ n.nodes u → Holds M m) → ∃ D, ∀ d, D ≤ d → read M d n.id = n := by
  induction n using Node.ind with
  | h i p c k ih =>
    intro u h
    have hk : ∃ D, ∀ d, D ≤ d → ∀ m ∈ k, read M d m.id = m := by
      have hh : ∀ m ∈ k, ∀ q m', (q, m') ∈ m.nodes (u ++ p) → Holds M m' :=
        fun m hm q m' hm' => h q m' ((Node.mem_nodes _ _ _).mpr (.inr ⟨m, hm, hm'⟩))
      clear h
      induction k with
      | nil => exact ⟨0, fun _ _ _ h => by cases h⟩
      | cons a as ihk =>
        obtain ⟨D1, h1⟩ := ih a (by simp) (u ++ p) (hh a (by simp))
        obtain ⟨D2, h2⟩ := ihk (fun m hm => ih m (by simp [hm])) (fun m hm => hh m (by simp [hm]))
        refine ⟨max D1 D2, fun d hd m hm => ?_⟩
        rcases List.mem_cons.mp hm with rfl | hm
        · exact h1 d (by omega)
        · exact h2 d (by omega) m hm
    obtain ⟨D, hD⟩ := hk
    refine ⟨D + 1, fun d hd => ?_⟩
    obtain ⟨d, rfl⟩ : ∃ d', d = d' + 1 := ⟨d - 1, by omega⟩
    obtain ⟨h1, h2, h3, _⟩ := h _ _ ((Node.mem_nodes u (.mk i p c k) _).mpr (.inl rfl))
    simp only [Node.id_mk, Node.path_mk, Node.core_mk, Node.kids_mk] at h1 h2 h3 ⊢
    rw [read, h1, h2, h3]
    congr 1
    rw [List.map_map]
    conv => rhs; rw [← List.map_id k]
    refine List.map_congr_left fun m hm => ?_
    exact hD d (by omega) m hm

omit [Inhabited α] in
theorem modify_remove_id (i j : Nat) (n : Node α) : (n.modify i (Node.removeChild j)).id = n.id := by
  cases n with
  | mk a p c k =>
    rw [Node.modify]
    split <;> rfl

omit [Inhabited α] in
theorem eraseP_ids (j : Nat) (k : List (Node α)) : (k.eraseP (fun n => n.id = j)).map Node.id = (k.map Node.id).erase j := by
  induction k with
  | nil => rfl
  | cons a as ih =>
    rw [List.eraseP_cons, List.map_cons, List.erase_cons]
    by_cases e : a.id = j
    · simp [e]
    · simp [e, ih]

omit [Inhabited α] in
/-- The nodes after a removal. -/
theorem modify_remove_nodes (i j : Nat) (n : Node α) : ∀ (u q : Str) (m' : Node α),
    (q, m') ∈ Node.nodes u (n.modify i (Node.removeChild j)) →
      ∃ m, (q, m) ∈ n.nodes u ∧ m'.id = m.id ∧ m'.path = m.path ∧ m'.core = m.core ∧
        m'.kids.map Node.id = if m.id = i then (m.kids.map Node.id).erase j else m.kids.map Node.id := by
  induction n using Node.ind with
  | h a p c ks ih =>
    intro u q m' hm
    have hids : (ks.map (Node.modify i (Node.removeChild j))).map Node.id = ks.map Node.id := by
      rw [List.map_map]
      exact List.map_congr_left fun m _ => modify_remove_id i j m
    have hsub : ∀ l : List (Node α), (∀ x ∈ l, x ∈ ks.map (Node.modify i (Node.removeChild j))) →
        l.map Node.id = (if a = i then (ks.map Node.id).erase j else ks.map Node.id) →
        (q, m') ∈ Node.nodes u (.mk a p c l) → ∃ m, (q, m) ∈ Node.nodes u (.mk a p c ks) ∧ m'.id = m.id ∧ m'.path = m.path ∧
          m'.core = m.core ∧ m'.kids.map Node.id = if m.id = i then (m.kids.map Node.id).erase j else m.kids.map Node.id := by
      intro l hl he hm
      rw [Node.mem_nodes] at hm
      rcases hm with e | ⟨y, hy, hm⟩
      · cases e
        exact ⟨.mk a p c ks, (Node.mem_nodes _ _ _).mpr (.inl rfl), rfl, rfl, rfl, he⟩
      · obtain ⟨x, hx, rfl⟩ := List.mem_map.mp (hl y hy)
        obtain ⟨m, h1, h2⟩ := ih x hx _ _ _ hm
        exact ⟨m, (Node.mem_nodes _ _ _).mpr (.inr ⟨x, hx, h1⟩), h2⟩
    rw [Node.modify, Node.modifyL_eq] at hm
    by_cases hj : a = i
    · rw [if_pos hj, Node.removeChild] at hm
      refine hsub _ (fun x hx => List.mem_of_mem_eraseP hx) ?_ hm
      rw [eraseP_ids, hids, if_pos hj]
    · simp only [hj, if_false] at hm
      exact hsub _ (fun x hx => hx) (by rw [hids, if_neg hj]) hm

theorem slide_erase {L : List Nat} {x : Nat} (hx : x ∈ L) :
    (slide L (L.idxOf x) (L.length - L.idxOf x)).take (L.length - 1) = L.erase x := by
  have hlt := List.idxOf_lt_length_of_mem hx
  rw [List.erase_eq_eraseIdx_of_idxOf rfl]
  refine list_ext_getD ?_ fun k hk => ?_
  · rw [List.length_take, slide_length, List.length_eraseIdx, if_pos hlt]; omega
  · rw [List.length_take, slide_length] at hk
    rw [List.getD_eq_getElem?_getD, List.getElem?_take, if_pos (by omega), ← List.getD_eq_getElem?_getD, slide_getD (by omega),
      List.getD_eq_getElem?_getD, List.getD_eq_getElem?_getD, List.getElem?_eraseIdx]
    congr 1
    by_cases e : k < L.idxOf x
    · rw [if_pos e, if_neg (by omega)]
    · rw [if_neg e, if_pos (by omega)]

theorem idxOf_at {L : List Nat} (h : L.Nodup) {k : Nat} (hk : k < L.length) {x : Nat} (he : L[k] = x) : L.idxOf x = k := by
  have hx : x ∈ L := by rw [← he]; exact List.getElem_mem hk
  have hlt := List.idxOf_lt_length_of_mem hx
  have h1 : L[L.idxOf x] = x := List.getElem_idxOf hlt
  have hp := List.pairwise_iff_getElem.mp (List.nodup_iff_pairwise_ne.mp h)
  rcases Nat.lt_trichotomy (L.idxOf x) k with e | e | e
  · exact absurd (h1.trans he.symm) (hp _ _ hlt hk e)
  · exact e
  · exact absurd (he.trans h1.symm) (hp _ _ hk hlt e)

section
variable {v : View} {t : Tree α}

/-- How far the goroutines have come when the first `j` have returned and the others have not begun. -/
def ends (plan : Nat → Option Task) (j k : Nat) : Nat :=
  match plan k with
  | none => 0
  | some T => if k < j then T.n - T.ix else 0

/-- One of the first `j` calls removes `q`. -/
def Struck (v : View) (t : Tree α) (cs : List Call) (j : Nat) (q : Str) : Prop :=
  ∃ i c P x u, i < j ∧ cs[i]? = some c ∧ Takes v t c P x ∧ (u, P) ∈ t.root.nodes [] ∧ u ++ x.path <+: q

omit [Inhabited α] in
theorem after_append (v : View) (A B : List Call) : ∀ t : Tree α, after v t (A ++ B) = after v (after v t A) B := by
  induction A with
  | nil => intro t; rfl
  | cons c A ih =>
    intro t
    cases c with
    | get p => exact ih t
    | remove p =>
      rw [List.cons_append, after, after]
      split <;> exact ih _

/-- What holds after the first `j` calls have been made one after the other. -/
structure Upto (v : View) (t : Tree α) (cs : List Call) (j : Nat) (tj : Tree α) : Prop where
  ok : tj.OK
  plain : tj.Plain v.delim
  old : ∀ q m, (q, m) ∈ tj.root.nodes [] → ∃ m0, (q, m0) ∈ t.root.nodes [] ∧ m.id = m0.id
  rid : tj.root.id = t.root.id
  cut : ∀ q, Struck v t cs j q → tj.contents q = none
  keep : ∀ q, ¬ Struck v t cs j q → tj.contents q = t.contents q
  holds : ∀ q m, (q, m) ∈ tj.root.nodes [] → Holds (mems (start v t cs).mem (planOf v t cs) (ends (planOf v t cs) j)) m

theorem upto_zero (h : t.OK) (hp : t.Plain v.delim) (hm : v.mode ≠ .up) {cs : List Call} (ht : Tidy v t cs) : Upto v t cs 0 t := by
  refine ⟨h, hp, fun q m hq => ⟨m, hq, rfl⟩, rfl, fun q hs => ?_, fun _ _ => rfl, fun q m hq => ?_⟩
  · obtain ⟨i, _, _, _, _, h1, _⟩ := hs; omega
  · rw [(planOf_fits h hp hm ht).zero _ (fun k => by rw [ends]; split <;> simp)]
    have := start_lays (v := v) h cs q m hq
    rw [Holds, this]
    exact ⟨rfl, rfl, List.take_of_length_le (by simp [cellOf]), rfl⟩

theorem upto_succ (h : t.OK) (hp : t.Plain v.delim) (hm : v.mode ≠ .up) {cs : List Call} (ht : Tidy v t cs) {j : Nat} {tj : Tree α}
    (U : Upto v t cs j tj) {c : Call} (hc : cs[j]? = some c) : Upto v t cs (j + 1) (after v tj [c]) := by
  have F := planOf_fits h hp hm ht
  have hl := start_lays (v := v) h cs
  cases c with
  | get p =>
    have hn : planOf v t cs j = none := by simp only [planOf, hc]
    have hs : ∀ q, Struck v t cs (j + 1) q ↔ Struck v t cs j q := by
      refine fun q => ⟨fun ⟨i, c, P, x, u, h1, h2, h3, h4⟩ => ⟨i, c, P, x, u, ?_, h2, h3, h4⟩, fun ⟨i, c, P, x, u, h1, h2⟩ => ⟨i, c, P, x, u, by omega, h2⟩⟩
      by_cases e : i = j
      · subst e
        rw [hc] at h2
        obtain ⟨_, _, e, _⟩ := h3
        subst e; cases h2
      · omega
    have he : ends (planOf v t cs) (j + 1) = ends (planOf v t cs) j := by
      funext k
      simp only [ends]
      split
      · rfl
      · next T hT =>
        by_cases e : k = j
        · rw [e, hn] at hT; cases hT
        · by_cases e' : k < j
          · rw [if_pos e', if_pos (by omega)]
          · rw [if_neg e', if_neg (by omega)]
    show Upto v t cs (j + 1) tj
    exact ⟨U.ok, U.plain, U.old, U.rid, fun q hq => U.cut q ((hs q).mp hq), fun q hq => U.keep q fun h => hq ((hs q).mpr h), by rw [he]; exact U.holds⟩
  | remove p =>
    obtain ⟨P, x, htk⟩ := ht.takes p (List.mem_of_getElem? hc)
    have hT := planOf_takes hc htk
    obtain ⟨p', t1, e, hrm⟩ := htk
    cases e
    have htk : Takes v t (.remove p) P x := ⟨p, t1, rfl, hrm⟩
    obtain ⟨hne, _, u, hP, hx, hxm, hres⟩ := takes_spec h hp hm hrm
    -- the key is still there
    have hnot : ¬ Struck v t cs j (u ++ x.path) := by
      rintro ⟨i, ci, Pi, xi, ui, s1, s2, s3, s4, s5⟩
      obtain ⟨pi, ti, e, s6⟩ := s3
      have s3 : Takes v t ci Pi xi := ⟨pi, ti, e, s6⟩
      obtain ⟨_, _, ui', g1, g2, _⟩ := takes_spec h hp hm s6
      obtain ⟨A, C, hk⟩ := List.append_of_mem g2
      exact (ht.spares j i _ ci P x Pi xi (u ++ x.path) (by omega) hc s2 htk s3 hxm ui A xi C s4 hk s5).1 rfl
    have hnodeAt := resolve_some hres
    have hcx : t.contents (u ++ x.path) = some x.core := (Tree.contents_node h).mpr ⟨x, (Tree.nodeAt_some h).mp hnodeAt, rfl⟩
    have hres' : resolve v.delim tj.contents (v.full p) = some (u ++ x.path, x.core) := by
      have hk := U.keep _ hnot
      rcases (resolve_cases hres).2 with e | ⟨e, hnone, hne'⟩
      · rw [resolve, ← e, hk, hcx]
      · have h0 : t.contents (v.full p) = none := by
          cases hcc : t.contents (v.full p) with
          | none => rfl
          | some c' =>
            obtain ⟨m', hm', _⟩ := (Tree.contents_node h).mp hcc
            rw [(Tree.nodeAt_some h).mpr hm'] at hnone; cases hnone
        have h0' : tj.contents (v.full p) = none := by
          by_cases hs : Struck v t cs j (v.full p)
          · exact U.cut _ hs
          · rw [U.keep _ hs, h0]
        rw [e] at hk hcx
        rw [resolve, h0']
        simp only [if_neg hne']
        rw [hk, hcx, e]
        rfl
    obtain ⟨t2, m, pr, hrm2, hok2, hm2, hcore, hcont⟩ := removeEx_hit U.ok U.plain hne hres'
    obtain ⟨_, ht2, u', hpr, hmk, hum, _⟩ := takes_spec U.ok U.plain hm hrm2
    have hafter : after v tj [.remove p] = t2 := by
      simp only [after, View.remove, hrm2]
    -- the same nodes as in `t`
    have hMh := U.holds
    obtain ⟨m0, hm0, hid⟩ := U.old _ _ hm2
    have hm0x : m0 = x := Option.some.inj (((Tree.nodeAt_some h).mpr hm0).symm.trans ((Tree.nodeAt_some h).mpr hxm))
    subst hm0x
    have hpath : m.path = m0.path := by
      rw [← (hMh _ _ hm2).1, mems_path, hid, hl _ _ hm0]; rfl
    have hu : u' = u := by
      have := congrArg Prod.fst (U.ok.id_inj hum hm2 rfl)
      simp only [hpath] at this
      exact List.append_cancel_right this
    subst hu
    obtain ⟨P0, hP0, hPid⟩ := U.old _ _ hpr
    have hPP : P0 = P := Option.some.inj (((Tree.nodeAt_some h).mpr hP0).symm.trans ((Tree.nodeAt_some h).mpr hP))
    subst hPP
    have hbaseP := hl _ _ hP
    have hkidsP : pr.kids.map Node.id = P0.kids.map Node.id := by
      have hh := hMh _ _ hpr
      rw [← hh.2.2.1, hPid]
      have : mems (start v t cs).mem (planOf v t cs) (ends (planOf v t cs) j) P0.id = cellOf P0 := by
        have hat := F.at hT (ends (planOf v t cs) j)
        have h0 : ends (planOf v t cs) j j = 0 := by simp [ends, hT]
        rw [h0, slid_zero (by rw [F.arr j _ hT]; exact F.lt j _ hT)] at hat
        rw [← hbaseP]; exact hat
      rw [this]
      exact List.take_of_length_le (by simp [cellOf])
    have hpar : ∀ q n, (q, n) ∈ tj.root.nodes [] → n.id = P0.id → n.kids.map Node.id = P0.kids.map Node.id := by
      intro q n hn e
      have : n = pr := congrArg Prod.snd (U.ok.id_inj hn hpr (e.trans hPid.symm))
      rw [this, hkidsP]
    have hmem : mems (start v t cs).mem (planOf v t cs) (ends (planOf v t cs) (j + 1)) =
        (mems (start v t cs).mem (planOf v t cs) (ends (planOf v t cs) j)).set P0.id
          (slid (cellOf P0) ((P0.kids.map Node.id).idxOf m0.id) (P0.kids.length - (P0.kids.map Node.id).idxOf m0.id)) := by
      refine (F.move hT (fun l hl => ?_) ?_).symm
      · simp only [ends]
        split
        · rfl
        · by_cases e' : l < j
          · rw [if_pos e', if_pos (by omega)]
          · rw [if_neg e', if_neg (by omega)]
      · have : ends (planOf v t cs) (j + 1) j = P0.kids.length - (P0.kids.map Node.id).idxOf m0.id := by
          simp [ends, hT]
        rw [this]
        show _ = slid ((start v t cs).mem P0.id) _ _
        rw [hbaseP]
    rw [hafter]
    refine ⟨hok2, ?_, fun q n hn => ?_, ?_, fun q hs => ?_, fun q hs => ?_, fun q n hn => ?_⟩
    · intro q c hq
      rw [hcont] at hq
      split at hq
      · cases hq
      · exact U.plain q c hq
    · rw [ht2] at hn
      obtain ⟨n0, h1, h2, _⟩ := modify_remove_nodes _ _ _ _ _ _ hn
      obtain ⟨n1, h3, h4⟩ := U.old _ _ h1
      exact ⟨n1, h3, h2.trans h4⟩
    · rw [ht2, ← U.rid]; exact modify_remove_id _ _ _
    · rw [hcont]
      obtain ⟨i, ci, Pi, xi, ui, s1, s2, s3, s4, s5⟩ := hs
      by_cases e : i = j
      · subst e
        rw [hc] at s2
        cases s2
        obtain ⟨p'', t'', e'', s3'⟩ := s3
        cases e''
        rw [hrm] at s3'
        obtain ⟨_, e2⟩ := Prod.mk.inj (Except.ok.inj s3')
        obtain ⟨rfl, rfl⟩ := Prod.mk.inj (Option.some.inj e2)
        obtain rfl : ui = u' := congrArg Prod.fst (h.id_inj s4 hP rfl)
        rw [if_pos s5]
      · split
        · rfl
        · exact U.cut q ⟨i, ci, Pi, xi, ui, by omega, s2, s3, s4, s5⟩
    · rw [hcont, if_neg (fun e => hs ⟨j, _, P0, m0, u', by omega, hc, htk, hP, e⟩)]
      exact U.keep q fun ⟨i, ci, Pi, xi, ui, s1, s2⟩ => hs ⟨i, ci, Pi, xi, ui, by omega, s2⟩
    · rw [ht2] at hn
      obtain ⟨n0, h1, h2, h3, h4, h5⟩ := modify_remove_nodes _ _ _ _ _ _ hn
      have hh := hMh _ _ h1
      rw [hPid, hid] at h5
      rw [Holds, h2, h3, h4, h5, ← List.length_map (f := Node.id) (as := n.kids), h5, hmem]
      by_cases e : n0.id = P0.id
      · rw [if_pos e, e, hpar _ _ h1 e]
        have hx' : m0.id ∈ P0.kids.map Node.id := List.mem_map.mpr ⟨m0, hx, rfl⟩
        have hlt := List.idxOf_lt_length_of_mem hx'
        rw [List.length_map] at hlt
        have hlen1 : ∀ s, (slid (cellOf P0) ((P0.kids.map Node.id).idxOf m0.id) s).len =
            if P0.kids.length ≤ (P0.kids.map Node.id).idxOf m0.id + s then P0.kids.length - 1 else P0.kids.length := slid_len _ _
        simp only [Mem.set, if_true]
        rw [hlen1, if_pos (by omega)]
        have hse := slide_erase hx'
        rw [List.length_map] at hse
        refine ⟨?_, ?_, hse, ?_⟩
        · show P0.path = _
          rw [← hh.1, e, mems_path, hbaseP]; rfl
        · show P0.core = _
          rw [← hh.2.1, e, mems_core, hbaseP]; rfl
        · rw [List.length_erase, if_pos hx', List.length_map]
      · rw [if_neg e]
        simp only [Mem.set, if_neg e]
        refine ⟨hh.1, hh.2.1, hh.2.2.1, ?_⟩
        rw [List.length_map]; exact hh.2.2.2

theorem upto (h : t.OK) (hp : t.Plain v.delim) (hm : v.mode ≠ .up) {cs : List Call} (ht : Tidy v t cs) :
    ∀ j, j ≤ cs.length → Upto v t cs j (after v t (cs.take j))
  | 0, _ => by rw [List.take_zero]; exact upto_zero h hp hm ht
  | j + 1, hj => by
    have hc := List.getElem?_eq_getElem (l := cs) (i := j) (by omega)
    rw [List.take_add_one, hc, after_append]
    exact upto_succ h hp hm ht (upto h hp hm ht j (by omega)) hc

theorem upto_all (h : t.OK) (hp : t.Plain v.delim) (hm : v.mode ≠ .up) {cs : List Call} (ht : Tidy v t cs) :
    Upto v t cs cs.length (after v t cs) := by
  have := upto h hp hm ht cs.length (Nat.le_refl _)
  rwa [List.take_length] at this

/-- When all have returned. -/
theorem returned_mem (h : t.OK) (hp : t.Plain v.delim) (hm : v.mode ≠ .up) {cs : List Call} (ht : Tidy v t cs) (S : List Nat)
    (hr : Returned cs ((start v t cs).run v.delim cs S)) :
    ((start v t cs).run v.delim cs S).mem = mems (start v t cs).mem (planOf v t cs) (ends (planOf v t cs) cs.length) := by
  obtain ⟨B, hB⟩ := remove_result h hp hm ht
  obtain ⟨h1, _, h3⟩ := hB S
  rw [h1]
  congr 1
  funext k
  simp only [stages, ends]
  cases hT : planOf v t cs k with
  | none => rfl
  | some T =>
    obtain ⟨p, t', x, P, g1, g2, g3⟩ := planOf_some hT
    obtain ⟨b, hb⟩ := hr k p g1
    have := (h3 k T hT).2.1
    rw [hb] at this ⊢
    have hk : k < cs.length := (List.getElem?_eq_some_iff.mp g1).1
    cases b with
    | false => exact absurd rfl this
    | true => simp only [stage, if_pos hk]

theorem gone_stays {d : Char} {cs : List Call} {b : Bool} {k : Nat} (S : List Nat) : ∀ (W : World α), W.pcs k = .gone b →
    (W.run d cs S).pcs k = .gone b := by
  induction S with
  | nil => exact fun _ h => h
  | cons l S ih =>
    intro W h
    refine ih _ ?_
    simp only [World.tick]
    by_cases e : k = l
    · subst e; rw [if_pos rfl, h]; rfl
    · rw [if_neg e]; exact h

/-- A lookup in a memory that stays as it is. -/
theorem still_run {d : Char} {cs : List Call} {k : Nat} {p : Str} (hk : cs[k]? = some (.get p)) {M : Mem α} {Q : Pc α → Prop}
    (hQ : ∀ pc, Q pc → ∃ a, pc = .done a) (s : Nat → Nat) (S : List Nat) : ∀ {n : Nat} {W : World α}, (∀ S, (W.run d cs S).mem = M) →
      Leads (.get p) d (fun _ => M) Q n s (W.pcs k) → Leads (.get p) d (fun _ => M) Q (n - S.count k) s ((W.run d cs S).pcs k) := by
  induction S with
  | nil => exact fun _ h => h
  | cons l S ih =>
    intro n W hM h
    have hM' : ∀ S, ((W.tick d cs l).run d cs S).mem = M := fun S => hM (l :: S)
    have hM0 : W.mem = M := hM []
    by_cases e : l = k
    · subst e
      have hc : cs[l]?.getD (.get []) = .get p := by rw [hk]; rfl
      have e2 : (W.tick d cs l).pcs l = (step (.get p) d W.mem (W.pcs l)).2 := by simp only [World.tick, hc, if_true]
      rw [List.count_cons_self]
      have : Leads (.get p) d (fun _ => M) Q (n - 1) s ((W.tick d cs l).pcs l) := by
        rw [e2, hM0]
        cases n with
        | zero =>
          rw [done_fixed (hQ _ h)]; exact h
        | succ n =>
          rcases h with h | h
          · rw [done_fixed (hQ _ h)]; exact .now h _
          · exact h s (.refl s)
      have := ih hM' this
      rw [Nat.sub_sub, Nat.add_comm] at this
      exact this
    · rw [List.count_cons_of_ne e]
      refine ih hM' ?_
      simp only [World.tick, if_neg (Ne.symm e)]
      exact h

/-- A lookup in a memory that holds a tree and stays as it is. -/
theorem leads_still {t' : Tree α} (h : t'.OK) (hp : t'.Plain v.delim) (hm : v.mode ≠ .up) {M : Mem α}
    (hM : ∀ q m, (q, m) ∈ t'.root.nodes [] → Holds M m) (p : Str) :
    ∃ N, ∀ σ, Leads (.get p) v.delim (fun _ => M) (fun r => ∃ a, r = .done a ∧ v.query t' p = .ok a) N σ
      (.enter (v.full p) t'.root.id none []) := by
  have hcl := hp.at (v.full p)
  have hq := query_at h hm p hcl
  rw [resolve_contents h] at hq
  cases hr : resolve v.delim t'.nodeAt (v.full p) with
  | none =>
    obtain ⟨N, hN⟩ := leads_get (ms := fun _ => M) h hcl p (fun q m hm => (hM q m hm).shows) (fun q m hm _ _ => (hM q m hm).firm)
    refine ⟨N, fun σ => (hN σ).weak fun r ⟨a, h1, h2⟩ => ⟨a, h1, ?_⟩⟩
    rcases h2 with rfl | ⟨q, m, h2, _⟩
    · rw [hq, hr]; rfl
    · rw [hr] at h2; cases h2
  | some x =>
    obtain ⟨q, m⟩ := x
    rw [hr] at hq
    have hmem := (Tree.nodeAt_some h).mp (resolve_some hr)
    by_cases hw : v.full p = []
    · have : (q, m) = ([], t'.root) := by
        rw [hw] at hr
        simpa [resolve, (Tree.nodeAt_some h).mpr h.root_mem] using hr.symm
      obtain ⟨rfl, rfl⟩ := Prod.mk.inj this
      rw [hw]
      exact ⟨5 + 1, fun σ => .to (.ret true false (some t'.root.id) none []) (fun _ _ => rfl)
        ((leads_answer h hmem (hM _ _ hmem).shows p none [] σ).weak fun r hr' => ⟨_, hr', hq⟩)⟩
    · obtain ⟨P, u, _, _, N, hN⟩ := leads_found (ms := fun _ => M) (.get p) h hcl hw (fun q m hm => (hM q m hm).shows) hr
        (fun u P ch hP hch _ => (hM _ _ hP).sure hch)
      exact ⟨N + 5, fun σ => (hN σ).trans fun s r _ ⟨stk, hr'⟩ => by
        rw [hr']
        exact (leads_answer h hmem (hM _ _ hmem).shows p _ stk s).weak fun r hr' => ⟨_, hr', hq⟩⟩

/-! ### Two removals from one node -/

/-- The moving of the elements, alone. -/
theorem move_run {d : Char} {cs : List Call} {k : Nat} {P ix n : Nat} (L : List Nat) (hL : ix + n < L.length) :
    ∀ (i : Nat) {W : World α} (j : Nat), j + i = n → W.pcs k = .move P ix n j → (W.mem P).arr = slide L ix j →
      (W.run d cs (List.replicate (i + 1) k)).pcs k = .gone true ∧ (∀ l, l ≠ P → (W.run d cs (List.replicate (i + 1) k)).mem l = W.mem l) ∧
      (W.run d cs (List.replicate (i + 1) k)).mem P = { W.mem P with arr := slide L ix n, len := ix + n }
  | 0, W, j, e, hp, h => by
    rw [show j = n from by omega] at hp h
    have e1 : (W.tick d cs k).mem = W.mem.set P { W.mem P with len := ix + n } := by
      show (step _ _ _ _).1 = _
      rw [hp]
      simp only [step]
      rw [if_neg (by omega)]
    refine ⟨?_, fun l hl => ?_, ?_⟩
    · show (if k = k then _ else _) = _
      rw [if_pos rfl, hp]
      simp only [step]
      rw [if_neg (by omega)]
    · show (W.tick d cs k).mem l = _
      rw [e1, Mem.set, if_neg hl]
    · show (W.tick d cs k).mem P = _
      rw [e1, Mem.set, if_pos rfl, ← h]
  | i + 1, W, j, e, hp, h => by
    rw [List.replicate_succ, World.run]
    have e1 : (W.tick d cs k).mem = W.mem.set P { W.mem P with arr := slide L ix (j + 1) } := by
      show (step _ _ _ _).1 = _
      rw [hp]
      simp only [step]
      rw [if_pos (by omega), h, slide_succ (by omega)]
    have e2 : (W.tick d cs k).pcs k = .move P ix n (j + 1) := by
      show (if k = k then _ else _) = _
      rw [if_pos rfl, hp]
      simp only [step]
      rw [if_pos (by omega)]
    obtain ⟨r1, r2, r3⟩ := move_run (d := d) (cs := cs) L hL i (j + 1) (by omega) e2 (by rw [e1, Mem.set, if_pos rfl])
    refine ⟨r1, fun l hl => ?_, ?_⟩
    · rw [r2 l hl, e1, Mem.set, if_neg hl]
    · rw [r3, e1, Mem.set, if_pos rfl]

/-- The second removal takes the child behind. -/
theorem stray (h : t.OK) (hp : t.Plain v.delim) (hm : v.mode ≠ .up) {cs : List Call} {r1 r2 : Nat} (hne : r1 ≠ r2) {p1 p2 : Str}
    (h1 : cs[r1]? = some (.remove p1)) (h2 : cs[r2]? = some (.remove p2)) {P x1 x2 : Node α}
    (ht1 : Takes v t (.remove p1) P x1) (ht2 : Takes v t (.remove p2) P x2) {u : Str} (hP : (u, P) ∈ t.root.nodes [])
    {A C : List (Node α)} {c : Node α} (hk : P.kids = A ++ x2 :: c :: C) (hx1 : x1 ∈ A ++ [x2]) :
    ∃ S, let W := (start v t cs).run v.delim cs S
      W.pcs r1 = .gone true ∧ W.pcs r2 = .gone true ∧ ∃ D, ∀ d, D ≤ d → ∃ t' : Tree α,
        t'.root = read W.mem d t.root.id ∧ t'.next = t.next ∧ t'.OK ∧
        ∀ q, t'.contents q = if u ++ x1.path <+: q ∨ u ++ c.path <+: q then none else t.contents q := by
  have hl := start_lays (v := v) h cs
  have hnd := kids_ids_nodup h hP
  have hlenK : P.kids.length = A.length + C.length + 2 := by rw [hk]; simp; omega
  have hix2 : (P.kids.map Node.id).idxOf x2.id = A.length := by
    rw [hk, List.map_append, List.map_cons] at hnd ⊢
    rw [List.nodup_append] at hnd
    rw [List.idxOf_append, if_neg (fun hmem => hnd.2.2 _ hmem _ (by simp) rfl), List.idxOf_cons_self]
    simp
  have hx1k : x1 ∈ P.kids := by
    rw [hk]
    rcases List.mem_append.mp hx1 with e | e
    · exact List.mem_append_left _ e
    · have : x1 = x2 := by simpa using e
      rw [this]; simp
  have hx1m : x1.id ∈ P.kids.map Node.id := List.mem_map.mpr ⟨x1, hx1k, rfl⟩
  have hix1 : (P.kids.map Node.id).idxOf x1.id ≤ A.length := by
    rw [hk, show A ++ x2 :: c :: C = (A ++ [x2]) ++ (c :: C) from by simp, List.map_append, List.idxOf_append,
      if_pos (List.mem_map.mpr ⟨x1, hx1, rfl⟩)]
    have := List.idxOf_lt_length_of_mem (List.mem_map.mpr ⟨x1, hx1, rfl⟩ : x1.id ∈ (A ++ [x2]).map Node.id)
    rw [List.length_map, List.length_append, List.length_singleton] at this
    omega
  have hck : c ∈ P.kids := by rw [hk]; simp
  have hcx : c.id ≠ x1.id := by
    intro e
    rw [hk, show A ++ x2 :: c :: C = (A ++ [x2]) ++ (c :: C) from by simp, List.map_append, List.nodup_append] at hnd
    exact hnd.2.2 _ (List.mem_map.mpr ⟨x1, hx1, rfl⟩) _ (by simp) e.symm
  have hpath : ∀ e ∈ P.kids, (u ++ e.path, e) ∈ t.root.nodes [] := fun e he => Node.nodes_trans hP (by
    rw [Node.mem_nodesL]; exact ⟨e, he, by rw [Node.mem_nodes]; simp⟩)
  obtain ⟨S, c1, c2, c3, c4⟩ := collide h hp hm hne h1 h2 ht1 ht2
  rw [hix2] at c2
  generalize hW : (start v t cs).run v.delim cs S = W at c1 c2 c3 c4
  generalize hixe : (P.kids.map Node.id).idxOf x1.id = ix1 at c4 hix1
  have hWlen : (W.mem P.id).len = P.kids.length - 1 := by rw [c4, slid_len, if_pos (by omega)]
  have hWarr : (W.mem P.id).arr = slide (P.kids.map Node.id) ix1 (P.kids.length - ix1) := by rw [c4]; rfl
  -- the step `cut`
  have b1 : (W.tick v.delim cs r2).mem = W.mem := by
    show (step _ _ _ _).1 = _
    rw [c2]; rfl
  have b2 : (W.tick v.delim cs r2).pcs r2 = .move P.id A.length C.length 0 := by
    show (if r2 = r2 then _ else _) = _
    rw [if_pos rfl, c2]
    simp only [step]
    rw [hWlen, if_pos (by omega)]
    congr 1
    omega
  obtain ⟨d1, d2, d3⟩ := move_run (d := v.delim) (cs := cs) (k := r2) (slide (P.kids.map Node.id) ix1 (P.kids.length - ix1))
    (by rw [slide_length, List.length_map]; omega) C.length 0 (by omega) b2 (by rw [b1, hWarr, slide_zero])
  rw [← World.run, ← hW, ← run_append] at d1 d2 d3
  rw [hW, b1] at d2 d3
  refine ⟨S ++ r2 :: List.replicate (C.length + 1) r2, ?_, d1, ?_⟩
  · rw [run_append, hW]
    exact gone_stays _ _ c1
  generalize hM : ((start v t cs).run v.delim cs (S ++ r2 :: List.replicate (C.length + 1) r2)).mem = M at d2 d3
  -- the two trees
  obtain ⟨ok1, ct1⟩ := removeAt_ok h hP hx1k
  have hPn : (u, P) ∈ t.root.nodes [] := hP
  have hcu : (({ t with root := t.root.modify P.id (Node.removeChild x1.id) } : Tree α).contents u).isSome := by
    rw [ct1, if_neg, (Tree.contents_node h).mpr ⟨P, hP, rfl⟩]
    · rfl
    · intro e
      have hx1ne := (((Node.wf_iff P).mp (Node.wf_of_mem h.wf hP)).2 _ hx1k).1
      have := e.length_le
      have := List.length_pos_iff.mpr hx1ne
      rw [List.length_append] at *
      omega
  obtain ⟨cc, hcc⟩ := Option.isSome_iff_exists.mp hcu
  obtain ⟨P1, hP1, _⟩ := (Tree.contents_node ok1).mp hcc
  obtain ⟨P0, e1, e2, _, _, e5⟩ := modify_remove_nodes _ _ _ _ _ _ hP1
  obtain rfl : P0 = P := Option.some.inj (((Tree.nodeAt_some h).mpr e1).symm.trans ((Tree.nodeAt_some h).mpr hP))
  rw [if_pos rfl] at e5
  have hcE : c.id ∈ P1.kids.map Node.id := by
    rw [e5]
    exact (List.mem_erase_of_ne hcx).mpr (List.mem_map.mpr ⟨c, hck, rfl⟩)
  obtain ⟨cn, hcn, hcid⟩ := List.mem_map.mp hcE
  have hcn1 : (u ++ cn.path, cn) ∈ ({ t with root := t.root.modify P0.id (Node.removeChild x1.id) } : Tree α).root.nodes [] :=
    Node.nodes_trans hP1 (by rw [Node.mem_nodesL]; exact ⟨cn, hcn, by rw [Node.mem_nodes]; simp⟩)
  obtain ⟨c0, f1, f2, f3, _⟩ := modify_remove_nodes _ _ _ _ _ _ hcn1
  have hc0 : c0 = c := congrArg Prod.snd (h.id_inj f1 (hpath c hck) (f2.symm.trans hcid))
  rw [hc0] at f3
  obtain ⟨ok2, ct2⟩ := removeAt_ok ok1 hP1 hcn
  -- the memory holds the second
  have hE : (slide (P0.kids.map Node.id) ix1 (P0.kids.length - ix1)).take (P0.kids.length - 1) = (P0.kids.map Node.id).erase x1.id := by
    have := slide_erase hx1m
    rwa [List.length_map, hixe] at this
  have hElen : ((P0.kids.map Node.id).erase x1.id).length = P0.kids.length - 1 := by
    rw [List.length_erase, if_pos hx1m, List.length_map]
  have hEnd : ((P0.kids.map Node.id).erase x1.id).Nodup := hnd.erase _
  have hSg : ∀ i, i < P0.kids.length - 1 → (slide (P0.kids.map Node.id) ix1 (P0.kids.length - ix1)).getD i 0 =
      ((P0.kids.map Node.id).erase x1.id).getD i 0 := by
    intro i hi
    rw [← hE, List.getD_eq_getElem?_getD, List.getD_eq_getElem?_getD, List.getElem?_take, if_pos hi]
  have hEc : ((P0.kids.map Node.id).erase x1.id).getD A.length 0 = c.id := by
    rw [← hSg _ (by omega), slide_getD (by rw [List.length_map]; omega), if_pos (by rw [List.length_map]; omega), ids_getD (by omega)]
    simp [hk, List.getElem_append_right]
  have hidx : ((P0.kids.map Node.id).erase x1.id).idxOf c.id = A.length := by
    have hlt : A.length < ((P0.kids.map Node.id).erase x1.id).length := by omega
    have he : ((P0.kids.map Node.id).erase x1.id)[A.length] = c.id := by
      rw [List.getD_eq_getElem?_getD, List.getElem?_eq_getElem hlt] at hEc
      exact hEc
    exact idxOf_at hEnd hlt he
  have hfin : (slide (slide (P0.kids.map Node.id) ix1 (P0.kids.length - ix1)) A.length C.length).take (A.length + C.length) =
      ((P0.kids.map Node.id).erase x1.id).erase c.id := by
    rw [List.erase_eq_eraseIdx_of_idxOf hidx]
    refine list_ext_getD ?_ fun i hi => ?_
    · rw [List.length_take, slide_length, slide_length, List.length_map, List.length_eraseIdx, if_pos (by omega)]; omega
    · rw [List.length_take, slide_length, slide_length, List.length_map] at hi
      rw [List.getD_eq_getElem?_getD, List.getElem?_take, if_pos (by omega), ← List.getD_eq_getElem?_getD,
        slide_getD (by rw [slide_length, List.length_map]; omega), slide_length, List.length_map,
        List.getD_eq_getElem?_getD (l := List.eraseIdx _ _), List.getElem?_eraseIdx]
      by_cases e : i < A.length
      · rw [if_pos e, if_neg (by omega), ← List.getD_eq_getElem?_getD, hSg _ (by omega)]
      · rw [if_neg e, if_pos (by omega), ← List.getD_eq_getElem?_getD, hSg _ (by omega)]
  have hh : ∀ q m, (q, m) ∈ ({ t with root := (t.root.modify P0.id (Node.removeChild x1.id)).modify P1.id (Node.removeChild cn.id) } : Tree α).root.nodes [] →
      Holds M m := by
    intro q m hmem
    obtain ⟨m1, g1, g2, g3, g4, g5⟩ := modify_remove_nodes _ _ _ _ _ _ hmem
    obtain ⟨m0, k1, k2, k3, k4, k5⟩ := modify_remove_nodes _ _ _ _ _ _ g1
    rw [k2, e2, k5, hcid] at g5
    rw [k2] at g2
    rw [k3] at g3
    rw [k4] at g4
    have hb := hl _ _ k1
    have hml : m.kids.length = (m.kids.map Node.id).length := by simp
    rw [Holds, g2, g3, g4, hml, g5]
    by_cases e : m0.id = P0.id
    · obtain rfl : m0 = P0 := congrArg Prod.snd (h.id_inj k1 hP e)
      rw [if_pos rfl, if_pos rfl, d3, c4]
      refine ⟨rfl, rfl, hfin, ?_⟩
      rw [List.length_erase, if_pos (by rw [← e5]; exact hcE), hElen]
      show A.length + C.length = _
      omega
    · rw [if_neg e, if_neg e, d2 _ e, c3 _ e, hb]
      exact ⟨rfl, rfl, List.take_of_length_le (by simp [cellOf]), by simp [cellOf]⟩
  obtain ⟨D, hD⟩ := read_holds (M := M) _ [] hh
  refine ⟨D, fun d hd => ⟨{ t with root := (t.root.modify P0.id (Node.removeChild x1.id)).modify P1.id (Node.removeChild cn.id) },
    ?_, rfl, ok2, fun q => ?_⟩⟩
  · have := hD d hd
    rw [modify_remove_id, modify_remove_id] at this
    exact this.symm
  · refine (ct2 q).trans ?_
    rw [ct1, f3]
    by_cases a1 : u ++ c.path <+: q
    · rw [if_pos a1, if_pos (.inr a1)]
    · rw [if_neg a1]
      by_cases a2 : u ++ x1.path <+: q
      · rw [if_pos a2, if_pos (.inl a2)]
      · rw [if_neg a2, if_neg (fun e => e.elim a2 a1)]

end

end Prune
end Verif

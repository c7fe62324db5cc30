import Verif.Spec.RaceRemove
import Verif.Lemmas.RacePlan
/-
From a tree and a list of calls to the memories the goroutines see.
-/
namespace Verif
namespace Prune
variable {α : Type} [Inhabited α]

/-- The cell of a node. -/
def cellOf (m : Node α) : Cell α := ⟨m.path, m.core, m.kids.map Node.id, m.kids.length⟩

theorem slid_len (m : Node α) (ix s : Nat) :
    (slid (cellOf m) ix s).len = if m.kids.length ≤ ix + s then m.kids.length - 1 else m.kids.length := by
  simp [slid, cellOf]

/-- The memory holds the tree. -/
def Lays (M : Mem α) (t : Tree α) : Prop := ∀ q m, (q, m) ∈ t.root.nodes [] → M m.id = cellOf m

mutual
theorem lay_out : ∀ (n : Node α) (M : Mem α) (x : Nat), x ∉ n.ids → lay n M x = M x
  | .mk i p c k, M, x, h => by
    rw [Node.ids_mk] at h
    simp only [List.mem_cons, not_or] at h
    rw [lay, Mem.set, if_neg h.1]
    exact layL_out k M x h.2
theorem layL_out : ∀ (k : List (Node α)) (M : Mem α) (x : Nat), x ∉ k.flatMap Node.ids → layL k M x = M x
  | [], M, x, _ => rfl
  | n :: ns, M, x, h => by
    simp only [List.flatMap_cons, List.mem_append, not_or] at h
    rw [layL, lay_out n _ x h.1, layL_out ns M x h.2]
end

mutual
theorem lay_nodes : ∀ (n : Node α) (M : Mem α), n.ids.Nodup → ∀ u q m, (q, m) ∈ n.nodes u → lay n M m.id = cellOf m
  | .mk i p c k, M, h, u, q, m, hm => by
    rw [Node.ids_mk, List.nodup_cons] at h
    rw [Node.mem_nodes] at hm
    rcases hm with e | ⟨e, he, hm⟩
    · cases e
      simp [lay, Mem.set, cellOf, Node.id, Node.path, Node.core, Node.kids]
    · have hid : m.id ∈ k.flatMap Node.ids := List.mem_flatMap.mpr ⟨e, he, Node.id_mem_ids hm⟩
      rw [lay, Mem.set, if_neg (fun e => h.1 (by rw [← e]; exact hid))]
      exact layL_nodes k M h.2 e he _ q m hm
theorem layL_nodes : ∀ (k : List (Node α)) (M : Mem α), (k.flatMap Node.ids).Nodup → ∀ e ∈ k, ∀ u q m, (q, m) ∈ e.nodes u →
    layL k M m.id = cellOf m
  | [], _, _, e, he, _, _, _, _ => by cases he
  | n :: ns, M, h, e, he, u, q, m, hm => by
    rw [List.flatMap_cons, List.nodup_append] at h
    rw [layL]
    rcases List.mem_cons.mp he with e1 | he
    · rw [e1] at hm
      exact lay_nodes n _ h.1 u q m hm
    · have hid : m.id ∈ ns.flatMap Node.ids := List.mem_flatMap.mpr ⟨e, he, Node.id_mem_ids hm⟩
      rw [lay_out n _ _ (fun h' => h.2.2 _ h' _ hid rfl)]
      exact layL_nodes ns M h.2.1 e he u q m hm
end

theorem start_lays {v : View} {t : Tree α} (h : t.OK) (cs : List Call) : Lays (start v t cs).mem t :=
  fun q m hm => lay_nodes _ _ h.ids_nodup [] q m hm

section
variable {base : Mem α} {plan : Nat → Option Task} {t : Tree α}

omit [Inhabited α] in
theorem ids_getD {L : List (Node α)} {k : Nat} (h : k < L.length) : (L.map Node.id).getD k 0 = L[k].id := by
  rw [List.getD_eq_getElem?_getD, List.getElem?_map, List.getElem?_eq_getElem h]; rfl

/-- The cells of the memories, seen from the tree. -/
theorem mems_cell (hl : Lays base t) {u : Str} {m : Node α} (hm : (u, m) ∈ t.root.nodes []) :
    (∀ s, mems base plan s m.id = cellOf m) ∨
    ∃ k T, plan k = some T ∧ T.par = m.id ∧ ∀ s, mems base plan s m.id = slid (cellOf m) T.ix (s k) := by
  have e := hl u m hm
  cases h : who plan m.id with
  | none =>
    refine .inl fun s => ?_
    simp only [mems, h]
    exact e
  | some x =>
    obtain ⟨k, T⟩ := x
    obtain ⟨h1, h2⟩ := who_some h
    refine .inr ⟨k, T, h1, h2, fun s => ?_⟩
    simp only [mems, h]
    rw [e]

theorem mems_shows (hl : Lays base t) {u : Str} {m : Node α} (hm : (u, m) ∈ t.root.nodes []) : Shows (mems base plan) m := by
  refine ⟨fun s => by rw [mems_path, hl u m hm]; rfl, fun s => by rw [mems_core, hl u m hm]; rfl, fun s => ?_, fun s s' k _ hk => ?_⟩
  · rcases mems_cell (plan := plan) hl hm with h | ⟨k, T, _, _, h⟩
    · rw [h]; exact Nat.le_refl _
    · rw [h, slid_len]
      split <;> omega
  · rcases mems_cell (plan := plan) hl hm with h | ⟨k', T, _, _, h⟩
    · rw [h] at hk ⊢
      have hk' : k < m.kids.length := hk
      exact ⟨m.kids[k], List.getElem_mem hk', ids_getD hk'⟩
    · rw [h] at hk ⊢
      have hk' : k < m.kids.length := by
        rw [slid_len] at hk
        split at hk <;> omega
      simp only [slid, cellOf]
      rw [slide_getD (by simpa using hk')]
      have hx : (if T.ix ≤ k ∧ k < T.ix + s' k' ∧ k + 1 < (m.kids.map Node.id).length then k + 1 else k) < m.kids.length := by
        rw [List.length_map]
        split <;> omega
      exact ⟨_, List.getElem_mem hx, ids_getD hx⟩

theorem mems_firm (hl : Lays base t) {u : Str} {m : Node α} (hm : (u, m) ∈ t.root.nodes [])
    (hn : ∀ k T, plan k = some T → T.par = m.id → m.kids.length ≠ 1) : Firm (mems base plan) m := by
  intro _ hk s
  have := List.length_pos_iff.mpr hk
  rcases mems_cell (plan := plan) hl hm with h | ⟨k, T, h1, h2, h⟩
  · rw [h]; simp only [cellOf]; omega
  · have := hn k T h1 h2
    rw [h, slid_len]
    split <;> omega

theorem mems_sure (hl : Lays base t) {u : Str} {m ch : Node α} (hm : (u, m) ∈ t.root.nodes []) {A C : List (Node α)}
    (hk : m.kids = A ++ ch :: C) (hn : ∀ k T, plan k = some T → T.par = m.id → T.ix < m.kids.length ∧ A.length ≠ T.ix ∧ (C = [] ∨ A.length < T.ix)) :
    Sure (mems base plan) m ch := by
  have hlen : m.kids.length = A.length + C.length + 1 := by rw [hk]; simp; omega
  have hat : ∀ k, k = A.length → (m.kids.map Node.id).getD k 0 = ch.id := by
    rintro k rfl
    rw [ids_getD (by omega)]
    simp [hk]
  intro s
  rcases mems_cell (plan := plan) hl hm with h | ⟨k, T, h1, h2, h⟩
  · refine ⟨A.length, by rw [h]; simp only [cellOf]; omega, fun s' _ => ?_⟩
    rw [h]
    exact hat _ rfl
  · obtain ⟨n1, n2, n3⟩ := hn k T h1 h2
    have key : ∀ s' i, i < m.kids.length →
        (if T.ix ≤ i ∧ i < T.ix + s' ∧ i + 1 < m.kids.length then i + 1 else i) = A.length →
        (slid (cellOf m) T.ix s').arr.getD i 0 = ch.id := by
      intro s' i hi e
      simp only [slid, cellOf]
      rw [slide_getD (by simpa using hi)]
      apply hat
      rw [List.length_map]; exact e
    by_cases hf : m.kids.length ≤ T.ix + s k
    · rcases n3 with rfl | n3
      · rw [List.length_nil] at hlen
        refine ⟨A.length - 1, by rw [h, slid_len, if_pos hf]; omega, fun s' hs => ?_⟩
        have := hs k
        rw [h]
        exact key _ _ (by omega) (by rw [if_pos (by omega)]; omega)
      · refine ⟨A.length, by rw [h, slid_len, if_pos hf]; omega, fun s' hs => ?_⟩
        rw [h]
        exact key _ _ (by omega) (by rw [if_neg (by omega)])
    · refine ⟨A.length, by rw [h, slid_len, if_neg hf]; omega, fun s' hs => ?_⟩
      rw [h]
      refine key _ _ (by omega) (if_neg ?_)
      rcases n3 with rfl | n3
      · rw [List.length_nil] at hlen; omega
      · omega
end

section
variable {v : View} {t : Tree α}

omit [Inhabited α] in
/-- What `RemoveEx` does when it removes something. -/
theorem takes_spec (h : t.OK) (hp : t.Plain v.delim) (hm : v.mode ≠ .up) {p : Str} {t' : Tree α} {x P : Node α}
    (e : v.removeEx t p = .ok (t', some (x, P))) :
    v.full p ≠ [] ∧ t' = { t with root := t.root.modify P.id (Node.removeChild x.id) } ∧
    ∃ u, (u, P) ∈ t.root.nodes [] ∧ x ∈ P.kids ∧ (u ++ x.path, x) ∈ t.root.nodes [] ∧
      resolve v.delim t.nodeAt (v.full p) = some (u ++ x.path, x) := by
  rcases search_plain h hp hm (v.full p) with ⟨q, m, par, h1, h2, h3⟩ | ⟨hw, h1, c, par, pm, h2, h3⟩
  · rcases h3 with ⟨_, rfl, _⟩ | ⟨u, pr, rfl, hpr, hkid⟩
    · simp [View.removeEx, h2] at e
    · have hany : (pr.kids.any fun k => decide (k.id = m.id)) = true := List.any_eq_true.mpr ⟨m, hkid, by simp⟩
      simp only [View.removeEx, h2, hany, if_true, Except.ok.injEq, Prod.mk.injEq, Option.some.injEq] at e
      obtain ⟨rfl, rfl, rfl⟩ := e
      have hmem : (q, m) ∈ t.root.nodes [] := (Tree.nodeAt_some h).mp (resolve_some h1)
      have hm2 : (u ++ m.path, m) ∈ t.root.nodes [] := by
        refine Node.nodes_trans hpr ?_
        rw [Node.mem_nodesL]
        exact ⟨m, hkid, by rw [Node.mem_nodes]; simp⟩
      have hq : q = u ++ m.path := congrArg Prod.fst (h.id_inj hmem hm2 rfl)
      refine ⟨?_, rfl, u, hpr, hkid, hm2, hq ▸ h1⟩
      intro e
      rw [e] at h1
      have hres : resolve v.delim t.nodeAt [] = some ([], t.root) := by
        simp [resolve, (Tree.nodeAt_some h).mpr h.root_mem]
      rw [hres] at h1
      obtain ⟨rfl, rfl⟩ := Prod.mk.inj (Option.some.inj h1)
      exact absurd h.nil (((Node.wf_iff _).mp (Node.wf_of_mem h.wf hpr)).2 _ hkid).1
  · cases h3 <;> simp [View.removeEx, h2] at e

/-- What the calls are to remove. -/
def planOf (v : View) (t : Tree α) (cs : List Call) (k : Nat) : Option Task :=
  match cs[k]? with
  | some (.remove p) =>
    match v.removeEx t p with
    | .ok (_, some (x, P)) => some ⟨P.id, x.id, (P.kids.map Node.id).idxOf x.id, P.kids.length⟩
    | _ => none
  | _ => none

omit [Inhabited α] in
theorem planOf_some {cs : List Call} {k : Nat} {T : Task} (h : planOf v t cs k = some T) :
    ∃ p t' x P, cs[k]? = some (.remove p) ∧ v.removeEx t p = .ok (t', some (x, P)) ∧
      T = ⟨P.id, x.id, (P.kids.map Node.id).idxOf x.id, P.kids.length⟩ := by
  rw [planOf] at h
  split at h
  · next p hp =>
    split at h
    · next t' x P e => exact ⟨p, t', x, P, hp, e, (Option.some.inj h).symm⟩
    · cases h
  · cases h

omit [Inhabited α] in
theorem planOf_takes {cs : List Call} {k : Nat} {p : Str} (hk : cs[k]? = some (.remove p)) {P x : Node α}
    (h : Takes v t (.remove p) P x) :
    planOf v t cs k = some ⟨P.id, x.id, (P.kids.map Node.id).idxOf x.id, P.kids.length⟩ := by
  obtain ⟨p', t', e, h⟩ := h
  cases e
  simp only [planOf, hk, h]

omit [Inhabited α] in
theorem ids_nodup_mem {n : Node α} (h : n.ids.Nodup) : ∀ {u q : Str} {m : Node α}, (q, m) ∈ n.nodes u → m.ids.Nodup := by
  induction n using Node.ind with
  | h i p c k ih =>
    intro u q m hm
    rw [Node.mem_nodes] at hm
    rcases hm with e | ⟨e, he, hm⟩
    · cases e; exact h
    · rw [Node.ids_mk, List.nodup_cons] at h
      exact ih e he (Node.ids_nodup_kid h.2 he) hm

omit [Inhabited α] in
theorem kids_ids_nodup (h : t.OK) {u : Str} {P : Node α} (hP : (u, P) ∈ t.root.nodes []) : (P.kids.map Node.id).Nodup := by
  have hn := ids_nodup_mem h.ids_nodup hP
  rw [Node.ids_cons, List.nodup_cons] at hn
  refine List.Sublist.nodup ?_ hn.2
  generalize P.kids = k
  induction k with
  | nil => exact List.Sublist.slnil
  | cons a as ih =>
    rw [List.map_cons, List.flatMap_cons, Node.ids_cons, List.cons_append]
    exact List.Sublist.cons_cons _ (ih.trans (List.sublist_append_right _ _))

theorem planOf_fits (h : t.OK) (hp : t.Plain v.delim) (hm : v.mode ≠ .up) {cs : List Call} (ht : Tidy v t cs) :
    Fits (start v t cs).mem (planOf v t cs) := by
  have hl := start_lays (v := v) h cs
  have cell : ∀ k T, planOf v t cs k = some T → ∃ p x P u, cs[k]? = some (.remove p) ∧ Takes v t (.remove p) P x ∧
      T = ⟨P.id, x.id, (P.kids.map Node.id).idxOf x.id, P.kids.length⟩ ∧ (u, P) ∈ t.root.nodes [] ∧ x ∈ P.kids ∧
      (start v t cs).mem T.par = cellOf P := by
    intro k T hk
    obtain ⟨p, t', x, P, h1, h2, rfl⟩ := planOf_some hk
    obtain ⟨_, _, u, h3, h4, _⟩ := takes_spec h hp hm h2
    exact ⟨p, x, P, u, h1, ⟨p, t', rfl, h2⟩, rfl, h3, h4, hl _ _ h3⟩
  refine ⟨fun k T hk => ?_, fun k T hk => ?_, fun k T hk => ?_, fun k T hk => ?_, fun k T hk j hj => ?_, fun k k' T T' hk hk' e => ?_⟩
  · obtain ⟨p, x, P, u, h1, h2, rfl, h3, h4, h5⟩ := cell k T hk
    rw [h5]; simp [cellOf]
  · obtain ⟨p, x, P, u, h1, h2, rfl, h3, h4, h5⟩ := cell k T hk
    rw [h5]; rfl
  · obtain ⟨p, x, P, u, h1, h2, rfl, h3, h4, h5⟩ := cell k T hk
    have := List.idxOf_lt_length_of_mem (List.mem_map.mpr ⟨x, h4, rfl⟩ : x.id ∈ P.kids.map Node.id)
    simpa using this
  · obtain ⟨p, x, P, u, h1, h2, rfl, h3, h4, h5⟩ := cell k T hk
    have := List.idxOf_lt_length_of_mem (List.mem_map.mpr ⟨x, h4, rfl⟩ : x.id ∈ P.kids.map Node.id)
    rw [h5]
    show (P.kids.map Node.id).getD _ 0 = x.id
    rw [List.getD_eq_getElem?_getD, List.getElem?_eq_getElem this]
    simp
  · obtain ⟨p, x, P, u, h1, h2, rfl, h3, h4, h5⟩ := cell k T hk
    rw [h5]
    show (P.kids.map Node.id).getD j 0 ≠ x.id
    have hj' : j < (P.kids.map Node.id).idxOf x.id := hj
    have := List.idxOf_le_length (a := x.id) (l := P.kids.map Node.id)
    rw [List.getD_eq_getElem?_getD, List.getElem?_eq_getElem (by omega)]
    have := List.not_of_lt_findIdx (p := (· == x.id)) (xs := P.kids.map Node.id) hj'
    simpa using this
  · obtain ⟨p, x, P, u, h1, h2, rfl, h3, h4, h5⟩ := cell k T hk
    obtain ⟨p', x', P', u', h1', h2', rfl, h3', h4', h5'⟩ := cell k' T' hk'
    by_cases ek : k = k'
    · exact ek
    · exact absurd e (ht.apart k k' _ _ P x P' x' ek h1 h1' h2 h2')

/-- A key whose way all removals spare is found. -/
theorem spares_sure (h : t.OK) (hp : t.Plain v.delim) (hm : v.mode ≠ .up) {cs : List Call} {q : Str} {R : Nat → Prop}
    (hs : ∀ k c P x, ¬ R k → cs[k]? = some c → Takes v t c P x → Spares t P x q) {plan : Nat → Option Task}
    (hplan : ∀ k T, plan k = some T → ¬ R k ∧ planOf v t cs k = some T) {base : Mem α} (hl : Lays base t)
    {u : Str} {m ch : Node α} (hmem : (u, m) ∈ t.root.nodes []) (hch : ch ∈ m.kids) (hq : u ++ ch.path <+: q) :
    Sure (mems base plan) m ch := by
  obtain ⟨A, C, hk⟩ := List.append_of_mem hch
  refine mems_sure hl hmem hk fun k T hT hpar => ?_
  obtain ⟨hR, hT⟩ := hplan k T hT
  obtain ⟨p, t', x, P, h1, h2, rfl⟩ := planOf_some hT
  obtain ⟨_, _, u', h3, h4, _⟩ := takes_spec h hp hm h2
  obtain ⟨rfl, rfl⟩ := Prod.mk.inj (h.id_inj h3 hmem hpar)
  obtain ⟨s1, s2⟩ := hs k _ P x hR h1 ⟨p, t', rfl, h2⟩ _ A ch C hmem hk hq
  have hlt := List.idxOf_lt_length_of_mem (List.mem_map.mpr ⟨x, h4, rfl⟩ : x.id ∈ P.kids.map Node.id)
  have hnd := kids_ids_nodup h hmem
  have hget : (P.kids.map Node.id)[(P.kids.map Node.id).idxOf x.id]? = some x.id := by
    rw [List.getElem?_eq_getElem hlt, List.getElem_idxOf]
  show (P.kids.map Node.id).idxOf x.id < P.kids.length ∧ A.length ≠ (P.kids.map Node.id).idxOf x.id ∧
    (C = [] ∨ A.length < (P.kids.map Node.id).idxOf x.id)
  rw [List.length_map] at hlt
  generalize (P.kids.map Node.id).idxOf x.id = ix at hget hlt
  rw [hk, List.map_append, List.map_cons] at hget hnd
  have hne : A.length ≠ ix := by
    rintro rfl
    rw [List.getElem?_append_right (by simp)] at hget
    simp at hget
    exact s1 hget
  refine ⟨hlt, hne, s2.imp id fun hx => ?_⟩
  rcases Nat.lt_or_ge A.length ix with hlt' | hge
  · exact hlt'
  · exfalso
    rw [List.getElem?_append_left (by rw [List.length_map]; omega)] at hget
    rw [List.nodup_append] at hnd
    exact hnd.2.2 _ (List.mem_of_getElem? hget) _ (List.mem_cons_of_mem _ hx) rfl

theorem done_fixed {c : Call} {d : Char} {pc : Pc α} (h : ∃ a, pc = .done a) (M : Mem α) : step c d M pc = (M, pc) := by
  obtain ⟨a, rfl⟩ := h; rfl

/-- The searches of the removals are not disturbed. -/
theorem remove_leads (h : t.OK) (hp : t.Plain v.delim) (hm : v.mode ≠ .up) {cs : List Call} (ht : Tidy v t cs) {k : Nat} {T : Task}
    (hT : planOf v t cs k = some T) : ∃ p, cs[k]? = some (.remove p) ∧ ∃ N, ∀ σ,
      Leads (.remove p) v.delim (mems (start v t cs).mem (but (planOf v t cs) k)) (fun r => r = .pick T.par T.item) N σ
        (.enter (v.full p) t.root.id none []) := by
  have hl := start_lays (v := v) h cs
  obtain ⟨p, t', x, P, h1, h2, rfl⟩ := planOf_some hT
  obtain ⟨hw, _, u, h3, h4, h5, h6⟩ := takes_spec h hp hm h2
  have htk : Takes v t (.remove p) P x := ⟨p, t', rfl, h2⟩
  refine ⟨p, h1, ?_⟩
  obtain ⟨P', u', g1, g2, N, hN⟩ := leads_found (ms := mems (start v t cs).mem (but (planOf v t cs) k)) (.remove p) h (hp.at (v.full p)) hw
    (fun q m hm => mems_shows hl hm) h6 (fun u m ch hmem hch hq => spares_sure (R := fun l => l = k) h hp hm
      (fun l c P' x' hl hc hx => ht.spares k l _ c P x P' x' _ (fun e => hl e.symm) h1 hc htk hx h5)
      (fun l T hT => by
        rw [but] at hT
        split at hT
        · cases hT
        · next hl => exact ⟨hl, hT⟩) hl hmem hch hq)
  have hu : (u' ++ x.path, x) ∈ t.root.nodes [] := by
    refine Node.nodes_trans g1 ?_
    rw [Node.mem_nodesL]
    exact ⟨x, g2, by rw [Node.mem_nodes]; simp⟩
  have hue : u' = u := List.append_cancel_right (congrArg Prod.fst (h.id_inj hu h5 rfl))
  subst hue
  have hP : P' = P := Option.some.inj (((Tree.nodeAt_some h).mpr g1).symm.trans ((Tree.nodeAt_some h).mpr h3))
  subst hP
  refine ⟨N + 1, fun σ => (hN σ).trans fun s r hs hr => ?_⟩
  obtain ⟨stk, rfl⟩ := hr
  exact .to (.pick P'.id x.id) (fun _ _ => rfl) (.at 0)

/-- The beginning. -/
theorem start_inv (h : t.OK) (hp : t.Plain v.delim) (hm : v.mode ≠ .up) {cs : List Call} (ht : Tidy v t cs)
    {Tr : Nat → Prop} {Q : Nat → Pc α → Prop} {N : Nat → Nat}
    (hL : ∀ k, Tr k → ∃ p, cs[k]? = some (.get p) ∧ ∀ σ, Leads (.get p) v.delim (mems (start v t cs).mem (planOf v t cs)) (Q k) (N k) σ
      (.enter (v.full p) t.root.id none [])) :
    ∃ B, (∀ k, Tr k → B k = N k) ∧ Inv v.delim cs (start v t cs).mem (planOf v t cs) Tr Q (start v t cs) B := by
  have F := planOf_fits h hp hm ht
  have hB : ∀ k, ∃ b, (Tr k → b = N k) ∧ ∀ T, planOf v t cs k = some T → ∃ p, cs[k]? = some (.remove p) ∧
      ∃ b', b = b' + (2 * T.n + 5) ∧ ∀ σ, Leads (.remove p) v.delim (mems (start v t cs).mem (but (planOf v t cs) k))
        (fun r => r = .pick T.par T.item) b' σ (.enter (v.full p) t.root.id none []) := by
    intro k
    cases hT : planOf v t cs k with
    | none => exact ⟨N k, fun _ => rfl, fun T e => by cases e⟩
    | some T =>
      obtain ⟨p, h1, n, h2⟩ := remove_leads h hp hm ht hT
      refine ⟨n + (2 * T.n + 5), fun htr => ?_, fun T' e => by cases e; exact ⟨p, h1, n, rfl, h2⟩⟩
      obtain ⟨p', h3, _⟩ := hL k htr
      rw [h1] at h3; cases h3
  refine ⟨fun k => (hB k).choose, fun k => (hB k).choose_spec.1, ?_, fun k hk => ?_, fun k T hk => ?_⟩
  · refine (F.zero _ fun k => ?_).symm
    rw [stages]
    split
    · rfl
    · next T hT =>
      refine stage_reads ?_
      simp only [start]
      split <;> rfl
  · refine ⟨by simp only [start]; split <;> rfl, ?_, fun htr => ?_⟩
    · rw [callOf]
      cases hc : cs[k]? with
      | none => exact ⟨_, rfl⟩
      | some c =>
        cases c with
        | get p => exact ⟨p, rfl⟩
        | remove p =>
          obtain ⟨P, x, hx⟩ := ht.takes p (List.mem_of_getElem? hc)
          rw [planOf_takes hc hx] at hk
          cases hk
    · obtain ⟨p, h1, h2⟩ := hL k htr
      have e : (hB k).choose = N k := (hB k).choose_spec.1 htr
      have e2 : callOf cs k = .get p := by rw [callOf, h1]; rfl
      have e3 : (start v t cs).pcs k = .enter (v.full p) t.root.id none [] := by simp only [start, h1]; rfl
      rw [e, e2, e3]
      exact h2 _
  · obtain ⟨p, h1, b', h2, h3⟩ := (hB k).choose_spec.2 T hk
    have e2 : callOf cs k = .remove p := by rw [callOf, h1]; rfl
    have e3 : (start v t cs).pcs k = .enter (v.full p) t.root.id none [] := by simp only [start, h1]; rfl
    refine ⟨⟨p, e2⟩, .inl ⟨by rw [e3]; rfl, b', h2, ?_⟩⟩
    rw [e2, e3]
    exact h3 _

end

end Prune
end Verif

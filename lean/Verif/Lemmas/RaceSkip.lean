import Verif.Lemmas.RaceSane
/-
A removal that makes an export skip a child.
-/
namespace Verif
namespace Prune
variable {α : Type} [Inhabited α]

/-- Steps in a memory that stays as it is. -/
abbrev SLeads (d : Char) (M : Mem α) (Q : Ex × List (Str × α) → Prop) (n : Nat) (e : Ex × List (Str × α)) : Prop :=
  ELeads d (fun _ _ : Unit => True) (fun _ => M) Q n () e

theorem collect_append {d : Char} {cs : List Call} (A B : List (Option Nat)) :
    ∀ s : World α × Ex × List (Str × α), collect d cs s (A ++ B) = collect d cs (collect d cs s A) B := by
  induction A with
  | nil => exact fun _ => rfl
  | cons a A ih =>
    rintro ⟨W, e⟩
    cases a with
    | none => exact ih _
    | some k => exact ih _

theorem collect_drive {d : Char} {cs : List Call} {W : World α} {Q : Ex × List (Str × α) → Prop} :
    ∀ {n : Nat} {e : Ex × List (Str × α)}, SLeads d W.mem Q n e → ∃ n' e', collect d cs (W, e) (List.replicate n' none) = (W, e') ∧ Q e'
  | 0, e, h => ⟨0, e, rfl, h⟩
  | n + 1, e, h => by
    rcases h with h | h
    · exact ⟨0, e, rfl, h⟩
    · obtain ⟨n', e', h1, h2⟩ := collect_drive (h () trivial)
      exact ⟨n' + 1, e', h1, h2⟩

theorem collect_other {d : Char} {cs : List Call} {k : Nat} {e : Ex × List (Str × α)} (n : Nat) : ∀ W : World α,
    collect d cs (W, e) (List.replicate n (some k)) = (W.run d cs (List.replicate n k), e) := by
  induction n with
  | zero => exact fun _ => rfl
  | succ n ih => exact fun W => ih _

section
variable {t : Tree α} {d : Char} {k : Str}

/-- No key at or below `k` is met at or below the node. -/
def Clean (k u : Str) (m : Node α) : Prop := ∀ q m', (q, m') ∈ m.nodes u → ¬ k <+: q

/-- The entry belongs to a key that is not at or below `k`. -/
def Apart (d : Char) (t : Tree α) (k : Str) (x : Str × α) : Prop := ∃ q m, (q, m) ∈ t.root.nodes [] ∧ ¬ k <+: q ∧ x ∈ entryOf d m.core

/-- What is left for the loop is clean. -/
def CleanTurn (t : Tree α) (M : Mem α) (k : Str) (L : Turn) : Prop :=
  ∀ j, L.next ≤ j → j < L.len → ∃ u e, (M L.node).arr.getD j 0 = e.id ∧ (∀ q m, (q, m) ∈ e.nodes u → (q, m) ∈ t.root.nodes []) ∧
    e.ids.Nodup ∧ Clean k u e

/-- A clean node. -/
theorem clean_visit {M : Mem α} (hM : Sane t M) {u : Str} {e : Node α} (hsub : ∀ q m, (q, m) ∈ e.nodes u → (q, m) ∈ t.root.nodes [])
    (hnd : e.ids.Nodup) (hc : Clean k u e) : ∃ N, ∀ stk out, SLeads d M (fun r => ∃ new, r = (.next stk, out ++ new) ∧ ∀ x ∈ new, Apart d t k x)
      N (.visit e.id stk, out) := by
  have hS : ∀ q m, (q, m) ∈ e.nodes u → EShows (fun _ _ : Unit => True) (fun _ => M) m := fun q m hm =>
    have h := hM q m (hsub q m hm)
    ⟨fun _ => h.1, fun _ => h.2.2.1, fun _ _ i _ hi => h.2.2.2 i (Nat.lt_of_lt_of_le hi h.2.2.1)⟩
  obtain ⟨N, hN⟩ := eleads_walk (d := d) (fun _ => trivial) (fun _ _ _ _ _ => trivial) e u hnd hS
  refine ⟨N, fun stk out => (hN () stk out).trans (m := 0) (fun _ => trivial) (fun _ _ _ _ _ => trivial) ?_⟩
  rintro _ r _ ⟨new, rfl, h1, _⟩
  refine ⟨new, rfl, fun x hx => ?_⟩
  obtain ⟨q, m, hm, hx⟩ := h1 x hx
  exact ⟨q, m, hsub q m hm, hc q m hm, hx⟩

/-- A loop over clean nodes, up to some index. -/
theorem clean_loop {M : Mem α} (hM : Sane t M) {i h k0 : Nat} (hk0 : k0 ≤ h) : ∀ (j next : Nat), next + j = k0 →
    (∀ j, next ≤ j → j < k0 → ∃ u e, (M i).arr.getD j 0 = e.id ∧ (∀ q m, (q, m) ∈ e.nodes u → (q, m) ∈ t.root.nodes []) ∧
      e.ids.Nodup ∧ Clean k u e) →
    ∃ N, ∀ stk out, SLeads d M (fun r => ∃ new, r = (.next (⟨i, h, k0⟩ :: stk), out ++ new) ∧ ∀ x ∈ new, Apart d t k x)
      N (.next (⟨i, h, next⟩ :: stk), out)
  | 0, next, hn, _ => ⟨0, fun stk out => ⟨[], by rw [← hn]; simp, nofun⟩⟩
  | j + 1, next, hn, hc => by
    obtain ⟨u, e, e1, e2, e3, e4⟩ := hc next (Nat.le_refl _) (by omega)
    obtain ⟨N1, h1⟩ := clean_visit (d := d) hM e2 e3 e4
    obtain ⟨N2, h2⟩ := clean_loop hM hk0 j (next + 1) (by omega) fun j' a b => hc j' (by omega) b
    refine ⟨N1 + N2 + 1, fun stk out => .to (fun _ _ _ _ _ => trivial) (.visit e.id (⟨i, h, next + 1⟩ :: stk), out) (fun _ _ => ?_)
      ((h1 _ out).trans (fun _ => trivial) (fun _ _ _ _ _ => trivial) ?_)⟩
    · simp only [estep]
      rw [if_pos (by omega), e1]
    · rintro _ r _ ⟨new, rfl, a1⟩
      refine (h2 stk (out ++ new)).trans (m := 0) (fun _ => trivial) (fun _ _ _ _ _ => trivial) ?_
      rintro _ r _ ⟨new', rfl, a2⟩
      exact ⟨new ++ new', by rw [List.append_assoc], fun x hx => (List.mem_append.mp hx).elim (a1 x) (a2 x)⟩

/-- All that is left is clean. -/
theorem clean_rest {M : Mem α} (hM : Sane t M) : ∀ (stk : List Turn), (∀ L ∈ stk, CleanTurn t M k L) →
    ∃ N, ∀ out, SLeads d M (fun r => ∃ new, r = (.done, out ++ new) ∧ ∀ x ∈ new, Apart d t k x) N (.next stk, out)
  | [], _ => ⟨1, fun out => .to (fun _ _ _ _ _ => trivial) (.done, out) (fun _ _ => rfl) (.now ⟨[], by simp, nofun⟩ _)⟩
  | ⟨i, h, next⟩ :: stk, hc => by
    obtain ⟨N2, h2⟩ := clean_rest hM stk fun L hL => hc L (by simp [hL])
    by_cases hlt : next ≤ h
    · obtain ⟨N1, h1⟩ := clean_loop (d := d) (k := k) (i := i) hM (Nat.le_refl h) (h - next) next (by omega) (fun j a b => hc ⟨i, h, next⟩ (by simp) j a b)
      refine ⟨N1 + (N2 + 1), fun out => (h1 stk out).trans (fun _ => trivial) (fun _ _ _ _ _ => trivial) ?_⟩
      rintro _ r _ ⟨new, rfl, a1⟩
      refine .to (fun _ _ _ _ _ => trivial) (.next stk, out ++ new) (fun _ _ => ?_)
        ((h2 (out ++ new)).trans (m := 0) (fun _ => trivial) (fun _ _ _ _ _ => trivial) ?_)
      · simp only [estep]; rw [if_neg (by omega)]
      · rintro _ r _ ⟨new', rfl, a2⟩
        exact ⟨new ++ new', by rw [List.append_assoc], fun x hx => (List.mem_append.mp hx).elim (a1 x) (a2 x)⟩
    · refine ⟨N2 + 1, fun out => .to (fun _ _ _ _ _ => trivial) (.next stk, out) (fun _ _ => ?_) (h2 out)⟩
      simp only [estep]; rw [if_neg (by omega)]

omit [Inhabited α] in
/-- The siblings of a node on the way to a key are clean. -/
theorem clean_sibling {n e e' : Node α} (hw : n.WF) (he : e ∈ n.kids) (he' : e' ∈ n.kids) (hne : e' ≠ e) {u k : Str} (hk : u ++ e.path <+: k) :
    Clean k u e' := by
  intro q m hm hkq
  have hwn := (Node.wf_iff n).mp hw
  have h1 := Node.prefix_of_mem_nodes hm
  have h2 := hk.trans hkq
  obtain ⟨a, x, hx⟩ := List.exists_cons_of_ne_nil (hwn.2 e he).1
  obtain ⟨b, y, hy⟩ := List.exists_cons_of_ne_nil (hwn.2 e' he').1
  obtain ⟨r1, g1⟩ := h1
  obtain ⟨r2, g2⟩ := h2
  rw [← g1, hx, hy, List.append_assoc, List.append_assoc] at g2
  have := congrArg List.head? (List.append_cancel_left g2)
  exact hne (Node.heads_inj hwn.1 he' he (by rw [hx, hy]; simpa using this.symm))

omit [Inhabited α] in
theorem heads_nodup : ∀ (k : List (Node α)), (k.flatMap Node.ids).Nodup → (k.map Node.id).Nodup
  | [], _ => List.nodup_nil
  | a :: as, h => by
    rw [List.flatMap_cons, Node.ids_cons, List.cons_append, List.nodup_cons, List.nodup_append] at h
    rw [List.map_cons, List.nodup_cons]
    refine ⟨fun hx => ?_, heads_nodup as h.2.2.1⟩
    obtain ⟨b, hb, e⟩ := List.mem_map.mp hx
    exact h.1 (List.mem_append_right _ (List.mem_flatMap.mpr ⟨b, hb, by rw [Node.ids_cons, e]; simp⟩))

/-- The visit of a node itself, if its key is a proper prefix of `k`. -/
theorem visit_self {M : Mem α} {u : Str} {m : Node α} (hm : (u, m) ∈ t.root.nodes []) (hM : M m.id = cellOf m) (hk : ¬ k <+: u) :
    ∀ stk out, SLeads d M (fun r => ∃ new, r = (.next (⟨m.id, m.kids.length, 0⟩ :: stk), out ++ new) ∧ ∀ x ∈ new, Apart d t k x)
      4 (.visit m.id stk, out) := by
  intro stk out
  have hcore : (M m.id).core = m.core := by rw [hM]; rfl
  have hlen : (M m.id).len = m.kids.length := by rw [hM]; rfl
  refine .to (fun _ _ _ _ _ => trivial) (.test m.id m.core.pathS stk, out) (fun _ _ => by simp only [estep]; rw [hcore]) ?_
  by_cases hsw : Race.shown d m.core = true
  · refine .to (fun _ _ _ _ _ => trivial) (.data m.id m.core.pathS stk, out) (fun _ _ => by simp only [estep]; rw [hcore]; exact if_pos hsw)
      (.to (fun _ _ _ _ _ => trivial) (.kids m.id stk, out ++ [(runes m.core.pathS, m.core.data)]) (fun _ _ => by simp only [estep]; rw [hcore])
        (.to (fun _ _ _ _ _ => trivial) (.next (⟨m.id, m.kids.length, 0⟩ :: stk), out ++ [(runes m.core.pathS, m.core.data)])
          (fun _ _ => by simp only [estep]; rw [hlen]) (.now ⟨_, rfl, fun x hx => ?_⟩ _)))
    exact ⟨u, m, hm, hk, by rw [entryOf, if_pos hsw]; exact hx⟩
  · refine .to (fun _ _ _ _ _ => trivial) (.kids m.id stk, out) (fun _ _ => by simp only [estep]; rw [hcore]; exact if_neg hsw)
        (.to (fun _ _ _ _ _ => trivial) (.next (⟨m.id, m.kids.length, 0⟩ :: stk), out)
          (fun _ _ => by simp only [estep]; rw [hlen]) (.now ⟨[], by simp, nofun⟩ _))

/-- The export comes to the loop over the children of `P`, and has walked those before `ch`. -/
theorem clean_reach {M : Mem α} (hM : Sane t M) (hl : Lays M t) {uP : Str} {P ch : Node α} {A C : List (Node α)} (hP : P.kids = A ++ ch :: C)
    (n : Node α) : ∀ (u : Str), n.WF → n.ids.Nodup → (∀ q m, (q, m) ∈ n.nodes u → (q, m) ∈ t.root.nodes []) → (uP, P) ∈ n.nodes u →
    ∃ N stk', (∀ L ∈ stk', L.node ≠ P.id ∧ CleanTurn t M (uP ++ ch.path) L) ∧ ∀ stk out,
      SLeads d M (fun r => ∃ new, r = (.next (⟨P.id, P.kids.length, A.length⟩ :: (stk' ++ stk)), out ++ new) ∧
        ∀ x ∈ new, Apart d t (uP ++ ch.path) x) N (.visit n.id stk, out) := by
  induction n using Node.ind with
  | h i p c ks ih =>
    intro u hw hnd hsub hmem
    have hwn := (Node.wf_iff _).mp hw
    have hnd' := hnd
    rw [Node.ids_mk, List.nodup_cons] at hnd'
    have hself : (u ++ p, Node.mk i p c ks) ∈ t.root.nodes [] := hsub _ _ ((Node.mem_nodes u (.mk i p c ks) _).mpr (.inl rfl))
    have hcell := hl _ _ hself
    have hkid : ∀ e ∈ ks, ∀ q m, (q, m) ∈ e.nodes (u ++ p) → (q, m) ∈ t.root.nodes [] := fun e he q m hm =>
      hsub _ _ ((Node.mem_nodes u (.mk i p c ks) _).mpr (.inr ⟨e, he, hm⟩))
    -- the children up to some child are clean if that is on the way
    have sib : ∀ (B : List (Node α)) (e : Node α) (D : List (Node α)), ks = B ++ e :: D → u ++ p ++ e.path <+: uP ++ ch.path →
        ∀ j, j < ks.length → j ≠ B.length → ∃ u' e', (M i).arr.getD j 0 = e'.id ∧
          (∀ q m, (q, m) ∈ e'.nodes u' → (q, m) ∈ t.root.nodes []) ∧ e'.ids.Nodup ∧ Clean (uP ++ ch.path) u' e' := by
      intro B e D hks hpre j hj hjb
      refine ⟨u ++ p, ks[j], ?_, hkid _ (List.getElem_mem hj), Node.ids_nodup_kid hnd'.2 (List.getElem_mem hj),
        clean_sibling hw (e := e) (by rw [show (Node.mk i p c ks).kids = ks from rfl, hks]; simp) (List.getElem_mem hj) ?_ hpre⟩
      · rw [show (M i) = cellOf (Node.mk i p c ks) from hcell]
        exact ids_getD hj
      · intro e1
        have hn := heads_nodup ks hnd'.2
        have h1 : (ks.map Node.id)[j]'(by simpa using hj) = e.id := by rw [List.getElem_map, e1]
        have hB : B.length < ks.length := by rw [hks]; simp
        have h2 : (ks.map Node.id)[B.length]'(by simpa using hB) = e.id := by
          rw [List.getElem_map]; congr 1; simp [hks]
        exact hjb ((idxOf_at hn (by simpa using hj) h1).symm.trans (idxOf_at hn (by simpa using hB) h2))
    rw [Node.mem_nodes] at hmem
    rcases hmem with e | ⟨e, he, hmem⟩
    · -- `P` itself
      obtain ⟨rfl, rfl⟩ := Prod.mk.inj e
      have hlen : A.length < ks.length := by
        have : ks = A ++ ch :: C := hP
        rw [this]; simp
      have hchm : ch ∈ ks := by rw [show ks = A ++ ch :: C from hP]; simp
      have hne := (hwn.2 ch hchm).1
      obtain ⟨N, hN⟩ := clean_loop (d := d) (i := i) (h := ks.length) hM (Nat.le_of_lt hlen) A.length 0 (by omega)
        fun j _ hj => sib A ch C hP (List.prefix_refl _) j (by omega) (by omega)
      refine ⟨4 + N, [], nofun, fun stk out => (visit_self (d := d) (k := u ++ p ++ ch.path) hself hcell ?_ stk out).trans (fun _ => trivial) (fun _ _ _ _ _ => trivial) ?_⟩
      · intro hpre
        have := hpre.length_le
        have := List.length_pos_iff.mpr hne
        simp only [List.length_append] at *
        simp only [Node.path] at *
        omega
      · rintro _ r _ ⟨new, rfl, a1⟩
        refine (hN stk (out ++ new)).trans (m := 0) (fun _ => trivial) (fun _ _ _ _ _ => trivial) ?_
        rintro _ r _ ⟨new', rfl, a2⟩
        exact ⟨new ++ new', by rw [List.append_assoc]; rfl, fun x hx => (List.mem_append.mp hx).elim (a1 x) (a2 x)⟩
    · -- below a child
      have he : e ∈ ks := he
      have hmem : (uP, P) ∈ e.nodes (u ++ p) := hmem
      obtain ⟨B, D, hks⟩ := List.append_of_mem he
      have hpre : u ++ p ++ e.path <+: uP ++ ch.path := (Node.prefix_of_mem_nodes hmem).trans (List.prefix_append _ _)
      have hlen : B.length < ks.length := by rw [hks]; simp
      obtain ⟨N1, h1⟩ := clean_loop (d := d) (i := i) (h := ks.length) hM (Nat.le_of_lt hlen) B.length 0 (by omega)
        fun j _ hj => sib B e D hks hpre j (by omega) (by omega)
      obtain ⟨N2, stk', hs, h2⟩ := ih e he (u ++ p) (hwn.2 e he).2 (Node.ids_nodup_kid hnd'.2 he) (hkid e he) hmem
      have hat : (M i).arr.getD B.length 0 = e.id := by
        rw [show (M i) = cellOf (Node.mk i p c ks) from hcell]
        refine (ids_getD hlen).trans ?_
        congr 1
        simp [hks]
      have hPi : i ≠ P.id := by
        rintro rfl
        exact hnd'.1 (List.mem_flatMap.mpr ⟨e, he, Node.id_mem_ids hmem⟩)
      refine ⟨4 + (N1 + (N2 + 1)), stk' ++ [⟨i, ks.length, B.length + 1⟩], fun L hL => ?_, fun stk out =>
        (visit_self (d := d) (k := uP ++ ch.path) hself hcell ?_ stk out).trans (fun _ => trivial) (fun _ _ _ _ _ => trivial) ?_⟩
      · rcases List.mem_append.mp hL with hL | hL
        · exact hs L hL
        · obtain rfl := List.mem_singleton.mp hL
          exact ⟨hPi, fun j j1 j2 => sib B e D hks hpre j j2 (by simp only at j1; omega)⟩
      · intro hp'
        have := hp'.length_le
        have := hpre.length_le
        have := List.length_pos_iff.mpr (hwn.2 e he).1
        simp only [List.length_append] at *
        omega
      · rintro _ r _ ⟨new, rfl, a1⟩
        refine (h1 stk (out ++ new)).trans (fun _ => trivial) (fun _ _ _ _ _ => trivial) ?_
        rintro _ r _ ⟨new', rfl, a2⟩
        refine .to (fun _ _ _ _ _ => trivial) (.visit e.id (⟨i, ks.length, B.length + 1⟩ :: stk), out ++ new ++ new') (fun _ _ => ?_)
          ((h2 _ (out ++ new ++ new')).trans (m := 0) (fun _ => trivial) (fun _ _ _ _ _ => trivial) ?_)
        · simp only [estep]
          rw [if_pos hlen, hat]
        · rintro _ r _ ⟨new2, rfl, a3⟩
          refine ⟨new ++ new' ++ new2, by simp, fun x hx => ?_⟩
          rcases List.mem_append.mp hx with hx | hx
          · exact (List.mem_append.mp hx).elim (a1 x) (a2 x)
          · exact a3 x hx
end

end Prune
end Verif

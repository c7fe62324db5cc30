import Verif.Lemmas.RaceZone
import Verif.Lemmas.RaceRen
import Verif.Lemmas.RaceWorld
import Verif.Props.Write
/-
A goroutine that is alone with its memory does what the functions do.
-/
namespace Verif
namespace Parts
variable {α : Type} [Inhabited α]
open Prune (Cell Mem Pc Call Leads)
open Race (Job)

/-! ### Trees that differ in the pointers only -/

omit [Inhabited α] in
theorem assoc_ren (σ : Nat → Nat) (l : List (Str × Node α)) (q : Str) :
    assoc (l.map fun x => (x.1, x.2.ren σ)) q = (assoc l q).map (Node.ren σ) := by
  induction l with
  | nil => rfl
  | cons a l ih =>
    obtain ⟨k, b⟩ := a
    simp only [List.map_cons, assoc]
    split
    · rfl
    · exact ih

omit [Inhabited α] in
theorem nodeAt_ren {T T' : Tree α} {σ : Nat → Nat} (e : T.root = T'.root.ren σ) :
    T.nodeAt = fun q => (T'.nodeAt q).map (Node.ren σ) := by
  funext q
  rw [Tree.nodeAt, e, Node.nodes_ren, assoc_ren]; rfl

omit [Inhabited α] in
theorem contents_ren {T T' : Tree α} {σ : Nat → Nat} (e : T.root = T'.root.ren σ) : T.contents = T'.contents := by
  rw [Tree.contents, e, Node.entries_ren]; rfl

omit [Inhabited α] in
theorem plain_ren {T T' : Tree α} {σ : Nat → Nat} (e : T.root = T'.root.ren σ) {d : Char} (h : T'.Plain d) : T.Plain d := by
  intro q c hc
  rw [contents_ren e] at hc
  exact h q c hc

theorem insert_ren {T T' : Tree α} {σ : Nat → Nat} (e : T.root = T'.root.ren σ) (ok' : T'.OK) (key : Str) (x : α) :
    ∃ σ', (View.insertAt T key x).1.root = (View.insertAt T' key x).1.root.ren σ' := by
  refine ⟨fun i => if i = T'.next then T.next else if i = T'.next + 1 then T.next + 1 else σ i, ?_⟩
  have h : T.root = T'.root.ren fun i => if i = T'.next then T.next else if i = T'.next + 1 then T.next + 1 else σ i := by
    rw [e]
    refine Node.ren_congr _ fun i hi => ?_
    have : i < T'.next := by
      rw [Node.ids] at hi
      obtain ⟨x, hx, rfl⟩ := List.mem_map.mp hi
      exact ok'.lt x hx
    rw [if_neg (by omega), if_neg (by omega)]
  show (Node.insertFuel _ _ _ _ _ _).tree = Node.ren _ (Node.insertFuel _ _ _ _ _ _).tree
  rw [h]
  exact Node.insertFuel_ren (by simp) (by simp) _ _ _ _ _

/-! ### What `Remove` does -/

omit [Inhabited α] in
theorem remove_spec {v : View} {t : Tree α} (h : t.OK) (hp : t.Plain v.delim) (hm : v.mode ≠ .up) (p : Str) :
    (∃ u P x, (u, P) ∈ t.root.nodes [] ∧ x ∈ P.kids ∧ v.full p ≠ [] ∧ resolve v.delim t.nodeAt (v.full p) = some (u ++ x.path, x) ∧
      v.remove t p = .ok ({ t with root := t.root.modify P.id (Node.removeChild x.id) }, true)) ∨
    ((v.full p = [] ∨ resolve v.delim t.nodeAt (v.full p) = none) ∧ v.remove t p = .ok (t, false)) := by
  rcases search_plain h hp hm (v.full p) with ⟨q, m, par, h1, h2, h3⟩ | ⟨hw, h1, c, par, pm, h2, h3⟩
  · have hmem : (q, m) ∈ t.root.nodes [] := (Tree.nodeAt_some h).mp (resolve_some h1)
    rcases h3 with ⟨hw, rfl, _⟩ | ⟨u, pr, rfl, hpr, hkid⟩
    · right
      refine ⟨.inl hw, ?_⟩
      rw [View.remove, View.removeEx, h2]; rfl
    · left
      have hx : (u ++ m.path, m) ∈ t.root.nodes [] :=
        Node.nodes_trans hpr ((Node.mem_nodesL _ _ _).mpr ⟨m, hkid, (Node.mem_nodes _ _ _).mpr (.inl rfl)⟩)
      have hq : q = u ++ m.path := (Prod.mk.inj (h.id_inj hmem hx rfl)).1
      have hne := ((Node.wf_iff pr).mp (Node.wf_of_mem h.wf hpr)).2 m hkid
      have hany : (pr.kids.any fun k => decide (k.id = m.id)) = true := List.any_eq_true.mpr ⟨m, hkid, by simp⟩
      refine ⟨u, pr, m, hpr, hkid, ?_, hq ▸ h1, ?_⟩
      · intro hw
        rcases (resolve_cases h1).2 with e | ⟨_, _, e⟩
        · rw [hw] at e
          rw [e] at hq
          exact hne.1 (List.append_eq_nil_iff.mp hq.symm).2
        · exact e hw
      · simp only [View.remove, View.removeEx, h2, hany, if_true]; rfl
  · right
    refine ⟨.inr h1, ?_⟩
    rw [View.remove, View.removeEx, h2]
    cases c with
    | none => rfl
    | some n =>
      have := h3.not_found
      cases par <;> cases pm <;> first | rfl | simp_all

omit [Inhabited α] in
theorem ren_inj {T T' : Tree α} {σ : Nat → Nat} (e : T.root = T'.root.ren σ) (ok : T.OK) {a b : Nat} (ha : a ∈ T'.root.ids)
    (hb : b ∈ T'.root.ids) (h : σ a = σ b) : a = b := by
  have hn := ok.ids_nodup
  rw [e, Node.ids_ren] at hn
  obtain ⟨i, hi, rfl⟩ := List.getElem_of_mem ha
  obtain ⟨j, hj, rfl⟩ := List.getElem_of_mem hb
  have hp := List.pairwise_iff_getElem.mp (List.nodup_iff_pairwise_ne.mp hn)
  rcases Nat.lt_trichotomy i j with k | k | k
  · exact absurd (by rw [List.getElem_map, List.getElem_map]; exact h) (hp i j (by simpa using hi) (by simpa using hj) k)
  · subst k; rfl
  · exact absurd (by rw [List.getElem_map, List.getElem_map]; exact h.symm) (hp j i (by simpa using hj) (by simpa using hi) k)

omit [Inhabited α] in
/-- `Remove` on both. -/
theorem remove_ren {T T' : Tree α} {σ : Nat → Nat} (e : T.root = T'.root.ren σ) (ok : T.OK) (ok' : T'.OK) {v : View}
    (hp : T'.Plain v.delim) (hm : v.mode ≠ .up) (p : Str) :
    ∃ T1 T1' b, v.remove T p = .ok (T1, b) ∧ v.remove T' p = .ok (T1', b) ∧ T1.root = T1'.root.ren σ := by
  have hr : resolve v.delim T.nodeAt (v.full p) = (resolve v.delim T'.nodeAt (v.full p)).map fun x => (x.1, x.2.ren σ) := by
    rw [nodeAt_ren e, resolve_map]
  rcases remove_spec ok' hp hm p with ⟨u, P, x, h1, h2, h3, h4, h5⟩ | ⟨h1, h2⟩
  · rcases remove_spec ok (plain_ren e hp) hm p with ⟨u₂, P₂, x₂, k1, k2, k3, k4, k5⟩ | ⟨k1, k2⟩
    · refine ⟨_, _, true, k5, h5, ?_⟩
      rw [hr, h4] at k4
      simp only [Option.map_some, Option.some.injEq, Prod.mk.injEq] at k4
      obtain ⟨k4, rfl⟩ := k4
      have hu : u = u₂ := by simpa using k4
      subst hu
      have hP : (u, P.ren σ) ∈ T.root.nodes [] := by rw [e]; exact Node.mem_ren.mpr ⟨P, h1, rfl⟩
      have : P₂ = P.ren σ := by
        have a := (Tree.nodeAt_some ok).mpr k1
        rw [(Tree.nodeAt_some ok).mpr hP] at a
        exact (Option.some.inj a).symm
      subst this
      have hx : (u ++ x.path, x) ∈ T'.root.nodes [] :=
        Node.nodes_trans h1 ((Node.mem_nodesL _ _ _).mpr ⟨x, h2, (Node.mem_nodes _ _ _).mpr (.inl rfl)⟩)
      simp only [Node.ren_id]
      rw [e]
      refine Node.modify_ren _ fun a ha b hb hab => ?_
      rcases hb with rfl | rfl
      · exact ren_inj e ok ha (Node.id_mem_ids h1) hab
      · exact ren_inj e ok ha (Node.id_mem_ids hx) hab
    · rcases k1 with k1 | k1
      · exact absurd k1 h3
      · rw [hr, h4] at k1; cases k1
  · rcases remove_spec ok (plain_ren e hp) hm p with ⟨u₂, P₂, x₂, k1, k2, k3, k4, k5⟩ | ⟨k1, k2⟩
    · rcases h1 with h1 | h1
      · exact absurd h1 k3
      · rw [hr, h1] at k4; cases k4
    · exact ⟨T, T', false, k2, h2, e⟩

/-! ### Looking up and removing, alone -/

/-- The steps of one call. -/
def it (c : Call) (d : Char) : Nat → Mem α × Pc α → Mem α × Pc α
  | 0, r => r
  | n + 1, r => it c d n (Prune.step c d r.1 r.2)

theorem it_add (c : Call) (d : Char) (n m : Nat) (r : Mem α × Pc α) : it c d (n + m) r = it c d m (it c d n r) := by
  induction n generalizing r with
  | zero => rw [Nat.zero_add]; rfl
  | succ n ih => rw [Nat.succ_add]; exact ih _

theorem it_of_leads {c : Call} {d : Char} {M : Mem α} {Q ok : Pc α → Prop}
    (h : ∀ pc, ok pc → ¬ Q pc → (Prune.step c d M pc).1 = M ∧
      (ok (Prune.step c d M pc).2 ∨ ∀ n σ, ¬ Leads c d (fun _ => M) Q n σ (Prune.step c d M pc).2)) (n : Nat) :
    ∀ (σ : Nat → Nat) (pc : Pc α), ok pc → Leads c d (fun _ => M) Q n σ pc → ∃ k pc', Q pc' ∧ it c d k (M, pc) = (M, pc') := by
  induction n with
  | zero => exact fun σ pc _ hl => ⟨0, pc, hl, rfl⟩
  | succ n ih =>
    intro σ pc hok hl
    by_cases hq : Q pc
    · exact ⟨0, pc, hq, rfl⟩
    · rcases hl with hl | hl
      · exact absurd hl hq
      · have hl := hl σ (.refl σ)
        obtain ⟨e, h2⟩ := h pc hok hq
        rcases h2 with h2 | h2
        · obtain ⟨k, pc', hq', hk⟩ := ih σ _ h2 hl
          refine ⟨k + 1, pc', hq', ?_⟩
          rw [it]
          show it c d k ((Prune.step c d M pc).1, (Prune.step c d M pc).2) = _
          rw [e]; exact hk
        · exact absurd hl (h2 n σ)

/-- The states of a lookup. -/
def looks : Pc α → Prop
  | .pick .. | .scan .. | .cut .. | .move .. => False
  | _ => True

/-- The states of a search. -/
def seeks : Pc α → Prop
  | .enter .. | .cmp .. | .tail .. | .kids .. | .range .. | .ret .. => True
  | _ => False

theorem seeks_step (c : Call) (d : Char) (M : Mem α) (pc : Pc α) (h : ¬ seeks pc) : ¬ seeks (Prune.step c d M pc).2 := by
  cases pc with
  | enter | cmp | tail | kids | range | ret => exact absurd trivial h
  | branch i => simp only [Prune.step]; split <;> exact id
  | has i br f => simp only [Prune.step]; split <;> exact id
  | scan par item n k => simp only [Prune.step]; repeat' split
                         all_goals exact id
  | cut par k => simp only [Prune.step]; split <;> exact id
  | move par k n j => simp only [Prune.step]; split <;> exact id
  | ends | data | done | pick | gone | crash => exact id

theorem seeks_leads {c : Call} {d : Char} {M : Mem α} {Q : Pc α → Prop} (hQ : ∀ pc, Q pc → seeks pc) (n : Nat) :
    ∀ (σ : Nat → Nat) (pc : Pc α), ¬ seeks pc → ¬ Leads c d (fun _ => M) Q n σ pc := by
  induction n with
  | zero => exact fun σ pc h hl => h (hQ pc hl)
  | succ n ih =>
    rintro σ pc h (hl | hl)
    · exact h (hQ pc hl)
    · exact ih σ _ (seeks_step c d M pc h) (hl σ (.refl σ))

theorem seeks_it {c : Call} {d : Char} {M : Mem α} {Q : Pc α → Prop} (hQ : ∀ pc, Q pc → seeks pc) {n : Nat} {σ : Nat → Nat} {pc : Pc α}
    (h : seeks pc) (hl : Leads c d (fun _ => M) Q n σ pc) : ∃ k pc', Q pc' ∧ it c d k (M, pc) = (M, pc') := by
  refine it_of_leads (ok := seeks) (fun pc hs _ => ⟨?_, ?_⟩) n σ pc h hl
  · cases pc <;> first | rfl | exact hs.elim
  · by_cases h : seeks (Prune.step c d M pc).2
    · exact .inl h
    · exact .inr fun n σ => seeks_leads hQ n σ _ h

theorem looks_it {p : Str} {d : Char} {M : Mem α} {Q : Pc α → Prop} {n : Nat} {σ : Nat → Nat} {pc : Pc α}
    (h : looks pc) (hl : Leads (.get p) d (fun _ => M) Q n σ pc) : ∃ k pc', Q pc' ∧ it (.get p) d k (M, pc) = (M, pc') := by
  have hf : ∀ b ch par, looks (Prune.found (α := α) (.get p) b ch par) := by
    intro b ch par
    cases b <;> cases ch <;> exact trivial
  refine it_of_leads (ok := looks) (fun pc hs _ => ⟨?_, .inl ?_⟩) n σ pc h hl
  · cases pc <;> first | rfl | exact hs.elim
  · cases pc with
    | pick | scan | cut | move => exact hs.elim
    | ret m b ch par stk =>
      simp only [Prune.step]
      split
      · exact hf _ _ _
      · split
        · exact hf _ _ _
        · split <;> exact trivial
    | enter | kids | range | branch | has => simp only [Prune.step]; split <;> exact trivial
    | cmp | tail => simp only [Prune.step]; repeat' split
                    all_goals exact trivial
    | ends | data | done | gone | crash => exact trivial

/-- The loop in `remove`. -/
theorem scan_it (c : Call) (d : Char) {M : Mem α} {P x n ix : Nat} (hn : ix < n) (h1 : (M P).arr.getD ix 0 = x)
    (h2 : ∀ l, l < ix → (M P).arr.getD l 0 ≠ x) (j : Nat) : ∀ i, i + j = ix → it c d (j + 1) (M, .scan P x n i) = (M, .cut P ix) := by
  induction j with
  | zero =>
    intro i e
    rw [show i = ix from by omega]
    simp only [it, Prune.step]
    rw [if_pos hn, if_pos h1]
  | succ j ih =>
    intro i e
    rw [it]
    simp only [Prune.step]
    rw [if_pos (by omega), if_neg (h2 i (by omega))]
    exact ih (i + 1) (by omega)

/-- The moving of the elements. -/
theorem move_it (c : Call) (d : Char) {P ix n : Nat} (L : List Nat) (hL : ix + n < L.length) (i : Nat) :
    ∀ (M : Mem α) (j : Nat), j + i = n → (M P).arr = Prune.slide L ix j → ∃ M', it c d (i + 1) (M, .move P ix n j) = (M', .gone true) ∧
      (∀ l, l ≠ P → M' l = M l) ∧ M' P = { M P with arr := Prune.slide L ix n, len := ix + n } := by
  induction i with
  | zero =>
    intro M j e h
    rw [show j = n from by omega] at h ⊢
    refine ⟨M.set P { M P with len := ix + n }, ?_, fun l hl => ?_, ?_⟩
    · simp only [it, Prune.step]
      rw [if_neg (by omega)]
    · rw [Mem.set, if_neg hl]
    · rw [Mem.set, if_pos rfl, ← h]
  | succ i ih =>
    intro M j e h
    have e1 : Prune.step c d M (.move P ix n j) = (M.set P { M P with arr := Prune.slide L ix (j + 1) }, .move P ix n (j + 1)) := by
      simp only [Prune.step]
      rw [if_pos (by omega), h, Prune.slide_succ (by omega)]
    obtain ⟨M', r1, r2, r3⟩ := ih (M.set P { M P with arr := Prune.slide L ix (j + 1) }) (j + 1) (by omega) (by rw [Mem.set, if_pos rfl])
    refine ⟨M', ?_, fun l hl => ?_, ?_⟩
    · rw [it]; simp only [e1]; exact r1
    · rw [r2 l hl, Mem.set, if_neg hl]
    · rw [r3, Mem.set, if_pos rfl]

omit [Inhabited α] in
theorem slide_cut {L : List Nat} {ix len : Nat} (h1 : ix < len) (h2 : len ≤ L.length) :
    (Prune.slide L ix (len - (ix + 1))).take (len - 1) = (L.take len).eraseIdx ix := by
  have hl : (L.take len).length = len := by rw [List.length_take]; omega
  refine Prune.list_ext_getD ?_ fun k hk => ?_
  · rw [List.length_take, Prune.slide_length, List.length_eraseIdx, if_pos (by omega)]; omega
  · rw [List.length_take, Prune.slide_length] at hk
    rw [List.getD_eq_getElem?_getD, List.getElem?_take, if_pos (by omega), ← List.getD_eq_getElem?_getD, Prune.slide_getD (by omega),
      List.getD_eq_getElem?_getD, List.getD_eq_getElem?_getD, List.getElem?_eraseIdx]
    congr 1
    by_cases e : k < ix
    · rw [if_pos e, if_neg (by omega), List.getElem?_take, if_pos (by omega)]
    · rw [if_neg e, if_pos (by omega), List.getElem?_take, if_pos (by omega)]

/-- The memory holds the tree. -/
def HoldsT (M : Mem α) (T : Tree α) : Prop :=
  (∀ q m, (q, m) ∈ T.root.nodes [] → Prune.Holds M m) ∧ ∀ i, (M i).len ≤ (M i).arr.length

theorem get_alone {v : View} {T : Tree α} (h : T.OK) (hp : T.Plain v.delim) (hm : v.mode ≠ .up) {M : Mem α} (hM : HoldsT M T) (p : Str) :
    ∃ k a, it (.get p) v.delim k (M, .enter (v.full p) T.root.id none []) = (M, .done a) ∧ v.query T p = .ok a := by
  obtain ⟨N, hN⟩ := Prune.leads_still h hp hm hM.1 p
  obtain ⟨k, pc, ⟨a, rfl, ha⟩, hk⟩ := looks_it (by exact trivial) (hN fun _ => 0)
  exact ⟨k, a, hk, ha⟩

theorem remove_alone {v : View} {T : Tree α} (h : T.OK) (hp : T.Plain v.delim) (hm : v.mode ≠ .up) {M : Mem α} (hM : HoldsT M T) (p : Str) :
    ∃ k M' T' b, it (.remove p) v.delim k (M, .enter (v.full p) T.root.id none []) = (M', .gone b) ∧ v.remove T p = .ok (T', b) ∧
      HoldsT M' T' ∧ T'.OK ∧ T'.next = T.next ∧ T'.root.id = T.root.id := by
  rcases remove_spec h hp hm p with ⟨u, P, x, h1, h2, h3, h4, h5⟩ | ⟨h1, h2⟩
  · obtain ⟨P', u', g1, g2, N, hN⟩ := Prune.leads_found (ms := fun _ => M) (.remove p) h (hp.at (v.full p)) h3
      (fun q m hm => (hM.1 q m hm).shows) h4 (fun u P ch hP hch _ => (hM.1 _ _ hP).sure hch)
    have hx : (u ++ x.path, x) ∈ T.root.nodes [] :=
      Node.nodes_trans h1 ((Node.mem_nodesL _ _ _).mpr ⟨x, h2, (Node.mem_nodes _ _ _).mpr (.inl rfl)⟩)
    have hx' : (u' ++ x.path, x) ∈ T.root.nodes [] :=
      Node.nodes_trans g1 ((Node.mem_nodesL _ _ _).mpr ⟨x, g2, (Node.mem_nodes _ _ _).mpr (.inl rfl)⟩)
    have hPP : P' = P := by
      have e := (Prod.mk.inj (h.id_inj hx' hx rfl)).1
      have e : u' = u := by simpa using e
      subst e
      have a := (Tree.nodeAt_some h).mpr g1
      rw [(Tree.nodeAt_some h).mpr h1] at a
      exact (Option.some.inj a).symm
    subst hPP
    obtain ⟨k1, pc1, ⟨stk, rfl⟩, hk1⟩ := seeks_it (fun pc hq => by obtain ⟨stk, rfl⟩ := hq; exact trivial) (by exact trivial) (hN fun _ => 0)
    obtain ⟨c1, c2, c3, c4⟩ := hM.1 _ _ h1
    have hlen := hM.2 P'.id
    have hnd := Prune.kids_ids_nodup h h1
    have hxi : x.id ∈ P'.kids.map Node.id := List.mem_map_of_mem h2
    have hixl := List.idxOf_lt_length_of_mem hxi
    have hixL : (P'.kids.map Node.id).idxOf x.id < P'.kids.length := by simpa using hixl
    have getD : ∀ l, l < P'.kids.length → (M P'.id).arr.getD l 0 = (P'.kids.map Node.id)[l]?.getD 0 := by
      intro l hl
      rw [← c3, List.getD_eq_getElem?_getD, List.getElem?_take, if_pos (by omega)]
    have hk2 := scan_it (.remove p) v.delim (M := M) (P := P'.id) (x := x.id) (n := (M P'.id).len) (ix := (P'.kids.map Node.id).idxOf x.id)
      (by omega)
      (by rw [getD _ hixL, List.getElem?_eq_getElem hixl]; exact List.getElem_idxOf hixl)
      (fun l hl => by
        have hl' : l < (P'.kids.map Node.id).length := by omega
        rw [getD l (by omega), List.getElem?_eq_getElem hl']
        intro e
        have := Prune.idxOf_at hnd hl' e
        omega) ((P'.kids.map Node.id).idxOf x.id) 0 (by omega)
    obtain ⟨M', hk3, hk4, hk5⟩ := move_it (α := α) (.remove p) v.delim (P := P'.id) (ix := (P'.kids.map Node.id).idxOf x.id)
      (n := (M P'.id).len - ((P'.kids.map Node.id).idxOf x.id + 1)) (M P'.id).arr (by omega) _ M 0 (Nat.zero_add _) (Prune.slide_zero _ _).symm
    have s1 : it (.remove p) v.delim 1 (M, .ret true false (some x.id) (some P'.id) stk) = (M, .pick P'.id x.id) := rfl
    have s2 : it (.remove p) v.delim 1 (M, .pick P'.id x.id) = (M, .scan P'.id x.id (M P'.id).len 0) := rfl
    have s3 : it (.remove p) v.delim 1 (M, .cut P'.id ((P'.kids.map Node.id).idxOf x.id)) =
        (M, .move P'.id ((P'.kids.map Node.id).idxOf x.id) ((M P'.id).len - ((P'.kids.map Node.id).idxOf x.id + 1)) 0) := by
      simp only [it, Prune.step]
      rw [if_pos (by omega)]
    refine ⟨k1 + (1 + (1 + (((P'.kids.map Node.id).idxOf x.id + 1) + (1 + ((M P'.id).len - ((P'.kids.map Node.id).idxOf x.id + 1) + 1))))), M', _, true, ?_, h5, ⟨?_, fun i => ?_⟩, (removeAt_ok h h1 h2).1, rfl, ?_⟩
    · rw [it_add, hk1, it_add, s1, it_add, s2, it_add, hk2, it_add, s3, hk3]
    · intro q m' hm'
      obtain ⟨m, e1, e2, e3, e4, e5⟩ := Prune.modify_remove_nodes _ _ _ _ _ _ hm'
      obtain ⟨d1, d2, d3, d4⟩ := hM.1 q m e1
      have hl5 := congrArg List.length e5
      by_cases e : m.id = P'.id
      · have hmP : m = P' := (Prod.mk.inj (h.id_inj e1 h1 e)).2
        subst hmP
        rw [if_pos rfl, List.length_erase_of_mem hxi] at hl5
        simp only [List.length_map] at hl5
        rw [if_pos rfl] at e5
        have hlast : (m.kids.map Node.id).idxOf x.id + ((M m.id).len - ((m.kids.map Node.id).idxOf x.id + 1)) = (M m.id).len - 1 := by omega
        refine ⟨?_, ?_, ?_, ?_⟩
        · rw [e2, hk5, e3]; exact d1
        · rw [e2, hk5, e4]; exact d2
        · rw [e2, hk5, e5]
          show (Prune.slide _ _ _).take (_ + _) = _
          rw [hlast, slide_cut (by omega) hlen, d3, List.erase_eq_eraseIdx_of_idxOf rfl]
        · rw [e2, hk5]
          show _ + _ = _
          omega
      · rw [if_neg e] at e5 hl5
        simp only [List.length_map] at hl5
        refine ⟨?_, ?_, ?_, ?_⟩
        · rw [e2, hk4 _ e, e3]; exact d1
        · rw [e2, hk4 _ e, e4]; exact d2
        · rw [e2, hk4 _ e, e5]; exact d3
        · rw [e2, hk4 _ e, hl5]; exact d4
    · by_cases e : i = P'.id
      · rw [e, hk5]
        show _ ≤ (Prune.slide _ _ _).length
        rw [Prune.slide_length]
        show _ + _ ≤ _
        omega
      · rw [hk4 i e]; exact hM.2 i
    · exact Prune.modify_remove_id _ _ _
  · by_cases hw : v.full p = []
    · refine ⟨2, M, T, false, ?_, h2, hM, h, rfl, rfl⟩
      rw [hw]; rfl
    · have hr : resolve v.delim T.nodeAt (v.full p) = none := h1.resolve_left hw
      obtain ⟨r, o1, o2⟩ := Prune.search_outcome h (hp.at (v.full p)) hw
      have hmis : r.matched = false := by
        rcases o2 with ⟨q, m, P, u, _, e, _⟩ | ⟨e, _⟩
        · rw [hr] at e; cases e
        · exact e
      obtain ⟨N, hN⟩ := Prune.leads_safe (c := .remove p) (ms := fun _ => M) o1 h.wf [] (fun q m hm => (hM.1 q m hm).shows)
        (fun q m hm _ _ => (hM.1 q m hm).firm)
      obtain ⟨k, pc, hq, hk⟩ := seeks_it (Q := Prune.Good r []) (fun pc hq => by
        rcases hq with ⟨_, _, _, rfl⟩ | ⟨_, _, _, rfl⟩ | rfl <;> exact trivial) (by exact trivial) (hN (fun _ => 0) [])
      refine ⟨k + 1, M, T, false, ?_, h2, hM, h, rfl, rfl⟩
      have hk' : it (.remove p) v.delim k (M, .enter (v.full p) T.root.id none []) = (M, pc) := hk
      rw [it_add, hk']
      rcases hq with ⟨e, _⟩ | ⟨ch, par, stk, rfl⟩ | rfl
      · rw [hmis] at e; cases e
      · cases ch <;> cases par <;> rfl
      · rfl

/-! ### Setting, alone -/

/-- A memory of slices as a memory of lists. -/
def proj (M : Mem α) : Race.Mem α := fun i => ⟨(M i).path, (M i).core, kids (M i)⟩

omit [Inhabited α] in
theorem proj_set (M : Mem α) (i : Nat) (s : Cell α) : proj (M.set i s) = (proj M).set i ⟨s.path, s.core, kids s⟩ := by
  funext j
  simp only [proj, Mem.set, Race.Mem.set]
  split <;> rfl

/-- Where the goroutine stands, on lists. -/
def projPc (M : Mem α) : SetPc → Race.Pc
  | .enter w i => .enter w i
  | .halve w i pos => .halve w i pos
  | .cut w i pos d k => .cut w i pos d k
  | .look w i => .look w i
  | .scan w i _ k => .scan w i ((kids (M i)).drop k)
  | .leaf w i => .leaf w i
  | .link i ks => .link i ks
  | .mark i => .mark i
  | .store i => .store i
  | .done => .done
  | .crash => .crash

/-- A loop that began with the slice that the node has. -/
def Begun (M : Mem α) : SetPc → Prop
  | .scan _ i n _ => n = (M i).len
  | _ => True

/-- On lists it is the model of C88. -/
theorem proj_step (J : Job α) (M : Mem α) (pc : SetPc) (hl : ∀ i, (M i).len ≤ (M i).arr.length) (hb : Begun M pc) :
    Race.step J (proj M) (projPc M pc) = (proj (insStep J M pc).1, projPc (insStep J M pc).1 (insStep J M pc).2) ∧
    Begun (insStep J M pc).1 (insStep J M pc).2 := by
  cases pc with
  | enter w i =>
    have h1 : (proj M i).path = (M i).path := rfl
    have h2 : (proj M i).kids = kids (M i) := rfl
    rw [projPc, Race.step, insStep]
    simp only [h1, h2]
    by_cases k1 : (M i).path.length = 0 ∧ w.length > 0 ∧ (kids (M i)).length = 0
    · rw [if_pos k1, if_pos k1]; exact ⟨rfl, trivial⟩
    · rw [if_neg k1, if_neg k1]
      by_cases k2 : Race.cplOf w (M i).path < (M i).path.length
      · rw [if_pos k2, if_pos k2]; exact ⟨rfl, trivial⟩
      · rw [if_neg k2, if_neg k2]
        by_cases k3 : Race.cplOf w (M i).path < w.length
        · rw [if_pos k3, if_pos k3]; exact ⟨rfl, trivial⟩
        · rw [if_neg k3, if_neg k3]; exact ⟨rfl, trivial⟩
  | halve w i pos =>
    simp only [projPc, Race.step, insStep]
    by_cases h : pos ≤ (M i).path.length
    · rw [if_pos h, if_pos (show pos ≤ (proj M i).path.length from h), proj_set]; exact ⟨rfl, trivial⟩
    · rw [if_neg h, if_neg (show ¬ pos ≤ (proj M i).path.length from h)]; exact ⟨rfl, trivial⟩
  | cut w i pos d k =>
    simp only [projPc, Race.step, insStep, proj_set]
    have hc : Race.assign J.fresh pos d k (proj M i) = ⟨(assign J.fresh pos d k (M i)).path, (assign J.fresh pos d k (M i)).core,
        kids (assign J.fresh pos d k (M i))⟩ := by
      match k with
      | 0 | 1 | 2 | 3 | 4 | 5 | 6 => rfl
      | k + 7 => rfl
    rw [hc]
    by_cases h1 : k < 7
    · simp only [if_pos h1]; exact ⟨trivial, trivial⟩
    · simp only [if_neg h1]
      by_cases h2 : pos < w.length
      · simp only [if_pos h2]; exact ⟨trivial, trivial⟩
      · simp only [if_neg h2]; exact ⟨trivial, trivial⟩
  | look w i => exact ⟨rfl, rfl⟩
  | scan w i n k =>
    have hn : n = (M i).len := hb
    simp only [projPc, insStep]
    by_cases hk : k < n
    · have hk' : k < (kids (M i)).length := by
        have := hl i
        rw [kids, List.length_take]; omega
      have hka : k < (M i).arr.length := by have := hl i; omega
      have hj : (kids (M i))[k] = (M i).arr.getD k 0 := by
        rw [List.getD_eq_getElem?_getD, List.getElem?_eq_getElem hka]
        simp only [kids, List.getElem_take, Option.getD_some]
      rw [if_pos hk, List.drop_eq_getElem_cons hk', hj]
      generalize (M i).arr.getD k 0 = j
      by_cases h : (M j).path.head? = w.head?
      · rw [if_pos h, Race.step, if_pos (show (proj M j).path.head? = w.head? from h)]; exact ⟨rfl, trivial⟩
      · rw [if_neg h, Race.step, if_neg (show ¬ (proj M j).path.head? = w.head? from h)]; exact ⟨rfl, hn⟩
    · rw [if_neg hk, List.drop_eq_nil_of_le (by rw [kids, List.length_take]; omega)]
      exact ⟨rfl, trivial⟩
  | leaf w i => simp only [projPc, Race.step, insStep, proj_set]; exact ⟨rfl, trivial⟩
  | link i ks =>
    simp only [projPc, Race.step, insStep, proj_set]
    refine ⟨Prod.ext (congrArg _ ?_) rfl, trivial⟩
    have : kids { M i with arr := ks ++ [J.fresh + 1], len := ks.length + 1 } = ks ++ [J.fresh + 1] :=
      List.take_of_length_le (by simp)
    rw [this]; rfl
  | mark i => simp only [projPc, Race.step, insStep, proj_set]; exact ⟨rfl, trivial⟩
  | store i => simp only [projPc, Race.step, insStep, proj_set]; exact ⟨rfl, trivial⟩
  | done => exact ⟨rfl, trivial⟩
  | crash => exact ⟨rfl, trivial⟩

/-- The steps of one `Set`. -/
def itI (J : Job α) : Nat → Mem α × SetPc → Mem α × SetPc
  | 0, r => r
  | n + 1, r => itI J n (insStep J r.1 r.2)

theorem insStep_len (J : Job α) (M : Mem α) (pc : SetPc) (h : ∀ i, (M i).len ≤ (M i).arr.length) (i : Nat) :
    ((insStep J M pc).1 i).len ≤ ((insStep J M pc).1 i).arr.length := by
  have hset : ∀ (j : Nat) (s : Cell α), s.len ≤ s.arr.length → (M.set j s i).len ≤ (M.set j s i).arr.length := by
    intro j s hs
    rw [Mem.set]
    split
    · exact hs
    · exact h i
  cases pc with
  | enter w j => simp only [insStep]; repeat' split
                 all_goals exact h i
  | halve w j pos =>
    simp only [insStep]
    split
    · exact hset _ _ (h j)
    · exact h i
  | cut w j pos d k =>
    refine hset _ _ ?_
    unfold assign
    split <;> first | exact h j | exact Nat.le_refl 1
  | look w j => exact h i
  | scan w j n k => exact h i
  | leaf w j => exact hset _ _ (Nat.le_refl 0)
  | link j ks => exact hset _ _ (by simp)
  | mark j => exact hset _ _ (h j)
  | store j => exact hset _ _ (h j)
  | done => exact h i
  | crash => exact h i

theorem proj_alone (J : Job α) (n : Nat) : ∀ (M : Mem α) (pc : SetPc), (∀ i, (M i).len ≤ (M i).arr.length) → Begun M pc →
    Race.alone J n (proj M, projPc M pc) = (proj (itI J n (M, pc)).1, projPc (itI J n (M, pc)).1 (itI J n (M, pc)).2) := by
  induction n with
  | zero => intro M pc _ _; rfl
  | succ n ih =>
    intro M pc hl hb
    rw [Race.alone, itI]
    simp only [(proj_step J M pc hl hb).1]
    exact ih _ _ (insStep_len J M pc hl) (proj_step J M pc hl hb).2

theorem itI_len (J : Job α) (n : Nat) : ∀ (r : Mem α × SetPc), (∀ i, (r.1 i).len ≤ (r.1 i).arr.length) →
    ∀ i, ((itI J n r).1 i).len ≤ ((itI J n r).1 i).arr.length := by
  induction n with
  | zero => exact fun r h => h
  | succ n ih => exact fun r h => ih _ (insStep_len J r.1 r.2 h)

omit [Inhabited α] in
theorem holds_proj {M : Mem α} (n : Node α) : ∀ u, (∀ q m, (q, m) ∈ n.nodes u → Prune.Holds M m) → Race.Holds (proj M) n := by
  induction n using Node.ind with
  | h i p c k ih =>
    intro u h
    obtain ⟨h1, h2, h3, h4⟩ := h _ _ ((Node.mem_nodes _ _ _).mpr (.inl rfl))
    refine .mk ?_ fun m hm => ih m hm (u ++ p) fun q m' hm' => h q m' ((Node.mem_nodes _ _ _).mpr (.inr ⟨m, hm, hm'⟩))
    simp only [Node.id_mk, Node.path_mk, Node.core_mk, Node.kids_mk] at h1 h2 h3
    rw [proj, h1, h2, kids, h3]

omit [Inhabited α] in
theorem proj_holds {M : Mem α} (hl : ∀ i, (M i).len ≤ (M i).arr.length) (n : Node α) :
    ∀ u, Race.Holds (proj M) n → ∀ q m, (q, m) ∈ n.nodes u → Prune.Holds M m := by
  induction n using Node.ind with
  | h i p c k ih =>
    intro u h q m hm
    rcases (Node.mem_nodes _ _ _).mp hm with e | ⟨e, he, hm⟩
    · cases e
      have hc := h.cell
      have h1 : (M i).path = p := congrArg Race.Cell.path hc
      have h2 : (M i).core = c := congrArg Race.Cell.core hc
      have h3 : (M i).arr.take (M i).len = k.map Node.id := congrArg Race.Cell.kids hc
      refine ⟨h1, h2, h3, ?_⟩
      have := congrArg List.length h3
      rw [List.length_take, List.length_map] at this
      have := hl i
      show (M i).len = k.length
      omega
    · exact ih e he _ (h.kid he) q m hm

theorem set_alone {T : Tree α} (h : T.OK) {M : Mem α} (hM : HoldsT M T) (key : Str) (x : α) :
    ∃ n M', itI ⟨key, x, T.next⟩ n (M, .enter key T.root.id) = (M', .done) ∧ HoldsT M' (View.insertAt T key x).1 := by
  have hR := holds_proj T.root [] hM.1
  obtain ⟨m, w', hg, hs⟩ := Race.target T.root key
  have S := Race.setup h hR ⟨key, x, T.next⟩ (Nat.le_refl _) hg hs
  obtain ⟨n, hn⟩ := Race.enter_ends S T.root key (.here _ _)
  rw [show Race.Pc.enter key T.root.id = projPc M (.enter key T.root.id) from rfl, proj_alone _ _ _ _ hM.2 (by exact trivial)] at hn
  replace hn : (itI ⟨key, x, T.next⟩ n (M, .enter key T.root.id)).2 = .done := by
    generalize (itI ⟨key, x, T.next⟩ n (M, .enter key T.root.id)) = r at hn ⊢
    obtain ⟨M', pc⟩ := r
    cases pc <;> first | rfl | cases hn
  have hl := itI_len ⟨key, x, T.next⟩ n (M, .enter key T.root.id) hM.2
  refine ⟨n, _, Prod.ext rfl hn, fun q m hm => ?_, hl⟩
  refine proj_holds hl _ [] ?_ q m hm
  refine Race.alone_set h hR ⟨key, x, T.next⟩ rfl (N := n) ?_
  rw [show Race.Pc.enter key T.root.id = projPc M (.enter key T.root.id) from rfl, proj_alone _ _ _ _ hM.2 (by exact trivial), hn]
  rfl

/-! ### A goroutine, alone -/

section
variable {root gap : Nat}

theorem solo_succ (n : Nat) (r : Mem α × Gor α) : solo root gap (n + 1) r = solo root gap n (r.2.step root gap r.1) := by
  induction n with
  | zero => rfl
  | succ n ih => rw [solo, ih]; rfl

theorem solo_add (n m : Nat) (r : Mem α × Gor α) : solo root gap (n + m) r = solo root gap m (solo root gap n r) := by
  induction m with
  | zero => rfl
  | succ m ih => rw [← Nat.add_assoc, solo, ih]; rfl

theorem lift_asks {v : View} {todo : List (Act α)} {outs : List (Out α)} {f : Nat} {c : Call} (n : Nat) :
    ∀ {M M' : Mem α} {pc pc' : Pc α}, it c v.delim n (M, pc) = (M', pc') →
      ∃ k, solo root gap k (M, ⟨v, todo, .asks c pc, outs, f⟩) = (M', ⟨v, todo, .asks c pc', outs, f⟩) := by
  induction n with
  | zero => intro M M' pc pc' e; cases e; exact ⟨0, rfl⟩
  | succ n ih =>
    intro M M' pc pc' e
    by_cases hd : (∃ a, pc = .done a) ∨ ∃ b, pc = .gone b
    · have hs : Prune.step c v.delim M pc = (M, pc) := by
        rcases hd with ⟨a, rfl⟩ | ⟨b, rfl⟩ <;> rfl
      have stay : ∀ n, it c v.delim n (M, pc) = (M, pc) := by
        intro n
        induction n with
        | zero => rfl
        | succ n ih => rw [it]; simp only [hs]; exact ih
      rw [stay] at e
      cases e
      exact ⟨0, rfl⟩
    · have hs : Gor.step root gap M ⟨v, todo, .asks c pc, outs, f⟩ =
          ((Prune.step c v.delim M pc).1, ⟨v, todo, .asks c (Prune.step c v.delim M pc).2, outs, f⟩) := by
        unfold Gor.step
        cases pc <;> first | rfl | (exfalso; exact hd (.inl ⟨_, rfl⟩)) | (exfalso; exact hd (.inr ⟨_, rfl⟩))
      rw [it] at e
      obtain ⟨k, hk⟩ := ih (M := (Prune.step c v.delim M pc).1) (pc := (Prune.step c v.delim M pc).2) e
      refine ⟨k + 1, ?_⟩
      rw [solo_succ]
      simp only [hs]
      exact hk

theorem lift_sets {v : View} {todo : List (Act α)} {outs : List (Out α)} {f : Nat} {J : Job α} (n : Nat) :
    ∀ {M M' : Mem α} {pc pc' : SetPc}, itI J n (M, pc) = (M', pc') →
      ∃ k, solo root gap k (M, ⟨v, todo, .sets J pc, outs, f⟩) = (M', ⟨v, todo, .sets J pc', outs, f⟩) := by
  induction n with
  | zero => intro M M' pc pc' e; cases e; exact ⟨0, rfl⟩
  | succ n ih =>
    intro M M' pc pc' e
    by_cases hd : pc = .done
    · subst hd
      have stay : ∀ n, itI J n (M, .done) = (M, .done) := by
        intro n
        induction n with
        | zero => rfl
        | succ n ih => exact ih
      rw [stay] at e
      cases e
      exact ⟨0, rfl⟩
    · have hs : Gor.step root gap M ⟨v, todo, .sets J pc, outs, f⟩ =
          ((insStep J M pc).1, ⟨v, todo, .sets J (insStep J M pc).2, outs, f⟩) := by
        unfold Gor.step
        cases pc <;> first | rfl | (exfalso; exact hd rfl)
      rw [itI] at e
      obtain ⟨k, hk⟩ := ih (M := (insStep J M pc).1) (pc := (insStep J M pc).2) e
      refine ⟨k + 1, ?_⟩
      rw [solo_succ]
      simp only [hs]
      exact hk

/-- The goroutine's own memory and the tree that the functions have. -/
structure Mine (root : Nat) (d : Char) (M : Mem α) (T T' : Tree α) : Prop where
  ok : T.OK
  holds : HoldsT M T
  root : T.root.id = root
  ren : ∃ σ, T.root = T'.root.ren σ
  reach : Reach (NoRoute d) T'

theorem solo_all {v : View} (hm : v.mode ≠ .up) (hgap : 2 ≤ gap) (todo : List (Act α)) :
    ∀ {M : Mem α} {T T' : Tree α} {outs : List (Out α)}, Mine root v.delim M T T' → (∀ p x, .set p x ∈ todo → NoRoute v.delim (View.dash (v.full p))) →
      ∃ n M' f', solo root gap n (M, ⟨v, todo, .idle, outs, T.next⟩) = (M', ⟨v, [], .idle, outs ++ seq v T' todo, f'⟩) := by
  induction todo with
  | nil => intro M T T' outs _ _; exact ⟨0, M, T.next, by rw [seq, List.append_nil]; rfl⟩
  | cons a todo ih =>
    intro M T T' outs I hset
    obtain ⟨σ, hσ⟩ := I.ren
    have ok' := I.reach.ok
    have hp' := I.reach.plain
    have hp := plain_ren hσ hp'
    have hset' : ∀ p x, .set p x ∈ todo → NoRoute v.delim (View.dash (v.full p)) := fun p x h => hset p x (by simp [h])
    cases a with
    | get p =>
      obtain ⟨k, a, hk, ha⟩ := get_alone I.ok hp hm I.holds p
      rw [I.root] at hk
      obtain ⟨k', hk'⟩ := lift_asks (root := root) (gap := gap) (v := v) (todo := todo) (outs := outs) (f := T.next) k hk
      obtain ⟨n, M', f', hn⟩ := ih (outs := outs ++ [.got a]) I hset'
      have hq : v.query T' p = .ok a := by
        rw [← ha, query_plain ok' hp' hm, query_plain I.ok hp hm, contents_ren hσ]
      refine ⟨1 + (k' + (1 + n)), M', f', ?_⟩
      rw [solo_add, solo_add, solo_add]
      have s1 : solo root gap 1 (M, (⟨v, .get p :: todo, .idle, outs, T.next⟩ : Gor α)) =
        (M, ⟨v, todo, .asks (.get p) (.enter (v.full p) root none []), outs, T.next⟩) := rfl
      have s2 : solo root gap 1 (M, (⟨v, todo, .asks (.get p) (.done a), outs, T.next⟩ : Gor α)) =
        (M, ⟨v, todo, .idle, outs ++ [.got a], T.next⟩) := rfl
      rw [s1, hk', s2, hn, seq, hq]
      simp
    | remove p =>
      obtain ⟨k, M₁, T₁, b, hk, hb, hM₁, ok₁, hn₁, hr₁⟩ := remove_alone I.ok hp hm I.holds p
      obtain ⟨T₂, T₂', b', e1, e2, e3⟩ := remove_ren hσ I.ok ok' hp' hm p
      rw [hb] at e1
      obtain ⟨rfl, rfl⟩ := Prod.mk.inj (Except.ok.inj e1)
      rw [I.root] at hk
      obtain ⟨k', hk'⟩ := lift_asks (root := root) (gap := gap) (v := v) (todo := todo) (outs := outs) (f := T.next) k hk
      obtain ⟨n, M', f', hn⟩ := ih (outs := outs ++ [.removed b]) (M := M₁) (T := T₁) (T' := T₂')
        ⟨ok₁, hM₁, hr₁.trans I.root, ⟨σ, e3⟩, I.reach.remove e2⟩ hset'
      refine ⟨1 + (k' + (1 + n)), M', f', ?_⟩
      rw [solo_add, solo_add, solo_add]
      have s1 : solo root gap 1 (M, (⟨v, .remove p :: todo, .idle, outs, T.next⟩ : Gor α)) =
        (M, ⟨v, todo, .asks (.remove p) (.enter (v.full p) root none []), outs, T.next⟩) := rfl
      have s2 : solo root gap 1 (M₁, (⟨v, todo, .asks (.remove p) (.gone b), outs, T.next⟩ : Gor α)) =
        (M₁, ⟨v, todo, .idle, outs ++ [.removed b], T.next⟩) := rfl
      rw [s1, hk', s2, ← hn₁, hn, seq, e2]
      simp
    | set p x =>
      obtain ⟨k, M₁, hk, hM₁⟩ := set_alone I.ok I.holds (View.dash (v.full p)) x
      rw [I.root] at hk
      obtain ⟨k', hk'⟩ := lift_sets (root := root) (gap := gap) (v := v) (todo := todo) (outs := outs) (f := T.next + gap) k hk
      obtain ⟨σ', hσ'⟩ := insert_ren hσ ok' (View.dash (v.full p)) x
      have ok₁ := View.insertAt_ok I.ok (View.dash (v.full p)) x
      have I' : Mine root v.delim M₁ { (View.insertAt T (View.dash (v.full p)) x).1 with next := T.next + gap } (v.set T' p x).1 := by
        refine ⟨⟨ok₁.wf, ok₁.nil, ok₁.nodup, fun y hy => ?_⟩, hM₁, ?_, ⟨σ', hσ'⟩, I.reach.set (hset p x (by simp)) x⟩
        · have h1 := ok₁.lt y hy
          have h2 : (View.insertAt T (View.dash (v.full p)) x).1.next = T.next + 2 := rfl
          show y.2.id < T.next + gap
          omega
        · exact (Race.insertAt_id I.ok _ x).trans I.root
      obtain ⟨n, M', f', hn⟩ := ih (outs := outs ++ [.stored]) I' hset'
      refine ⟨1 + (k' + (1 + n)), M', f', ?_⟩
      rw [solo_add, solo_add, solo_add]
      have s1 : solo root gap 1 (M, (⟨v, .set p x :: todo, .idle, outs, T.next⟩ : Gor α)) =
        (M, ⟨v, todo, .sets ⟨View.dash (v.full p), x, T.next⟩ (.enter (View.dash (v.full p)) root), outs, T.next + gap⟩) := rfl
      have s2 : solo root gap 1 (M₁, (⟨v, todo, .sets ⟨View.dash (v.full p), x, T.next⟩ .done, outs, T.next + gap⟩ : Gor α)) =
        (M₁, ⟨v, todo, .idle, outs ++ [.stored], T.next + gap⟩) := rfl
      rw [s1, hk', s2, hn, seq]
      simp

/-- What has been told stays told. -/
theorem step_outs (M : Mem α) (g : Gor α) : g.outs <+: (g.step root gap M).2.outs := by
  obtain ⟨v, todo, doing, outs, f⟩ := g
  unfold Gor.step
  cases doing with
  | idle =>
    cases todo with
    | nil => exact List.prefix_refl _
    | cons a r => cases a <;> exact List.prefix_refl _
  | asks c pc => cases pc <;> first | exact List.prefix_refl _ | exact List.prefix_append _ _
  | sets J pc => cases pc <;> first | exact List.prefix_refl _ | exact List.prefix_append _ _

theorem solo_outs (n : Nat) (r : Mem α × Gor α) : r.2.outs <+: (solo root gap n r).2.outs := by
  induction n with
  | zero => exact List.prefix_refl _
  | succ n ih => exact ih.trans (step_outs _ _)

theorem step_crashed (M : Mem α) (g : Gor α) (h : g.crashed) : (g.step root gap M).2.crashed := by
  obtain ⟨v, todo, doing, outs, f⟩ := g
  rcases h with ⟨c, h⟩ | ⟨J, h⟩
  · simp only at h; subst h; exact .inl ⟨c, rfl⟩
  · simp only at h; subst h; exact .inr ⟨J, rfl⟩

theorem solo_crashed (n : Nat) (r : Mem α × Gor α) (h : r.2.crashed) : (solo root gap n r).2.crashed := by
  induction n with
  | zero => exact h
  | succ n ih => exact step_crashed _ _ ih

theorem solo_idle (n : Nat) (r : Mem α × Gor α) (h1 : r.2.todo = []) (h2 : r.2.doing = .idle) : solo root gap n r = r := by
  induction n with
  | zero => rfl
  | succ n ih =>
    rw [solo, ih]
    obtain ⟨M, v, todo, doing, outs, f⟩ := r
    simp only at h1 h2
    subst h1 h2
    rfl

end

end Parts
end Verif

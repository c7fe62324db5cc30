import Verif.Lemmas.Search
/-
Writes through a node pointer and removal of a child, as updates of the finite map.
-/
namespace Verif
namespace Node
variable {α : Type}

theorem modifyL_eq (i : Nat) (g : Node α → Node α) (k : List (Node α)) :
    modifyL i g k = k.map (modify i g) := by
  induction k with
  | nil => simp [modifyL]
  | cons a as ih => simp [modifyL, ih]

/-- Identities do not depend on the path. -/
theorem ids_eq (u : Str) (n : Node α) : (nodes u n).map (·.2.id) = n.ids := by
  have := nodes_append u [] n
  simp only [List.append_nil] at this
  rw [this, ids]; simp

theorem idsL_eq (u : Str) (k : List (Node α)) : (nodesL u k).map (·.2.id) = k.flatMap ids := by
  induction k with
  | nil => simp [nodesL]
  | cons a as ih => simp [nodesL, ids_eq, ih]

theorem ids_mk (i p) (c : Core α) (k) : (mk i p c k).ids = i :: k.flatMap ids := by
  rw [ids, nodes_eq]; simp [idsL_eq]

theorem ids_cons (n : Node α) : n.ids = n.id :: n.kids.flatMap ids := by
  cases n; simp [ids_mk]

theorem id_mem_ids {n : Node α} {u q m} (h : (q, m) ∈ nodes u n) : m.id ∈ n.ids := by
  rw [← ids_eq u]; exact List.mem_map.mpr ⟨_, h, rfl⟩

/-- Nothing happens if the pointer is not in the tree. -/
theorem modify_absent {i : Nat} {g : Node α → Node α} {n : Node α} (h : i ∉ n.ids) : modify i g n = n := by
  induction n using ind with
  | h j p c k ih =>
    simp only [ids_mk, List.mem_cons, not_or, List.mem_flatMap, not_exists, not_and] at h
    have hk : k.map (modify i g) = k := by
      conv => rhs; rw [← List.map_id k]
      exact List.map_congr_left (fun a ha => ih a ha (h.2 a ha))
    have h1 : ¬ j = i := fun e => h.1 e.symm
    simp only [modify, modifyL_eq, hk, h1, if_false]

section core
variable {i : Nat} {f : Core α → Core α}

theorem modify_core_id (n : Node α) : (modify i (mapCore f) n).id = n.id := by
  cases n; simp only [modify]; split <;> simp [mapCore]
theorem modify_core_path (n : Node α) : (modify i (mapCore f) n).path = n.path := by
  cases n; simp only [modify]; split <;> simp [mapCore]
theorem modify_core_kids (n : Node α) :
    (modify i (mapCore f) n).kids = n.kids.map (modify i (mapCore f)) := by
  cases n; simp only [modify, modifyL_eq]; split <;> simp [mapCore]
theorem modify_core_core (n : Node α) :
    (modify i (mapCore f) n).core = if n.id = i then f n.core else n.core := by
  cases n; simp only [modify]; split <;> simp_all [mapCore]

theorem nodes_modify_core (u : Str) (n : Node α) :
    nodes u (modify i (mapCore f) n) = (nodes u n).map (fun x => (x.1, modify i (mapCore f) x.2)) := by
  induction n using ind generalizing u with
  | h j p c k ih =>
    rw [nodes_eq, nodes_eq u (mk j p c k), modify_core_path, modify_core_kids]
    simp only [path_mk, kids_mk, List.map_cons, List.cons.injEq, true_and]
    generalize u ++ p = w
    clear u
    induction k with
    | nil => simp [nodesL]
    | cons a as iha =>
      simp only [List.map_cons, nodesL, List.map_append]
      rw [ih a (by simp), iha (fun n hn => ih n (by simp [hn]))]

theorem wf_modify_core {n : Node α} (h : n.WF) : (modify i (mapCore f) n).WF := by
  induction n using ind with
  | h j p c k ih =>
    rw [wf_iff, modify_core_kids]
    have hw := (wf_mk ..).mp h
    constructor
    · simp only [kids_mk, List.map_map]
      have : (fun c : Node α => c.path.head?) ∘ modify i (mapCore f) = fun c => c.path.head? := by
        funext c; simp [modify_core_path]
      rw [this]; exact hw.1
    · intro x hx
      simp only [kids_mk, List.mem_map] at hx
      obtain ⟨y, hy, rfl⟩ := hx
      rw [modify_core_path]
      exact ⟨(hw.2 y hy).1, ih y hy (hw.2 y hy).2⟩

end core

/-- Removal of the child `m` of the node `pr`. -/
structure RemOK (u : Str) (n n' : Node α) (cut : Str) : Prop where
  wf : n'.WF
  id : n'.id = n.id
  path : n'.path = n.path
  ids : n'.ids.Sublist n.ids
  mem : ∀ q c, (q, c) ∈ entries u n' ↔ ((q, c) ∈ entries u n ∧ ¬ cut <+: q)

theorem entriesL_mem {u : Str} {k : List (Node α)} {x} : x ∈ entriesL u k ↔ ∃ c ∈ k, x ∈ entries u c := by
  simp only [entriesL, entries, List.mem_map, mem_nodesL]
  constructor
  · rintro ⟨a, ⟨c, hc, ha⟩, rfl⟩; exact ⟨c, hc, a, ha, rfl⟩
  · rintro ⟨c, hc, a, ha, rfl⟩; exact ⟨a, ⟨c, hc, ha⟩, rfl⟩

theorem prefix_of_mem_entries {u : Str} {n : Node α} {q c} (h : (q, c) ∈ entries u n) : u ++ n.path <+: q := by
  simp only [entries, List.mem_map] at h
  obtain ⟨⟨q', m⟩, h1, h2⟩ := h
  simp at h2
  rw [← h2.1]; exact prefix_of_mem_nodes h1

theorem ids_nodup_kid {k : List (Node α)} (h : (k.flatMap ids).Nodup) {c : Node α} (hc : c ∈ k) : c.ids.Nodup := by
  induction k with
  | nil => cases hc
  | cons a as ih =>
    rw [List.flatMap_cons, List.nodup_append] at h
    rcases List.mem_cons.mp hc with rfl | hc
    · exact h.1
    · exact ih h.2.1 hc

theorem ids_kids_disjoint {k : List (Node α)} (h : (k.flatMap ids).Nodup) {c e : Node α} (hc : c ∈ k) (he : e ∈ k)
    {i : Nat} (h1 : i ∈ c.ids) (h2 : i ∈ e.ids) : c = e := by
  induction k with
  | nil => cases hc
  | cons a as ih =>
    rw [List.flatMap_cons, List.nodup_append] at h
    rcases List.mem_cons.mp hc with e1 | hc <;> rcases List.mem_cons.mp he with e2 | he
    · rw [e1, e2]
    · exact absurd rfl (h.2.2 i (e1 ▸ h1) i (List.mem_flatMap.mpr ⟨e, he, h2⟩))
    · exact absurd rfl (h.2.2 i (e2 ▸ h2) i (List.mem_flatMap.mpr ⟨c, hc, h1⟩))
    · exact ih h.2.1 hc he

theorem heads_disjoint {u : Str} {a b : Node α} (ha : a.path ≠ []) (hb : b.path ≠ [])
    (hne : a.path.head? ≠ b.path.head?) {x q : Str} (hx : u ++ a.path <+: x) (hq : u ++ b.path <+: q) :
    ¬ x <+: q := by
  intro h
  have h1 := hx.trans h
  rcases List.prefix_or_prefix_of_prefix h1 hq with h2 | h2 <;>
    rw [List.prefix_append_right_inj] at h2 <;>
    (cases e1 : a.path with
      | nil => exact ha e1
      | cons a1 as =>
        cases e2 : b.path with
        | nil => exact hb e2
        | cons b1 bs =>
          rw [e1, e2, List.cons_prefix_cons] at h2
          rw [e1, e2] at hne
          simp at hne
          first
          | exact hne h2.1
          | exact hne h2.1.symm)

theorem eraseP_id {k : List (Node α)} (h : (k.flatMap ids).Nodup) {m : Node α} (hm : m ∈ k) :
    ∃ a b, k = a ++ m :: b ∧ k.eraseP (fun n => n.id = m.id) = a ++ b := by
  induction k with
  | nil => cases hm
  | cons x xs ih =>
    rw [List.flatMap_cons, List.nodup_append] at h
    rcases List.mem_cons.mp hm with e | hm'
    · subst e
      exact ⟨[], xs, by simp, by simp⟩
    · have hne : ¬ x.id = m.id := by
        intro e
        refine h.2.2 x.id (by rw [ids_cons]; simp) m.id ?_ e
        exact List.mem_flatMap.mpr ⟨m, hm', by rw [ids_cons]; simp⟩
      obtain ⟨a, b, h1, h2⟩ := ih h.2.1 hm'
      exact ⟨x :: a, b, by simp [h1], by simp [hne, h2]⟩

theorem remove_ok {n : Node α} (hw : n.WF) (hnd : n.ids.Nodup) {u q : Str} {pr m : Node α}
    (hp : (q, pr) ∈ nodes u n) (hm : m ∈ pr.kids) :
    RemOK u n (modify pr.id (removeChild m.id) n) (q ++ m.path) := by
  induction n using ind generalizing u with
  | h j p c k ih =>
    have hwn := (wf_mk ..).mp hw
    rw [ids_mk, List.nodup_cons] at hnd
    rw [mem_nodes] at hp
    rcases hp with hp | ⟨c1, hc1, hp⟩
    · -- the parent is this node
      simp at hp
      obtain ⟨rfl, rfl⟩ := hp
      simp only [kids_mk] at hm
      have habs : k.map (modify j (removeChild m.id)) = k := by
        conv => rhs; rw [← List.map_id k]
        exact List.map_congr_left (fun a ha => modify_absent (fun h => hnd.1 (List.mem_flatMap.mpr ⟨a, ha, h⟩)))
      obtain ⟨a, b, hk, he⟩ := eraseP_id hnd.2 hm
      have hmod : modify (mk j p c k).id (removeChild m.id) (mk j p c k) = mk j p c (a ++ b) := by
        simp only [id_mk, modify, modifyL_eq, habs, if_true, removeChild, he]
      rw [hmod]
      have hsub : (a ++ b).Sublist k := by
        rw [hk]; exact List.Sublist.append_left (List.sublist_cons_self ..) _
      refine ⟨?_, rfl, rfl, ?_, ?_⟩
      · rw [wf_mk]
        exact ⟨hwn.1.sublist (hsub.map _), fun c hc => hwn.2 c (hsub.subset hc)⟩
      · rw [ids_mk, ids_mk, hk]
        simp only [List.flatMap_append, List.flatMap_cons]
        refine List.Sublist.cons_cons _ (List.Sublist.append_left ?_ _)
        exact List.sublist_append_right ..
      · intro q' e'
        rw [entries_eq, entries_eq]
        simp only [path_mk, core_mk, kids_mk, List.mem_cons, entriesL_mem, Prod.mk.injEq]
        constructor
        · rintro (⟨rfl, rfl⟩ | ⟨x, hx, hq'⟩)
          · refine ⟨.inl ⟨rfl, rfl⟩, fun h => ?_⟩
            have h1 := h.length_le
            have h2 := List.length_pos_iff.mpr (hwn.2 m hm).1
            simp at h1; omega
          · refine ⟨.inr ⟨x, hsub.subset hx, hq'⟩, ?_⟩
            refine heads_disjoint (u := u ++ p) (hwn.2 m hm).1 (hwn.2 x (hsub.subset hx)).1 ?_ List.prefix_rfl (prefix_of_mem_entries hq')
            intro heq
            have hnd' := hwn.1
            rw [hk, List.map_append, List.map_cons, List.nodup_append, List.nodup_cons] at hnd'
            rcases List.mem_append.mp hx with hx | hx
            · exact hnd'.2.2 _ (List.mem_map.mpr ⟨x, hx, rfl⟩) _ (List.mem_cons_self ..) heq.symm
            · exact hnd'.2.1.1 (heq ▸ List.mem_map.mpr ⟨x, hx, rfl⟩)
        · rintro ⟨⟨rfl, rfl⟩ | ⟨x, hx, hq'⟩, hno⟩
          · exact .inl ⟨rfl, rfl⟩
          · refine .inr ⟨x, ?_, hq'⟩
            rw [hk] at hx
            rcases List.mem_append.mp hx with hx | hx
            · simp [hx]
            · rcases List.mem_cons.mp hx with rfl | hx
              · exact absurd (prefix_of_mem_entries hq') hno
              · simp [hx]
    · -- the parent is below `c1`
      have hpid : pr.id ∈ c1.ids := id_mem_ids hp
      have hjne : ¬ j = pr.id := fun e => hnd.1 (e ▸ List.mem_flatMap.mpr ⟨c1, hc1, hpid⟩)
      have hoth : ∀ x ∈ k, x ≠ c1 → modify pr.id (removeChild m.id) x = x := fun x hx hne =>
        modify_absent (fun h => hne (ids_kids_disjoint hnd.2 hx hc1 h hpid))
      have hmod : modify pr.id (removeChild m.id) (mk j p c k) =
          mk j p c (k.map (modify pr.id (removeChild m.id))) := by
        simp only [modify, modifyL_eq, hjne, if_false]
      have h1 := ih c1 hc1 (hwn.2 c1 hc1).2 (ids_nodup_kid hnd.2 hc1) hp
      have hpath : ∀ x ∈ k, (modify pr.id (removeChild m.id) x).path = x.path := by
        intro x hx
        by_cases e : x = c1
        · rw [e]; exact h1.path
        · rw [hoth x hx e]
      have hcut : u ++ p ++ c1.path <+: q ++ m.path := (prefix_of_mem_nodes hp).trans (List.prefix_append ..)
      rw [hmod]
      refine ⟨?_, rfl, rfl, ?_, ?_⟩
      · rw [wf_mk]
        constructor
        · rw [List.map_map]
          have : k.map ((fun c : Node α => c.path.head?) ∘ modify pr.id (removeChild m.id)) =
              k.map (fun c => c.path.head?) :=
            List.map_congr_left (fun x hx => by simp [hpath x hx])
          rw [this]; exact hwn.1
        · intro x hx
          simp only [List.mem_map] at hx
          obtain ⟨y, hy, rfl⟩ := hx
          refine ⟨by rw [hpath y hy]; exact (hwn.2 y hy).1, ?_⟩
          by_cases e : y = c1
          · rw [e]; exact h1.wf
          · rw [hoth y hy e]; exact (hwn.2 y hy).2
      · rw [ids_mk, ids_mk]
        refine List.Sublist.cons_cons _ ?_
        have : ∀ l : List (Node α), (∀ x ∈ l, x ∈ k) →
            ((l.map (modify pr.id (removeChild m.id))).flatMap Node.ids).Sublist (l.flatMap Node.ids) := by
          intro l
          induction l with
          | nil => simp
          | cons x xs ihx =>
            intro hl
            simp only [List.map_cons, List.flatMap_cons]
            refine List.Sublist.append ?_ (ihx (fun y hy => hl y (by simp [hy])))
            by_cases e : x = c1
            · rw [e]; exact h1.ids
            · rw [hoth x (hl x (by simp)) e]; exact List.Sublist.refl _
        exact this k (fun x hx => hx)
      · intro q' e'
        rw [entries_eq, entries_eq]
        simp only [path_mk, core_mk, kids_mk, List.mem_cons, entriesL_mem, Prod.mk.injEq, List.mem_map]
        constructor
        · rintro (⟨rfl, rfl⟩ | ⟨x, ⟨y, hy, rfl⟩, hq'⟩)
          · refine ⟨.inl ⟨rfl, rfl⟩, fun h => ?_⟩
            have h2 := (hcut.trans h).length_le
            have h3 := List.length_pos_iff.mpr (hwn.2 c1 hc1).1
            simp at h2; omega
          · by_cases e : y = c1
            · subst e
              have := (h1.mem q' e').mp hq'
              exact ⟨.inr ⟨y, hy, this.1⟩, this.2⟩
            · rw [hoth y hy e] at hq'
              refine ⟨.inr ⟨y, hy, hq'⟩, ?_⟩
              refine heads_disjoint (hwn.2 c1 hc1).1 (hwn.2 y hy).1 ?_ hcut (prefix_of_mem_entries hq')
              intro heq
              exact e (heads_inj hwn.1 hy hc1 heq.symm)
        · rintro ⟨⟨rfl, rfl⟩ | ⟨x, hx, hq'⟩, hno⟩
          · exact .inl ⟨rfl, rfl⟩
          · refine .inr ⟨_, ⟨x, hx, rfl⟩, ?_⟩
            by_cases e : x = c1
            · subst e
              exact (h1.mem q' e').mpr ⟨hq', hno⟩
            · rw [hoth x hx e]; exact hq'

end Node

variable {α : Type}

theorem Tree.OK.ids_nodup {t : Tree α} (h : t.OK) : t.root.ids.Nodup := h.nodup

/-- Writing the entry fields of the node `i`. -/
theorem writeCore_ok {t : Tree α} (h : t.OK) (i : Nat) (f : Core α → Core α) : (View.writeCore t i f).OK := by
  refine ⟨Node.wf_modify_core h.wf, by simp [View.writeCore, Node.modify_core_path, h.nil], ?_, ?_⟩
  · simp only [View.writeCore, Node.nodes_modify_core, List.map_map]
    have : ((fun x : Str × Node α => x.2.id) ∘ fun x : Str × Node α => (x.1, Node.modify i (Node.mapCore f) x.2)) = fun x => x.2.id := by
      funext x; simp [Node.modify_core_id]
    rw [this]; exact h.nodup
  · intro x hx
    simp only [View.writeCore, Node.nodes_modify_core, List.mem_map] at hx
    obtain ⟨y, hy, rfl⟩ := hx
    simp only [Node.modify_core_id, View.writeCore]
    exact h.lt y hy

theorem writeCore_contents {t : Tree α} (h : t.OK) {q0 m0} (hm0 : (q0, m0) ∈ t.root.nodes []) (f : Core α → Core α) (q : Str) :
    (View.writeCore t m0.id f).contents q = if q = q0 then some (f m0.core) else t.contents q := by
  have h' := writeCore_ok h m0.id f
  have key : ∀ c, (View.writeCore t m0.id f).contents q = some c ↔
      ∃ m, (q, m) ∈ t.root.nodes [] ∧ (if m.id = m0.id then f m.core else m.core) = c := by
    intro c
    rw [Tree.contents_node h']
    simp only [View.writeCore, Node.nodes_modify_core, List.mem_map]
    constructor
    · rintro ⟨m, ⟨⟨q', m'⟩, h1, h2⟩, rfl⟩
      simp at h2
      obtain ⟨rfl, rfl⟩ := h2
      exact ⟨m', h1, (Node.modify_core_core m').symm⟩
    · rintro ⟨m, h1, rfl⟩
      exact ⟨_, ⟨(q, m), h1, rfl⟩, Node.modify_core_core m⟩
  by_cases hq : q = q0
  · subst hq
    simp only [if_true]
    rw [key]
    exact ⟨m0, hm0, by simp⟩
  · simp only [hq, if_false]
    cases hc : t.contents q with
    | none =>
      cases hc' : (View.writeCore t m0.id f).contents q with
      | none => rfl
      | some c =>
        obtain ⟨m, h1, _⟩ := (key c).mp hc'
        exact absurd h1 (Tree.contents_none.mp hc m)
    | some c =>
      rw [key]
      obtain ⟨m, h1, h2⟩ := (Tree.contents_node h).mp hc
      refine ⟨m, h1, ?_⟩
      rw [if_neg, h2]
      intro e
      have := h.id_inj h1 hm0 e
      simp at this
      exact hq this.1

theorem removeAt_ok {t : Tree α} (h : t.OK) {q : Str} {pr m : Node α} (hp : (q, pr) ∈ t.root.nodes [])
    (hm : m ∈ pr.kids) :
    ({ t with root := t.root.modify pr.id (Node.removeChild m.id) } : Tree α).OK ∧
    ∀ x, ({ t with root := t.root.modify pr.id (Node.removeChild m.id) } : Tree α).contents x =
      if q ++ m.path <+: x then none else t.contents x := by
  have hr := Node.remove_ok h.wf h.ids_nodup hp hm
  have hok : ({ t with root := t.root.modify pr.id (Node.removeChild m.id) } : Tree α).OK := by
    refine ⟨hr.wf, by rw [← h.nil]; exact hr.path, ?_, ?_⟩
    · exact h.ids_nodup.sublist hr.ids
    · intro x hx
      have : x.2.id ∈ t.root.ids := hr.ids.subset (Node.id_mem_ids (q := x.1) (m := x.2) hx)
      rw [Node.ids, List.mem_map] at this
      obtain ⟨y, hy, hy'⟩ := this
      rw [← hy']; exact h.lt y hy
  refine ⟨hok, fun x => ?_⟩
  by_cases hx : q ++ m.path <+: x
  · simp only [hx, if_true]
    cases hc : Tree.contents _ x with
    | none => rfl
    | some c =>
      rw [Tree.contents_some hok] at hc
      exact absurd hx ((hr.mem x c).mp hc).2
  · simp only [hx, if_false]
    cases hc : t.contents x with
    | some c =>
      rw [Tree.contents_some hok]
      exact (hr.mem x c).mpr ⟨(Tree.contents_some h).mp hc, hx⟩
    | none =>
      cases hc' : Tree.contents _ x with
      | none => rfl
      | some c =>
        rw [Tree.contents_some hok] at hc'
        have := (Tree.contents_some h).mpr ((hr.mem x c).mp hc').1
        rw [hc] at this; simp at this

end Verif

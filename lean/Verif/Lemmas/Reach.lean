import Verif.Lemmas.Modify
import Verif.Model.Ops
/-
Invariants of all reachable trees.
-/
namespace Verif
variable {α : Type}

namespace Node

/-- Removing children anywhere keeps the radix invariant and adds no identities. -/
theorem modify_remove (i j : Nat) (n : Node α) (hw : n.WF) :
    (modify i (removeChild j) n).WF ∧ (modify i (removeChild j) n).id = n.id ∧
    (modify i (removeChild j) n).path = n.path ∧ (modify i (removeChild j) n).ids.Sublist n.ids ∧
    ∀ u q c, (q, c) ∈ entries u (modify i (removeChild j) n) → (q, c) ∈ entries u n := by
  induction n using ind with
  | h a p c k ih =>
    have hwn := (wf_mk ..).mp hw
    have hk : ∀ x ∈ k, _ := fun x hx => ih x hx (hwn.2 x hx).2
    -- the children after the recursive calls
    have hwf : ∀ l : List (Node α), l.Sublist (k.map (modify i (removeChild j))) → (mk a p c l).WF := by
      intro l hl
      rw [wf_mk]
      constructor
      · have h1 : (k.map (modify i (removeChild j))).map (fun c => c.path.head?) = k.map (fun c => c.path.head?) := by
          rw [List.map_map]
          exact List.map_congr_left (fun x hx => by simp [(hk x hx).2.2.1])
        exact (h1 ▸ hwn.1).sublist (hl.map _)
      · intro x hx
        obtain ⟨y, hy, rfl⟩ := List.mem_map.mp (hl.subset hx)
        exact ⟨by rw [(hk y hy).2.2.1]; exact (hwn.2 y hy).1, (hk y hy).1⟩
    have hids : ∀ l : List (Node α), l.Sublist (k.map (modify i (removeChild j))) →
        (mk a p c l).ids.Sublist (mk a p c k).ids := by
      intro l hl
      rw [ids_mk, ids_mk]
      refine List.Sublist.cons_cons _ ?_
      have h1 : ∀ l : List (Node α), (∀ x ∈ l, x ∈ k) →
          ((l.map (modify i (removeChild j))).flatMap ids).Sublist (l.flatMap ids) := by
        intro l
        induction l with
        | nil => simp
        | cons x xs ihx =>
          intro hl
          simp only [List.map_cons, List.flatMap_cons]
          exact List.Sublist.append (hk x (hl x (by simp))).2.2.2.1 (ihx (fun y hy => hl y (by simp [hy])))
      have h2 : ∀ {a b : List (Node α)}, a.Sublist b → (a.flatMap ids).Sublist (b.flatMap ids) := by
        intro a b h
        induction h with
        | slnil => simp
        | cons x _ ih => rw [List.flatMap_cons]; exact ih.trans (List.sublist_append_right ..)
        | cons_cons x _ ih => simp only [List.flatMap_cons]; exact List.Sublist.append_left ih _
      exact (h2 hl).trans (h1 k (fun x hx => hx))
    have hent : ∀ l : List (Node α), l.Sublist (k.map (modify i (removeChild j))) →
        ∀ u q e, (q, e) ∈ entries u (mk a p c l) → (q, e) ∈ entries u (mk a p c k) := by
      intro l hl u q e
      rw [entries_eq, entries_eq]
      simp only [path_mk, core_mk, kids_mk, List.mem_cons, entriesL_mem]
      rintro (h | ⟨x, hx, h⟩)
      · exact .inl h
      · obtain ⟨y, hy, rfl⟩ := List.mem_map.mp (hl.subset hx)
        exact .inr ⟨y, hy, (hk y hy).2.2.2.2 _ _ _ h⟩
    simp only [modify, modifyL_eq]
    split
    · have hs := List.eraseP_sublist (p := fun n : Node α => decide (n.id = j)) (l := k.map (modify i (removeChild j)))
      exact ⟨hwf _ hs, rfl, rfl, hids _ hs, hent _ hs⟩
    · have hs := List.Sublist.refl (k.map (modify i (removeChild j)))
      exact ⟨hwf _ hs, rfl, rfl, hids _ hs, hent _ hs⟩

end Node

/-- Removing a child of some node. -/
theorem removeChild_ok {t : Tree α} (h : t.OK) (i j : Nat) :
    ({ t with root := t.root.modify i (Node.removeChild j) } : Tree α).OK ∧
    ∀ q c, ({ t with root := t.root.modify i (Node.removeChild j) } : Tree α).contents q = some c →
      t.contents q = some c := by
  obtain ⟨h1, h2, h3, h4, h5⟩ := Node.modify_remove i j t.root h.wf
  have hok : ({ t with root := t.root.modify i (Node.removeChild j) } : Tree α).OK := by
    refine ⟨h1, by rw [← h.nil]; exact h3, ?_, ?_⟩
    · exact h.ids_nodup.sublist h4
    · intro x hx
      have : x.2.id ∈ t.root.ids := h4.subset (Node.id_mem_ids (q := x.1) (m := x.2) hx)
      rw [Node.ids, List.mem_map] at this
      obtain ⟨y, hy, hy'⟩ := this
      rw [← hy']; exact h.lt y hy
  refine ⟨hok, fun q c hc => ?_⟩
  rw [Tree.contents_some hok] at hc
  rw [Tree.contents_some h]
  exact h5 _ _ _ hc

/-- Any write through a pointer keeps the set of paths. -/
theorem writeCore_dom {t : Tree α} (h : t.OK) (i : Nat) (f : Core α → Core α) {q c}
    (hc : (View.writeCore t i f).contents q = some c) :
    ∃ c0, t.contents q = some c0 ∧ (c = c0 ∨ c = f c0) := by
  rw [Tree.contents_node (writeCore_ok h i f)] at hc
  simp only [View.writeCore, Node.nodes_modify_core, List.mem_map] at hc
  obtain ⟨m, ⟨⟨q', m'⟩, h1, h2⟩, rfl⟩ := hc
  simp at h2
  obtain ⟨rfl, rfl⟩ := h2
  refine ⟨m'.core, (Tree.contents_node h).mpr ⟨m', h1, rfl⟩, ?_⟩
  rw [Node.modify_core_core]
  split
  · exact .inr rfl
  · exact .inl rfl

section
variable [Inhabited α]

/-- An invariant of entries: `J` speaks of a full path and its entry. It is kept by all histories if
insertion and the node methods keep it. -/
structure EntryInv (P : Str → Prop) (J : Str → Core α → Prop) : Prop where
  zero : J [] Core.zero
  leaf : ∀ k x, P k → J k (Node.leafCore (utf8 k) x)
  cut : ∀ q c k, J q c → k <+: q → k ≠ q → J k (Node.cutCore c q k.length)
  data : ∀ q c x, J q c → J q { c with hasData := true, data := x }
  node : ∀ q c (o : NodeOp α), J q c → J q (o.app c)
  desc : ∀ q c s, J q c → J q { c with desc := s }

def Tree.Inv (J : Str → Core α → Prop) (t : Tree α) : Prop := ∀ q c, t.contents q = some c → J q c

theorem EntryInv.insertAt {P : Str → Prop} {J : Str → Core α → Prop} (H : EntryInv P J) {t : Tree α} (h : t.OK)
    (hj : t.Inv J) {k : Str} (hk : P k) (x : α) : (View.insertAt t k x).1.Inv J := by
  have hs := View.insertAt_spec h k x
  intro q c hc
  by_cases hq : q = k
  · subst hq
    obtain ⟨c', h1, h2⟩ := hs.atKey
    rw [hc] at h1
    obtain rfl := Option.some.inj h1
    simp only [putCore] at h2
    cases h0 : t.contents q with
    | some c0 => rw [h0] at h2; simp only at h2; rw [h2]; exact H.data _ _ _ (hj _ _ h0)
    | none =>
      rw [h0] at h2
      rcases h2 with ⟨h2, _⟩ | ⟨q', c0, h3, h4, h5, h2⟩
      · rw [h2]; exact H.leaf _ _ hk
      · rw [h2]; exact H.data _ _ _ (H.cut _ _ _ (hj _ _ h3) h4 h5)
  · cases h0 : t.contents q with
    | some c0 =>
      have := hs.keep q c0 hq h0
      rw [hc] at this
      obtain rfl := Option.some.inj this
      exact hj _ _ h0
    | none =>
      obtain ⟨k0, c0, h1, h2, h3, h4⟩ := hs.new q c hq h0 hc
      rw [h4]
      exact H.cut _ _ _ (hj _ _ h1) (h2 ▸ lcp_prefix_left k0 k) h3

theorem EntryInv.runs {P : Str → Prop} {J : Str → Core α → Prop} (H : EntryInv P J) {q c} (os : List (NodeOp α))
    (h : J q c) : J q (NodeOp.runs os c) := by
  induction os generalizing c with
  | nil => exact h
  | cons o os ih => exact ih (H.node _ _ _ h)

theorem EntryInv.write {P : Str → Prop} {J : Str → Core α → Prop} (_H : EntryInv P J) {t : Tree α} (h : t.OK)
    (hj : t.Inv J) (i : Nat) {f : Core α → Core α} (hf : ∀ q c, J q c → J q (f c)) : (View.writeCore t i f).Inv J := by
  intro q c hc
  obtain ⟨c0, h1, h2 | h2⟩ := writeCore_dom h i f hc
  · rw [h2]; exact hj _ _ h1
  · rw [h2]; exact hf _ _ (hj _ _ h1)

theorem Tree.contents_new (q : Str) : (Tree.new : Tree α).contents q = if q = [] then some Core.zero else none := by
  simp only [Tree.contents, Node.entries, Tree.new, Node.nodes, Node.nodesL, List.map_cons, List.map_nil, assoc, List.append_nil]
  by_cases h : q = []
  · simp [h]
  · have : ¬ [] = q := fun e => h e.symm
    simp [h, this]

theorem Op.run_ok {P : Str → Prop} {J : Str → Core α → Prop} (H : EntryInv P J) {o : Op α} {t t' : Tree α}
    (hk : ∀ k, o.key = some k → P k) (h : t.OK) (hj : t.Inv J) (e : o.run t = .ok t') : t'.OK ∧ t'.Inv J := by
  cases o with
  | set v p x =>
    simp only [Op.run, Except.ok.injEq] at e
    subst e
    exact ⟨View.insertAt_ok h _ x, H.insertAt h hj (hk _ rfl) x⟩
  | setEx v p x =>
    simp only [Op.run, Except.ok.injEq] at e
    subst e
    exact ⟨View.insertAt_ok h _ x, H.insertAt h hj (hk _ rfl) x⟩
  | setNode v p x tag ds =>
    simp only [Op.run, Except.ok.injEq] at e
    subst e
    have h1 := View.insertAt_ok h (v.full p) x
    have h2 := H.insertAt h hj (hk _ rfl) x
    simp only [View.setNode]
    match ds with
    | [] => exact ⟨h1, h2⟩
    | [a] => exact ⟨writeCore_ok h1 _ _, H.write h1 h2 _ (fun q c => H.desc q c a)⟩
    | a :: b :: bs =>
      exact ⟨writeCore_ok h1 _ _, H.write h1 h2 _ (fun q c hc => H.node q c (.setComment a _) hc)⟩
  | setEmpty v p =>
    simp only [Op.run, Except.ok.injEq] at e
    subst e
    have h1 := View.insertAt_ok h (v.full p) default
    have h2 := H.insertAt h hj (hk _ rfl) default
    exact ⟨writeCore_ok h1 _ _, H.write h1 h2 _ (fun q c hc => H.node q c .setEmpty hc)⟩
  | update v p cb =>
    simp only [Op.run, Except.ok.injEq] at e
    subst e
    have h1 := View.insertAt_ok h (v.full p) default
    have h2 := H.insertAt h hj (hk _ rfl) default
    exact ⟨writeCore_ok h1 _ _, H.write h1 h2 _ (fun q c hc => H.runs _ hc)⟩
  | setComment v p d cm =>
    simp only [Op.run, View.setComment] at e
    cases hs : v.search t (v.full p) with
    | error er => rw [hs] at e; simp [Except.map] at e
    | ok r =>
      obtain ⟨n, a, b, kv⟩ := r
      rw [hs] at e
      cases n with
      | none => simp only [Except.map, Except.ok.injEq] at e; subst e; exact ⟨h, hj⟩
      | some n =>
        simp only [Except.map, Except.ok.injEq] at e; subst e
        exact ⟨writeCore_ok h _ _, H.write h hj _ (fun q c hc => H.node q c (.setComment d cm) hc)⟩
  | setTag v p tag =>
    simp only [Op.run, View.setTag] at e
    cases hs : v.search t (v.full p) with
    | error er => rw [hs] at e; simp [Except.map] at e
    | ok r =>
      obtain ⟨n, a, b, kv⟩ := r
      rw [hs] at e
      cases n with
      | none => simp only [Except.map, Except.ok.injEq] at e; subst e; exact ⟨h, hj⟩
      | some n =>
        simp only [Except.map, Except.ok.injEq] at e; subst e
        exact ⟨writeCore_ok h _ _, H.write h hj _ (fun q c hc => H.node q c (.setTag tag) hc)⟩
  | remove v p =>
    have key : t' = t ∨ ∃ i j, t' = { t with root := t.root.modify i (Node.removeChild j) } := by
      simp only [Op.run, View.remove, View.removeEx] at e
      cases hs : v.search t (v.full p) with
      | error er => rw [hs] at e; simp [Except.map] at e
      | ok r =>
        obtain ⟨n, a, b, kv⟩ := r
        rw [hs] at e
        rcases n with _ | n <;> rcases a with _ | a <;> cases b <;>
          simp only [Except.map, Except.ok.injEq] at e <;>
          first
          | exact .inl e.symm
          | skip
        by_cases hc : (a.kids.any fun k => decide (k.id = n.id)) = true
        · simp only [hc, if_true, Except.ok.injEq] at e
          exact .inr ⟨_, _, e.symm⟩
        · simp only [hc, Bool.false_eq_true, if_false, Except.ok.injEq] at e
          exact .inl e.symm
    rcases key with rfl | ⟨i, j, rfl⟩
    · exact ⟨h, hj⟩
    · obtain ⟨h1, h2⟩ := removeChild_ok h i j
      exact ⟨h1, fun q c hc => hj _ _ (h2 q c hc)⟩
  | node i o =>
    simp only [Op.run, Except.ok.injEq] at e
    subst e
    exact ⟨writeCore_ok h _ _, H.write h hj _ (fun q c hc => H.node q c o hc)⟩

theorem Reach.inv {P : Str → Prop} {J : Str → Core α → Prop} (H : EntryInv P J) {t : Tree α} (h : Reach P t) :
    t.OK ∧ t.Inv J := by
  induction h with
  | new =>
    refine ⟨Tree.OK.new, fun q c hc => ?_⟩
    rw [Tree.contents_new] at hc
    split at hc
    · rename_i h; simp at hc; rw [h, ← hc]; exact H.zero
    · simp at hc
  | step o _ hk e ih => exact Op.run_ok H hk ih.1 ih.2 e

theorem Reach.ok {P : Str → Prop} {t : Tree α} (h : Reach P t) : t.OK :=
  (h.inv (J := fun _ _ => True) ⟨trivial, by simp, by simp, by simp, by simp, by simp⟩).1

omit [Inhabited α] in
theorem NoRoute.prefix {d : Char} {p q : Str} (h : NoRoute d q) (hp : p <+: q) : NoRoute d p := by
  intro u c v e
  obtain ⟨z, rfl⟩ := hp
  exact h u c (v ++ z) (by simp [e])

theorem entryInv_prefix {P : Str → Prop} (h0 : P []) (hp : ∀ {p q}, P q → p <+: q → P p) :
    EntryInv (α := α) P (fun q _ => P q) :=
  ⟨h0, fun _ _ h => h, fun _ _ _ h h1 _ => hp h h1, fun _ _ _ h => h, fun _ _ _ h => h, fun _ _ _ h => h⟩

theorem Reach.plain {d : Char} {t : Tree α} (h : Reach (NoRoute d) t) : t.Plain d :=
  (h.inv (entryInv_prefix (by intro u c v e; simp at e) NoRoute.prefix)).2

end
end Verif

import Verif.Lemmas.Strip
import Verif.Lemmas.Reach
import Verif.Props.Write
/-
C12 Dup.
-/
namespace Verif
variable {α : Type}

namespace Node

/-- What a clone looks like. -/
theorem dup_spec (n : Node α) : ∀ f, (n.dup f).1.strip = n.strip ∧ f < (n.dup f).2 ∧
    (∀ i ∈ (n.dup f).1.ids, f ≤ i ∧ i < (n.dup f).2) ∧ (n.dup f).1.ids.Nodup ∧
    (n.dup f).1.path = n.path ∧ (n.dup f).1.core = n.core.strip := by
  induction n using ind with
  | h i p c k ih =>
    intro f
    have hk : ∀ (k' : List (Node α)), (∀ n ∈ k', n ∈ k) → ∀ g, stripL (dupL g k').1 = stripL k' ∧ g ≤ (dupL g k').2 ∧
        (∀ i ∈ (dupL g k').1.flatMap ids, g ≤ i ∧ i < (dupL g k').2) ∧ ((dupL g k').1.flatMap ids).Nodup := by
      intro k'
      induction k' with
      | nil => intro _ g; simp [dupL, stripL]
      | cons a as iha =>
        intro hs g
        obtain ⟨a1, a2, a3, a4, _⟩ := ih a (hs a (by simp)) g
        obtain ⟨b1, b2, b3, b4⟩ := iha (fun n hn => hs n (by simp [hn])) (dup g a).2
        simp only [dupL, stripL, a1, b1, List.flatMap_cons, List.mem_append, true_and]
        refine ⟨by omega, ?_, ?_⟩
        · rintro i (hi | hi)
          · have := a3 i hi; omega
          · have := b3 i hi; omega
        · rw [List.nodup_append]
          refine ⟨a4, b4, ?_⟩
          intro x hx y hy e
          have := a3 x hx
          have := b3 y hy
          omega
    obtain ⟨h1, h2, h3, h4⟩ := hk k (fun _ h => h) (f + 1)
    refine ⟨?_, ?_, ?_, ?_, rfl, rfl⟩
    · simp only [dup, strip, h1]; rfl
    · simp only [dup]; omega
    · simp only [dup, ids_mk, List.mem_cons]
      rintro i (rfl | hi)
      · omega
      · have := h3 i hi; omega
    · simp only [dup, ids_mk, List.nodup_cons]
      exact ⟨fun h => by have := h3 f h; omega, h4⟩

end Node

theorem dupTree_strip [Inhabited α] (t : Tree α) : (View.dupTree t).strip = t.strip := by
  simp only [Tree.strip, View.dupTree, (Node.dup_spec t.root t.next).1]

/-- **C12** The copy answers like the original, for every tree, mode and path: same values, same found
flags, same captures, same errors and same non-termination. -/
theorem C12_dup_answers [Inhabited α] (v : View) (t : Tree α) (p : Str) :
    v.queryKV (View.dupTree t) p = v.queryKV t p ∧ v.query (View.dupTree t) p = v.query t p ∧
    v.mustGet (View.dupTree t) p = v.mustGet t p ∧ v.get (View.dupTree t) p = v.get t p ∧
    v.has (View.dupTree t) p = v.has t p ∧ v.hasPart (View.dupTree t) p = v.hasPart t p := by
  have hq : v.queryKV (View.dupTree t) p = v.queryKV t p := by
    rw [← View.queryKV_strip, dupTree_strip, View.queryKV_strip]
  refine ⟨hq, ?_, ?_, ?_, ?_, ?_⟩
  · simp only [View.query, hq]
  · simp only [View.mustGet, View.query, hq]
  · simp only [View.get, View.query, hq]
  · rw [← View.has_strip, dupTree_strip, View.has_strip]
  · rw [← View.hasPart_strip, dupTree_strip, View.hasPart_strip]

/-- **C12** Walking the copy shows the same keys, fragments, data and flags in the same order. -/
theorem C12_dup_walk [Inhabited α] (v : View) (t : Tree α) (p : Str) :
    (v.walk (View.dupTree t) p).map (·.map (fun n => (n.core.pathS, n.path, n.core.data, n.core.leaf, n.core.hasData, n.core.modified))) =
    (v.walk t p).map (·.map (fun n => (n.core.pathS, n.path, n.core.data, n.core.leaf, n.core.hasData, n.core.modified))) := by
  have h : ∀ t' : Tree α, (v.walk t' p).map (·.map (fun n => (n.core.pathS, n.path, n.core.data, n.core.leaf, n.core.hasData, n.core.modified))) =
      (v.walk t'.strip p).map (·.map (fun n => (n.core.pathS, n.path, n.core.data, n.core.leaf, n.core.hasData, n.core.modified))) := by
    intro t'
    rw [View.walk_strip]
    rcases v.walk t' p with e | l
    · rfl
    · simp only [Except.map, List.map_map]
      congr 1
      refine List.map_congr_left (fun n _ => ?_)
      simp only [Function.comp, Node.strip_core, Node.strip_path]
      rfl
  rw [h, dupTree_strip, ← h]

/-! ### Independence

Two tries over one heap. Every operation on one trie also changes the other wherever the two share a
node (same identity). -/

/-- The node with a given identity. -/
def Node.find (i : Nat) (n : Node α) : Option (Node α) := (n.nodes []).findSome? (fun x => if x.2.id = i then some x.2 else none)

mutual
/-- What a trie looks like after the nodes it shares with `a` have changed to what they are in `a`. -/
def Node.adopt (a : Node α) : Node α → Node α
  | .mk i p c k =>
    match a.find i with
    | some m => m
    | none => .mk i p c (Node.adoptL a k)
def Node.adoptL (a : Node α) : List (Node α) → List (Node α)
  | [] => []
  | n :: ns => Node.adopt a n :: Node.adoptL a ns
end

/-- A trie and its copy in one heap. -/
structure Two (α : Type) where
  orig : Node α
  copy : Node α
  next : Nat

/-- An operation on the original (`true`) or on the copy (`false`). -/
def Two.step [Inhabited α] (w : Two α) (onOrig : Bool) (o : Op α) : Go (Two α) :=
  if onOrig then
    match o.run { root := w.orig, next := w.next } with
    | .error e => .error e
    | .ok t => .ok { orig := t.root, copy := Node.adopt t.root w.copy, next := t.next }
  else
    match o.run { root := w.copy, next := w.next } with
    | .error e => .error e
    | .ok t => .ok { orig := Node.adopt t.root w.orig, copy := t.root, next := t.next }

/-- Reachable after `Dup` by any interleaving of operations on both. -/
inductive Two.After [Inhabited α] (t : Tree α) : Two α → Prop
  | dup : Two.After t { orig := t.root, copy := (View.dupTree t).root, next := (View.dupTree t).next }
  | step {w w' : Two α} (b : Bool) (o : Op α) : Two.After t w → w.step b o = .ok w' → Two.After t w'

theorem Node.find_none {i : Nat} {a : Node α} (h : i ∉ a.ids) : a.find i = none := by
  rw [Node.find, List.findSome?_eq_none_iff]
  intro x hx
  have : x.2.id ≠ i := fun e => h (e ▸ Node.id_mem_ids (q := x.1) (m := x.2) hx)
  simp [this]

theorem Node.adopt_disjoint {a : Node α} (n : Node α) (h : ∀ i ∈ n.ids, i ∉ a.ids) : a.adopt n = n := by
  induction n using Node.ind with
  | h i p c k ih =>
    rw [Node.ids_mk] at h
    simp only [Node.adopt, Node.find_none (h i (by simp))]
    congr 1
    induction k with
    | nil => rfl
    | cons b bs ihb =>
      simp only [Node.adoptL]
      rw [ih b (by simp) (fun j hj => h j (by simp [hj])),
        ihb (fun n hn => ih n (by simp [hn])) (fun j hj => h j (by
          simp only [List.mem_cons, List.flatMap_cons, List.mem_append] at hj ⊢
          rcases hj with hj | hj
          · exact .inl hj
          · exact .inr (.inr hj)))]

variable [Inhabited α]

/-- An operation allocates only fresh identities. -/
theorem insertAt_ids {t : Tree α} (h : t.OK) (k : Str) (x : α) :
    (∀ i ∈ (View.insertAt t k x).1.root.ids, i ∈ t.root.ids ∨ (t.next ≤ i ∧ i < (View.insertAt t k x).1.next)) ∧
    t.next ≤ (View.insertAt t k x).1.next := by
  obtain ⟨extra, h1, h2⟩ := (Node.insert_ok t.next k x t.root h.wf h.nil).ids
  refine ⟨?_, by simp [View.insertAt]⟩
  intro i hi
  have hi' : i ∈ ((t.root.insert t.next k x).tree.nodes []).map (·.2.id) := hi
  rw [h2.mem_iff, List.mem_append] at hi'
  rcases hi' with hi' | hi'
  · exact .inl hi'
  · have := h1.subset hi'
    simp only [List.mem_cons, List.not_mem_nil, or_false] at this
    right
    simp only [View.insertAt]
    omega

omit [Inhabited α] in
theorem writeCore_ids (t : Tree α) (i : Nat) (f : Core α → Core α) : (View.writeCore t i f).root.ids = t.root.ids := by
  simp only [View.writeCore, Node.ids, Node.nodes_modify_core, List.map_map]
  refine List.map_congr_left (fun x _ => ?_)
  simp [Node.modify_core_id]

omit [Inhabited α] in
theorem modify_remove_ids (i j : Nat) (n : Node α) : (n.modify i (Node.removeChild j)).ids.Sublist n.ids := by
  induction n using Node.ind with
  | h a p c k ih =>
    have hk : ((Node.modifyL i (Node.removeChild j) k).flatMap Node.ids).Sublist (k.flatMap Node.ids) := by
      induction k with
      | nil => simp [Node.modifyL]
      | cons b bs ihb =>
        simp only [Node.modifyL, List.flatMap_cons]
        exact (ih b (by simp)).append (ihb (fun n hn => ih n (by simp [hn])))
    simp only [Node.modify]
    split
    · simp only [Node.removeChild, Node.ids_mk]
      refine List.Sublist.cons_cons _ (List.Sublist.trans ?_ hk)
      generalize Node.modifyL i (Node.removeChild j) k = k'
      induction k' with
      | nil => simp
      | cons b bs ihb =>
        simp only [List.eraseP_cons]
        cases decide (b.id = j) with
        | true => simp
        | false => simpa using ihb
    · simp only [Node.ids_mk]
      exact List.Sublist.cons_cons _ hk

theorem Op.run_ids {o : Op α} {t t' : Tree α} (h : t.OK) (e : o.run t = .ok t') :
    (∀ i ∈ t'.root.ids, i ∈ t.root.ids ∨ (t.next ≤ i ∧ i < t'.next)) ∧ t.next ≤ t'.next := by
  have wr : ∀ i f, (∀ j ∈ (View.writeCore t i f).root.ids, j ∈ t.root.ids ∨ (t.next ≤ j ∧ j < (View.writeCore t i f).next)) ∧
      t.next ≤ (View.writeCore t i f).next := by
    intro i f
    rw [writeCore_ids]
    exact ⟨fun j hj => .inl hj, by simp [View.writeCore]⟩
  have wi : ∀ k x i f, (∀ j ∈ (View.writeCore (View.insertAt t k x).1 i f).root.ids, j ∈ t.root.ids ∨
      (t.next ≤ j ∧ j < (View.writeCore (View.insertAt t k x).1 i f).next)) ∧
      t.next ≤ (View.writeCore (View.insertAt t k x).1 i f).next := by
    intro k x i f
    rw [writeCore_ids]
    exact insertAt_ids h k x
  cases o with
  | set v p x => simp only [Op.run, Except.ok.injEq] at e; subst e; exact insertAt_ids h _ x
  | setEx v p x => simp only [Op.run, Except.ok.injEq] at e; subst e; exact insertAt_ids h _ x
  | setNode v p x tag ds =>
    simp only [Op.run, Except.ok.injEq] at e; subst e
    simp only [View.setNode]
    split
    · exact insertAt_ids h _ x
    · exact wi _ _ _ _
    · exact wi _ _ _ _
  | setEmpty v p => simp only [Op.run, Except.ok.injEq] at e; subst e; exact wi _ _ _ _
  | update v p cb => simp only [Op.run, Except.ok.injEq] at e; subst e; exact wi _ _ _ _
  | setComment v p d c =>
    simp only [Op.run, View.setComment] at e
    generalize v.search t (v.full p) = r at e
    rcases r with _ | ⟨_ | n, par, pm, kv⟩
    · simp [Except.map] at e
    · simp only [Except.map, Except.ok.injEq] at e; subst e; exact ⟨fun j hj => .inl hj, Nat.le_refl _⟩
    · simp only [Except.map, Except.ok.injEq] at e; subst e; exact wr _ _
  | setTag v p tag =>
    simp only [Op.run, View.setTag] at e
    generalize v.search t (v.full p) = r at e
    rcases r with _ | ⟨_ | n, par, pm, kv⟩
    · simp [Except.map] at e
    · simp only [Except.map, Except.ok.injEq] at e; subst e; exact ⟨fun j hj => .inl hj, Nat.le_refl _⟩
    · simp only [Except.map, Except.ok.injEq] at e; subst e; exact wr _ _
  | remove v p =>
    have triv : (∀ i ∈ t.root.ids, i ∈ t.root.ids ∨ (t.next ≤ i ∧ i < t.next)) ∧ t.next ≤ t.next :=
      ⟨fun j hj => .inl hj, Nat.le_refl _⟩
    simp only [Op.run, View.remove, View.removeEx] at e
    generalize v.search t (v.full p) = r at e
    rcases r with _ | ⟨_ | n, _ | par, _ | _, kv⟩
    · simp [Except.map] at e
    all_goals try (simp only [Except.map, Except.ok.injEq] at e; subst e; exact triv)
    simp only [Except.map] at e
    by_cases hc : par.kids.any (fun k => k.id = n.id) = true
    · simp only [hc, if_true, Except.ok.injEq] at e
      subst e
      exact ⟨fun j hj => .inl ((modify_remove_ids _ _ _).subset hj), Nat.le_refl _⟩
    · simp only [hc, Bool.false_eq_true, if_false, Except.ok.injEq] at e
      subst e
      exact triv
  | node i o => simp only [Op.run, Except.ok.injEq] at e; subst e; exact wr _ _

/-- The two tries have no node in common. -/
structure Two.Apart (w : Two α) : Prop where
  o : ({ root := w.orig, next := w.next } : Tree α).OK
  c : ({ root := w.copy, next := w.next } : Tree α).OK
  disj : ∀ i ∈ w.orig.ids, i ∉ w.copy.ids

omit [Inhabited α] in
theorem Tree.OK.ids_lt {t : Tree α} (h : t.OK) : ∀ i ∈ t.root.ids, i < t.next := by
  intro i hi
  rw [Node.ids, List.mem_map] at hi
  obtain ⟨x, hx, rfl⟩ := hi
  exact h.lt x hx

omit [Inhabited α] in
theorem Tree.OK.mono {r : Node α} {a b : Nat} (h : ({ root := r, next := a } : Tree α).OK) (hab : a ≤ b) :
    ({ root := r, next := b } : Tree α).OK :=
  ⟨h.wf, h.nil, h.nodup, fun x hx => Nat.lt_of_lt_of_le (h.lt x hx) hab⟩

theorem trivInv : EntryInv (α := α) (fun _ => True) (fun _ _ => True) :=
  ⟨trivial, fun _ _ _ => trivial, fun _ _ _ _ _ _ => trivial, fun _ _ _ _ => trivial, fun _ _ _ _ => trivial, fun _ _ _ _ => trivial⟩

theorem Op.ok_of_run {o : Op α} {t t' : Tree α} (h : t.OK) (e : o.run t = .ok t') : t'.OK :=
  (Op.run_ok trivInv (fun _ _ => trivial) h (fun _ _ _ => trivial) e).1

theorem Two.Apart.step {w w' : Two α} (h : w.Apart) {b : Bool} {o : Op α} (e : w.step b o = .ok w') :
    w'.Apart ∧ (if b then w'.copy = w.copy else w'.orig = w.orig) := by
  cases b with
  | true =>
    simp only [Two.step, if_true] at e ⊢
    cases hr : o.run { root := w.orig, next := w.next } with
    | error x => rw [hr] at e; simp at e
    | ok t =>
      rw [hr] at e
      simp only [Except.ok.injEq] at e
      subst e
      obtain ⟨h1, h2⟩ := Op.run_ids h.o hr
      have hd : ∀ i ∈ w.copy.ids, i ∉ t.root.ids := by
        intro i hi hi'
        rcases h1 i hi' with h3 | h3
        · exact h.disj i h3 hi
        · have := h.c.ids_lt i hi
          simp only at h3 this
          omega
      rw [Node.adopt_disjoint _ hd]
      exact ⟨⟨Op.ok_of_run h.o hr, h.c.mono h2, fun i hi hi' => hd i hi' hi⟩, rfl⟩
  | false =>
    simp only [Two.step, Bool.false_eq_true, if_false] at e ⊢
    cases hr : o.run { root := w.copy, next := w.next } with
    | error x => rw [hr] at e; simp at e
    | ok t =>
      rw [hr] at e
      simp only [Except.ok.injEq] at e
      subst e
      obtain ⟨h1, h2⟩ := Op.run_ids h.c hr
      have hd : ∀ i ∈ w.orig.ids, i ∉ t.root.ids := by
        intro i hi hi'
        rcases h1 i hi' with h3 | h3
        · exact h.disj i hi h3
        · have := h.o.ids_lt i hi
          simp only at h3 this
          omega
      rw [Node.adopt_disjoint _ hd]
      exact ⟨⟨h.o.mono h2, Op.ok_of_run h.c hr, hd⟩, rfl⟩

omit [Inhabited α] in
theorem Node.wf_strip (n : Node α) : n.strip.WF ↔ n.WF := by
  induction n using Node.ind with
  | h i p c k ih =>
    rw [Node.strip, Node.stripL_eq, Node.wf_mk, Node.wf_mk]
    simp only [List.map_map, List.mem_map, forall_exists_index, and_imp, forall_apply_eq_imp_iff₂, Node.strip_path]
    refine and_congr (by simp [Function.comp_def]) (forall₂_congr fun a ha => ?_)
    rw [ih a ha]

theorem dupTree_ok {t : Tree α} (h : t.OK) : (View.dupTree t).OK := by
  obtain ⟨h1, h2, h3, h4, h5, h6⟩ := Node.dup_spec t.root t.next
  refine ⟨?_, ?_, h4, ?_⟩
  · rw [← Node.wf_strip]
    simp only [View.dupTree, h1]
    exact (Node.wf_strip _).mpr h.wf
  · simp only [View.dupTree, h5, h.nil]
  · intro x hx
    exact (h3 _ (Node.id_mem_ids (q := x.1) (m := x.2) hx)).2

theorem Two.After.apart {t : Tree α} (h : t.OK) {w : Two α} (hw : Two.After t w) : w.Apart := by
  induction hw with
  | dup =>
    obtain ⟨h1, h2, h3, h4, h5, h6⟩ := Node.dup_spec t.root t.next
    refine ⟨h.mono (Nat.le_of_lt h2), dupTree_ok h, ?_⟩
    intro i hi hi'
    have := h.ids_lt i hi
    have := h3 i hi'
    simp only at *
    omega
  | step b o _ e ih => exact (ih.step e).1

/-- **C12** After `Dup`, in every state that any interleaving of operations on the two tries leads to, an
operation on one of them leaves the other exactly as it was. -/
theorem C12_dup_independent {P : Str → Prop} {t : Tree α} (h : Reach P t) {w w' : Two α} (hw : Two.After t w) {o : Op α} :
    (w.step true o = .ok w' → w'.copy = w.copy) ∧ (w.step false o = .ok w' → w'.orig = w.orig) :=
  ⟨fun e => by simpa using ((hw.apart h.ok).step e).2, fun e => by simpa using ((hw.apart h.ok).step e).2⟩

/-- Description, comment and tag are not copied. -/
theorem C12_meta_dropped : ∃ (v : View) (t : Tree Nat),
    ((v.setComment (v.set Tree.new "a".toList 1).1 "a".toList "d".toList []).map (·.1)) = .ok t ∧
    v.getDesc t "a".toList = .ok (some "d".toList) ∧ v.getDesc (View.dupTree t) "a".toList = .ok (some []) :=
  ⟨View.new '.', _, rfl, by decide +kernel, by decide +kernel⟩

example : ∃ w, ({ orig := (sets exH Tree.new).root, copy := (View.dupTree (sets exH Tree.new)).root, next := (View.dupTree (sets exH Tree.new)).next } : Two Nat).step false
    (.set exV "app.name".toList 9) = .ok w ∧ exV.mustGet { root := w.copy, next := w.next } "app.name".toList = .ok 9 := ⟨_, rfl, by decide +kernel⟩

end Verif

import Verif.Lemmas.TTL
import Verif.Lemmas.HeapTree
/- What a search returns as parent; how the calls are made of changes of memory. -/
namespace Verif
variable {α : Type} [Inhabited α]

omit [Inhabited α] in
/-- A lookup answers with the receiver, or with a node of the tree together with its parent. -/
theorem Node.matchR_pair (d : Char) (n : Node α) : ∀ (w : Str) (l : Bool) (par : Option (Node α)) (kv : KV) (r : MR α) (kv' : KV) (c : Node α),
    n.matchR d w l par kv = .ok (r, kv') → r.child = some c →
      (c = n ∧ r.parent = par) ∨ ∃ q ∈ n.walk, r.parent = some q ∧ c ∈ q.kids := by
  induction n using Node.ind with
  | h i p co k ih =>
    intro w l par kv r kv' c e hc
    have hself : Node.mk i p co k ∈ (Node.mk i p co k).walk := by rw [Node.walk]; exact List.mem_cons_self
    by_cases hw : w = []
    · subst hw
      simp only [Node.matchR, if_true, Except.ok.injEq, Prod.mk.injEq] at e
      rw [← e.1] at hc
      simp at hc
      exact .inl ⟨hc.symm, by rw [← e.1]⟩
    · rw [Node.matchR_eq _ _ _ _ _ _ hw] at e
      have hm : ∀ m kv1, Node.masterLoop d (Node.mk i p co k) w l par kv = .ok (m, kv1) →
          match m with
          | .ret r => ∀ c, r.child = some c → c = Node.mk i p co k ∧ r.parent = par
          | .go _ _ _ r => ∀ c, r.child = some c → c = Node.mk i p co k ∧ r.parent = par := by
        intro m kv1 hm
        rw [Node.masterLoop] at hm
        split at hm
        · rcases hr : Node.retriever d (Node.mk i p co k).path w (!(Node.mk i p co k).kids.isEmpty)
            (Node.retrFuel (Node.mk i p co k).path.length w.length)
            ((Node.mk i p co k).path.getD (Node.cmpLoop d (Node.mk i p co k).path w l).1 d)
            (Node.cmpLoop d (Node.mk i p co k).path w l).1 (Node.cmpLoop d (Node.mk i p co k).path w l).1
            (Node.cmpLoop d (Node.mk i p co k).path w l).2 kv with x | ⟨x, kv2⟩
          · rw [hr] at hm; cases hm
          · rw [hr] at hm
            cases x with
            | nothing =>
              simp only [Except.ok.injEq, Prod.mk.injEq] at hm
              rw [← hm.1]; intro c h; simp at h
            | found =>
              simp only [Except.ok.injEq, Prod.mk.injEq] at hm
              rw [← hm.1]; intro c h; simp at h; exact ⟨h.symm, rfl⟩
            | out a b f m' p' =>
              simp only [Except.ok.injEq, Prod.mk.injEq] at hm
              rw [← hm.1]; intro c h
              cases m' <;> simp at h
              exact ⟨h.symm, rfl⟩
        · simp only [Except.ok.injEq, Prod.mk.injEq] at hm
          rw [← hm.1]; intro c h; simp at h
      have hk : ∀ (self : Node α) (ks : List (Node α)), (∀ n ∈ ks, n ∈ k) → ∀ (w : Str) (l : Bool) (kv : KV) (r : MR α) (kv' : KV),
          Node.matchKids d self ks w l kv = .ok (r, kv') → r.child = some c →
            (c ∈ ks ∧ r.parent = some self) ∨ ∃ q ∈ Node.walkL ks, r.parent = some q ∧ c ∈ q.kids := by
        intro self ks
        induction ks with
        | nil =>
          intro _ w l kv r kv' e h
          simp only [Node.matchKids, Except.ok.injEq, Prod.mk.injEq] at e
          rw [← e.1] at h; simp at h
        | cons a as iha =>
          intro hs w l kv r kv' e h
          have one : ∀ r1 kv1, a.matchR d w l (some self) kv = .ok (r1, kv1) → r1 = r →
              (c ∈ a :: as ∧ r.parent = some self) ∨ ∃ q ∈ Node.walkL (a :: as), r.parent = some q ∧ c ∈ q.kids := by
            intro r1 kv1 hr e1
            subst e1
            rcases ih a (hs a (by simp)) _ _ _ _ _ _ _ hr h with ⟨h1, h2⟩ | ⟨q, h1, h2, h3⟩
            · exact .inl ⟨by rw [h1]; simp, h2⟩
            · exact .inr ⟨q, by rw [Node.walkL]; exact List.mem_append_left _ h1, h2, h3⟩
          rw [Node.matchKids] at e
          rcases hr : a.matchR d w l (some self) kv with x | ⟨r1, kv1⟩
          · rw [hr] at e; cases e
          · rw [hr] at e
            simp only at e
            split at e
            · simp only [Except.ok.injEq, Prod.mk.injEq] at e
              exact one _ _ hr e.1
            · cases as with
              | nil =>
                simp only [Except.ok.injEq, Prod.mk.injEq] at e
                exact one _ _ hr e.1
              | cons b bs =>
                rcases iha (fun n hn => hs n (by simp [hn])) _ _ _ _ _ e h with ⟨h1, h2⟩ | ⟨q, h1, h2, h3⟩
                · exact .inl ⟨by simp [h1], h2⟩
                · exact .inr ⟨q, by rw [Node.walkL]; exact List.mem_append_right _ h1, h2, h3⟩
      rcases hl : Node.masterLoop d (Node.mk i p co k) w l par kv with x | ⟨m, kv1⟩
      · rw [hl] at e; cases e
      · have hm := hm m kv1 hl
        rw [hl] at e
        cases m with
        | ret r1 =>
          simp only [Except.ok.injEq, Prod.mk.injEq] at e
          rw [← e.1] at hc ⊢
          exact .inl (hm c hc)
        | go src dst f r1 =>
          simp only at e hm
          have hv : ∀ c, (Node.verdict d (Node.mk i p co k) par w.length src r1).child = some c →
              c = Node.mk i p co k ∧ (Node.verdict d (Node.mk i p co k) par w.length src r1).parent = par := by
            intro c h
            simp only [Node.verdict] at h ⊢
            split
            · rename_i g; rw [if_pos g] at h; simp at h; exact ⟨h.symm, rfl⟩
            · rename_i g; rw [if_neg g] at h
              split
              · rename_i g; rw [if_pos g] at h; simp at h; exact ⟨h.symm, rfl⟩
              · rename_i g; rw [if_neg g] at h
                split
                · rename_i g; rw [if_pos g] at h; simp at h; exact ⟨h.symm, rfl⟩
                · rename_i g; rw [if_neg g] at h
                  exact hm c h
          split at e
          · split at e
            · simp only [Except.ok.injEq, Prod.mk.injEq] at e
              rw [← e.1] at hc ⊢
              exact .inl (hv c hc)
            · rcases hk _ _ (fun n hn => hn) _ _ _ _ _ e hc with ⟨h1, h2⟩ | ⟨q, h1, h2, h3⟩
              · exact .inr ⟨_, hself, h2, h1⟩
              · exact .inr ⟨q, by rw [Node.walk]; exact List.mem_cons_of_mem _ h1, h2, h3⟩
          · simp only [Except.ok.injEq, Prod.mk.injEq] at e
            rw [← e.1] at hc ⊢
            exact .inl (hv c hc)

omit [Inhabited α] in
theorem View.search_pair {v : View} {t : Tree α} {p : Str} {n q : Node α} {pm kv}
    (e : v.search t p = .ok (some n, some q, pm, kv)) : q ∈ t.root.walk ∧ n ∈ q.kids := by
  have one : ∀ w l kv r kv', t.root.matchR v.delim w l none kv = .ok (r, kv') → r.child = some n → r.parent = some q →
      q ∈ t.root.walk ∧ n ∈ q.kids := by
    intro w l kv r kv' e1 h1 h2
    rcases Node.matchR_pair _ _ _ _ _ _ _ _ _ e1 h1 with ⟨_, h3⟩ | ⟨q', h3, h4, h5⟩
    · rw [h2] at h3; cases h3
    · rw [h2] at h4; cases h4; exact ⟨h3, h5⟩
  have hup : ∀ (f : Nat) (w : Str) (kv kv' : KV) (r : MR α), View.retryUp v.delim t.root f w kv = .ok (some r, kv') →
      r.child = some n → r.parent = some q → q ∈ t.root.walk ∧ n ∈ q.kids := by
    intro f
    induction f with
    | zero => intro w kv kv' r e; simp [View.retryUp] at e
    | succ f ih =>
      intro w kv kv' r e hc hq
      rw [View.retryUp] at e
      simp only at e
      split at e
      · split at e
        · cases e
        · rename_i r1 kv1 hr
          split at e
          · simp only [Except.ok.injEq, Prod.mk.injEq, Option.some.injEq] at e
            rw [← e.1] at hc hq
            exact one _ _ _ _ _ hr hc hq
          · exact ih _ _ _ _ e hc hq
      · simp at e
  rw [View.search] at e
  split at e
  · cases e
  · rename_i r kv1 hr
    split at e
    · simp only [Except.ok.injEq, Prod.mk.injEq] at e
      exact one _ _ _ _ _ hr e.1 e.2.1
    · split at e
      · split at e
        · cases e
        · rename_i r2 kv2 hr2
          simp only [Except.ok.injEq, Prod.mk.injEq] at e
          exact hup _ _ _ _ _ hr2 e.1 e.2.1
        · simp at e
      · simp at e

omit [Inhabited α] in
theorem Node.walkL_mem {m : Node α} {k : List (Node α)} : m ∈ Node.walkL k ↔ ∃ c ∈ k, m ∈ c.walk := by
  induction k with
  | nil => simp [Node.walkL]
  | cons a as ih => simp [Node.walkL, ih]

omit [Inhabited α] in
theorem Node.walk_trans {n : Node α} : ∀ {m k : Node α}, m ∈ n.walk → k ∈ m.walk → k ∈ n.walk := by
  induction n using Node.ind with
  | h i p c ks ih =>
    intro m k h1 h2
    rw [Node.walk] at h1 ⊢
    rcases List.mem_cons.mp h1 with rfl | h1
    · rwa [Node.walk] at h2
    · obtain ⟨a, ha, h3⟩ := Node.walkL_mem.mp h1
      exact List.mem_cons_of_mem _ (Node.walkL_mem.mpr ⟨a, ha, ih a ha h3 h2⟩)

omit [Inhabited α] in
theorem Node.modify_remove_id (i j : Nat) (n : Node α) : (n.modify i (Node.removeChild j)).id = n.id := by
  cases n
  rw [Node.modify]
  split <;> rfl

/-- The calls are made of these changes. -/
theorem Op.run_prims (o : Op α) (t : Tree α) : o.run t = (o.prims t).map (fun ps => Prim.runs ps t) := by
  cases o with
  | set v p x => rfl
  | setEx v p x => rfl
  | setNode v p x tag ds =>
    simp only [Op.run, Op.prims, View.setNode, Except.map]
    match ds with
    | [] => rfl
    | [a] => rfl
    | a :: b :: bs => rfl
  | setEmpty v p => rfl
  | update v p cb => rfl
  | setComment v p d c =>
    simp only [Op.run, Op.prims, View.setComment]
    split <;> rename_i hs <;> rw [hs] <;> rfl
  | setTag v p tag =>
    simp only [Op.run, Op.prims, View.setTag]
    split <;> rename_i hs <;> rw [hs] <;> rfl
  | remove v p =>
    simp only [Op.run, Op.prims, View.remove, View.removeEx]
    rcases hs : v.search t (v.full p) with e | ⟨_ | n, _ | q, _ | _, kv⟩
    · rfl
    · rfl
    · rfl
    · rfl
    · rfl
    · rfl
    · rfl
    · simp only
      by_cases h : q.kids.any (fun k => k.id = n.id) = true
      · rw [if_pos h, if_pos h]; rfl
      · rw [if_neg h, if_neg h]; rfl
    · rfl
  | node i o => rfl

namespace Prim

/-- The change is one of this tree. -/
def Fits : Prim α → Tree α → Prop
  | insert _ _, _ => True
  | remove par item, t => ∃ q ∈ t.root.walk, ∃ d ∈ q.kids, q.id = par ∧ d.id = item
  | write i _, t => i ∈ t.root.ids

def Fit : List (Prim α) → Tree α → Prop
  | [], _ => True
  | p :: ps, t => p.Fits t ∧ Fit ps (p.run t)

end Prim

omit [Inhabited α] in
theorem search_id {v : View} {t : Tree α} {p : Str} {n : Node α} {pr pm kv} (e : v.search t p = .ok (some n, pr, pm, kv)) :
    n.id ∈ t.root.ids := by
  obtain ⟨q, h⟩ := Sys.search_mem e
  exact Node.id_mem_ids h

theorem hit_id {t : Tree α} (h : t.OK) (k : Str) (x : α) : (View.insertAt t k x).2.hit.id ∈ (View.insertAt t k x).1.root.ids :=
  Node.id_mem_ids (Node.insert_ok t.next k x t.root h.wf h.nil).hit

theorem Op.prims_fit {o : Op α} {t : Tree α} (h : t.OK) (hn : ∀ i f, o ≠ .node i f) {ps : List (Prim α)}
    (e : o.prims t = .ok ps) : Prim.Fit ps t := by
  cases o with
  | set v p x => cases e; exact ⟨trivial, trivial⟩
  | setEx v p x => cases e; exact ⟨trivial, trivial⟩
  | setNode v p x tag ds =>
    cases e
    match ds with
    | [] => exact ⟨trivial, trivial⟩
    | [a] => exact ⟨trivial, hit_id h _ _, trivial⟩
    | a :: b :: bs => exact ⟨trivial, hit_id h _ _, trivial⟩
  | setEmpty v p => cases e; exact ⟨trivial, hit_id h _ _, trivial⟩
  | update v p cb => cases e; exact ⟨trivial, hit_id h _ _, trivial⟩
  | setComment v p d c =>
    simp only [Op.prims] at e
    split at e
    · cases e
    · rename_i hs; cases e; exact ⟨search_id hs, trivial⟩
    · cases e; exact trivial
  | setTag v p tag =>
    simp only [Op.prims] at e
    split at e
    · cases e
    · rename_i hs; cases e; exact ⟨search_id hs, trivial⟩
    · cases e; exact trivial
  | remove v p =>
    simp only [Op.prims] at e
    split at e
    · cases e
    · rename_i hs
      obtain ⟨h1, h2⟩ := View.search_pair hs
      split at e
      · cases e; exact ⟨⟨_, h1, _, h2, rfl, rfl⟩, trivial⟩
      · cases e; exact trivial
    · cases e; exact trivial
  | node i o => exact absurd rfl (hn i o)

namespace Heap

/-- One tree of the memory, and the rest. -/
structure Rep1 (M : Mem α) (t : Tree α) (R : List (Rec α)) : Prop where
  next : t.next = M.next
  ok : t.OK
  holds : Holds M.heap (t.root.recs ++ R)
  lt : ∀ r ∈ R, r.id < M.next

omit [Inhabited α] in
theorem Rep1.fresh {M : Mem α} {t : Tree α} {R : List (Rec α)} (h : Rep1 M t R) (j : Nat) (hj : M.next ≤ j) :
    j ∉ (t.root.recs ++ R).map (·.id) := by
  intro hm
  obtain ⟨q, hq, e⟩ := List.mem_map.mp hm
  rcases List.mem_append.mp hq with hq | hq
  · have h1 : q.id ∈ t.root.ids := by rw [← Node.recs_ids]; exact List.mem_map_of_mem hq
    have := h.ok.ids_lt _ h1
    have := h.next
    omega
  · have := h.lt q hq
    omega

theorem step_rep (grow : Nat → Nat) {M : Mem α} {t : Tree α} {R : List (Rec α)} (h : Rep1 M t R) {p : Prim α} (hp : p.Fits t) :
    ∃ D, Rep1 (M.step grow t.root.id p) (p.run t) (D ++ R) ∧ (p.run t).root.id = t.root.id ∧
      (M.step grow t.root.id p).roots = M.roots ∧ M.next ≤ (M.step grow t.root.id p).next := by
  cases p with
  | insert key x =>
    obtain ⟨h1, _, h3⟩ := insert_holds grow M.next (utf8 key) x (key.length + 2) key t.root M.heap R h.holds
      (h.fresh _ (Nat.le_refl _)) (h.fresh _ (Nat.le_succ _))
    refine ⟨[], ⟨?_, View.insertAt_ok h.ok key x, ?_, ?_⟩, ?_, rfl, Nat.le_add_right _ 2⟩
    · show t.next + 2 = M.next + 2
      rw [h.next]
    · simp only [Prim.run, View.insertAt, Node.insert, h.next]
      exact h1
    · intro r hr
      have := h.lt r hr
      show r.id < M.next + 2
      omega
    · simp only [Prim.run, View.insertAt, Node.insert, h.next]
      exact h3
  | remove par item =>
    obtain ⟨q, hq, d, hd, rfl, rfl⟩ := hp
    obtain ⟨h1, _⟩ := remove_holds h.holds hq hd
    have hok := (removeChild_ok h.ok q.id d.id).1
    refine ⟨d.recs, ⟨h.next, hok, h1, ?_⟩, ?_, rfl, Nat.le_refl _⟩
    · intro r hr
      show r.id < M.next
      rcases List.mem_append.mp hr with hr | hr
      · have h2 : r ∈ t.root.recs := by
          obtain ⟨pre, post, e⟩ := List.append_of_mem hd
          have h3 : r ∈ q.recs ++ [] := (kid_perm e []).mem_iff.mpr (List.mem_append_left _ hr)
          rw [List.append_nil] at h3
          rw [Node.recs_walk] at h3 ⊢
          obtain ⟨m, hm, rfl⟩ := List.mem_map.mp h3
          exact List.mem_map_of_mem (Node.walk_trans hq hm)
        have h3 : r.id ∈ t.root.ids := by rw [← Node.recs_ids]; exact List.mem_map_of_mem h2
        have := h.ok.ids_lt _ h3
        have := h.next
        omega
      · exact h.lt r hr
    · exact Node.modify_remove_id ..
  | write i f =>
    have hi : ∀ r ∈ R, r.id ≠ i := by
      intro r hr e
      exact h.holds.ids.2 r hr (by rw [e]; exact hp)
    obtain ⟨h1, _⟩ := write_holds h.holds i f hi
    refine ⟨[], ⟨h.next, writeCore_ok h.ok i f, h1, h.lt⟩, ?_, rfl, Nat.le_refl _⟩
    exact Node.modify_core_id ..

theorem fit_rep (grow : Nat → Nat) (ps : List (Prim α)) : ∀ {M : Mem α} {t : Tree α} {R : List (Rec α)}, Rep1 M t R → Prim.Fit ps t →
    ∃ D, Rep1 (ps.foldl (Mem.step grow t.root.id) M) (Prim.runs ps t) (D ++ R) ∧ (Prim.runs ps t).root.id = t.root.id ∧
      (ps.foldl (Mem.step grow t.root.id) M).roots = M.roots ∧ M.next ≤ (ps.foldl (Mem.step grow t.root.id) M).next := by
  induction ps with
  | nil => intro M t R h _; exact ⟨[], h, rfl, rfl, Nat.le_refl _⟩
  | cons p ps ih =>
    intro M t R h hf
    obtain ⟨D, h1, h2, h3, h4⟩ := step_rep grow h hf.1
    obtain ⟨D', h5, h6, h7, h8⟩ := ih h1 hf.2
    rw [h2] at h5 h6 h7 h8
    rw [List.foldl_cons]
    refine ⟨D' ++ D, ?_, h6, h7.trans h3, Nat.le_trans h4 h8⟩
    rw [List.append_assoc]
    exact h5

omit [Inhabited α] in
theorem length_le_of_lt (n : Nat) : ∀ l : List Nat, l.Nodup → (∀ x ∈ l, x < n) → l.length ≤ n := by
  induction n with
  | zero =>
    intro l _ h
    cases l with
    | nil => simp
    | cons a as => exact absurd (h a (by simp)) (by omega)
  | succ n ih =>
    intro l hd h
    have h1 := ih (l.erase n) (hd.erase n) (fun x hx => by
      have h2 := h x (List.mem_of_mem_erase hx)
      have h3 : x ≠ n := fun e => by
        subst e
        exact (List.Nodup.not_mem_erase hd) hx
      omega)
    have h2 := List.length_erase (a := n) (l := l)
    split at h2 <;> omega

/-- All the trees of the memory. -/
structure Rep (M : Mem α) (g : Grove α) (R : List (Rec α)) : Prop where
  next : g.next = M.next
  roots : M.roots = g.trees.map Node.id
  ok : ∀ n ∈ g.trees, ({ root := n, next := g.next } : Tree α).OK
  holds : Holds M.heap (Node.recsL g.trees ++ R)
  lt : ∀ r ∈ R, r.id < M.next

omit [Inhabited α] in
theorem recsL_perm {k pre post : List (Node α)} {c : Node α} (e : k = pre ++ c :: post) (R : List (Rec α)) :
    (Node.recsL k ++ R).Perm (c.recs ++ ((Node.recsL pre ++ Node.recsL post) ++ R)) := by
  rw [e, Node.recsL_append, Node.recsL]
  simp only [List.append_assoc]
  exact List.perm_append_comm_assoc ..

omit [Inhabited α] in
theorem Rep.lt_trees {M : Mem α} {g : Grove α} {R : List (Rec α)} (h : Rep M g R) : ∀ r ∈ Node.recsL g.trees, r.id < M.next := by
  intro r hr
  have h1 : r.id ∈ g.trees.flatMap Node.ids := by rw [← Node.recsL_ids]; exact List.mem_map_of_mem hr
  obtain ⟨n, hn, h2⟩ := List.mem_flatMap.mp h1
  have := (h.ok n hn).ids_lt _ h2
  have := h.next
  simp only at *
  omega

omit [Inhabited α] in
/-- What readers find is what the trees say. -/
theorem Rep.grove {M : Mem α} {g : Grove α} {R : List (Rec α)} (h : Rep M g R) : M.grove = g := by
  have h1 := h.holds
  have hr : M.roots.map (M.heap.read M.next) = g.trees := by
    rw [h.roots, List.map_map]
    conv => rhs; rw [← List.map_id g.trees]
    refine List.map_congr_left fun n hn => ?_
    obtain ⟨pre, post, e⟩ := List.append_of_mem hn
    have h3 := h1.perm (recsL_perm e R)
    refine read_holds M.next n h3 ?_
    rw [← List.length_map (f := fun r : Rec α => r.id), Node.recs_ids]
    refine Nat.le_succ_of_le (length_le_of_lt _ _ h3.ids.1 ?_)
    intro x hx
    rw [← h.next]
    exact (h.ok n hn).ids_lt x hx
  cases g
  simp only [Mem.grove, Grove.mk.injEq]
  exact ⟨hr, h.next.symm⟩

omit [Inhabited α] in
theorem getElem?_split {β : Type} {l : List β} {k : Nat} {a : β} (h : l[k]? = some a) :
    ∃ pre post, l = pre ++ a :: post ∧ pre.length = k ∧ ∀ b, l.set k b = pre ++ b :: post := by
  obtain ⟨hk, e⟩ := List.getElem?_eq_some_iff.mp h
  refine ⟨l.take k, l.drop (k + 1), ?_, ?_, ?_⟩
  · rw [← e]; simp
  · simp; omega
  · intro b
    exact List.set_eq_take_append_cons_drop .. |>.trans (by rw [if_pos hk])

omit [Inhabited α] in
theorem recs_modify_core (i : Nat) (f : Core α → Core α) (n : Node α) :
    (n.modify i (Node.mapCore f)).recs = n.recs.map (fun r => if r.id = i then { r with core := f r.core } else r) := by
  induction n using Node.ind with
  | h j p c k ih =>
    have hL : ∀ l : List (Node α), (∀ n ∈ l, n ∈ k) →
        Node.recsL (l.map (Node.modify i (Node.mapCore f))) =
          (Node.recsL l).map (fun r => if r.id = i then { r with core := f r.core } else r) := by
      intro l
      induction l with
      | nil => intro _; rfl
      | cons a as iha =>
        intro hs
        rw [List.map_cons, Node.recsL, Node.recsL, ih a (hs a (by simp)), iha (fun n hn => hs n (by simp [hn])), List.map_append]
    have hid : (k.map (Node.modify i (Node.mapCore f))).map Node.id = k.map Node.id := by
      rw [List.map_map]
      exact List.map_congr_left fun n _ => Node.modify_core_id n
    rw [Node.modify, Node.modifyL_eq, Node.recs, List.map_cons, ← hL k (fun _ h => h)]
    split
    · simp only [Node.mapCore, Node.recs, hid]
    · simp only [Node.recs, hid]

omit [Inhabited α] in
theorem Holds.writeAt {H : Heap α} {L : List (Rec α)} (h : Holds H L) (i : Nat) (f : Core α → Core α) :
    Holds (H.write i f) (L.map (fun r => if r.id = i then { r with core := f r.core } else r)) := by
  have hid : ∀ r : Rec α, (if r.id = i then { r with core := f r.core } else r).id = r.id := by intro r; split <;> rfl
  have hkids : ∀ r : Rec α, (if r.id = i then { r with core := f r.core } else r).kids = r.kids := by intro r; split <;> rfl
  have harr : ∀ j, ((H.write i f).cell j).arr = (H.cell j).arr ∧ ((H.write i f).cell j).len = (H.cell j).len ∧
      ((H.write i f).cell j).path = (H.cell j).path := by
    intro j
    simp only [Heap.write, setCell]
    split
    · rename_i e; rw [e]; exact ⟨rfl, rfl, rfl⟩
    · exact ⟨rfl, rfl, rfl⟩
  refine ⟨?_, ?_, ?_, ?_, ?_, ?_, ?_⟩
  · intro r hr
    obtain ⟨q, hq, rfl⟩ := List.mem_map.mp hr
    rw [hid, (harr _).2.2, h.path q hq]
    split <;> rfl
  · intro r hr
    obtain ⟨q, hq, rfl⟩ := List.mem_map.mp hr
    rw [hid]
    have := h.core q hq
    simp only [Heap.write, setCell]
    split
    · rename_i e; simp only; rw [← e, this]
    · exact this
  · intro r hr
    obtain ⟨q, hq, rfl⟩ := List.mem_map.mp hr
    rw [hid, hkids, ← h.kids q hq]
    simp only [Heap.kids, (harr _).1, (harr _).2.1]
    rfl
  · intro r hr
    obtain ⟨q, hq, rfl⟩ := List.mem_map.mp hr
    rw [hid, hkids, (harr _).2.1]
    exact h.len q hq
  · rw [List.map_map]
    have : ((fun r : Rec α => r.id) ∘ fun r => if r.id = i then { r with core := f r.core } else r) = fun r => r.id := by
      funext r; exact hid r
    rw [this]
    exact h.nodup
  · intro r hr
    obtain ⟨q, hq, rfl⟩ := List.mem_map.mp hr
    rw [hid, (harr _).1]
    exact h.arrs q hq
  · intro r hr q hq
    obtain ⟨r', hr', rfl⟩ := List.mem_map.mp hr
    obtain ⟨q', hq', rfl⟩ := List.mem_map.mp hq
    rw [hid, hid, (harr _).1, (harr _).1]
    exact h.sep r' hr' q' hq'

omit [Inhabited α] in
theorem recsL_modify_core (i : Nat) (f : Core α → Core α) (l : List (Node α)) :
    Node.recsL (l.map (Node.modify i (Node.mapCore f))) =
      (Node.recsL l).map (fun r => if r.id = i then { r with core := f r.core } else r) := by
  induction l with
  | nil => rfl
  | cons a as iha => rw [List.map_cons, Node.recsL, Node.recsL, recs_modify_core, iha, List.map_append]

/-- One call. -/
theorem act_rep (grow : Nat → Nat) {M : Mem α} {g : Grove α} {R : List (Rec α)} (h : Rep M g R) {a : Act α} (ha : ∀ k i f, a ≠ .op k (.node i f)) :
    match g.act a with
    | .error e => M.act grow a = .error e
    | .ok g' => ∃ M' R', M.act grow a = .ok M' ∧ Rep M' g' R' ∧ ((∀ i f, a ≠ .node i f) → ∃ D, R' = D ++ R) := by
  have hR := h.holds
  have hlt := h.lt
  have hread : ∀ n ∈ g.trees, M.heap.read M.next n.id = n := by
    intro n hn
    have h1 := h.grove
    have h2 : M.roots.map (M.heap.read M.next) = g.trees := congrArg Grove.trees h1
    rw [h.roots, List.map_map] at h2
    have h3 : ∀ (l : List (Node α)) (φ : Node α → Node α), l.map φ = l → ∀ n ∈ l, φ n = n := by
      intro l φ
      induction l with
      | nil => intro _ n hn; cases hn
      | cons b bs ih =>
        intro e n hn
        rw [List.map_cons, List.cons.injEq] at e
        rcases List.mem_cons.mp hn with rfl | hn
        · exact e.1
        · exact ih e.2 n hn
    exact h3 _ _ h2 n hn
  cases a with
  | op k o =>
    simp only [Grove.act, Mem.act, h.roots, List.getElem?_map]
    cases hk : g.trees[k]? with
    | none => exact ⟨M, R, rfl, h, fun _ => ⟨[], rfl⟩⟩
    | some n =>
      have hn : n ∈ g.trees := List.mem_of_getElem? hk
      obtain ⟨pre, post, e1, e2, e3⟩ := getElem?_split hk
      simp only [Option.map_some, hread n hn]
      rw [Op.run_prims, ← h.next]
      cases hp : o.prims { root := n, next := g.next } with
      | error e => rfl
      | ok ps =>
        simp only [Except.map]
        have hfit := Op.prims_fit (h.ok n hn) (fun i f e => ha k i f (by rw [e])) hp
        have hrep : Rep1 M { root := n, next := g.next } ((Node.recsL pre ++ Node.recsL post) ++ R) := by
          refine ⟨h.next, h.ok n hn, hR.perm (recsL_perm e1 R), ?_⟩
          intro r hr
          rcases List.mem_append.mp hr with hr | hr
          · refine h.lt_trees r ?_
            rw [e1, Node.recsL_append, Node.recsL]
            rcases List.mem_append.mp hr with hr | hr
            · exact List.mem_append_left _ hr
            · exact List.mem_append_right _ (List.mem_append_right _ hr)
          · exact hlt r hr
        obtain ⟨D, h1, h2, h3, h4⟩ := fit_rep grow ps hrep hfit
        simp only at h1 h2 h3 h4
        refine ⟨_, D ++ R, rfl, ⟨h1.next, ?_, ?_, ?_, ?_⟩, fun _ => ⟨D, rfl⟩⟩
        · rw [h3, h.roots, e3, e1]; simp [h2]
        · intro m hm
          rw [e3] at hm
          rcases List.mem_append.mp hm with hm | hm
          · refine (h.ok m (by rw [e1]; exact List.mem_append_left _ hm)).mono ?_
            rw [h1.next, h.next]; exact h4
          · rcases List.mem_cons.mp hm with rfl | hm
            · exact h1.ok
            · refine (h.ok m (by rw [e1]; simp [hm])).mono ?_
              rw [h1.next, h.next]; exact h4
        · refine h1.holds.perm ?_
          simp only
          rw [e3]
          refine List.Perm.trans ?_ (recsL_perm rfl (D ++ R)).symm
          refine List.Perm.append_left _ ?_
          exact List.perm_append_comm_assoc ..
        · intro r hr
          rcases List.mem_append.mp hr with hr | hr
          · exact h1.lt r (List.mem_append_left _ hr)
          · exact h1.lt r (by simp [hr])
  | dup k =>
    simp only [Grove.act, Mem.act, h.roots, List.getElem?_map]
    cases hk : g.trees[k]? with
    | none => exact ⟨M, R, rfl, h, fun _ => ⟨[], rfl⟩⟩
    | some n =>
      have hn : n ∈ g.trees := List.mem_of_getElem? hk
      obtain ⟨pre, post, e1, e2, e3⟩ := getElem?_split hk
      simp only [Option.map_some]
      have hall : ∀ r ∈ n.recs ++ ((Node.recsL pre ++ Node.recsL post) ++ R), r.id < M.next := by
        intro r hr
        rcases List.mem_append.mp ((recsL_perm e1 R).mem_iff.mpr hr) with hr | hr
        · exact h.lt_trees r hr
        · exact hlt r hr
      have hH := hR.perm (recsL_perm e1 R)
      obtain ⟨h1, h2, h3, h4, h5, h6⟩ := (dup_holds grow (2 * M.next)).1 n M.heap _ M.next hH hall (by
        have : n.recs.length ≤ M.next := by
          rw [← List.length_map (f := fun r : Rec α => r.id), Node.recs_ids]
          refine length_le_of_lt _ _ hH.ids.1 fun x hx => ?_
          rw [← h.next]; exact (h.ok n hn).ids_lt x hx
        omega)
      rw [h.next]
      refine ⟨_, R, rfl, ⟨h3.symm, ?_, ?_, ?_, ?_⟩, fun _ => ⟨[], rfl⟩⟩
      · simp [h4]
      · intro m hm
        rcases List.mem_append.mp hm with hm | hm
        · refine (h.ok m hm).mono ?_
          simp only
          rw [h.next]; omega
        · have := dupTree_ok (h.ok n hn)
          rw [List.mem_singleton.mp hm]
          simp only [View.dupTree, h.next] at this
          exact this
      · refine h1.perm ?_
        simp only
        refine List.Perm.trans (List.Perm.append_left _ (recsL_perm e1 R).symm) ?_
        rw [Node.recsL_append]
        simp only [Node.recsL, List.append_nil, List.append_assoc]
        exact List.perm_append_comm_assoc ..
      · intro r hr
        have := hlt r hr
        simp only
        omega
  | node i o =>
    refine ⟨_, R.map (fun r => if r.id = i then { r with core := o.app r.core } else r), rfl, ⟨h.next, ?_, ?_, ?_, ?_⟩,
      fun hn => absurd rfl (hn i o)⟩
    · rw [h.roots]
      simp only
      rw [List.map_map]
      exact List.map_congr_left fun n _ => (Node.modify_core_id n).symm
    · intro m hm
      obtain ⟨n, hn, rfl⟩ := List.mem_map.mp hm
      exact writeCore_ok (h.ok n hn) i o.app
    · have := hR.writeAt i o.app
      rw [List.map_append, ← recsL_modify_core] at this
      exact this
    · intro r hr
      obtain ⟨q, hq, rfl⟩ := List.mem_map.mp hr
      have := hlt q hq
      split <;> exact this

/-- Several calls. -/
theorem acts_rep (grow : Nat → Nat) (cs : List (Act α)) : ∀ {M : Mem α} {g : Grove α} {R : List (Rec α)}, Rep M g R →
    (∀ a ∈ cs, ∀ k i f, a ≠ .op k (.node i f)) →
    match Grove.acts cs g with
    | .error e => Mem.acts grow cs M = .error e
    | .ok g' => ∃ M' R', Mem.acts grow cs M = .ok M' ∧ Rep M' g' R' ∧ ((∀ a ∈ cs, ∀ i f, a ≠ .node i f) → ∃ D, R' = D ++ R) := by
  induction cs with
  | nil => intro M g R h _; exact ⟨M, R, rfl, h, fun _ => ⟨[], rfl⟩⟩
  | cons a as ih =>
    intro M g R h hc
    have h1 := act_rep grow h (hc a (by simp))
    rw [Grove.acts, Mem.acts]
    cases hg : g.act a with
    | error e =>
      rw [hg] at h1
      simp only at h1 ⊢
      rw [h1]
    | ok g1 =>
      rw [hg] at h1
      obtain ⟨M1, R1, e1, h2, h3⟩ := h1
      have h4 := ih h2 (fun b hb => hc b (by simp [hb]))
      simp only
      rw [e1]
      simp only
      cases hg' : Grove.acts as g1 with
      | error e => rw [hg'] at h4; exact h4
      | ok g' =>
        rw [hg'] at h4
        obtain ⟨M', R', e2, h5, h6⟩ := h4
        refine ⟨M', R', e2, h5, fun hn => ?_⟩
        obtain ⟨D, hD⟩ := h3 (hn a (by simp))
        obtain ⟨D', hD'⟩ := h6 (fun b hb => hn b (by simp [hb]))
        exact ⟨D' ++ D, by rw [hD', hD, List.append_assoc]⟩

theorem rep_new : Rep (Mem.new : Mem α) Grove.new [] := by
  refine ⟨rfl, rfl, ?_, ?_, by simp⟩
  · intro n hn
    rw [List.mem_singleton.mp hn]
    exact Tree.OK.new
  · refine ⟨?_, ?_, ?_, ?_, ?_, ?_, ?_⟩ <;>
      simp [Grove.new, Tree.new, Node.recsL, Node.recs, Mem.new, Heap.kids]

end Heap
end Verif

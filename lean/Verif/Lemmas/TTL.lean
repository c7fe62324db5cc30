import Verif.Lemmas.Reach
import Verif.Lemmas.History
import Verif.Props.Entry
import Verif.Props.Dup
import Verif.Model.TTL
/-
Which writes keep the node of an entry, and invariants of the expiry system.
-/
namespace Verif
variable {α : Type} [Inhabited α]

namespace Node

/-- An insertion that does not cut the fragment of the node at `k` keeps that node. -/
theorem insKids_keep {ins : Node α → Ins α} {fresh : Nat} {ps : List UInt8} {v : α} {u w : Str} {k : Str} {i : Nat} {b : Bool}
    (ks : List (Node α))
    (hin : ∀ c ∈ ks, c.path.head? = w.head? → (∃ m, (k, m) ∈ c.nodes u ∧ m.id = i ∧ m.core.leaf = b) →
      ∃ m, (k, m) ∈ (ins c).tree.nodes u ∧ m.id = i ∧ m.core.leaf = b)
    (h : ∃ m, (k, m) ∈ nodesL u ks ∧ m.id = i ∧ m.core.leaf = b) :
    ∃ m, (k, m) ∈ nodesL u (insKids ins fresh w ps v ks).kids ∧ m.id = i ∧ m.core.leaf = b := by
  induction ks with
  | nil => obtain ⟨m, h, _⟩ := h; simp [nodesL] at h
  | cons c cs ih =>
    obtain ⟨m, h, hi⟩ := h
    rw [nodesL, List.mem_append] at h
    rw [insKids]
    by_cases hh : c.path.head? = w.head?
    · rw [if_pos hh]
      simp only [nodesL, List.mem_append]
      rcases h with h | h
      · obtain ⟨m', h', hi'⟩ := hin c (by simp) hh ⟨m, h, hi⟩
        exact ⟨m', .inl h', hi'⟩
      · exact ⟨m, .inr h, hi⟩
    · rw [if_neg hh]
      simp only [nodesL, List.mem_append]
      rcases h with h | h
      · exact ⟨m, .inl h, hi⟩
      · obtain ⟨m', h', hi'⟩ := ih (fun c hc => hin c (by simp [hc])) ⟨m, h, hi⟩
        exact ⟨m', .inr h', hi'⟩

theorem insertFuel_keep (fresh : Nat) (ps : List UInt8) (v : α) (fuel : Nat) :
    ∀ (w : Str) (n : Node α) (u : Str) (k : Str) (m : Node α), n.WF →
      (n.path = [] ∨ n.path.head? = w.head?) → (k, m) ∈ n.nodes u → (∃ m1, (lcp k (u ++ w), m1) ∈ n.nodes u) →
      ∃ m', (k, m') ∈ (insertFuel fresh ps v fuel w n).tree.nodes u ∧ m'.id = m.id ∧ m'.core.leaf = m.core.leaf := by
  induction fuel with
  | zero => intro w n u k m _ _ h _; exact ⟨m, by simpa [insertFuel] using h, rfl, rfl⟩
  | succ fuel ih =>
    intro w n u k m hw hhd h hl
    obtain ⟨i, p, c, ks⟩ := n
    have hwn := (wf_mk ..).mp hw
    rw [show insertFuel fresh ps v (fuel + 1) w (mk i p c ks) =
      if p.length = 0 ∧ w.length > 0 ∧ ks.length = 0 then
        { tree := mk i p c (ks ++ [newLeaf (fresh + 1) w ps v]), hit := newLeaf (fresh + 1) w ps v, old := none, cbs := [] }
      else
        let cpl := if p.length > 0 ∧ w.length > 0 then commonPrefixLen w p else 0
        let base := if cpl < p.length then split fresh cpl (mk i p c ks) else mk i p c ks
        if cpl < w.length then
          let word := w.drop cpl
          let r := insKids (insertFuel fresh ps v fuel word) fresh word ps v base.kids
          { tree := mk base.id base.path base.core r.kids, hit := r.hit, old := r.old, cbs := r.cbs }
        else
          let node := mk base.id base.path { base.core with hasData := true, data := v } base.kids
          { tree := node, hit := node, old := some base.core.data, cbs := [(some base.core.data, node)] } from rfl]
    by_cases hearly : p.length = 0 ∧ w.length > 0 ∧ ks.length = 0
    · rw [if_pos hearly]
      obtain rfl : ks = [] := List.eq_nil_of_length_eq_zero hearly.2.2
      rw [nodes] at h ⊢
      simp only [nodesL, List.mem_cons, List.not_mem_nil, or_false, Prod.mk.injEq] at h
      refine ⟨mk i p c ([] ++ [newLeaf (fresh + 1) w ps v]), by simp [h.1], ?_, ?_⟩ <;> rw [h.2] <;> rfl
    · rw [if_neg hearly]
      generalize hcp : (if p.length > 0 ∧ w.length > 0 then commonPrefixLen w p else 0) = cp
      have hc : ∃ s x y, w = s ++ x ∧ p = s ++ y ∧ cp = s.length ∧
          (x = [] ∨ y = [] ∨ ∃ a b x' y', x = a :: x' ∧ y = b :: y' ∧ a ≠ b) := by
        by_cases h2 : p.length > 0 ∧ w.length > 0
        · rw [if_pos h2] at hcp
          obtain ⟨s, x, y, h3, h4, h5, h6⟩ := commonPrefixLen_spec w p
          exact ⟨s, x, y, h3, h4, by rw [← hcp, h5], h6⟩
        · rw [if_neg h2] at hcp
          refine ⟨[], w, p, rfl, rfl, hcp.symm, ?_⟩
          by_cases hp : p = []
          · exact .inr (.inl hp)
          · left
            have := List.length_pos_iff.mpr hp
            have : ¬ w.length > 0 := fun hh => h2 ⟨this, hh⟩
            exact List.eq_nil_of_length_eq_zero (by omega)
      obtain ⟨s, x, y, rfl, rfl, rfl, hxy⟩ := hc
      by_cases hy : y = []
      · -- no split
        subst hy
        simp only [List.append_nil, Nat.lt_irrefl, if_false, path_mk, id_mk, core_mk, kids_mk] at *
        by_cases hx : x = []
        · subst hx
          simp only [List.append_nil, Nat.lt_irrefl, if_false]
          rw [nodes] at h ⊢
          rcases List.mem_cons.mp h with h | h
          · simp at h
            refine ⟨_, List.mem_cons.mpr (.inl (Prod.ext h.1 rfl)), ?_, ?_⟩ <;> rw [h.2] <;> rfl
          · exact ⟨m, List.mem_cons.mpr (.inr h), rfl, rfl⟩
        · have hx' : s.length < (s ++ x).length := by
            have := List.length_pos_iff.mpr hx
            simp; omega
          rw [if_pos hx']
          simp only [List.drop_left]
          rw [nodes] at h ⊢
          rcases List.mem_cons.mp h with h | h
          · simp at h
            refine ⟨_, List.mem_cons.mpr (.inl (Prod.ext h.1 rfl)), ?_, ?_⟩ <;> rw [h.2] <;> rfl
          · -- below
            have := insKids_keep (ins := insertFuel fresh ps v fuel x) (fresh := fresh) (ps := ps) (v := v) (u := u ++ s) (w := x)
              (k := k) (i := m.id) (b := m.core.leaf) ks ?_ ⟨m, h, rfl, rfl⟩
            · obtain ⟨m', h', hi'⟩ := this
              exact ⟨m', List.mem_cons.mpr (.inr h'), hi'⟩
            · rintro c1 hc1 hhd1 ⟨m2, hm2, hi2, hb2⟩
              have hcw := hwn.2 c1 hc1
              -- the common prefix lies in the same child
              have hl' : ∃ m1, (lcp k (u ++ s ++ x), m1) ∈ nodes (u ++ s) c1 := by
                obtain ⟨m1, hm1⟩ := hl
                rw [← List.append_assoc] at hm1
                have hk1 : u ++ s ++ c1.path <+: k := prefix_of_mem_nodes hm2
                obtain ⟨z, hz⟩ := hk1
                obtain ⟨a, cp, hcq⟩ : ∃ a t, c1.path = a :: t := by
                  cases hcq : c1.path with
                  | nil => exact absurd hcq hcw.1
                  | cons a t => exact ⟨a, t, rfl⟩
                obtain ⟨x', rfl⟩ : ∃ x', x = a :: x' := by
                  cases x with
                  | nil => exact absurd rfl hx
                  | cons b x' => rw [hcq] at hhd1; simp at hhd1; exact ⟨x', by rw [hhd1]⟩
                have hlk : lcp k (u ++ s ++ a :: x') = u ++ s ++ a :: lcp (cp ++ z) x' := by
                  rw [← hz, hcq, List.append_assoc, lcp_append_left]
                  simp [lcp]
                rw [hlk] at hm1
                refine ⟨m1, ?_⟩
                rw [hlk]
                rw [nodes] at hm1
                rcases List.mem_cons.mp hm1 with e | e
                · simp at e
                · rw [mem_nodesL] at e
                  obtain ⟨c2, hc2, e⟩ := e
                  have hp2 := prefix_of_mem_nodes e
                  obtain ⟨z2, hz2⟩ := hp2
                  have : c2.path.head? = c1.path.head? := by
                    have hne := (hwn.2 c2 hc2).1
                    cases hcq2 : c2.path with
                    | nil => exact absurd hcq2 hne
                    | cons b t => rw [hcq2] at hz2; simp at hz2; rw [hcq]; simp [hz2.1]
                  rw [← heads_inj hwn.1 hc2 hc1 this]
                  exact e
              obtain ⟨m3, h3, h4⟩ := ih x c1 (u ++ s) k m2 hcw.2 (.inr hhd1) hm2 hl'
              exact ⟨m3, h3, by rw [h4.1, hi2], by rw [h4.2, hb2]⟩
      · -- split
        have hy' : s.length < (s ++ y).length := by
          have := List.length_pos_iff.mpr hy
          simp; omega
        simp only [if_pos hy']
        have hkne : k ≠ u ++ (s ++ y) := by
          rintro rfl
          obtain ⟨m1, hm1⟩ := hl
          have h1 := (prefix_of_mem_nodes hm1).length_le
          have h2 : lcp (u ++ (s ++ y)) (u ++ (s ++ x)) = u ++ s := by
            rw [lcp_append_left, lcp_append_left]
            rcases hxy with rfl | h3 | ⟨a, b, x', y', rfl, rfl, hab⟩
            · cases y <;> simp [lcp]
            · exact absurd h3 hy
            · simp [lcp, Ne.symm hab]
          rw [h2] at h1
          simp at h1
          exact hy (List.eq_nil_of_length_eq_zero (by omega))
        have hbelow : (k, m) ∈ nodesL (u ++ (s ++ y)) ks := by
          rw [nodes] at h
          rcases List.mem_cons.mp h with h | h
          · simp at h; exact absurd h.1 hkne
          · exact h
        rw [split_kids, split_path, split_id, split_core]
        simp only [path_mk, kids_mk, id_mk, core_mk, List.take_left, List.drop_left]
        have hold : (k, m) ∈ nodes (u ++ s) (mk fresh y c ks) := by
          rw [nodes, List.append_assoc]
          exact List.mem_cons.mpr (.inr hbelow)
        by_cases hx : x = []
        · subst hx
          simp only [List.append_nil, Nat.lt_irrefl, if_false]
          refine ⟨m, ?_, rfl, rfl⟩
          rw [nodes]
          refine List.mem_cons.mpr (.inr ?_)
          simp only [nodesL, List.append_nil]
          exact hold
        · have hx' : s.length < (s ++ x).length := by
            have := List.length_pos_iff.mpr hx
            simp; omega
          rw [if_pos hx']
          have hne : ¬ y.head? = x.head? := by
            rcases hxy with h3 | h3 | ⟨a, b, x', y', rfl, rfl, hab⟩
            · exact absurd h3 hx
            · exact absurd h3 hy
            · simp [Ne.symm hab]
          refine ⟨m, ?_, rfl, rfl⟩
          rw [nodes]
          refine List.mem_cons.mpr (.inr ?_)
          rw [insKids, if_neg (show ¬ (mk fresh y c ks).path.head? = x.head? from hne)]
          simp only [nodesL, List.mem_append]
          exact .inl hold

omit [Inhabited α] in
theorem modify_remove_keep (i j : Nat) (n : Node α) : ∀ (u k : Str) (m' : Node α), (k, m') ∈ nodes u (modify i (removeChild j) n) →
      ∃ m, (k, m) ∈ nodes u n ∧ m'.id = m.id ∧ m'.core = m.core := by
  induction n using ind with
  | h a p c ks ih =>
    intro u k m' hm
    rw [modify, modifyL_eq] at hm
    have hsub : ∀ l : List (Node α), (∀ x ∈ l, x ∈ ks.map (modify i (removeChild j))) →
        (k, m') ∈ nodes u (mk a p c l) → ∃ m, (k, m) ∈ nodes u (mk a p c ks) ∧ m'.id = m.id ∧ m'.core = m.core := by
      intro l hl hm
      rw [nodes] at hm
      rcases List.mem_cons.mp hm with e | e
      · simp at e
        exact ⟨mk a p c ks, by rw [nodes, e.1]; exact List.mem_cons_self, by rw [e.2]; rfl, by rw [e.2]; rfl⟩
      · rw [mem_nodesL] at e
        obtain ⟨y, hy, e⟩ := e
        obtain ⟨x, hx, rfl⟩ := List.mem_map.mp (hl y hy)
        obtain ⟨m, hm, h1⟩ := ih x hx _ _ _ e
        refine ⟨m, ?_, h1⟩
        rw [nodes]
        exact List.mem_cons.mpr (.inr ((mem_nodesL ..).mpr ⟨x, hx, hm⟩))
    by_cases hj : a = i
    · rw [if_pos hj, removeChild] at hm
      exact hsub _ (fun x hx => List.mem_of_mem_eraseP hx) hm
    · simp only [hj, if_false] at hm
      exact hsub _ (fun x hx => hx) hm

end Node

/-- **Stability.** A call keeps the node of the entry `q` (and its being a leaf) if the entry is still there afterwards and an
inserted path does not cut its fragment. -/
theorem Op.run_keep {t t' : Tree α} (h : t.OK) {o : Op α} (e : o.run t = .ok t') {q : Str} {m : Node α}
    (hm : (q, m) ∈ t.root.nodes []) (hcut : ∀ x, o.key = some x → (t.contents (lcp q x)).isSome)
    (hq : (t'.contents q).isSome) :
    ∃ m', (q, m') ∈ t'.root.nodes [] ∧ m'.id = m.id ∧ m'.core.leaf = m.core.leaf := by
  have hw : ∀ (t : Tree α) (i : Nat) (f : Core α → Core α), (∀ c, (f c).leaf = c.leaf) →
      (∃ m', (q, m') ∈ t.root.nodes [] ∧ m'.id = m.id ∧ m'.core.leaf = m.core.leaf) →
      ∃ m', (q, m') ∈ (View.writeCore t i f).root.nodes [] ∧ m'.id = m.id ∧ m'.core.leaf = m.core.leaf := by
    rintro t i f hf ⟨m', h1, h2, h3⟩
    refine ⟨m'.modify i (Node.mapCore f), ?_, by rw [Node.modify_core_id, h2], ?_⟩
    · simp only [View.writeCore, Node.nodes_modify_core, List.mem_map]
      exact ⟨(q, m'), h1, rfl⟩
    · rw [Node.modify_core_core]
      by_cases hi : m'.id = i
      · rw [if_pos hi, hf, h3]
      · rw [if_neg hi, h3]
  have hins : ∀ (k : Str) (x : α), (t.contents (lcp q k)).isSome →
      ∃ m', (q, m') ∈ (View.insertAt t k x).1.root.nodes [] ∧ m'.id = m.id ∧ m'.core.leaf = m.core.leaf := by
    intro k x hk
    rw [Option.isSome_iff_exists] at hk
    obtain ⟨c, hc⟩ := hk
    obtain ⟨m1, hm1, _⟩ := (Tree.contents_node h).mp hc
    exact Node.insertFuel_keep _ _ x _ k t.root [] q m h.wf (.inl h.nil) hm ⟨m1, by simpa using hm1⟩
  have hruns : ∀ (os : List (NodeOp α)) (c : Core α), (NodeOp.runs os c).leaf = c.leaf := by
    intro os
    induction os with
    | nil => intro c; rfl
    | cons o os ih => intro c; rw [NodeOp.runs, List.foldl_cons]; exact (ih _).trans (by cases o <;> rfl)
  have hself : ∃ m', (q, m') ∈ t.root.nodes [] ∧ m'.id = m.id ∧ m'.core.leaf = m.core.leaf := ⟨m, hm, rfl, rfl⟩
  have hret : ∀ {t t' : Tree α}, (∃ m', (q, m') ∈ t.root.nodes [] ∧ m'.id = m.id ∧ m'.core.leaf = m.core.leaf) → t = t' →
      ∃ m', (q, m') ∈ t'.root.nodes [] ∧ m'.id = m.id ∧ m'.core.leaf = m.core.leaf := fun h e => e ▸ h
  cases o with
  | set v p x => exact hret (hins _ x (hcut _ rfl)) (Except.ok.inj e)
  | setEx v p x => exact hret (hins _ x (hcut _ rfl)) (Except.ok.inj e)
  | setNode v p x tag ds =>
    refine hret ?_ (Except.ok.inj e)
    simp only [View.setNode]
    cases ds with
    | nil => exact hins _ x (hcut _ rfl)
    | cons a bs =>
      cases bs with
      | nil => exact hw _ _ _ (fun _ => by rfl) (hins _ x (hcut _ rfl))
      | cons b bs => exact hw _ _ _ (fun _ => by rfl) (hins _ x (hcut _ rfl))
  | setEmpty v p => exact hret (hw _ _ _ (fun _ => by rfl) (hins _ default (hcut _ rfl))) (Except.ok.inj e)
  | update v p cb => exact hret (hw _ _ _ (fun _ => hruns _ _) (hins _ default (hcut _ rfl))) (Except.ok.inj e)
  | setComment v p d c =>
    simp only [Op.run, View.setComment] at e
    cases hs : v.search t (v.full p) with
    | error x => rw [hs] at e; simp [Except.map] at e
    | ok r =>
      rw [hs] at e
      obtain ⟨n, r1, r2, r3⟩ := r
      cases n with
      | none => simp only [Except.map, Except.ok.injEq] at e; exact hret hself e
      | some n =>
        simp only [Except.map, Except.ok.injEq] at e
        exact hret (hw t n.id (fun c' => { c' with desc := d, comment := c }) (fun _ => by rfl) hself) e
  | setTag v p tag =>
    simp only [Op.run, View.setTag] at e
    cases hs : v.search t (v.full p) with
    | error x => rw [hs] at e; simp [Except.map] at e
    | ok r =>
      rw [hs] at e
      obtain ⟨n, r1, r2, r3⟩ := r
      cases n with
      | none => simp only [Except.map, Except.ok.injEq] at e; exact hret hself e
      | some n =>
        simp only [Except.map, Except.ok.injEq] at e
        exact hret (hw t n.id (fun c' => { c' with tag := tag }) (fun _ => by rfl) hself) e
  | node i o => exact hret (hw t i o.app (fun c => by cases o <;> rfl) hself) (Except.ok.inj e)
  | remove v p =>
    have key : t' = t ∨ ∃ i j, t' = { t with root := t.root.modify i (Node.removeChild j) } := by
      simp only [Op.run, View.remove, View.removeEx] at e
      cases hs : v.search t (v.full p) with
      | error x => rw [hs] at e; simp [Except.map] at e
      | ok r =>
        rw [hs] at e
        obtain ⟨n, pr, pm, r3⟩ := r
        cases n with
        | none => simp only [Except.map, Except.ok.injEq] at e; exact .inl e.symm
        | some n =>
          cases pr with
          | none => cases pm <;> (simp only [Except.map, Except.ok.injEq] at e; exact .inl e.symm)
          | some pr =>
            cases pm with
            | true => simp only [Except.map, Except.ok.injEq] at e; exact .inl e.symm
            | false =>
              by_cases hk : (pr.kids.any fun k => decide (k.id = n.id)) = true
              · simp only [hk, if_true, Except.map, Except.ok.injEq] at e
                exact .inr ⟨_, _, e.symm⟩
              · rw [Bool.not_eq_true] at hk
                simp only [hk, Bool.false_eq_true, if_false, Except.map, Except.ok.injEq] at e
                exact .inl e.symm
    rcases key with rfl | ⟨i, j, rfl⟩
    · exact hself
    · have hok := (removeChild_ok h i j).1
      rw [Option.isSome_iff_exists] at hq
      obtain ⟨c, hc⟩ := hq
      obtain ⟨m', hm', _⟩ := (Tree.contents_node hok).mp hc
      obtain ⟨m2, h2, h3, h4⟩ := Node.modify_remove_keep i j t.root _ _ _ hm'
      obtain rfl := Node.nodes_unique h.wf h2 hm
      exact ⟨m', hm', h3, by rw [h4]⟩


omit [Inhabited α] in
/-- A lookup answers with a node of the tree. -/
theorem Node.matchR_mem (d : Char) (n : Node α) : ∀ (w : Str) (l : Bool) (par : Option (Node α)) (kv : KV) (r : MR α) (kv' : KV) (c : Node α),
    n.matchR d w l par kv = .ok (r, kv') → r.child = some c → c ∈ n.walk := by
  induction n using Node.ind with
  | h i p co k ih =>
    intro w l par kv r kv' c e hc
    have hself : Node.mk i p co k ∈ (Node.mk i p co k).walk := by rw [Node.walk]; exact List.mem_cons_self
    by_cases hw : w = []
    · subst hw
      simp only [Node.matchR, if_true, Except.ok.injEq, Prod.mk.injEq] at e
      rw [← e.1] at hc
      simp at hc
      rw [← hc]; exact hself
    · rw [Node.matchR_eq _ _ _ _ _ _ hw] at e
      have hm : ∀ m kv1, Node.masterLoop d (Node.mk i p co k) w l par kv = .ok (m, kv1) →
          match m with
          | .ret r => ∀ c, r.child = some c → c = Node.mk i p co k
          | .go _ _ _ r => ∀ c, r.child = some c → c = Node.mk i p co k := by
        intro m kv1 hm
        rw [Node.masterLoop] at hm
        split at hm
        · rcases hr : Node.retriever d (Node.mk i p co k).path w (!(Node.mk i p co k).kids.isEmpty)
            (Node.retrFuel (Node.mk i p co k).path.length w.length)
            ((Node.mk i p co k).path.getD (Node.cmpLoop d (Node.mk i p co k).path w l).1 d)
            (Node.cmpLoop d (Node.mk i p co k).path w l).1 (Node.cmpLoop d (Node.mk i p co k).path w l).1
            (Node.cmpLoop d (Node.mk i p co k).path w l).2 kv with x | ⟨x, kv2⟩
          · rw [hr] at hm; cases hm
          · rw [hr] at hm
            cases x with
            | nothing =>
              simp only [Except.ok.injEq, Prod.mk.injEq] at hm
              rw [← hm.1]; intro c h; simp at h
            | found =>
              simp only [Except.ok.injEq, Prod.mk.injEq] at hm
              rw [← hm.1]; intro c h; simp at h; exact h.symm
            | out a b f m' p' =>
              simp only [Except.ok.injEq, Prod.mk.injEq] at hm
              rw [← hm.1]; intro c h
              cases m' <;> simp at h
              exact h.symm
        · simp only [Except.ok.injEq, Prod.mk.injEq] at hm
          rw [← hm.1]; intro c h; simp at h
      have hk : ∀ (self : Node α) (ks : List (Node α)), (∀ n ∈ ks, n ∈ k) → ∀ (w : Str) (l : Bool) (kv : KV) (r : MR α) (kv' : KV),
          Node.matchKids d self ks w l kv = .ok (r, kv') → r.child = some c → c ∈ Node.walkL ks := by
        intro self ks
        induction ks with
        | nil =>
          intro _ w l kv r kv' e h
          simp only [Node.matchKids, Except.ok.injEq, Prod.mk.injEq] at e
          rw [← e.1] at h; simp at h
        | cons a as iha =>
          intro hs w l kv r kv' e h
          rw [Node.walkL, List.mem_append]
          rw [Node.matchKids] at e
          rcases hr : a.matchR d w l (some self) kv with x | ⟨r1, kv1⟩
          · rw [hr] at e; cases e
          · rw [hr] at e
            simp only at e
            split at e
            · simp only [Except.ok.injEq, Prod.mk.injEq] at e
              rw [← e.1] at h
              exact .inl (ih a (hs a (by simp)) _ _ _ _ _ _ _ hr h)
            · cases as with
              | nil =>
                simp only [Except.ok.injEq, Prod.mk.injEq] at e
                rw [← e.1] at h
                exact .inl (ih a (hs a (by simp)) _ _ _ _ _ _ _ hr h)
              | cons b bs => exact .inr (iha (fun n hn => hs n (by simp [hn])) _ _ _ _ _ e h)
      rcases hl : Node.masterLoop d (Node.mk i p co k) w l par kv with x | ⟨m, kv1⟩
      · rw [hl] at e; cases e
      · have hm := hm m kv1 hl
        rw [hl] at e
        cases m with
        | ret r1 =>
          simp only [Except.ok.injEq, Prod.mk.injEq] at e
          rw [← e.1] at hc
          rw [hm c hc]; exact hself
        | go src dst f r1 =>
          simp only at e hm
          have hv : ∀ c, (Node.verdict d (Node.mk i p co k) par w.length src r1).child = some c → c = Node.mk i p co k := by
            intro c h
            simp only [Node.verdict] at h
            split at h
            · simp at h; exact h.symm
            · split at h
              · simp at h; exact h.symm
              · split at h
                · simp at h; exact h.symm
                · exact hm c h
          split at e
          · split at e
            · simp only [Except.ok.injEq, Prod.mk.injEq] at e
              rw [← e.1] at hc
              rw [hv c hc]; exact hself
            · rw [Node.walk]
              exact List.mem_cons.mpr (.inr (hk _ _ (fun n hn => hn) _ _ _ _ _ e hc))
          · simp only [Except.ok.injEq, Prod.mk.injEq] at e
            rw [← e.1] at hc
            rw [hv c hc]; exact hself

namespace Sys

omit [Inhabited α] in
theorem byId_some {t : Tree α} {i : Nat} {n : Node α} (e : byId t i = some n) : ∃ q, (q, n) ∈ t.root.nodes [] ∧ n.id = i := by
  rw [byId, Node.walk_eq []] at e
  have h1 := List.find?_some e
  have h2 := List.mem_of_find?_eq_some e
  obtain ⟨⟨q, m⟩, h3, rfl⟩ := List.mem_map.mp h2
  exact ⟨q, h3, by simpa using h1⟩

omit [Inhabited α] in
theorem byId_of_mem {t : Tree α} (h : t.OK) {q : Str} {n : Node α} (hm : (q, n) ∈ t.root.nodes []) : byId t n.id = some n := by
  cases e : byId t n.id with
  | none =>
    rw [byId, Node.walk_eq [], List.find?_eq_none] at e
    have := e n (List.mem_map.mpr ⟨(q, n), hm, rfl⟩)
    simp at this
  | some m =>
    obtain ⟨q', h1, h2⟩ := byId_some e
    have := h.id_inj h1 hm h2
    simp at this
    rw [this.2]

/-- What a job knows about its node is true, as long as the node is in the tree. -/
def Seen (s : Sys α) (j : Job) : Prop :=
  ∀ q m, (q, m) ∈ (s.trees j.tree).root.nodes [] → m.id = j.node → j.branch = m.core.isBranch ∧ j.pathS = m.core.pathS

structure Inv (s : Sys α) : Prop where
  ok : ∀ k, (s.trees k).OK
  htree : ∀ a ∈ s.handles, a.tree < s.nTrees
  jtree : ∀ j ∈ s.jobs, j.tree < s.nTrees
  seen : ∀ j ∈ s.jobs, Seen s j
  httl : ∀ a ∈ s.handles, ∀ τ, a.ttl = some τ → τ < s.ttls.length
  share : ∀ (i i' : Nat) (a b : Handle) (τ : Nat), s.handles[i]? = some a → s.handles[i']? = some b → a.ttl = some τ → b.ttl = some τ → i = i'
  jttl : ∀ j ∈ s.jobs, j.ttl < s.ttls.length

theorem Inv.new (d : Char) : Inv (Sys.new d : Sys α) := by
  refine ⟨fun _ => Tree.OK.new, by simp [Sys.new], by simp [Sys.new], by simp [Sys.new], by simp [Sys.new], ?_, by simp [Sys.new]⟩
  intro i i' a b τ h1 h2 h3
  simp only [Sys.new] at h1
  cases i with
  | zero => simp at h1; rw [← h1] at h3; simp at h3
  | succ i => simp at h1

omit [Inhabited α] in
theorem refresh_same (k : Nat) (t : Tree α) (j : Job) :
    (refresh k t j).tree = j.tree ∧ (refresh k t j).node = j.node ∧ (refresh k t j).ttl = j.ttl ∧
    (refresh k t j).phase = j.phase ∧ (refresh k t j).expired = j.expired := by
  rw [refresh]
  split
  · split <;> exact ⟨rfl, rfl, rfl, rfl, rfl⟩
  · exact ⟨rfl, rfl, rfl, rfl, rfl⟩

omit [Inhabited α] in
theorem Inv.write {s : Sys α} (h : Inv s) (k : Nat) {t : Tree α} (ht : t.OK) : Inv (s.write k t) := by
  refine ⟨?_, h.htree, ?_, ?_, h.httl, h.share, ?_⟩
  · intro x
    simp only [Sys.write, setTree]
    split
    · exact ht
    · exact h.ok x
  · intro j hj
    obtain ⟨j0, h0, rfl⟩ := List.mem_map.mp hj
    rw [(refresh_same k t j0).1]
    exact h.jtree j0 h0
  · intro j hj q m hm hi
    obtain ⟨j0, h0, rfl⟩ := List.mem_map.mp hj
    rw [(refresh_same k t j0).1] at hm
    rw [(refresh_same k t j0).2.1] at hi
    simp only [Sys.write, setTree] at hm
    by_cases hk : j0.tree = k
    · rw [if_pos hk] at hm
      rw [refresh, if_pos hk, ← hi, byId_of_mem ht hm]
      exact ⟨rfl, rfl⟩
    · rw [if_neg hk] at hm
      rw [refresh, if_neg hk]
      exact h.seen j0 h0 q m hm hi
  · intro j hj
    obtain ⟨j0, h0, rfl⟩ := List.mem_map.mp hj
    rw [(refresh_same k t j0).2.2.1]
    exact h.jttl j0 h0

omit [Inhabited α] in
theorem addHandle_same (s : Sys α) (src : Handle) (k : Nat) (v : View) :
    (s.addHandle src k v).trees = s.trees ∧ (s.addHandle src k v).nTrees = s.nTrees ∧ (s.addHandle src k v).jobs = s.jobs ∧
    s.ttls.length ≤ (s.addHandle src k v).ttls.length ∧
    ∃ o, (s.addHandle src k v).handles = s.handles ++ [⟨k, v, o⟩] ∧
      ∀ τ, o = some τ → τ = s.ttls.length ∧ τ < (s.addHandle src k v).ttls.length := by
  unfold addHandle
  split
  · exact ⟨rfl, rfl, rfl, Nat.le_refl _, Option.none, rfl, by simp⟩
  · exact ⟨rfl, rfl, rfl, by simp, some s.ttls.length, rfl, by simp⟩

omit [Inhabited α] in
theorem Inv.addHandle {s : Sys α} (h : Inv s) (src : Handle) {k : Nat} (hk : k < s.nTrees) (v : View) : Inv (s.addHandle src k v) := by
  obtain ⟨e1, e2, e3, e4, o, e5, e6⟩ := addHandle_same s src k v
  refine ⟨by rw [e1]; exact h.ok, ?_, by rw [e2, e3]; exact h.jtree, ?_, ?_, ?_, ?_⟩
  · intro a ha
    rw [e5] at ha
    rw [e2]
    rcases List.mem_append.mp ha with ha | ha
    · exact h.htree a ha
    · simp at ha; rw [ha]; exact hk
  · rw [e3]
    intro j hj
    unfold Seen
    rw [e1]
    exact h.seen j hj
  · intro a ha τ hτ
    rw [e5] at ha
    rcases List.mem_append.mp ha with ha | ha
    · exact Nat.lt_of_lt_of_le (h.httl a ha τ hτ) e4
    · simp at ha
      rw [ha] at hτ
      exact (e6 τ hτ).2
  · intro i i' a b τ h1 h2 h3 h4
    have key : ∀ {i : Nat} {a : Handle}, (s.addHandle src k v).handles[i]? = some a → a.ttl = some τ →
        (s.handles[i]? = some a ∧ τ < s.ttls.length) ∨ (i = s.handles.length ∧ τ = s.ttls.length) := by
      intro i a h1 h3
      rw [e5, List.getElem?_append] at h1
      by_cases hi : i < s.handles.length
      · rw [if_pos hi] at h1
        exact .inl ⟨h1, h.httl a (List.mem_of_getElem? h1) τ h3⟩
      · rw [if_neg hi] at h1
        have hi0 : i - s.handles.length = 0 := by
          by_cases h0 : i - s.handles.length = 0
          · exact h0
          · obtain ⟨z, hz⟩ := Nat.exists_eq_succ_of_ne_zero h0
            rw [hz] at h1; simp at h1
        rw [hi0] at h1
        simp at h1
        rw [← h1] at h3
        exact .inr ⟨by omega, (e6 τ h3).1⟩
    rcases key h1 h3 with ⟨h5, h6⟩ | ⟨h5, h6⟩ <;> rcases key h2 h4 with ⟨h7, h8⟩ | ⟨h7, h8⟩
    · exact h.share i i' a b τ h5 h7 h3 h4
    · omega
    · omega
    · omega
  · rw [e3]
    intro j hj
    exact Nat.lt_of_lt_of_le (h.jttl j hj) e4

/-- Replacing the TTL object of handle `i` by none or by a new one. -/
theorem share_set {l : List Handle} {i : Nat} {a : Handle} {n : Nat} (hn : ∀ b ∈ l, ∀ τ, b.ttl = some τ → τ < n)
    (hs : ∀ (i i' : Nat) (a b : Handle) (τ : Nat), l[i]? = some a → l[i']? = some b → a.ttl = some τ → b.ttl = some τ → i = i')
    (ha : ∀ τ, a.ttl = some τ → τ = n ∨ ∃ b, l[i]? = some b ∧ b.ttl = some τ) :
    ∀ (j j' : Nat) (b b' : Handle) (τ : Nat), (l.set i a)[j]? = some b → (l.set i a)[j']? = some b' → b.ttl = some τ → b'.ttl = some τ → j = j' := by
  intro j j' b b' τ h1 h2 h3 h4
  have key : ∀ {j : Nat} {b : Handle}, (l.set i a)[j]? = some b → b.ttl = some τ →
      (j = i ∧ τ = n) ∨ (∃ c, l[j]? = some c ∧ c.ttl = some τ ∧ τ < n) := by
    intro j b h1 h3
    rw [List.getElem?_set] at h1
    by_cases hij : i = j
    · subst hij
      simp only [if_true] at h1
      by_cases hl : i < l.length
      · rw [if_pos hl] at h1
        simp at h1
        rw [← h1] at h3
        rcases ha τ h3 with h5 | ⟨c, h5, h6⟩
        · exact .inl ⟨rfl, h5⟩
        · exact .inr ⟨c, h5, h6, hn c (List.mem_of_getElem? h5) τ h6⟩
      · rw [if_neg hl] at h1; simp at h1
    · rw [if_neg hij] at h1
      exact .inr ⟨b, h1, h3, hn b (List.mem_of_getElem? h1) τ h3⟩
  rcases key h1 h3 with ⟨h5, h6⟩ | ⟨c, h5, h6, h7⟩ <;> rcases key h2 h4 with ⟨h8, h9⟩ | ⟨c', h8, h9, h10⟩
  · rw [h5, h8]
  · omega
  · omega
  · exact hs j j' c c' τ h5 h8 h6 h9

omit [Inhabited α] in
theorem arm_same (s : Sys α) (h : Nat) (a : Handle) :
    (s.arm h a).1.trees = s.trees ∧ (s.arm h a).1.nTrees = s.nTrees ∧ (s.arm h a).1.jobs = s.jobs ∧
    s.ttls.length ≤ (s.arm h a).1.ttls.length := by
  unfold arm
  split <;> simp

omit [Inhabited α] in
theorem Inv.arm {s : Sys α} (h : Inv s) {i : Nat} {a : Handle} (ha : s.handles[i]? = some a) :
    Inv (s.arm i a).1 ∧ (s.arm i a).2 < (s.arm i a).1.ttls.length := by
  have hm := List.mem_of_getElem? ha
  unfold Sys.arm
  split
  · rename_i τ hτ
    exact ⟨h, h.httl a hm τ hτ⟩
  · rename_i hτ
    refine ⟨⟨h.ok, ?_, h.jtree, h.seen, ?_, ?_, ?_⟩, by simp⟩
    · intro b hb
      rcases List.mem_or_eq_of_mem_set hb with hb | hb
      · exact h.htree b hb
      · rw [hb]; exact h.htree a hm
    · intro b hb τ h1
      simp only [List.length_append, List.length_singleton]
      rcases List.mem_or_eq_of_mem_set hb with hb | hb
      · have := h.httl b hb τ h1; omega
      · rw [hb] at h1; simp at h1; omega
    · exact share_set h.httl h.share (fun τ h1 => by simp at h1; exact .inl h1.symm)
    · intro j hj
      have := h.jttl j hj
      simp only [List.length_append, List.length_singleton]
      omega

omit [Inhabited α] in
theorem Inv.add {s : Sys α} (h : Inv s) {i : Nat} {a : Handle} (ha : s.handles[i]? = some a) {k : Nat} (hk : k < s.nTrees)
    {q : Str} {n : Node α} (hn : (q, n) ∈ (s.trees k).root.nodes []) (ns : Int) : Inv (s.add i a k n ns) := by
  obtain ⟨h1, h2⟩ := h.arm ha
  obtain ⟨e1, e2, e3, e4⟩ := arm_same s i a
  unfold Sys.add
  simp only
  split
  · exact h1
  · refine ⟨h1.ok, h1.htree, ?_, ?_, h1.httl, h1.share, ?_⟩
    · intro j hj
      rcases List.mem_append.mp hj with hj | hj
      · exact h1.jtree j hj
      · simp at hj; rw [hj]; simp only; rw [e2]; exact hk
    · intro j hj
      rcases List.mem_append.mp hj with hj | hj
      · exact h1.seen j hj
      · simp at hj
        rw [hj]
        intro q' m hm hi
        simp only [e1] at hm hi ⊢
        have := (h.ok k).id_inj hm hn hi
        simp at this
        rw [this.2]
        exact ⟨rfl, rfl⟩
    · intro j hj
      rcases List.mem_append.mp hj with hj | hj
      · exact h1.jttl j hj
      · simp at hj; rw [hj]; exact h2

omit [Inhabited α] in
theorem Inv.mapJobs {s : Sys α} (h : Inv s) {l : List Job}
    (hl : ∀ j ∈ l, ∃ j0 ∈ s.jobs, j.tree = j0.tree ∧ j.node = j0.node ∧ j.ttl = j0.ttl ∧ j.branch = j0.branch ∧ j.pathS = j0.pathS) :
    Inv { s with jobs := l } := by
  refine ⟨h.ok, h.htree, ?_, ?_, h.httl, h.share, ?_⟩
  · intro j hj
    obtain ⟨j0, h0, e1, _⟩ := hl j hj
    rw [e1]; exact h.jtree j0 h0
  · intro j hj q m hm hi
    obtain ⟨j0, h0, e1, e2, e3, e4, e5⟩ := hl j hj
    rw [e4, e5]
    rw [e1] at hm
    rw [e2] at hi
    exact h.seen j0 h0 q m hm hi
  · intro j hj
    obtain ⟨j0, h0, e1, e2, e3, _⟩ := hl j hj
    rw [e3]; exact h.jttl j0 h0

omit [Inhabited α] in
theorem Inv.close {s : Sys α} (h : Inv s) (i : Nat) : Inv (s.close i) := by
  unfold Sys.close
  split
  · rename_i k v τ hh
    have hm := List.mem_of_getElem? hh
    have h1 : Inv { s with jobs := s.jobs.map (fun j => if j.ttl = τ ∧ j.phase = .parked then { j with phase := .over } else j) } := by
      refine h.mapJobs ?_
      intro j hj
      obtain ⟨j0, h0, rfl⟩ := List.mem_map.mp hj
      refine ⟨j0, h0, ?_⟩
      split <;> exact ⟨rfl, rfl, rfl, rfl, rfl⟩
    refine ⟨h1.ok, ?_, h1.jtree, h1.seen, ?_, ?_, ?_⟩
    · intro b hb
      rcases List.mem_or_eq_of_mem_set hb with hb | hb
      · exact h.htree b hb
      · rw [hb]; exact h.htree ⟨k, v, some τ⟩ hm
    · intro b hb τ h2
      simp only [List.length_modify]
      rcases List.mem_or_eq_of_mem_set hb with hb | hb
      · exact h.httl b hb τ h2
      · rw [hb] at h2; simp at h2
    · exact share_set h.httl h.share (fun τ h1 => by simp at h1)
    · intro j hj
      simp only [List.length_modify]
      exact h1.jttl j hj
  · exact h

/-- `fire` is a call on one tree that inserts nothing, or nothing at all. -/
theorem fire_spec {s s' : Sys α} {j : Job} (e : s.fire j = .ok s') :
    s' = s ∨ ∃ (k : Nat) (o : Op α) (t : Tree α), o.run (s.trees k) = .ok t ∧ o.key = Option.none ∧ s' = s.write k t := by
  unfold fire at e
  split at e
  · split at e
    · exact .inl (Except.ok.inj e).symm
    · split at e
      · exact .inl (Except.ok.inj e).symm
      · rename_i a _
        cases hr : a.view.remove (s.trees a.tree) (runes j.pathS) with
        | error x => rw [hr] at e; simp at e
        | ok r =>
          rw [hr] at e
          refine .inr ⟨a.tree, .remove a.view (runes j.pathS), r.1, by simp [Op.run, hr, Except.map], rfl, (Except.ok.inj e).symm⟩
  · exact .inr ⟨j.tree, .node j.node .setEmpty, _, rfl, rfl, (Except.ok.inj e).symm⟩

omit [Inhabited α] in
/-- The jobs of `fire` and the change of phase. -/
theorem Inv.over {s : Sys α} (h : Inv s) {i : Nat} {j : Job} (hj : s.jobs[i]? = some j) :
    Inv { s with jobs := s.jobs.set i { j with phase := .over } } := by
  refine h.mapJobs fun j' hj' => ?_
  rcases List.mem_or_eq_of_mem_set hj' with h1 | h1
  · exact ⟨j', h1, rfl, rfl, rfl, rfl, rfl⟩
  · exact ⟨j, List.mem_of_getElem? hj, by rw [h1]; exact ⟨rfl, rfl, rfl, rfl, rfl⟩⟩

omit [Inhabited α] in
theorem search_mem {v : View} {t : Tree α} {p : Str} {n : Node α} {pr pm kv} (e : v.search t p = .ok (some n, pr, pm, kv)) :
    ∃ q, (q, n) ∈ t.root.nodes [] := by
  have hmem : ∀ c, c ∈ t.root.walk → ∃ q, (q, c) ∈ t.root.nodes [] := by
    intro c hc
    rw [Node.walk_eq []] at hc
    obtain ⟨⟨q, m⟩, h1, rfl⟩ := List.mem_map.mp hc
    exact ⟨q, h1⟩
  have hup : ∀ (f : Nat) (w : Str) (kv kv' : KV) (r : MR α), View.retryUp v.delim t.root f w kv = .ok (some r, kv') →
      r.child = some n → n ∈ t.root.walk := by
    intro f
    induction f with
    | zero => intro w kv kv' r e; simp [View.retryUp] at e
    | succ f ih =>
      intro w kv kv' r e hc
      rw [View.retryUp] at e
      simp only at e
      split at e
      · split at e
        · cases e
        · rename_i r1 kv1 hr
          split at e
          · simp only [Except.ok.injEq, Prod.mk.injEq, Option.some.injEq] at e
            rw [← e.1] at hc
            exact Node.matchR_mem _ _ _ _ _ _ _ _ _ hr hc
          · exact ih _ _ _ _ e hc
      · simp at e
  refine hmem n ?_
  rw [View.search] at e
  split at e
  · cases e
  · rename_i r kv1 hr
    split at e
    · simp only [Except.ok.injEq, Prod.mk.injEq] at e
      exact Node.matchR_mem _ _ _ _ _ _ _ _ _ hr e.1
    · split at e
      · split at e
        · cases e
        · rename_i r2 kv2 hr2
          simp only [Except.ok.injEq, Prod.mk.injEq] at e
          exact hup _ _ _ _ _ hr2 e.1
        · simp at e
      · simp at e

theorem Inv.step {s s' : Sys α} (h : Inv s) {x : Step α} (e : s.step x = .ok s') : Inv s' := by
  cases x with
  | op k o =>
    simp only [Sys.step] at e
    split at e
    · cases hr : o.run (s.trees k) with
      | error y => rw [hr] at e; simp at e
      | ok t =>
        rw [hr] at e
        obtain rfl := Except.ok.inj e
        exact h.write k (Op.ok_of_run (h.ok k) hr)
    · obtain rfl := Except.ok.inj e; exact h
  | derive i v =>
    simp only [Sys.step] at e
    split at e
    · obtain rfl := Except.ok.inj e; exact h
    · rename_i a ha
      obtain rfl := Except.ok.inj e
      exact h.addHandle a (h.htree a (List.mem_of_getElem? ha)) _
  | dup i =>
    simp only [Sys.step] at e
    split at e
    · obtain rfl := Except.ok.inj e; exact h
    · rename_i a ha
      obtain rfl := Except.ok.inj e
      refine Inv.addHandle ?_ a (Nat.lt_succ_self _) _
      refine ⟨?_, ?_, ?_, ?_, h.httl, h.share, h.jttl⟩
      · intro k
        simp only [setTree]
        split
        · exact dupTree_ok (h.ok _)
        · exact h.ok k
      · intro b hb; exact Nat.lt_succ_of_lt (h.htree b hb)
      · intro b hb; exact Nat.lt_succ_of_lt (h.jtree b hb)
      · intro j hj q m hm hi
        have := h.jtree j hj
        simp only [setTree] at hm
        rw [if_neg (by omega)] at hm
        exact h.seen j hj q m hm hi
  | setPrefix i p =>
    simp only [Sys.step] at e
    split at e
    · obtain rfl := Except.ok.inj e; exact h
    · rename_i a ha
      obtain rfl := Except.ok.inj e
      refine ⟨h.ok, ?_, h.jtree, h.seen, ?_, share_set h.httl h.share (fun τ h1 => .inr ⟨a, ha, h1⟩), h.jttl⟩
      · intro b hb
        rcases List.mem_or_eq_of_mem_set hb with hb | hb
        · exact h.htree b hb
        · rw [hb]; exact h.htree a (List.mem_of_getElem? ha)
      · intro b hb τ h2
        rcases List.mem_or_eq_of_mem_set hb with hb | hb
        · exact h.httl b hb τ h2
        · rw [hb] at h2; exact h.httl a (List.mem_of_getElem? ha) τ h2
  | setTTL i p ns =>
    simp only [Sys.step, Sys.setTTL] at e
    split at e
    · obtain rfl := Except.ok.inj e; exact h
    · rename_i a ha
      cases hs : a.view.search (s.trees a.tree) (a.view.full p) with
      | error y => rw [hs] at e; simp [Except.map] at e
      | ok r =>
        obtain ⟨n, pr, pm, kv⟩ := r
        rw [hs] at e
        cases n with
        | none => obtain rfl := Except.ok.inj e; exact h
        | some n =>
          cases pm with
          | true => obtain rfl := Except.ok.inj e; exact h
          | false =>
            obtain rfl := Except.ok.inj e
            obtain ⟨q, hq⟩ := search_mem hs
            exact h.add ha (h.htree a (List.mem_of_getElem? ha)) hq ns
  | setTTLFast i k id ns =>
    simp only [Sys.step] at e
    split at e
    · rename_i a n ha hn
      split at e
      · rename_i hk
        obtain rfl := Except.ok.inj e
        obtain ⟨q, hq, _⟩ := byId_some hn
        exact h.add ha hk hq ns
      · obtain rfl := Except.ok.inj e; exact h
    · obtain rfl := Except.ok.inj e; exact h
  | close i => obtain rfl := Except.ok.inj e; exact h.close i
  | expire i =>
    obtain rfl := Except.ok.inj e
    refine h.mapJobs fun j hj => ?_
    rw [List.mem_iff_getElem?] at hj
    obtain ⟨n, hn⟩ := hj
    rw [List.getElem?_modify] at hn
    cases hj0 : s.jobs[n]? with
    | none => rw [hj0] at hn; simp at hn
    | some j0 =>
      rw [hj0] at hn
      refine ⟨j0, List.mem_of_getElem? hj0, ?_⟩
      split at hn <;> (obtain rfl := Option.some.inj hn; exact ⟨rfl, rfl, rfl, rfl, rfl⟩)
  | enter i b =>
    simp only [Sys.step] at e
    split at e
    · obtain rfl := Except.ok.inj e; exact h
    · rename_i j hj
      obtain rfl := Except.ok.inj e
      refine h.mapJobs fun j' hj' => ?_
      rcases List.mem_or_eq_of_mem_set hj' with h1 | h1
      · exact ⟨j', h1, rfl, rfl, rfl, rfl, rfl⟩
      · refine ⟨j, List.mem_of_getElem? hj, ?_⟩
        rw [h1]
        unfold Sys.enter
        split <;> exact ⟨rfl, rfl, rfl, rfl, rfl⟩
  | ring i =>
    simp only [Sys.step] at e
    split at e
    · obtain rfl := Except.ok.inj e; exact h
    · rename_i j hj
      split at e
      · rcases fire_spec e with rfl | ⟨k, o, t, h1, _, rfl⟩
        · exact h.over hj
        · exact (h.over hj).write k (Op.ok_of_run (h.ok k) h1)
      · obtain rfl := Except.ok.inj e; exact h

theorem Run.inv {P : Str → Prop} {s s' : Sys α} (r : Run P s s') (h : Inv s) : Inv s' := by
  induction r with
  | refl => exact h
  | step x _ _ e ih => exact ih.step e

end Sys
end Verif

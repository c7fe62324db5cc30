import Verif.Lemmas.RaceAfter
import Verif.Props.RaceRead
/-
C90: a lookup while other goroutines remove keys. C91: several goroutines removing keys.
-/
namespace Verif
namespace Prune
variable {α : Type} [Inhabited α]

section helpers
variable {v : View} {t : Tree α}

omit [Inhabited α] in
theorem Takes.spec (h : t.OK) (hp : t.Plain v.delim) (hm : v.mode ≠ .up) {c : Call} {P x : Node α} (htk : Takes v t c P x) :
    ∃ u, (u, P) ∈ t.root.nodes [] ∧ x ∈ P.kids := by
  obtain ⟨p, t', _, e⟩ := htk
  obtain ⟨_, _, u, h1, h2, _⟩ := takes_spec h hp hm e
  exact ⟨u, h1, h2⟩

/-- `Query` in terms of the nodes. -/
theorem query_node (h : t.OK) (hp : t.Plain v.delim) (hm : v.mode ≠ .up) (p : Str) :
    v.query t p = .ok (match resolve v.delim t.nodeAt (v.full p) with
      | some (q, m) => ansOf v.delim q m.core
      | none => ansNone) := by
  rw [query_at h hm p (hp.at _), resolve_contents h]
  cases resolve v.delim t.nodeAt (v.full p) <;> rfl

omit [Inhabited α] in
theorem ansOf_ne_none [Inhabited α] (d : Char) (q : Str) (c : Core α) : ansOf d q c ≠ ansNone := by
  intro e
  have h1 := congrArg View.Ans.branch e
  have h2 := congrArg View.Ans.found e
  simp only [ansOf, ansNone] at h1 h2
  cases h : c.leaf <;> simp [h] at h1 h2

omit [Inhabited α] in
theorem resolve_node (h : t.OK) {d : Char} {w q : Str} {c : Core α} (hr : resolve d t.contents w = some (q, c)) :
    ∃ m, resolve d t.nodeAt w = some (q, m) ∧ m.core = c := by
  rw [resolve_contents h] at hr
  cases hx : resolve d t.nodeAt w with
  | none => rw [hx] at hr; cases hr
  | some y =>
    obtain ⟨q', m⟩ := y
    rw [hx] at hr
    simp only [Option.map_some, Option.some.injEq, Prod.mk.injEq] at hr
    obtain ⟨rfl, rfl⟩ := hr
    exact ⟨m, rfl, rfl⟩

omit [Inhabited α] in
theorem path_ne_nil (n : Node α) : n.path ≠ [] → n.WF → ∀ {u q : Str} {m : Node α}, (q, m) ∈ n.nodes u → m.path ≠ [] := by
  induction n using Node.ind with
  | h i p c k ih =>
    intro hp hw u q m hm
    rw [Node.mem_nodes] at hm
    rcases hm with e | ⟨e, he, hm⟩
    · cases e; exact hp
    · have := ((Node.wf_iff _).mp hw).2 e he
      exact ih e he this.1 this.2 hm

end helpers

variable {K : Str → Prop} {t : Tree α} {v : View}

/-- **C90** Goroutines that remove keys do not disturb the lookup of a key, if none of them removes, on the way to
it, the node to go to or a sibling before that node (unless the node to go to is the last of its siblings): the lookup
does not panic, it ends after finitely many steps of its own, and it gives the answer of the trie. It may begin
at any moment. The goroutines must remove from different nodes, and spare each other's ways in the same sense. -/
theorem C90_kept (h : Reach K t) (hp : t.Plain v.delim) (hm : v.mode ≠ .up) {cs : List Call} (ht : Tidy v t cs)
    {k : Nat} {p : Str} (hk : cs[k]? = some (.get p)) {q : Str} {c : Core α} (hr : resolve v.delim t.contents (v.full p) = some (q, c))
    (hs : ∀ c P x, c ∈ cs → Takes v t c P x → Spares t P x q) :
    ∃ N, ∀ S, let r := ((start v t cs).run v.delim cs S).pcs k
      r ≠ .crash ∧ (N ≤ S.count k → ∃ a, r = .done a) ∧ ∀ a, r = .done a → v.query t p = .ok a := by
  have hok := h.ok
  have hl := start_lays (v := v) hok cs
  obtain ⟨m, hrm, rfl⟩ := resolve_node hok hr
  have hmem := (Tree.nodeAt_some hok).mp (resolve_some hrm)
  have hq := query_node (v := v) hok hp hm p
  rw [hrm] at hq
  have main : ∃ N, ∀ σ, Leads (.get p) v.delim (mems (start v t cs).mem (planOf v t cs)) (fun r => r = .done (ansOf v.delim q m.core)) N σ
      (.enter (v.full p) t.root.id none []) := by
    by_cases hw : v.full p = []
    · have : (q, m) = ([], t.root) := by
        rw [hw] at hrm
        simpa [resolve, (Tree.nodeAt_some hok).mpr hok.root_mem] using hrm.symm
      obtain ⟨rfl, rfl⟩ := Prod.mk.inj this
      rw [hw]
      exact ⟨5 + 1, fun σ => .to (.ret true false (some t.root.id) none []) (fun _ _ => rfl)
        (leads_answer hok hmem (mems_shows hl hmem) p none [] σ)⟩
    · obtain ⟨P, u, _, _, N, hN⟩ := leads_found (ms := mems (start v t cs).mem (planOf v t cs)) (.get p) hok (hp.at _) hw
        (fun q m hm => mems_shows hl hm) hrm (fun u P ch hP hch hpre => spares_sure (R := fun _ => False) hok hp hm
          (fun l c P x _ hc htk => hs c P x (List.mem_of_getElem? hc) htk) (fun l T hT => ⟨id, hT⟩) hl hP hch hpre)
      exact ⟨N + 5, fun σ => (hN σ).trans fun s r _ ⟨stk, hr'⟩ => by
        rw [hr']
        exact leads_answer hok hmem (mems_shows hl hmem) p _ stk s⟩
  obtain ⟨N, hN⟩ := main
  refine ⟨N, fun S => ?_⟩
  obtain ⟨h1, h2, h3⟩ := get_result hok hp hm ht hk (fun pc e => ⟨_, e⟩) hN S
  refine ⟨h1, h2, fun a ha => ?_⟩
  cases h3 a ha
  exact hq

/-- **C90** If none of the goroutines removes the only child of a node on the way, then the lookup of any key, in
the trie or not, does not panic, it ends, and it gives the answer of the trie or finds nothing. -/
theorem C90_safe (h : Reach K t) (hp : t.Plain v.delim) (hm : v.mode ≠ .up) {cs : List Call} (ht : Tidy v t cs)
    {k : Nat} {p : Str} (hk : cs[k]? = some (.get p))
    (hs : ∀ c P x u, c ∈ cs → Takes v t c P x → (u, P) ∈ t.root.nodes [] → u ≠ [] → u <+: v.full p → u ≠ v.full p →
      P.kids.length ≠ 1) :
    ∃ N, ∀ S, let r := ((start v t cs).run v.delim cs S).pcs k
      r ≠ .crash ∧ (N ≤ S.count k → ∃ a, r = .done a) ∧
      ∀ a, r = .done a → v.query t p = .ok a ∨ a = ⟨default, false, false, true⟩ := by
  have hok := h.ok
  have hl := start_lays (v := v) hok cs
  have hq := query_node (v := v) hok hp hm p
  obtain ⟨N, hN⟩ := leads_get (ms := mems (start v t cs).mem (planOf v t cs)) hok (hp.at (v.full p)) p (fun q m hm => mems_shows hl hm)
    (fun q m hmem h1 h2 => by
      by_cases hq0 : q = []
      · intro hpa
        subst hq0
        have : m = t.root := Option.some.inj (((Tree.nodeAt_some hok).mpr hmem).symm.trans ((Tree.nodeAt_some hok).mpr hok.root_mem))
        rw [this] at hpa
        exact absurd hok.nil hpa
      · refine mems_firm hl hmem fun l T hT hpar => ?_
        obtain ⟨p', t', x, P, g1, g2, rfl⟩ := planOf_some hT
        obtain ⟨_, _, u, g3, g4, _⟩ := takes_spec hok hp hm g2
        obtain ⟨rfl, rfl⟩ := Prod.mk.inj (hok.id_inj g3 hmem hpar)
        exact hs _ P x u (List.mem_of_getElem? g1) ⟨p', t', rfl, g2⟩ g3 hq0 h1 (fun e => by rw [e] at h2; omega))
  refine ⟨N, fun S => ?_⟩
  obtain ⟨h1, h2, h3⟩ := get_result hok hp hm ht hk (fun pc ⟨a, e, _⟩ => ⟨a, e⟩) hN S
  refine ⟨h1, h2, fun a ha => ?_⟩
  obtain ⟨a', e, h4⟩ := h3 a ha
  cases e
  rcases h4 with rfl | ⟨q, m, h4, rfl⟩
  · exact .inr rfl
  · rw [h4] at hq
    exact .inl hq

/-- The keys in the trie when the removals have been made one after the other, in any order: those that are not at or
below a key that is removed. -/
theorem C91_contents (h : Reach K t) (hp : t.Plain v.delim) (hm : v.mode ≠ .up) {cs : List Call} (ht : Tidy v t cs) (q : Str) :
    ((∃ c P x u, c ∈ cs ∧ Takes v t c P x ∧ (u, P) ∈ t.root.nodes [] ∧ u ++ x.path <+: q) → (after v t cs).contents q = none) ∧
    ((¬ ∃ c P x u, c ∈ cs ∧ Takes v t c P x ∧ (u, P) ∈ t.root.nodes [] ∧ u ++ x.path <+: q) →
      (after v t cs).contents q = t.contents q) := by
  have U := upto_all h.ok hp hm ht
  refine ⟨fun ⟨c, P, x, u, h1, h2⟩ => ?_, fun hn => U.keep q fun ⟨i, c, P, x, u, _, h1, h2⟩ =>
    hn ⟨c, P, x, u, List.mem_of_getElem? h1, h2⟩⟩
  obtain ⟨i, hi, e⟩ := List.getElem_of_mem h1
  exact U.cut q ⟨i, c, P, x, u, hi, List.getElem?_eq_some_iff.mpr ⟨hi, e⟩, h2⟩

/-- **C90** … so a lookup of a key at or below one that is removed gives the answer from before the removals
or the one from after them. -/
theorem C90_below (h : Reach K t) (hp : t.Plain v.delim) (hm : v.mode ≠ .up) {cs : List Call} (ht : Tidy v t cs)
    {k : Nat} {p : Str} (hk : cs[k]? = some (.get p))
    (hs : ∀ c P x u, c ∈ cs → Takes v t c P x → (u, P) ∈ t.root.nodes [] → u ≠ [] → u <+: v.full p → u ≠ v.full p →
      P.kids.length ≠ 1)
    {q : Str} {c : Core α} (hr : resolve v.delim t.contents (v.full p) = some (q, c))
    (hc : ∃ c P x u, c ∈ cs ∧ Takes v t c P x ∧ (u, P) ∈ t.root.nodes [] ∧ u ++ x.path <+: q) :
    ∃ N, ∀ S, let r := ((start v t cs).run v.delim cs S).pcs k
      r ≠ .crash ∧ (N ≤ S.count k → ∃ a, r = .done a) ∧
      ∀ a, r = .done a → v.query t p = .ok a ∨ v.query (after v t cs) p = .ok a := by
  obtain ⟨N, hN⟩ := C90_safe h hp hm ht hk hs
  have U := upto_all h.ok hp hm ht
  refine ⟨N, fun S => ?_⟩
  obtain ⟨h1, h2, h3⟩ := hN S
  refine ⟨h1, h2, fun a ha => (h3 a ha).imp id fun e => ?_⟩
  subst e
  have hcut := (C91_contents h hp hm ht q).1 hc
  have hnone : ∀ q', t.contents q' = none → (after v t cs).contents q' = none := by
    intro q' hq'
    by_cases hs : ∃ c P x u, c ∈ cs ∧ Takes v t c P x ∧ (u, P) ∈ t.root.nodes [] ∧ u ++ x.path <+: q'
    · exact (C91_contents h hp hm ht q').1 hs
    · rw [(C91_contents h hp hm ht q').2 hs, hq']
  have hres : resolve v.delim (after v t cs).contents (v.full p) = none := by
    rcases (resolve_cases hr).2 with e | ⟨e, h0, _⟩
    · obtain ⟨c, P, x, u, c1, c2, c3, c4⟩ := hc
      have := (C91_contents h hp hm ht (q ++ [v.delim])).1 ⟨c, P, x, u, c1, c2, c3, c4.trans (List.prefix_append _ _)⟩
      rw [e] at hcut this
      rw [resolve, hcut]
      simp only [this]
      split <;> rfl
    · rw [e] at hcut
      rw [resolve, hnone _ h0]
      simp only [hcut]
      split <;> rfl
  rw [query_at U.ok hm p (U.plain.at _), hres]
  rfl

/-- **C90** A lookup that begins when all removals have returned gives the answer of the trie without the keys. -/
theorem C90_after (h : Reach K t) (hp : t.Plain v.delim) (hm : v.mode ≠ .up) {cs : List Call} (ht : Tidy v t cs)
    {k : Nat} {p : Str} (hk : cs[k]? = some (.get p)) :
    ∃ N, ∀ S0, k ∉ S0 → Returned cs ((start v t cs).run v.delim cs S0) → ∀ S,
      let r := ((start v t cs).run v.delim cs (S0 ++ S)).pcs k
      r ≠ .crash ∧ (N ≤ S.count k → ∃ a, r = .done a) ∧ ∀ a, r = .done a → v.query (after v t cs) p = .ok a := by
  have hok := h.ok
  have U := upto_all hok hp hm ht
  obtain ⟨N, hN⟩ := leads_still U.ok U.plain hm U.holds p
  rw [U.rid] at hN
  refine ⟨N, fun S0 hk0 hret S => ?_⟩
  have hM : ∀ S, (((start v t cs).run v.delim cs S0).run v.delim cs S).mem =
      mems (start v t cs).mem (planOf v t cs) (ends (planOf v t cs) cs.length) := by
    intro S
    rw [← run_append]
    refine returned_mem hok hp hm ht _ fun l p' hl => ?_
    obtain ⟨b, hb⟩ := hret l p' hl
    rw [run_append]
    exact ⟨b, gone_stays S _ hb⟩
  have e3 : ((start v t cs).run v.delim cs S0).pcs k = .enter (v.full p) t.root.id none [] := by
    rw [run_other _ _ hk0]
    simp only [start, hk]; rfl
  have g := still_run (Q := fun r => ∃ a, r = .done a ∧ v.query (after v t cs) p = .ok a) hk (fun pc ⟨a, e, _⟩ => ⟨a, e⟩) (fun _ => 0) S hM
    (by rw [e3]; exact hN _)
  rw [← run_append] at g
  refine ⟨fun e => ?_, fun hn => ?_, fun a e => ?_⟩
  · rw [e] at g
    obtain ⟨a, ha, _⟩ := leads_fixed (fun _ => rfl) g
    cases ha
  · rw [show N - S.count k = 0 from by omega] at g
    exact g.imp fun _ h => h.1
  · rw [e] at g
    obtain ⟨a', ha, hq⟩ := leads_fixed (fun _ => rfl) g
    cases ha
    exact hq

/-- **C90** The condition in `C90_kept` is needed. Whenever a goroutine removes a sibling before the node to go to,
and that is not the last of its siblings, there is a schedule on which the lookup does not find the key, although
the key is in the trie before, after and all the time: `remove` moves the node to a place where the loop has been. -/
theorem C90_missed_fails (h : Reach K t) (hp : t.Plain v.delim) (hm : v.mode ≠ .up) {cs : List Call}
    {k : Nat} {p : Str} (hk : cs[k]? = some (.get p)) {r : Nat} {pr : Str} (hrm : cs[r]? = some (.remove pr)) {P x : Node α}
    (htk : Takes v t (.remove pr) P x) {q : Str} {c : Core α} (hr : resolve v.delim t.contents (v.full p) = some (q, c))
    {u : Str} (hP : (u, P) ∈ t.root.nodes []) {A C : List (Node α)} {n : Node α} (hkids : P.kids = A ++ n :: C)
    (hx : x ∈ A) (hC : C ≠ []) (hq : u ++ n.path <+: q) :
    ∃ S, ((start v t cs).run v.delim cs S).pcs k = .done ⟨default, false, false, true⟩ ∧
      v.query t p ≠ .ok ⟨default, false, false, true⟩ ∧ ∀ t' b, v.remove t pr = .ok (t', b) → v.query t' p = v.query t p := by
  have hok := h.ok
  obtain ⟨m, hrm', rfl⟩ := resolve_node hok hr
  have hwP := (Node.wf_iff P).mp (Node.wf_of_mem hok.wf hP)
  have hnm : n ∈ P.kids := by rw [hkids]; simp
  have hnne := (hwP.2 n hnm).1
  have hnl := List.length_pos_iff.mpr hnne
  have hql := hq.length_le
  rw [List.length_append] at hql
  have hchild : ∀ e ∈ P.kids, (u ++ e.path, e) ∈ t.root.nodes [] := fun e he => Node.nodes_trans hP (by
    rw [Node.mem_nodesL]; exact ⟨e, he, by rw [Node.mem_nodes]; simp⟩)
  -- the path that is searched goes through `P` to `n`
  have hrest : ∃ rest, v.full p = u ++ rest ∧ n.path.head? = rest.head? := by
    obtain ⟨a, z, haz⟩ := List.exists_cons_of_ne_nil hnne
    obtain ⟨w2, hw2⟩ := hq
    rcases (resolve_cases hrm').2 with e | ⟨e, h0, _⟩
    · exact ⟨n.path ++ w2, by rw [← e, ← hw2, List.append_assoc], by rw [haz]; rfl⟩
    · have hup : u <+: v.full p := by
        refine List.prefix_of_prefix_length_le (l₃ := q) ?_ ⟨[v.delim], e.symm⟩ ?_
        · exact ⟨n.path ++ w2, by rw [← hw2, List.append_assoc]⟩
        · have := congrArg List.length e
          rw [List.length_append, List.length_singleton] at this
          omega
      obtain ⟨rest, hrest⟩ := hup
      refine ⟨rest, hrest.symm, ?_⟩
      cases rest with
      | nil =>
        rw [List.append_nil] at hrest
        rw [← hrest, (Tree.nodeAt_some hok).mpr hP] at h0
        cases h0
      | cons b y =>
        rw [← hw2, ← hrest, haz, List.append_assoc, List.append_assoc] at e
        have := congrArg List.head? (List.append_cancel_left e)
        rw [haz]
        simpa using this
  obtain ⟨rest, hw, hh⟩ := hrest
  obtain ⟨S, hS⟩ := missed hok hp hm hk hrm htk hP hkids hx hC hw hh
  have hqn := query_node (v := v) hok hp hm p
  rw [hrm'] at hqn
  refine ⟨S, hS, fun e => ?_, fun t' b e => ?_⟩
  · rw [hqn] at e
    exact ansOf_ne_none _ _ _ (Except.ok.inj e)
  · obtain ⟨pr', t1, e1, hex⟩ := htk
    cases e1
    obtain ⟨_, rfl, u', hu', hxk, _, _⟩ := takes_spec hok hp hm hex
    obtain rfl : u' = u := congrArg Prod.fst (hok.id_inj hu' hP rfl)
    obtain ⟨ok1, ct1⟩ := removeAt_ok hok hP hxk
    have het : t' = { t with root := t.root.modify P.id (Node.removeChild x.id) } := by
      simp only [View.remove, hex, Except.ok.injEq, Prod.mk.injEq] at e
      exact e.1.symm
    subst het
    have hnot : ¬ u' ++ x.path <+: q := by
      intro hpre
      have hxne := (hwP.2 x hxk).1
      obtain ⟨a, y, hay⟩ := List.exists_cons_of_ne_nil hxne
      obtain ⟨b', z, hbz⟩ := List.exists_cons_of_ne_nil hnne
      obtain ⟨w1, hw1⟩ := hpre
      obtain ⟨w2, hw2⟩ := hq
      rw [← hw2, hay, hbz, List.append_assoc, List.append_assoc] at hw1
      have hab := congrArg List.head? (List.append_cancel_left hw1)
      have hxn : x = n := Node.heads_inj hwP.1 hxk hnm (by rw [hay, hbz]; simpa using hab)
      have hnd := kids_ids_nodup hok hP
      rw [hkids, List.map_append, List.map_cons, List.nodup_append] at hnd
      exact hnd.2.2 x.id (List.mem_map.mpr ⟨x, hx, rfl⟩) n.id (by simp) (by rw [hxn])
    have hpl : ({ t with root := t.root.modify P.id (Node.removeChild x.id) } : Tree α).Plain v.delim := by
      intro q' c' hq'
      rw [ct1] at hq'
      split at hq'
      · cases hq'
      · exact hp q' c' hq'
    rw [query_at ok1 hm p (hpl.at _), query_at hok hm p (hp.at _)]
    have hsame : resolve v.delim ({ t with root := t.root.modify P.id (Node.removeChild x.id) } : Tree α).contents (v.full p) = some (q, m.core) := by
      have hcq := resolve_some hr
      rcases (resolve_cases hr).2 with e | ⟨e, h0, hne⟩
      · rw [← e, resolve, ct1, if_neg hnot, hcq]
      · have h0' : ({ t with root := t.root.modify P.id (Node.removeChild x.id) } : Tree α).contents (v.full p) = none := by
          rw [ct1, h0]; split <;> rfl
        rw [resolve, h0', ← e, ct1, if_neg hnot, hcq]
        simp only [if_neg hne]
        rfl
    rw [hsame, hr]

/-- **C90** The condition in `C90_safe` is needed. Whenever a goroutine removes the only child of a node, then
for every key below that node, in the trie or not, there is a schedule on which the lookup gives the answer for the
node: `len(base.children)` at radix/node.go:450 is not 0, and the loop at 460 has nothing to do any more. -/
theorem C90_wrong_fails (h : Reach K t) (hp : t.Plain v.delim) (hm : v.mode ≠ .up) {cs : List Call}
    {k : Nat} {p : Str} (hk : cs[k]? = some (.get p)) {r : Nat} {pr : Str} (hrm : cs[r]? = some (.remove pr)) {P x : Node α}
    (htk : Takes v t (.remove pr) P x) (hkids : P.kids = [x]) {p0 : Str} (h0 : v.full p0 ≠ []) (hP : (v.full p0, P) ∈ t.root.nodes [])
    {b : Char} {y : Str} (hw : v.full p = v.full p0 ++ b :: y) :
    ∃ S a, ((start v t cs).run v.delim cs S).pcs k = .done a ∧ v.query t p0 = .ok a := by
  have hok := h.ok
  have hpath : P.path ≠ [] := by
    rw [Node.mem_nodes] at hP
    rcases hP with e | ⟨ch, hch, hP⟩
    · obtain ⟨e1, e2⟩ := Prod.mk.inj e
      rw [hok.nil] at e1
      exact absurd (by rw [e1]; rfl) h0
    · rw [hok.nil] at hP
      have hwr := (Node.wf_iff _).mp hok.wf
      exact path_ne_nil ch (hwr.2 ch hch).1 (hwr.2 ch hch).2 hP
  obtain ⟨S, hS⟩ := fooled hok hp hm hk hrm htk hP hpath hkids hw
  refine ⟨S, _, hS, ?_⟩
  rw [query_node hok hp hm p0]
  have : resolve v.delim t.nodeAt (v.full p0) = some (v.full p0, P) := by rw [resolve, (Tree.nodeAt_some hok).mpr hP]
  rw [this]

/-- **C91** Several goroutines remove keys at the same time, from different nodes, and each spares the ways of the
others. On every schedule none of them panics, each of them reports that it has removed its key after finitely many
steps of its own, and when all have returned, the trie in memory is the one that the removals would have left one
after the other. -/
theorem C91_tidy (h : Reach K t) (hp : t.Plain v.delim) (hm : v.mode ≠ .up) {cs : List Call} (ht : Tidy v t cs) :
    ∃ N : Nat → Nat, ∀ S, let W := (start v t cs).run v.delim cs S
      (∀ k p, cs[k]? = some (.remove p) → W.pcs k ≠ .crash ∧ W.pcs k ≠ .gone false ∧ (N k ≤ S.count k → W.pcs k = .gone true)) ∧
      (Returned cs W → ∃ D, ∀ d, D ≤ d → read W.mem d t.root.id = (after v t cs).root) := by
  have hok := h.ok
  have U := upto_all hok hp hm ht
  obtain ⟨B, hB⟩ := remove_result hok hp hm ht
  refine ⟨B, fun S => ⟨fun k p hk => ?_, fun hr => ?_⟩⟩
  · obtain ⟨P, x, htk⟩ := ht.takes p (List.mem_of_getElem? hk)
    exact (hB S).2.2 k _ (planOf_takes hk htk)
  · rw [returned_mem hok hp hm ht S hr, ← U.rid]
    exact read_holds _ [] U.holds

/-- **C91** The conditions are needed. Two goroutines remove children of one node, the first of them the same child
as the second or one before it. If the second child is the last, there is a schedule on which the second goroutine panics:
it has found its child at the last index, and the slice has become shorter (radix/node.go:190). -/
theorem C91_panic_fails (h : Reach K t) (hp : t.Plain v.delim) (hm : v.mode ≠ .up) {cs : List Call} {r1 r2 : Nat} (hne : r1 ≠ r2)
    {p1 p2 : Str} (h1 : cs[r1]? = some (.remove p1)) (h2 : cs[r2]? = some (.remove p2)) {P x1 x2 : Node α}
    (ht1 : Takes v t (.remove p1) P x1) (ht2 : Takes v t (.remove p2) P x2) {A : List (Node α)} (hk : P.kids = A ++ [x2]) :
    ∃ S, ((start v t cs).run v.delim cs S).pcs r2 = .crash := by
  have hok := h.ok
  obtain ⟨u, hP, hx1⟩ := ht1.spec hok hp hm
  obtain ⟨S, _, c2, _, c4⟩ := collide hok hp hm hne h1 h2 ht1 ht2
  have hnd := kids_ids_nodup hok hP
  have hlen : P.kids.length = A.length + 1 := by rw [hk]; simp
  have hix2 : (P.kids.map Node.id).idxOf x2.id = A.length :=
    idxOf_at hnd (by rw [List.length_map]; omega) (by simp [hk])
  have hix1 := List.idxOf_lt_length_of_mem (List.mem_map.mpr ⟨x1, hx1, rfl⟩ : x1.id ∈ P.kids.map Node.id)
  rw [List.length_map] at hix1
  rw [hix2] at c2
  refine ⟨S ++ [r2], ?_⟩
  rw [run_append]
  generalize (start v t cs).run v.delim cs S = W at c2 c4
  have L : (W.mem P.id).len = A.length := by
    rw [c4, slid_len, if_pos (by omega)]; omega
  show (if r2 = r2 then _ else _) = _
  rw [if_pos rfl, c2]
  simp only [step]
  rw [L, if_neg (by omega)]

/-- **C91** … If the second child is not the last, there is a schedule on which both goroutines report success, but the
second has removed the child behind its own, and all keys there: the key it was to remove is still in the trie
(unless the first goroutine was to remove the same one). -/
theorem C91_stray_fails (h : Reach K t) (hp : t.Plain v.delim) (hm : v.mode ≠ .up) {cs : List Call} {r1 r2 : Nat} (hne : r1 ≠ r2)
    {p1 p2 : Str} (h1 : cs[r1]? = some (.remove p1)) (h2 : cs[r2]? = some (.remove p2)) {P x1 x2 : Node α}
    (ht1 : Takes v t (.remove p1) P x1) (ht2 : Takes v t (.remove p2) P x2) {u : Str} (hP : (u, P) ∈ t.root.nodes [])
    {A C : List (Node α)} {c : Node α} (hk : P.kids = A ++ x2 :: c :: C) (hx1 : x1 ∈ A ++ [x2]) :
    ∃ S, let W := (start v t cs).run v.delim cs S
      W.pcs r1 = .gone true ∧ W.pcs r2 = .gone true ∧ ∃ D, ∀ d, D ≤ d → ∃ t' : Tree α,
        t'.root = read W.mem d t.root.id ∧ t'.next = t.next ∧ t'.OK ∧
        ∀ q, t'.contents q = if u ++ x1.path <+: q ∨ u ++ c.path <+: q then none else t.contents q :=
  stray h.ok hp hm hne h1 h2 ht1 ht2 hP hk hx1

/-! ### Examples -/

section examples

/-- What `RemoveEx` removes. -/
def taken (v : View) (t : Tree Nat) : Call → Option (Node Nat × Node Nat)
  | .get _ => none
  | .remove p => match v.removeEx t p with
    | .ok (_, r) => r
    | .error _ => none

theorem taken_iff {v : View} {t : Tree Nat} {c : Call} {P x : Node Nat} : Takes v t c P x ↔ taken v t c = some (x, P) := by
  constructor
  · rintro ⟨p, t', rfl, e⟩
    simp only [taken, e]
  · intro e
    cases c with
    | get p => cases e
    | remove p =>
      rw [taken] at e
      split at e
      · next t' r he => exact ⟨p, t', rfl, by rw [he, e]⟩
      · cases e

/-- `Spares`, to be computed. -/
def spares (t : Tree Nat) (P x : Node Nat) (q : Str) : Bool :=
  (t.root.nodes []).all fun um => um.2.id != P.id || (List.range um.2.kids.length).all fun i =>
    match um.2.kids[i]? with
    | none => true
    | some c => !(um.1 ++ c.path).isPrefixOf q ||
      (c.id != x.id && ((um.2.kids.drop (i + 1)).isEmpty || ((um.2.kids.drop (i + 1)).map Node.id).contains x.id))

theorem spares_of {t : Tree Nat} {P x : Node Nat} {q : Str} (h : spares t P x q = true) : Spares t P x q := by
  intro u A c C hP hk hq
  have h1 := List.all_eq_true.mp h _ hP
  simp only [bne_self_eq_false, Bool.false_or] at h1
  have h2 := List.all_eq_true.mp h1 A.length (by rw [List.mem_range, hk]; simp)
  have hc : P.kids[A.length]? = some c := by rw [hk]; simp
  have hd : P.kids.drop (A.length + 1) = C := by
    rw [hk, show A ++ c :: C = (A ++ [c]) ++ C from by simp]
    exact List.drop_left' (by simp)
  rw [hc, hd] at h2
  simp only [List.isPrefixOf_iff_prefix.mpr hq, Bool.not_true, Bool.false_or, Bool.and_eq_true, bne_iff_ne, ne_eq,
    Bool.or_eq_true, List.isEmpty_iff, List.contains_iff_mem] at h2
  exact h2

/-- `Tidy`, to be computed. -/
def tidy (v : View) (t : Tree Nat) (cs : List Call) : Bool :=
  (cs.all fun c => match c with
    | .get _ => true
    | c => (taken v t c).isSome) &&
  ((List.range cs.length).all fun i => (List.range cs.length).all fun j => i == j ||
    match cs[i]?.bind (taken v t), cs[j]?.bind (taken v t) with
    | some (x, P), some (x', P') => P.id != P'.id && (t.root.nodes []).all fun qm => qm.2.id != x.id || spares t P' x' qm.1
    | _, _ => true)

theorem tidy_of {v : View} {t : Tree Nat} {cs : List Call} (h : tidy v t cs = true) : Tidy v t cs := by
  rw [tidy, Bool.and_eq_true] at h
  have two : ∀ (i j : Nat) c c' P x P' x', i ≠ j → cs[i]? = some c → cs[j]? = some c' → Takes v t c P x → Takes v t c' P' x' →
      P.id ≠ P'.id ∧ ∀ q, (q, x) ∈ t.root.nodes [] → Spares t P' x' q := by
    intro i j c c' P x P' x' hij hi hj h1 h2
    have hil := (List.getElem?_eq_some_iff.mp hi).1
    have hjl := (List.getElem?_eq_some_iff.mp hj).1
    have h3 := List.all_eq_true.mp (List.all_eq_true.mp h.2 i (List.mem_range.mpr hil)) j (List.mem_range.mpr hjl)
    rw [hi, hj] at h3
    simp only [Option.bind_some, taken_iff.mp h1, taken_iff.mp h2, beq_eq_false_iff_ne.mpr hij, Bool.false_or, Bool.and_eq_true,
      bne_iff_ne, ne_eq] at h3
    refine ⟨h3.1, fun q hq => spares_of ?_⟩
    have := List.all_eq_true.mp h3.2 _ hq
    simpa using this
  refine ⟨fun p hp => ?_, fun i j c c' P x P' x' hij hi hj h1 h2 => (two i j c c' P x P' x' hij hi hj h1 h2).1,
    fun i j c c' P x P' x' q hij hi hj h1 h2 hq => (two i j c c' P x P' x' hij hi hj h1 h2).2 q hq⟩
  have := List.all_eq_true.mp h.1 _ hp
  obtain ⟨⟨x, P⟩, e⟩ := Option.isSome_iff_exists.mp this
  exact ⟨P, x, taken_iff.mpr e⟩

/-- The trie with the given keys; the value of each is its index. -/
def trie (ks : List String) : Tree Nat :=
  (ks.foldl (fun (t, i) k => ((Race.top.set t k.toList i).1, i + 1)) ((Tree.new : Tree Nat), 1)).1

theorem trie_reach (ks : List String) (h : ∀ k ∈ ks, ':' ∉ View.dash k.toList ∧ '*' ∉ View.dash k.toList) :
    Reach (NoRoute '.') (trie ks) := by
  have : ∀ (ks : List String), (∀ k ∈ ks, ':' ∉ View.dash k.toList ∧ '*' ∉ View.dash k.toList) → ∀ (t : Tree Nat) i, Reach (NoRoute '.') t →
      Reach (NoRoute '.') (ks.foldl (fun (t, i) k => ((Race.top.set t k.toList i).1, i + 1)) (t, i)).1 := by
    intro ks
    induction ks with
    | nil => exact fun _ t i h => h
    | cons k ks ih =>
      intro hk t i h
      refine ih (fun k' h' => hk k' (List.mem_cons_of_mem _ h')) _ _ (.step (.set Race.top k.toList i) h (fun q hq => ?_) rfl)
      have e : Race.top.full k.toList = k.toList := rfl
      rw [Op.key, e] at hq
      obtain rfl : View.dash k.toList = q := Option.some.inj hq
      exact noRoute_of_plain (hk k (by simp)).1 (hk k (by simp)).2
  exact this ks h _ _ .new

/-! Three goroutines in the trie with `a.name`, `a.log.level` and `db.host`. -/

/-- A node that has the data or is a branch. -/
def nd (i : Nat) (p q : String) (d : Option Nat) (ks : List (Node Nat)) : Node Nat :=
  .mk i p.toList ⟨utf8 q.toList, d.getD 0, [], [], none, d.isSome, d.isSome, false⟩ ks

def calls : List Call := [.get "a.log.level".toList, .remove "a.name".toList, .remove "db.host".toList]

theorem calls_tidy : Tidy Race.top Race.three calls := tidy_of (by decide +kernel)

theorem calls_spare (c : Call) (P x : Node Nat) (hc : c ∈ calls) (h : Takes Race.top Race.three c P x) :
    Spares Race.three P x "a.log.level".toList := by
  have key : (calls.all fun c => match taken Race.top Race.three c with
    | none => true
    | some (x, P) => spares Race.three P x "a.log.level".toList) = true := by decide +kernel
  have := List.all_eq_true.mp key c hc
  rw [taken_iff.mp h] at this
  exact spares_of this

example : ∃ N, ∀ S, let r := ((start Race.top Race.three calls).run '.' calls S).pcs 0
    r ≠ .crash ∧ (N ≤ S.count 0 → ∃ a, r = .done a) ∧
      ∀ a, r = .done a → Race.top.query Race.three "a.log.level".toList = .ok a :=
  C90_kept Race.three_reach Race.three_plain.plain (by decide) calls_tidy rfl (q := "a.log.level".toList)
    (c := (nd 4 "log.level" "a.log.level" (some 2) []).core) (by exact rfl) calls_spare

example : ∃ N, ∀ S, let r := ((start Race.top Race.three calls).run '.' calls S).pcs 0
    r ≠ .crash ∧ (N ≤ S.count 0 → ∃ a, r = .done a) ∧
      ∀ a, r = .done a → Race.top.query Race.three "a.log.level".toList = .ok a ∨ a = ⟨0, false, false, true⟩ :=
  C90_safe Race.three_reach Race.three_plain.plain (by decide) calls_tidy rfl (by
    intro c P x u hc h _ _ _ _
    have key : (calls.all fun c => match taken Race.top Race.three c with
      | none => true
      | some (_, P) => P.kids.length != 1) = true := by decide +kernel
    have := List.all_eq_true.mp key c hc
    rw [taken_iff.mp h] at this
    simpa using this)

example : ∃ N, ∀ S0, 0 ∉ S0 → Returned calls ((start Race.top Race.three calls).run '.' calls S0) → ∀ S,
    let r := ((start Race.top Race.three calls).run '.' calls (S0 ++ S)).pcs 0
    r ≠ .crash ∧ (N ≤ S.count 0 → ∃ a, r = .done a) ∧
      ∀ a, r = .done a → Race.top.query (after Race.top Race.three calls) "a.log.level".toList = .ok a :=
  C90_after Race.three_reach Race.three_plain.plain (by decide) calls_tidy rfl

example : ∃ N : Nat → Nat, ∀ S, let W := (start Race.top Race.three calls).run '.' calls S
    (∀ k p, calls[k]? = some (.remove p) →
      W.pcs k ≠ .crash ∧ W.pcs k ≠ .gone false ∧ (N k ≤ S.count k → W.pcs k = .gone true)) ∧
    (Returned calls W → ∃ D, ∀ d, D ≤ d → read W.mem d Race.three.root.id = (after Race.top Race.three calls).root) :=
  C91_tidy Race.three_reach Race.three_plain.plain (by decide) calls_tidy

/-- The keys of a trie. -/
def keys (n : Node Nat) : List String := (n.nodes []).filterMap fun qm => if qm.2.core.hasData then some (String.ofList qm.1) else none

def isGone : Pc Nat → Bool
  | .gone true => true
  | _ => false

def isCrash : Pc Nat → Bool
  | .crash => true
  | _ => false

def answer : Pc Nat → Option (View.Ans Nat)
  | .done a => some a
  | _ => none

/-- On one schedule, by turns. -/
example : let W := (start Race.top Race.three calls).run '.' calls ((List.replicate 60 [0, 1, 2]).flatten)
    answer (W.pcs 0) = some ⟨2, false, true, false⟩ ∧ isGone (W.pcs 1) = true ∧ isGone (W.pcs 2) = true ∧
    keys (read W.mem 5 0) = ["a.log.level"] := by decide +kernel

/-! `a.x`, `a.y` and `a.z` are in the trie. One goroutine removes `a.x`, one looks `a.y` up. -/

def xyz : Tree Nat := trie ["a.x", "a.y", "a.z"]

def nx := nd 3 "x" "a.x" (some 1) []
def ny := nd 4 "y" "a.y" (some 2) []
def nz := nd 6 "z" "a.z" (some 3) []
def na := nd 2 "a." "a." none [nx, ny, nz]

theorem xyz_reach : Reach (NoRoute '.') xyz := trie_reach _ (by decide)

theorem xyz_a : ("a.".toList, na) ∈ xyz.root.nodes [] := (Tree.nodeAt_some xyz_reach.ok).mp (by exact rfl)

theorem xyz_takes : Takes Race.top xyz (.remove "a.x".toList) na nx ∧ Takes Race.top xyz (.remove "a.y".toList) na ny ∧
    Takes Race.top xyz (.remove "a.z".toList) na nz :=
  ⟨taken_iff.mpr (by exact rfl), taken_iff.mpr (by exact rfl), taken_iff.mpr (by exact rfl)⟩

example : ∃ S, ((start Race.top xyz [.get "a.y".toList, .remove "a.x".toList]).run '.' [.get "a.y".toList, .remove "a.x".toList] S).pcs 0
      = .done ⟨0, false, false, true⟩ ∧
    Race.top.query xyz "a.y".toList ≠ .ok ⟨0, false, false, true⟩ ∧
    ∀ t' b, Race.top.remove xyz "a.x".toList = .ok (t', b) → Race.top.query t' "a.y".toList = Race.top.query xyz "a.y".toList :=
  C90_missed_fails (v := Race.top) (k := 0) (r := 1) xyz_reach xyz_reach.plain (by decide) rfl rfl xyz_takes.1 (q := "a.y".toList)
    (c := ny.core) (by exact rfl) xyz_a (A := [nx]) (C := [nz]) (n := ny) rfl (by simp) (by simp) (by decide)

/-- The lookup of a removed key, or of one below it. -/
example : ∃ N, ∀ S, let r := ((start Race.top xyz [.get "a.x".toList, .remove "a.x".toList]).run '.'
      [.get "a.x".toList, .remove "a.x".toList] S).pcs 0
    r ≠ .crash ∧ (N ≤ S.count 0 → ∃ a, r = .done a) ∧
      ∀ a, r = .done a → Race.top.query xyz "a.x".toList = .ok a ∨
        Race.top.query (after Race.top xyz [.get "a.x".toList, .remove "a.x".toList]) "a.x".toList = .ok a :=
  C90_below (v := Race.top) (k := 0) xyz_reach xyz_reach.plain (by decide) (tidy_of (by decide +kernel)) rfl (by
    intro c P x u hc h _ _ _ _
    simp only [List.mem_cons, List.not_mem_nil, or_false] at hc
    rcases hc with rfl | rfl
    · have := taken_iff.mp h; cases this
    · have := (taken_iff.mp xyz_takes.1).symm.trans (taken_iff.mp h)
      cases this
      decide) (q := "a.x".toList) (c := nx.core) (by exact rfl)
    ⟨.remove "a.x".toList, na, nx, "a.".toList, by simp, xyz_takes.1, xyz_a, by decide⟩

/-- Two goroutines remove `a.x` and `a.z`: a panic. Two remove `a.x` and `a.y`: `a.z` is gone and `a.y` is not. Two
remove `a.x`: so is `a.y`. -/
example : ∃ S, ((start Race.top xyz [.remove "a.x".toList, .remove "a.z".toList]).run '.'
    [.remove "a.x".toList, .remove "a.z".toList] S).pcs 1 = .crash :=
  C91_panic_fails (v := Race.top) (r1 := 0) (r2 := 1) xyz_reach xyz_reach.plain (by decide) (by decide) rfl rfl xyz_takes.1
    xyz_takes.2.2 (A := [nx, ny]) rfl

example : ∃ S, let cs := [.remove "a.x".toList, .remove "a.y".toList]; let W := (start Race.top xyz cs).run '.' cs S
    W.pcs 0 = .gone true ∧ W.pcs 1 = .gone true ∧ ∃ D, ∀ d, D ≤ d → ∃ t' : Tree Nat,
      t'.root = read W.mem d xyz.root.id ∧ t'.next = xyz.next ∧ t'.OK ∧
      ∀ q, t'.contents q = if "a.x".toList <+: q ∨ "a.z".toList <+: q then none else xyz.contents q :=
  C91_stray_fails (v := Race.top) (r1 := 0) (r2 := 1) xyz_reach xyz_reach.plain (by decide) (by decide) rfl rfl xyz_takes.1
    xyz_takes.2.1 xyz_a (A := [nx]) (c := nz) (C := []) rfl (by simp)

example : ∃ S, let cs := [.remove "a.x".toList, .remove "a.x".toList]; let W := (start Race.top xyz cs).run '.' cs S
    W.pcs 0 = .gone true ∧ W.pcs 1 = .gone true ∧ ∃ D, ∀ d, D ≤ d → ∃ t' : Tree Nat,
      t'.root = read W.mem d xyz.root.id ∧ t'.next = xyz.next ∧ t'.OK ∧
      ∀ q, t'.contents q = if "a.x".toList <+: q ∨ "a.y".toList <+: q then none else xyz.contents q :=
  C91_stray_fails (v := Race.top) (r1 := 0) (r2 := 1) xyz_reach xyz_reach.plain (by decide) (by decide) rfl rfl xyz_takes.1
    xyz_takes.1 xyz_a (A := []) (c := ny) (C := [nz]) rfl (by simp)

/-! `ab` and `abc` are in the trie; `abc` is the only child of `ab`. -/

def abc : Tree Nat := trie ["ab", "abc"]

theorem abc_reach : Reach (NoRoute '.') abc := trie_reach _ (by decide)

def nc := nd 4 "c" "abc" (some 2) []
def nab := nd 2 "ab" "ab" (some 1) [nc]

/-- A goroutine that looks `abx` up, which nobody has ever set, gets the value of `ab`. -/
example : ∃ S a, ((start Race.top abc [.get "abx".toList, .remove "abc".toList]).run '.'
      [.get "abx".toList, .remove "abc".toList] S).pcs 0 = .done a ∧ Race.top.query abc "ab".toList = .ok a :=
  C90_wrong_fails (v := Race.top) (k := 0) (r := 1) (p0 := "ab".toList) abc_reach abc_reach.plain (by decide) rfl rfl
    (taken_iff.mpr (by exact rfl) : Takes Race.top abc (.remove "abc".toList) nab nc) rfl (by decide)
    ((Tree.nodeAt_some abc_reach.ok).mp (by exact rfl)) (b := 'x') (y := []) (by exact rfl)

end examples

/-- **C91** … Two goroutines remove `abc`: there is a schedule on which the second removes `ab` as well. -/
theorem C91_parent_fails :
    ∃ (t : Tree Nat) (p : Str) (S : List Nat), Reach (NoRoute '.') t ∧ keys t.root = ["ab", "abc"] ∧ p = "abc".toList ∧
      let W := (start Race.top t [.remove p, .remove p]).run '.' [.remove p, .remove p] S
      isGone (W.pcs 0) = true ∧ isGone (W.pcs 1) = true ∧ keys (read W.mem 5 t.root.id) = [] :=
  ⟨abc, "abc".toList, List.replicate 12 1 ++ List.replicate 40 0 ++ List.replicate 40 1, abc_reach, by decide +kernel, rfl, by decide +kernel⟩

end Prune
end Verif

import Verif.Lemmas.Retriever
import Verif.Props.Write
/-
C34 termination of lookups, C35 recursive-up lookups.
-/
namespace Verif
variable {α : Type}

/-! ## C34 -/

namespace Node

theorem masterLoop_total {d : Char} (hd : d ≠ ':') {n : Node α} (hp : n.path.getLast? ≠ some ':') {w : Str} (hw : w ≠ [])
    (l : Bool) (par : Option (Node α)) (kv : KV) : ∃ r, masterLoop d n w l par kv = .ok r := by
  simp only [masterLoop]
  split
  · rename_i hlt
    have hlt' : (cmpLoop d n.path w l).1 < n.path.length := by omega
    obtain ⟨r, hr⟩ := retriever_total hd hp hw (hk := !n.kids.isEmpty) (retrFuel n.path.length w.length)
      (n.path.getD (cmpLoop d n.path w l).1 d) (cmpLoop d n.path w l).1 (cmpLoop d n.path w l).1 (cmpLoop d n.path w l).2 kv
      (by
        intro h _
        simp only [List.getD_eq_getElem?_getD, List.getElem?_eq_getElem hlt', Option.getD_some] at h
        rw [List.getElem?_eq_getElem hlt', h])
      (by
        have h1 : n.path.length + 2 ≤ (n.path.length + 2) * (w.length + 2) := Nat.le_mul_of_pos_right _ (by omega)
        simp only [retrFuel, Nat.mul_assoc]
        omega)
    rw [hr]
    obtain ⟨r, kv'⟩ := r
    cases r <;> exact ⟨_, rfl⟩
  · exact ⟨_, rfl⟩

theorem matchR_total {d : Char} (hd : d ≠ ':') (n : Node α) : ∀ (u : Str), (∀ x ∈ n.nodes u, x.2.path.getLast? ≠ some ':') →
    ∀ (w : Str) (l : Bool) (par : Option (Node α)) (kv : KV), ∃ r, matchR d n w l par kv = .ok r := by
  induction n using ind with
  | h i p c k ih =>
    intro u hn w l par kv
    by_cases hw : w = []
    · exact ⟨_, by rw [matchR, if_pos hw]⟩
    · rw [matchR_eq _ _ _ _ _ _ hw]
      obtain ⟨⟨m, kv'⟩, hm⟩ := masterLoop_total hd (n := mk i p c k) (hn (u ++ p, mk i p c k) (by rw [nodes_eq]; simp)) hw l par kv
      rw [hm]
      cases m with
      | ret r => exact ⟨_, rfl⟩
      | go src dst f r =>
        simp only
        split
        · split
          · exact ⟨_, rfl⟩
          · simp only [kids_mk]
            have hk : ∀ a ∈ k, ∀ x ∈ a.nodes (u ++ p), x.2.path.getLast? ≠ some ':' := by
              intro a ha x hx
              refine hn x ?_
              rw [mem_nodes]
              exact .inr ⟨a, ha, hx⟩
            generalize List.drop _ w = w'
            generalize hself : (mk i p c k) = self
            clear hself hn hm
            have : ∀ (ks : List (Node α)), (∀ a ∈ ks, a ∈ k) → ∀ kv', ∃ r, matchKids d self ks w' f kv' = .ok r := by
              intro ks
              induction ks with
              | nil => intro _ kv'; exact ⟨_, by rw [matchKids]⟩
              | cons a as iha =>
                intro hs kv'
                obtain ⟨⟨r, kv''⟩, hr⟩ := ih a (hs a (by simp)) (u ++ p) (hk a (hs a (by simp))) w' f (some self) kv'
                rw [matchKids, hr]
                simp only
                split
                · exact ⟨_, rfl⟩
                · cases as with
                  | nil => exact ⟨_, rfl⟩
                  | cons b bs => exact iha (fun n hn => hs n (by simp [hn])) kv''
            exact this k (fun _ h => h) kv'
        · exact ⟨_, rfl⟩

end Node

theorem search_total {v : View} {t : Tree α} (hd : v.delim ≠ ':') (hn : ∀ x ∈ t.root.nodes [], x.2.path.getLast? ≠ some ':') (w : Str) :
    ∃ r, v.search t w = .ok r := by
  have hm := fun w kv => Node.matchR_total hd t.root [] hn w false none kv
  have hup : ∀ fuel w kv, ∃ r, View.retryUp v.delim t.root fuel w kv = .ok r := by
    intro fuel
    induction fuel with
    | zero => intro w kv; exact ⟨_, rfl⟩
    | succ fuel ih =>
      intro w kv
      simp only [View.retryUp]
      split
      · obtain ⟨⟨r, kv'⟩, hr⟩ := hm (joinWith v.delim (List.take ((splitOn v.delim w).length - 2) (splitOn v.delim w) ++ List.drop ((splitOn v.delim w).length - 1) (splitOn v.delim w))) kv
        rw [hr]
        simp only
        split
        · exact ⟨_, rfl⟩
        · exact ih _ _
      · exact ⟨_, rfl⟩
  simp only [View.search]
  obtain ⟨⟨r, kv'⟩, hr⟩ := hm w []
  rw [hr]
  simp only
  split
  · exact ⟨_, rfl⟩
  · split
    · obtain ⟨⟨r2, kv2⟩, hr2⟩ := hup (w.length + 1) w kv'
      rw [hr2]
      cases r2 <;> exact ⟨_, rfl⟩
    · exact ⟨_, rfl⟩

theorem Tree.fragment_ends {t : Tree α} (h : t.OK) (he : ∀ q c, t.contents q = some c → q.getLast? ≠ some ':') :
    ∀ x ∈ t.root.nodes [], x.2.path.getLast? ≠ some ':' := by
  intro x hx e
  obtain ⟨q, m⟩ := x
  have hc := (Tree.contents_node h).mpr ⟨m, hx, rfl⟩
  refine he q _ hc ?_
  have hw := endsWith_of_mem h hx ':'
  simp only at e
  have h1 : m.endsWith ':' = true := by simp [Node.endsWith, e]
  rw [hw] at h1
  have := Node.endsW_concat h1
  obtain ⟨s, rfl⟩ := this
  simp

variable [Inhabited α]

/-- **C34**, for trees with route patterns: every lookup, in every mode, returns, provided ':' is not the
delimiter and no entry's full path ends with ':'. Missing: entries whose path ends with ':', where it is
false (`C34_hang_fails`). -/
theorem C34_terminates_partial {v : View} {t : Tree α} (h : t.OK) (hd : v.delim ≠ ':')
    (he : ∀ q c, t.contents q = some c → q.getLast? ≠ some ':') (p : Str) :
    (∃ b, v.has t p = .ok b) ∧ (∃ a, v.query t p = .ok a) ∧ (∃ x, v.mustGet t p = .ok x) ∧ (∃ r, v.remove t p = .ok r) := by
  obtain ⟨⟨n, par, pm, kv⟩, hs⟩ := search_total hd (Tree.fragment_ends h he) (v.full p)
  have hq : ∃ a, v.query t p = .ok a := by
    simp only [View.query, View.queryKV, hs]
    cases n with
    | none => cases pm <;> exact ⟨_, rfl⟩
    | some n => cases pm <;> exact ⟨_, rfl⟩
  refine ⟨⟨_, by rw [View.has, hs]⟩, hq, ?_, ?_⟩
  · obtain ⟨a, ha⟩ := hq
    exact ⟨_, by rw [View.mustGet, ha]⟩
  · simp only [View.remove, View.removeEx, hs]
    rcases n with _ | n <;> rcases par with _ | par <;> cases pm <;> try exact ⟨_, rfl⟩
    by_cases hx : par.kids.any (fun k => k.id = n.id) <;> simp only [hx, if_true] <;> exact ⟨_, rfl⟩

/-- **C34** for histories of `Set`, in terms of the keys alone: no key ends with ':' and no two keys part
right after a ':' (as "/:id" and "/:name" do). The condition on single keys is the case `a = b`. -/
theorem C34_terminates_sets_partial (h : List (View × Str × α)) {v : View} (hd : v.delim ≠ ':')
    (h2 : ∀ a ∈ h, ∀ b ∈ h, (lcp (keyOf a.1 a.2.1) (keyOf b.1 b.2.1)).getLast? ≠ some ':') (p : Str) :
    ∃ b, v.has (sets h Tree.new) p = .ok b := by
  have D := sets_denotes h
  have hmem : ∀ k, (lastWrite (assigns h) k).isSome → ∃ a ∈ h, k = keyOf a.1 a.2.1 := by
    intro k hk
    rw [lastWrite_isSome] at hk
    obtain ⟨x, hx⟩ := hk
    rw [assigns, List.mem_map] at hx
    obtain ⟨a, ha, e⟩ := hx
    exact ⟨a, ha, by rw [Prod.mk.injEq] at e; exact e.1.symm⟩
  refine (C34_terminates_partial (v := v) D.ok hd ?_ p).1
  intro q c hc
  have hdom := (D.dom q).mp (by rw [hc]; rfl)
  rcases hdom with rfl | ⟨k1, k2, hk1, hk2, rfl⟩
  · simp
  · obtain ⟨a, ha, rfl⟩ := hmem _ hk1
    obtain ⟨b, hb, rfl⟩ := hmem _ hk2
    exact h2 a ha b hb

/-- Lookups can run forever: with the three routes "/:id/a", "/:name/b" and "/static" every lookup of
"/x/y" hangs. -/
theorem C34_hang_fails : ∃ (v : View) (t : Tree Nat), v.delim = '/' ∧
    t = sets [(v, "/:id/a".toList, 1), (v, "/:name/b".toList, 2), (v, "/static".toList, 3)] Tree.new ∧
    v.has t "/x/y".toList = .error .hang ∧ v.mustGet t "/x/y".toList = .error .hang :=
  ⟨View.new '/', _, rfl, rfl, by decide +kernel, by decide +kernel⟩

/-- The answer `hang` of the model is faithful: whenever the inner loop of the code is entered from the
comparing loop and the model reports `hang`, the loop does not end after any number of rounds; and an
answer of the loop does not depend on the bound. -/
theorem C34_hang_is_divergence {d : Char} {path word : Str} {hk : Bool} {ch : Char} {src dst : Nat} {lrid : Bool} {kv : KV}
    (hs : src ≤ path.length) (hd : dst ≤ word.length) :
    (Node.retriever d path word hk (Node.retrFuel path.length word.length) ch src dst lrid kv = .error .hang ↔
      ∀ f, Node.retriever d path word hk f ch src dst lrid kv = .error .hang) ∧
    ∀ r, Node.retriever d path word hk (Node.retrFuel path.length word.length) ch src dst lrid kv = .ok r ↔
      ∃ f, Node.retriever d path word hk f ch src dst lrid kv = .ok r := by
  have hh : ∀ f x, Node.retriever d path word hk f ch src dst lrid kv = .error x → x = .hang := by
    intro f
    induction f generalizing ch src dst lrid kv with
    | zero => intro x h; simp [Node.retriever] at h; exact h.symm
    | succ f ih =>
      intro x h
      cases h1 : Node.rstep d path word hk (ch, src, dst, lrid) with
      | none => obtain ⟨r, hr⟩ := Node.retriever_none h1 kv; rw [hr] at h; simp at h
      | some s' =>
        obtain ⟨kv', hr⟩ := Node.retriever_some h1 kv
        rw [hr] at h
        have := Node.rstep_bounds h1
        exact ih this.1 this.2.1 x h
  refine ⟨⟨Node.retriever_adequate hs hd, fun h => h _⟩, fun r => ⟨fun h => ⟨_, h⟩, ?_⟩⟩
  rintro ⟨f, hf⟩
  cases hr : Node.retriever d path word hk (Node.retrFuel path.length word.length) ch src dst lrid kv with
  | error x =>
    have hx := hh _ _ hr
    subst hx
    rw [Node.retriever_adequate hs hd hr f] at hf
    simp at hf
  | ok r' =>
    rcases Nat.le_total f (Node.retrFuel path.length word.length) with h1 | h1
    · rw [Node.retriever_mono _ _ _ _ _ _ hf _ h1] at hr; exact hr.symm
    · rw [Node.retriever_mono _ _ _ _ _ _ hr _ h1] at hf; exact hf

/-- The condition of `C34_terminates_sets_partial` is met by ordinary routes. -/
example : ∃ b, (View.new '/').has (sets [(View.new '/', "/:id/a".toList, 1), (View.new '/', "/:id/b".toList, 2), (View.new '/', "/static".toList, 3)] (Tree.new : Tree Nat)) "/x/y".toList = .ok b :=
  C34_terminates_sets_partial _ (by decide) (by decide +kernel) _

end Verif

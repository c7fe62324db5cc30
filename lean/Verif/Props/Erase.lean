import Verif.Props.TTL
/-
C66: erasing a key from the callback of its timer.
-/
namespace Verif
namespace Sys
variable {α : Type} [Inhabited α]

/-- What a job knows about a node that is not in its tree does not change. -/
theorem step_branch {s s' : Sys α} {x : Step α} (e : s.step x = .ok s') {i : Nat} {j : Job} (hj : s.jobs[i]? = some j) 
    (hn : byId (s'.trees j.tree) j.node = Option.none) :
    ∃ j', s'.jobs[i]? = some j' ∧ j'.tree = j.tree ∧ j'.node = j.node ∧ j'.branch = j.branch := by
  have same : ∀ {s' : Sys α}, s'.jobs = s.jobs →
      ∃ j', s'.jobs[i]? = some j' ∧ j'.tree = j.tree ∧ j'.node = j.node ∧ j'.branch = j.branch :=
    fun e1 => ⟨j, by rw [e1, hj], rfl, rfl, rfl⟩
  have wr : ∀ (s1 : Sys α) (k : Nat) (t : Tree α), byId ((s1.write k t).trees j.tree) j.node = Option.none →
      (∃ j', s1.jobs[i]? = some j' ∧ j'.tree = j.tree ∧ j'.node = j.node ∧ j'.branch = j.branch) →
      ∃ j', (s1.write k t).jobs[i]? = some j' ∧ j'.tree = j.tree ∧ j'.node = j.node ∧ j'.branch = j.branch := by
    rintro s1 k t hn ⟨j', h1, h2, h3, h4⟩
    obtain ⟨r1, r2, -⟩ := refresh_same k t j'
    refine ⟨refresh k t j', by simp [Sys.write, h1], by rw [r1, h2], by rw [r2, h3], ?_⟩
    rw [refresh]
    split
    · rename_i hk
      simp only [Sys.write, setTree, ← h2, hk, if_true] at hn
      rw [h3, hn]
      exact h4
    · exact h4
  have hadd : ∀ (h : Nat) (a : Handle) (k : Nat) (n : Node α) (ns : Int), (s.add h a k n ns).jobs[i]? = some j := by
    intro h a k n ns
    obtain ⟨_, _, e3, _⟩ := arm_same s h a
    unfold Sys.add
    simp only
    split
    · rw [e3, hj]
    · simp only [e3]
      have hi : i < s.jobs.length := (List.getElem?_eq_some_iff.mp hj).1
      rw [List.getElem?_append_left hi, hj]
  have hset : ∀ (i' : Nat) (j1 j2 : Job), s.jobs[i']? = some j1 → j2.tree = j1.tree → j2.node = j1.node → j2.branch = j1.branch → ∃ j', (s.jobs.set i' j2)[i]? = some j' ∧ j'.tree = j.tree ∧ j'.node = j.node ∧ j'.branch = j.branch := by
    intro i' j1 j2 h1 h2 h3 h4
    by_cases hii : i' = i
    · subst hii
      rw [hj] at h1
      obtain rfl := Option.some.inj h1
      exact ⟨j2, List.getElem?_set_self (List.getElem?_eq_some_iff.mp hj).1, h2, h3, h4⟩
    · exact ⟨j, by rw [List.getElem?_set_ne hii, hj], rfl, rfl, rfl⟩
  cases x with
  | op k o =>
    simp only [Sys.step] at e
    split at e
    · cases hr : o.run (s.trees k) with
      | error y => rw [hr] at e; simp at e
      | ok t =>
        rw [hr] at e
        obtain rfl := Except.ok.inj e
        exact wr s k t hn (same rfl)
    · obtain rfl := Except.ok.inj e; exact same rfl
  | derive i v =>
    simp only [Sys.step] at e
    split at e
    · obtain rfl := Except.ok.inj e; exact same rfl
    · obtain rfl := Except.ok.inj e
      exact same (addHandle_same ..).2.2.1
  | dup i =>
    simp only [Sys.step] at e
    split at e
    · obtain rfl := Except.ok.inj e; exact same rfl
    · obtain rfl := Except.ok.inj e
      exact same (by rw [(addHandle_same ..).2.2.1]; rfl)
  | setPrefix i p =>
    simp only [Sys.step] at e
    split at e <;> (obtain rfl := Except.ok.inj e; exact same rfl)
  | setTTL h p ns =>
    simp only [Sys.step, Sys.setTTL] at e
    split at e
    · obtain rfl := Except.ok.inj e; exact same rfl
    · rename_i a ha
      cases hs : a.view.search (s.trees a.tree) (a.view.full p) with
      | error y => rw [hs] at e; simp [Except.map] at e
      | ok r =>
        obtain ⟨n, pr, pm, kv⟩ := r
        rw [hs] at e
        cases n with
        | none => obtain rfl := Except.ok.inj e; exact same rfl
        | some n =>
          cases pm with
          | true => obtain rfl := Except.ok.inj e; exact same rfl
          | false => obtain rfl := Except.ok.inj e; exact ⟨j, hadd .., rfl, rfl, rfl⟩
  | setTTLFast h k id' ns =>
    simp only [Sys.step] at e
    split at e
    · split at e
      · obtain rfl := Except.ok.inj e; exact ⟨j, hadd .., rfl, rfl, rfl⟩
      · obtain rfl := Except.ok.inj e; exact same rfl
    · obtain rfl := Except.ok.inj e; exact same rfl
  | close h =>
    obtain rfl := Except.ok.inj e
    unfold Sys.close
    split
    · rename_i k v τ _
      refine ⟨if j.ttl = τ ∧ j.phase = .parked then { j with phase := .over } else j, by simp [hj], ?_⟩
      split
      · exact ⟨rfl, rfl, rfl⟩
      · exact ⟨rfl, rfl, rfl⟩
    · exact same rfl
  | expire i' =>
    obtain rfl := Except.ok.inj e
    simp only [List.getElem?_modify, hj]
    by_cases hii : i' = i
    · refine ⟨expire j, by simp [hii], rfl, rfl, rfl⟩
    · exact ⟨j, by simp [hii], rfl, rfl, rfl⟩
  | enter i' b =>
    simp only [Sys.step] at e
    split at e
    · obtain rfl := Except.ok.inj e; exact same rfl
    · rename_i j1 hj1
      obtain rfl := Except.ok.inj e
      refine hset i' j1 _ hj1 ?_ ?_ ?_
      · unfold Sys.enter; split <;> rfl
      · unfold Sys.enter; split <;> rfl
      · unfold Sys.enter; split <;> rfl
  | ring i' =>
    simp only [Sys.step] at e
    split at e
    · obtain rfl := Except.ok.inj e; exact same rfl
    · rename_i j1 hj1
      have h0 := hset i' j1 { j1 with phase := .over } hj1 rfl rfl rfl
      split at e
      · rcases fire_spec e with rfl | ⟨k, o, t, h1, h2, rfl⟩
        · exact h0
        · exact wr _ k t hn h0
      · obtain rfl := Except.ok.inj e; exact same rfl

omit [Inhabited α] in
theorem byId_none {t : Tree α} {i : Nat} : byId t i = Option.none ↔ i ∉ t.root.ids := by
  constructor
  · intro e h
    rw [byId, Node.walk_eq [], List.find?_eq_none] at e
    rw [Node.ids, List.mem_map] at h
    obtain ⟨a, ha, rfl⟩ := h
    have := e a.2 (List.mem_map.mpr ⟨a, ha, rfl⟩)
    simp at this
  · intro h
    cases e : byId t i with
    | none => rfl
    | some n =>
      obtain ⟨q, h1, rfl⟩ := byId_some e
      exact absurd (Node.id_mem_ids h1) h

/-- The node of a job has left its tree. -/
def Left (s : Sys α) (j : Job) : Prop := byId (s.trees j.tree) j.node = Option.none ∧ j.node < (s.trees j.tree).next

/-- A node that left its tree does not return, and its job does not notice anything. -/
theorem Run.left {P : Str → Prop} {s s' : Sys α} (r : Run P s s') (h : Inv s) {i : Nat} {j : Job} (hj : s.jobs[i]? = some j) (hl : Left s j) :
    Inv s' ∧ ∃ j', s'.jobs[i]? = some j' ∧ j'.tree = j.tree ∧ j'.node = j.node ∧ j'.branch = j.branch ∧ Left s' j' := by
  induction r with
  | refl => exact ⟨h, j, hj, rfl, rfl, rfl, hl⟩
  | @step s1 s2 x _ _ e ih =>
    obtain ⟨h1, j1, e1, e2, e3, e4, e5⟩ := ih
    have hk := h1.jtree j1 (List.mem_of_getElem? e1)
    have hl2 : byId (s2.trees j1.tree) j1.node = Option.none ∧ j1.node < (s2.trees j1.tree).next := by
      rcases (step_trees h1 e).2 j1.tree hk with e6 | ⟨o, e6, _⟩
      · rw [e6]; exact e5
      · obtain ⟨f1, f2⟩ := Op.run_ids (h1.ok _) e6
        refine ⟨byId_none.mpr fun hm => ?_, Nat.lt_of_lt_of_le e5.2 f2⟩
        rcases f1 _ hm with f | f
        · exact byId_none.mp e5.1 f
        · exact absurd f.1 (Nat.not_le.mpr e5.2)
    obtain ⟨j2, g1, g2, g3, g4⟩ := step_branch e e1 hl2.1
    exact ⟨h1.step e, j2, g1, by rw [g2, e2], by rw [g3, e3], by rw [g4, e4], by rw [Left, g2, g3]; exact hl2⟩

theorem Run.trans {P : Str → Prop} {a b c : Sys α} (r : Run P a b) (r' : Run P b c) : Run P a c := by
  induction r' with
  | refl => exact r
  | step x _ hk e ih => exact .step x ih hk e

/-- **C66.** The timer of a leaf entry that has left its tree, by any call, never changes an entry any more: whatever runs in
between, the key may even be written again, nothing happens when it rings. -/
theorem C66_left {P : Str → Prop} {d : Char} {s s' : Sys α} (r0 : Run P (Sys.new d) s) {i : Nat} {j : Job} (hj : s.jobs[i]? = some j)
    (hb : j.branch = false) (hl : Left s j) (r : Run P s s') :
    ∃ s'', s'.step (.ring i) = .ok s'' ∧ ∀ k, (s''.trees k).root = (s'.trees k).root := by
  obtain ⟨_, j', h1, _, _, h4, h5⟩ := r.left (r0.inv (Inv.new d)) hj hl
  have r' := r0.trans r
  refine C26_detached r' h1 (by rw [h4, hb]) fun q m hm e => ?_
  exact byId_none.mp h5.1 (e ▸ Node.id_mem_ids hm)

/-- **C66.** The recipe of the README (lines 60-66): the callback of a timer removes `node.Key()` from the trie. Take a job that points to a
leaf entry `q`, any continuation that neither splits nor removes it, and let the timer ring. The call in the callback removes the entry `q`, with
everything below it and nothing else; `Has` is then false for it. Whatever happens between that call and the clearing that follows it
(radix/trie.go:157-162), this clearing changes nothing. Missing for the full claim: an entry that was split, a view with a prefix, and keys that
extend the erased one (`C66_split_fails`, `C66_prefix_fails`, `C66_below_fails`). -/
theorem C66_erase_partial {d : Char} {s s' : Sys α} (r : Run (NoRoute d) (Sys.new d) s) (r2 : Run (NoRoute d) s s') {i : Nat} {j : Job}
    (hj : s.jobs[i]? = some j) (h0 : j.tree = 0) {q : Str} {m : Node α} (hm : (q, m) ∈ (s.trees 0).root.nodes []) (hi : m.id = j.node)
    (hl : m.core.leaf = true) (hq : q ≠ []) (quiet : Quiet 0 q s s') {v : View} (hv : v.pre = []) (hd : v.delim = d) :
    ∃ j' s1, s'.jobs[i]? = some j' ∧ s'.step (.op 0 (.remove v (runes j'.pathS))) = .ok s1 ∧
      (∀ x, (s1.trees 0).contents x = if q <+: x then Option.none else (s'.trees 0).contents x) ∧
      (∀ k, k ≠ 0 → s1.trees k = s'.trees k) ∧
      (∀ w : View, w.delim = d → w.mode ≠ .up → ∀ p, q <+: w.full p → w.has (s1.trees 0) p = .ok false) ∧
      ∀ s2, Run (NoRoute d) s1 s2 →
        ∃ s3, s2.step (.ring i) = .ok s3 ∧ ∀ k, (s3.trees k).root = (s2.trees k).root := by
  have hinv := r.inv (Inv.new d)
  obtain ⟨h', hk0, ⟨m', e1, e2, e3⟩, j', f1, f2, f3, _⟩ := quiet.keep hinv (h0 ▸ hinv.jtree j (List.mem_of_getElem? hj)) hm hj
  have rr := r.trans r2
  have hre := rr.reach.2
  have h2 : Reach (NoRoute v.delim) (s'.trees 0) := by rw [hd]; exact hre
  have ht0 : j'.tree = 0 := by rw [f2, h0]
  have hid : m'.id = j'.node := by rw [e2, hi, f3]
  obtain ⟨s1, s2⟩ := h'.seen j' (List.mem_of_getElem? f1) q m' (by rw [ht0]; exact e1) hid
  have hcon := (Tree.contents_node h2.ok).mpr ⟨m', e1, rfl⟩
  have hleaf : m'.core.leaf = true := by rw [e3, hl]
  have hkey := (hre.inv keyInv_leaf).2 q m'.core hcon hleaf
  have hfull : v.full q = q := by rw [View.full, hv]; simp
  obtain ⟨t', n', pr, g1, g2, g3, g4, g5⟩ := removeEx_hit (v := v) (p := q) h2.ok h2.plain (by rw [hfull]; exact hq)
    (by rw [hfull]; exact resolve_at hcon)
  have hop : (Op.remove v (runes j'.pathS)).run (s'.trees 0) = .ok t' := by
    rw [s2, hkey, runes_utf8, Op.run, View.remove, g1]; rfl
  have hstep : s'.step (.op 0 (.remove v (runes j'.pathS))) = .ok (s'.write 0 t') := by
    simp only [Sys.step, hop]
    rw [if_pos hk0]
  have hrun : Run (NoRoute d) (Sys.new d) (s'.write 0 t') := .step _ rr (by
    intro k o w hx hw
    obtain ⟨rfl, rfl⟩ := Step.op.inj hx
    simp [Op.key] at hw) hstep
  have htree : (s'.write 0 t').trees 0 = t' := by simp [Sys.write, setTree]
  refine ⟨j', s'.write 0 t', f1, hstep, ?_, ?_, ?_, ?_⟩
  · intro x; rw [htree]; exact g5 x
  · intro k hk; simp only [Sys.write, setTree, if_neg hk]
  · intro w hw hwm p hp
    have h3 : Reach (NoRoute w.delim) t' := by
      have := hrun.reach.2
      rw [htree] at this
      rw [hw]; exact this
    rw [htree, has_plain h3.ok h3.plain hwm]
    have : resolve w.delim t'.contents (w.full p) = Option.none := by
      rw [resolve_none]
      exact ⟨by rw [g5, if_pos hp], fun _ => by rw [g5, if_pos (hp.trans (List.prefix_append ..))]⟩
    rw [this]; rfl
  · intro s2 r3
    have hbr : j'.branch = false := by rw [s1]; simp [Core.isBranch, hleaf]
    have hgone : byId t' j'.node = Option.none := by
      cases hb : byId t' j'.node with
      | none => rfl
      | some n2 =>
        obtain ⟨q2, k1, k2⟩ := byId_some hb
        obtain ⟨a, b, e⟩ : ∃ a b, t'.root = (s'.trees 0).root.modify a (Node.removeChild b) := by
          rw [View.removeEx] at g1
          split at g1
          · simp at g1
          · split at g1
            · simp only [Except.ok.injEq, Prod.mk.injEq] at g1
              exact ⟨_, _, by rw [← g1.1]⟩
            · simp at g1
          · simp at g1
        rw [e] at k1
        obtain ⟨m2, l1, l2, _⟩ := Node.modify_remove_keep a b _ _ _ _ k1
        have l3 := h2.ok.id_inj l1 e1 (by rw [← l2, k2, hid])
        simp only [Prod.mk.injEq] at l3
        rw [← e] at k1
        have l4 := (Tree.contents_node g2).mpr ⟨n2, k1, rfl⟩
        rw [g5, if_pos (by rw [l3.1]; exact List.prefix_rfl)] at l4
        cases l4
    have hlt : j'.node < t'.next := by
      have := (Op.run_ids h2.ok hop).2
      rw [← hid]
      exact Nat.lt_of_lt_of_le (h2.ok.lt _ e1) this
    have hj1 : (s'.write 0 t').jobs[i]? = some j' := by
      simp only [Sys.write, List.getElem?_map, f1, Option.map_some, Option.some.injEq]
      rw [refresh, hgone]
      simp
    exact C66_left hrun hj1 hbr ⟨by rw [ht0, htree]; exact hgone, by rw [ht0, htree]; exact hlt⟩ r3

/-! ### Where the recipe fails -/

/-- The callback of job `i`: `Remove` of the key of its node, through the view `v`; then the clearing. -/
def ringErase (v : View) (s : Sys Nat) (i : Nat) : Go (Sys Nat) :=
  match s.jobs[i]? with
  | some j => s.runs [.op 0 (.remove v (runes j.pathS)), .ring i]
  | Option.none => .ok s

/-- The steps, then the callback of job 0 through `v`; what the trie then says about some paths. -/
def erased (v : View) (l : List (Step Nat)) (ps : List String) : Option (List (Nat × Bool)) :=
  match (Sys.new '.' : Sys Nat).runs l with
  | .error _ => Option.none
  | .ok s =>
    match ringErase v s 0 with
    | .error _ => Option.none
    | .ok s' => ps.mapM fun p =>
      match (View.new '.').mustGet (s'.trees 0) p.toList, (View.new '.').has (s'.trees 0) p.toList with
      | .ok a, .ok b => some (a, b)
      | _, _ => Option.none

/-- The words "with everything below it" are needed: erasing the key `port` also loses the key `ports`. -/
theorem C66_below_fails :
    erased (View.new '.') [put "port" 1, put "ports" 2, .setTTL 0 "port".toList 1000, .enter 0 true, .expire 0] ["port", "ports"] =
      some [(0, false), (0, false)] := by decide +kernel

/-- The words "neither splits" are needed: `Set("app.version")` cuts the node of `app.verbose`; the key of the node is then `app.ver`, and both
keys are erased. -/
theorem C66_split_fails :
    erased (View.new '.') [put "app.mode" 3, put "app.verbose" 1, .setTTL 0 "app.verbose".toList 1000, .enter 0 true, put "app.version" 2, .expire 0]
      ["app.verbose", "app.version", "app.mode"] = some [(0, false), (0, false), (3, true)] := by decide +kernel

/-- The words "no prefix" are needed. Through a view with the prefix `app`, `SetEx("x")` gives its callback the full path `app.x`, and `SetTTL` of
this path through the same view finds nothing: no timer is made. With a timer set otherwise, `Remove(node.Key())` through that view removes
nothing: the key stays, with the zero value. -/
theorem C66_prefix_fails :
    let v := (View.new '.').withPrefix ["app".toList]
    (match (Sys.new '.' : Sys Nat).runs [.derive 0 v, .op 0 (.setEx v "x".toList 1)] with
      | .ok s => (match s.setTTL 1 "app.x".toList 1000 with
        | .ok (s', st) => decide (st = -1 ∧ s'.jobs = [])
        | .error _ => false)
      | .error _ => false) = true ∧
    erased v [.derive 0 v, .op 0 (.setEx v "x".toList 1), .setTTL 1 "x".toList 1000, .enter 0 true, .expire 0] ["app.x"] = some [(0, true)] := by
  decide +kernel

/-! ### Examples -/

/-- Two keys, the timer of the first erases it. -/
example : erased (View.new '.') [put "app.a" 1, put "app.b" 2, .setTTL 0 "app.a".toList 1000, .enter 0 true, .expire 0] ["app.a", "app.b"] =
    some [(0, false), (2, true)] := by decide +kernel

/-- The key is written again between the callback and the clearing: the new value stays. -/
example : (match (Sys.new '.' : Sys Nat).runs [put "app.a" 1, put "app.b" 2, .setTTL 0 "app.a".toList 1000, .enter 0 true, .expire 0,
      .op 0 (.remove (View.new '.') "app.a".toList), put "app.a" 7, .ring 0] with
    | .ok s => (View.new '.').mustGet (s.trees 0) "app.a".toList
    | .error e => .error e) = .ok 7 := by decide +kernel

end Sys
end Verif

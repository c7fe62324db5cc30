import Verif.Lemmas.TTL
import Verif.Lemmas.Runes
import Verif.Props.Remove
/-
C26: expiry of entries.
-/
namespace Verif
namespace Sys
variable {α : Type} [Inhabited α]

/-- What a step does to the trees that exist. -/
theorem step_trees {s s' : Sys α} (h : Inv s) {x : Step α} (e : s.step x = .ok s') :
    s.nTrees ≤ s'.nTrees ∧ ∀ k, k < s.nTrees → s'.trees k = s.trees k ∨
      ∃ o : Op α, o.run (s.trees k) = .ok (s'.trees k) ∧ (x = .op k o ∨ o.key = Option.none) := by
  have same : ∀ {s' : Sys α}, s'.nTrees = s.nTrees → s'.trees = s.trees → s.nTrees ≤ s'.nTrees ∧
      ∀ k, k < s.nTrees → s'.trees k = s.trees k ∨
        ∃ o : Op α, o.run (s.trees k) = .ok (s'.trees k) ∧ (x = .op k o ∨ o.key = Option.none) :=
    fun e1 e2 => ⟨Nat.le_of_eq e1.symm, fun k _ => .inl (by rw [e2])⟩
  have wr : ∀ (s1 : Sys α), s1.nTrees = s.nTrees → s1.trees = s.trees → ∀ (k : Nat) (o : Op α) (t : Tree α), o.run (s.trees k) = .ok t →
      (x = .op k o ∨ o.key = Option.none) → s.nTrees ≤ (s1.write k t).nTrees ∧
      ∀ k', k' < s.nTrees → (s1.write k t).trees k' = s.trees k' ∨
        ∃ o : Op α, o.run (s.trees k') = .ok ((s1.write k t).trees k') ∧ (x = .op k' o ∨ o.key = Option.none) := by
    intro s1 e1 e2 k o t hr ho
    refine ⟨Nat.le_of_eq e1.symm, fun k' _ => ?_⟩
    simp only [Sys.write, setTree]
    by_cases hk : k' = k
    · subst hk
      simp only [if_true]
      exact .inr ⟨o, hr, ho⟩
    · rw [if_neg hk, e2]
      exact .inl rfl
  have hadd : ∀ (i : Nat) (a : Handle) (k : Nat) (n : Node α) (ns : Int),
      (s.add i a k n ns).nTrees = s.nTrees ∧ (s.add i a k n ns).trees = s.trees := by
    intro i a k n ns
    obtain ⟨e1, e2, e3, _⟩ := arm_same s i a
    unfold Sys.add
    simp only
    split <;> exact ⟨e2, e1⟩
  cases x with
  | op k o =>
    simp only [Sys.step] at e
    split at e
    · cases hr : o.run (s.trees k) with
      | error y => rw [hr] at e; simp at e
      | ok t =>
        rw [hr] at e
        obtain rfl := Except.ok.inj e
        exact wr s rfl rfl k o t hr (.inl rfl)
    · obtain rfl := Except.ok.inj e; exact same rfl rfl
  | derive i v =>
    simp only [Sys.step] at e
    split at e
    · obtain rfl := Except.ok.inj e; exact same rfl rfl
    · obtain rfl := Except.ok.inj e
      exact same (addHandle_same ..).2.1 (addHandle_same ..).1
  | dup i =>
    simp only [Sys.step] at e
    split at e
    · obtain rfl := Except.ok.inj e; exact same rfl rfl
    · obtain rfl := Except.ok.inj e
      refine ⟨?_, fun k hk => ?_⟩
      · rw [(addHandle_same ..).2.1]; exact Nat.le_succ _
      · rw [(addHandle_same ..).1]
        simp only [setTree]
        rw [if_neg (by omega)]
        exact .inl rfl
  | setPrefix i p =>
    simp only [Sys.step] at e
    split at e <;> (obtain rfl := Except.ok.inj e; exact same rfl rfl)
  | setTTL i p ns =>
    simp only [Sys.step, Sys.setTTL] at e
    split at e
    · obtain rfl := Except.ok.inj e; exact same rfl rfl
    · rename_i a ha
      cases hs : a.view.search (s.trees a.tree) (a.view.full p) with
      | error y => rw [hs] at e; simp [Except.map] at e
      | ok r =>
        obtain ⟨n, pr, pm, kv⟩ := r
        rw [hs] at e
        cases n with
        | none => obtain rfl := Except.ok.inj e; exact same rfl rfl
        | some n =>
          cases pm with
          | true => obtain rfl := Except.ok.inj e; exact same rfl rfl
          | false => obtain rfl := Except.ok.inj e; exact same (hadd ..).1 (hadd ..).2
  | setTTLFast i k id ns =>
    simp only [Sys.step] at e
    split at e
    · split at e
      · obtain rfl := Except.ok.inj e; exact same (hadd ..).1 (hadd ..).2
      · obtain rfl := Except.ok.inj e; exact same rfl rfl
    · obtain rfl := Except.ok.inj e; exact same rfl rfl
  | close i =>
    obtain rfl := Except.ok.inj e
    unfold Sys.close
    split <;> exact same rfl rfl
  | expire i => obtain rfl := Except.ok.inj e; exact same rfl rfl
  | enter i b =>
    simp only [Sys.step] at e
    split at e <;> (obtain rfl := Except.ok.inj e; exact same rfl rfl)
  | ring i =>
    simp only [Sys.step] at e
    split at e
    · obtain rfl := Except.ok.inj e; exact same rfl rfl
    · split at e
      · rcases fire_spec e with rfl | ⟨k, o, t, h1, h2, rfl⟩
        · exact same rfl rfl
        · exact wr _ rfl rfl k o t h1 (.inr h2)
      · obtain rfl := Except.ok.inj e; exact same rfl rfl

/-- Steps keep the jobs: a job stays at its position, with its node. -/
theorem step_jobs {s s' : Sys α} {x : Step α} (e : s.step x = .ok s') {i : Nat} {j : Job} (hj : s.jobs[i]? = some j) :
    ∃ j', s'.jobs[i]? = some j' ∧ j'.tree = j.tree ∧ j'.node = j.node ∧ j'.ttl = j.ttl ∧ (j.phase = .over → j'.phase = .over) := by
  have same : ∀ {s' : Sys α}, s'.jobs = s.jobs →
      ∃ j', s'.jobs[i]? = some j' ∧ j'.tree = j.tree ∧ j'.node = j.node ∧ j'.ttl = j.ttl ∧ (j.phase = .over → j'.phase = .over) :=
    fun e1 => ⟨j, by rw [e1, hj], rfl, rfl, rfl, id⟩
  have wr : ∀ (s1 : Sys α) (k : Nat) (t : Tree α), (∃ j', s1.jobs[i]? = some j' ∧ j'.tree = j.tree ∧ j'.node = j.node ∧ j'.ttl = j.ttl ∧
        (j.phase = .over → j'.phase = .over)) →
      ∃ j', (s1.write k t).jobs[i]? = some j' ∧ j'.tree = j.tree ∧ j'.node = j.node ∧ j'.ttl = j.ttl ∧
        (j.phase = .over → j'.phase = .over) := by
    rintro s1 k t ⟨j', h1, h2, h3, h4, h5⟩
    obtain ⟨r1, r2, r3, r4, _⟩ := refresh_same k t j'
    refine ⟨refresh k t j', by simp [Sys.write, h1], by rw [r1, h2], by rw [r2, h3], by rw [r3, h4], fun h => by rw [r4]; exact h5 h⟩
  have hadd : ∀ (h : Nat) (a : Handle) (k : Nat) (n : Node α) (ns : Int), (s.add h a k n ns).jobs[i]? = some j := by
    intro h a k n ns
    obtain ⟨_, _, e3, _⟩ := arm_same s h a
    unfold Sys.add
    simp only
    split
    · rw [e3, hj]
    · simp only [e3]
      have hi : i < s.jobs.length := (List.getElem?_eq_some_iff.mp hj).1
      rw [List.getElem?_append_left hi, hj]
  have hset : ∀ (i' : Nat) (j1 j2 : Job), s.jobs[i']? = some j1 → j2.tree = j1.tree → j2.node = j1.node → j2.ttl = j1.ttl →
      (j1.phase = .over → j2.phase = .over) → ∃ j', (s.jobs.set i' j2)[i]? = some j' ∧ j'.tree = j.tree ∧ j'.node = j.node ∧ j'.ttl = j.ttl ∧
        (j.phase = .over → j'.phase = .over) := by
    intro i' j1 j2 h1 h2 h3 h4 h5
    by_cases hii : i' = i
    · subst hii
      rw [hj] at h1
      obtain rfl := Option.some.inj h1
      exact ⟨j2, List.getElem?_set_self (List.getElem?_eq_some_iff.mp hj).1, h2, h3, h4, h5⟩
    · exact ⟨j, by rw [List.getElem?_set_ne hii, hj], rfl, rfl, rfl, id⟩
  cases x with
  | op k o =>
    simp only [Sys.step] at e
    split at e
    · cases hr : o.run (s.trees k) with
      | error y => rw [hr] at e; simp at e
      | ok t =>
        rw [hr] at e
        obtain rfl := Except.ok.inj e
        exact wr s k t (same rfl)
    · obtain rfl := Except.ok.inj e; exact same rfl
  | derive i v =>
    simp only [Sys.step] at e
    split at e
    · obtain rfl := Except.ok.inj e; exact same rfl
    · obtain rfl := Except.ok.inj e
      exact same (addHandle_same ..).2.2.1
  | dup i =>
    simp only [Sys.step] at e
    split at e
    · obtain rfl := Except.ok.inj e; exact same rfl
    · obtain rfl := Except.ok.inj e
      exact same (by rw [(addHandle_same ..).2.2.1]; rfl)
  | setPrefix i p =>
    simp only [Sys.step] at e
    split at e <;> (obtain rfl := Except.ok.inj e; exact same rfl)
  | setTTL h p ns =>
    simp only [Sys.step, Sys.setTTL] at e
    split at e
    · obtain rfl := Except.ok.inj e; exact same rfl
    · rename_i a ha
      cases hs : a.view.search (s.trees a.tree) (a.view.full p) with
      | error y => rw [hs] at e; simp [Except.map] at e
      | ok r =>
        obtain ⟨n, pr, pm, kv⟩ := r
        rw [hs] at e
        cases n with
        | none => obtain rfl := Except.ok.inj e; exact same rfl
        | some n =>
          cases pm with
          | true => obtain rfl := Except.ok.inj e; exact same rfl
          | false => obtain rfl := Except.ok.inj e; exact ⟨j, hadd .., rfl, rfl, rfl, id⟩
  | setTTLFast h k id' ns =>
    simp only [Sys.step] at e
    split at e
    · split at e
      · obtain rfl := Except.ok.inj e; exact ⟨j, hadd .., rfl, rfl, rfl, id⟩
      · obtain rfl := Except.ok.inj e; exact same rfl
    · obtain rfl := Except.ok.inj e; exact same rfl
  | close h =>
    obtain rfl := Except.ok.inj e
    unfold Sys.close
    split
    · rename_i k v τ _
      refine ⟨if j.ttl = τ ∧ j.phase = .parked then { j with phase := .over } else j, by simp [hj], ?_⟩
      split
      · exact ⟨rfl, rfl, rfl, fun _ => rfl⟩
      · exact ⟨rfl, rfl, rfl, id⟩
    · exact same rfl
  | expire i' =>
    obtain rfl := Except.ok.inj e
    simp only [List.getElem?_modify, hj]
    by_cases hii : i' = i
    · refine ⟨expire j, by simp [hii], rfl, rfl, rfl, fun h => by simp [expire, h]⟩
    · exact ⟨j, by simp [hii], rfl, rfl, rfl, id⟩
  | enter i' b =>
    simp only [Sys.step] at e
    split at e
    · obtain rfl := Except.ok.inj e; exact same rfl
    · rename_i j1 hj1
      obtain rfl := Except.ok.inj e
      refine hset i' j1 _ hj1 ?_ ?_ ?_ ?_
      · unfold Sys.enter; split <;> rfl
      · unfold Sys.enter; split <;> rfl
      · unfold Sys.enter; split <;> rfl
      · intro h; unfold Sys.enter; rw [if_neg (by rw [h]; decide)]; exact h
  | ring i' =>
    simp only [Sys.step] at e
    split at e
    · obtain rfl := Except.ok.inj e; exact same rfl
    · rename_i j1 hj1
      have h0 := hset i' j1 { j1 with phase := .over } hj1 rfl rfl rfl (fun _ => rfl)
      split at e
      · rcases fire_spec e with rfl | ⟨k, o, t, h1, h2, rfl⟩
        · exact h0
        · exact wr _ k t h0
      · obtain rfl := Except.ok.inj e; exact same rfl

/-! ### The clearing -/

theorem step_ring_leaf {s : Sys α} {i : Nat} {j : Job} (hj : s.jobs[i]? = some j) (hr : j.phase = .ringing) (hb : j.branch = false) :
    s.step (.ring i) = .ok ({ s with jobs := s.jobs.set i { j with phase := .over } }.write j.tree
      (View.writeCore (s.trees j.tree) j.node emptyCore)) := by
  simp only [Sys.step, hj]
  rw [if_pos hr, fire, if_neg (by rw [hb]; simp)]

/-- When the job of a leaf entry rings, the entry loses data and tag; no other entry, no other tree and no other job changes. -/
theorem ring_leaf {s : Sys α} (h : Inv s) {i : Nat} {j : Job} (hj : s.jobs[i]? = some j) (hr : j.phase = .ringing)
    {q : Str} {m : Node α} (hm : (q, m) ∈ (s.trees j.tree).root.nodes []) (hi : m.id = j.node) (hl : m.core.leaf = true) :
    ∃ s', s.step (.ring i) = .ok s' ∧
      (∀ x, (s'.trees j.tree).contents x =
        if x = q then some { m.core with data := default, tag := Option.none } else (s.trees j.tree).contents x) ∧
      (∀ k, k ≠ j.tree → s'.trees k = s.trees k) ∧
      s'.handles = s.handles ∧ s'.ttls = s.ttls ∧ s'.jobs = s.jobs.set i { j with phase := .over } := by
  have hs := h.seen j (List.mem_of_getElem? hj) q m hm hi
  have hb : j.branch = false := by rw [hs.1]; simp [Core.isBranch, hl]
  have hok := h.over hj
  refine ⟨_, step_ring_leaf hj hr hb, ?_, ?_, rfl, rfl, ?_⟩
  · intro x
    simp only [Sys.write, setTree, if_true]
    rw [← hi]
    exact writeCore_contents (h.ok _) hm emptyCore x
  · intro k hk
    simp only [Sys.write, setTree, if_neg hk]
  · simp only [Sys.write]
    refine (List.map_congr_left ?_).trans (List.map_id _)
    intro j' hj'
    rw [refresh]
    split
    · rename_i hk
      cases hid : byId (View.writeCore (s.trees j.tree) j.node emptyCore) j'.node with
      | none => rfl
      | some n =>
        obtain ⟨q', h1, h2⟩ := byId_some hid
        simp only [View.writeCore, Node.nodes_modify_core, List.mem_map] at h1
        obtain ⟨⟨q2, m2⟩, h3, h4⟩ := h1
        simp only [Prod.mk.injEq] at h4
        have h5 := hok.seen j' hj' q2 m2 (by rw [hk]; exact h3) (by rw [← h2, ← h4.2, Node.modify_core_id])
        have h6 : n.core.leaf = m2.core.leaf ∧ n.core.pathS = m2.core.pathS := by
          rw [← h4.2, Node.modify_core_core]
          split <;> exact ⟨rfl, rfl⟩
        simp only [Core.isBranch, h6.1, h6.2]
        rw [Core.isBranch] at h5
        rw [← h5.1, ← h5.2]
        rfl
    · rfl

/-- An execution during which the entry `q` of tree `k` is neither split nor removed: it is there after every step, and the
common prefix of `q` with every inserted path is already an entry (so that `q`'s fragment is not cut). -/
inductive Quiet (k : Nat) (q : Str) : Sys α → Sys α → Prop
  | refl (s) : Quiet k q s s
  | step {s s' s'' : Sys α} (x : Step α) (h : Quiet k q s s')
      (hcut : ∀ (o : Op α) w, x = .op k o → o.key = some w → ((s'.trees k).contents (lcp q w)).isSome)
      (e : s'.step x = .ok s'') (hq : ((s''.trees k).contents q).isSome) : Quiet k q s s''

theorem Quiet.keep {k : Nat} {q : Str} {s s' : Sys α} (r : Quiet k q s s') (h : Inv s) (hk : k < s.nTrees) {m : Node α}
    (hm : (q, m) ∈ (s.trees k).root.nodes []) {i : Nat} {j : Job} (hj : s.jobs[i]? = some j) :
    Inv s' ∧ k < s'.nTrees ∧ (∃ m', (q, m') ∈ (s'.trees k).root.nodes [] ∧ m'.id = m.id ∧ m'.core.leaf = m.core.leaf) ∧
    ∃ j', s'.jobs[i]? = some j' ∧ j'.tree = j.tree ∧ j'.node = j.node ∧ j'.ttl = j.ttl := by
  induction r with
  | refl => exact ⟨h, hk, ⟨m, hm, rfl, rfl⟩, j, hj, rfl, rfl, rfl⟩
  | step x _ hcut e hq ih =>
    obtain ⟨h1, h2, ⟨m', h3, h4, h5⟩, j', h6, h7, h8, h9⟩ := ih
    obtain ⟨n1, n2⟩ := step_trees h1 e
    obtain ⟨j2, g1, g2, g3, g4, _⟩ := step_jobs e h6
    refine ⟨h1.step e, Nat.lt_of_lt_of_le h2 n1, ?_, j2, g1, by rw [g2, h7], by rw [g3, h8], by rw [g4, h9]⟩
    rcases n2 k h2 with e1 | ⟨o, e1, e2⟩
    · exact ⟨m', by rw [e1]; exact h3, h4, h5⟩
    · obtain ⟨m2, f1, f2, f3⟩ := Op.run_keep (h1.ok k) e1 h3 (fun w hw => by
        rcases e2 with rfl | e2
        · exact hcut o w rfl hw
        · rw [e2] at hw; simp at hw) hq
      exact ⟨m2, f1, by rw [f2, h4], by rw [f3, h5]⟩

/-- **C26.** Take any state `s` of any execution in which a job points to a leaf entry `q`, and any continuation of it, with any
interleaving of calls, other timers and `Close`, during which the entry is neither split nor removed. When the job rings in the state `s'`
reached, the data and the tag of that entry become zero; nothing else in its tree, no other tree, no trie handle and no other
job changes. -/
theorem C26_expiry {P : Str → Prop} {d : Char} {s s' : Sys α} (r : Run P (Sys.new d) s) {i : Nat} {j : Job} (hj : s.jobs[i]? = some j)
    {q : Str} {m : Node α} (hm : (q, m) ∈ (s.trees j.tree).root.nodes []) (hi : m.id = j.node) (hl : m.core.leaf = true)
    (quiet : Quiet j.tree q s s') (hr : (s'.jobs[i]?.map (·.phase)) = some .ringing) :
    ∃ s'' c, s'.step (.ring i) = .ok s'' ∧ (s'.trees j.tree).contents q = some c ∧
      (s''.trees j.tree).contents q = some { c with data := default, tag := Option.none } ∧
      (∀ x, x ≠ q → (s''.trees j.tree).contents x = (s'.trees j.tree).contents x) ∧
      (∀ k, k ≠ j.tree → s''.trees k = s'.trees k) ∧
      s''.handles = s'.handles ∧ s''.ttls = s'.ttls ∧ ∀ i', i' ≠ i → s''.jobs[i']? = s'.jobs[i']? := by
  have h := r.inv (Inv.new d)
  obtain ⟨h', _, ⟨m', e1, e2, e3⟩, j', f1, f2, f3, f4⟩ := quiet.keep h (h.jtree j (List.mem_of_getElem? hj)) hm hj
  rw [f1] at hr
  simp only [Option.map_some, Option.some.injEq] at hr
  obtain ⟨s'', g1, g2, g3, g4, g5, g6⟩ := ring_leaf h' f1 hr (q := q) (m := m') (by rw [f2]; exact e1) (by rw [e2, f3, hi])
    (by rw [e3, hl])
  rw [f2] at g2 g3
  refine ⟨s'', m'.core, g1, (Tree.contents_node (h'.ok _)).mpr ⟨m', e1, rfl⟩, by rw [g2]; simp, fun x hx => by rw [g2, if_neg hx],
    g3, g4, g5, fun i' hii => ?_⟩
  rw [g6, List.getElem?_set_ne (Ne.symm hii)]

/-- **C26.** A job that points to a leaf which is no longer in its tree has no effect on any tree. -/
theorem C26_detached {P : Str → Prop} {d : Char} {s : Sys α} (r : Run P (Sys.new d) s) {i : Nat} {j : Job} (hj : s.jobs[i]? = some j)
    (hb : j.branch = false) (hno : ∀ q m, (q, m) ∈ (s.trees j.tree).root.nodes [] → m.id ≠ j.node) :
    ∃ s', s.step (.ring i) = .ok s' ∧ ∀ k, (s'.trees k).root = (s.trees k).root := by
  by_cases hr : j.phase = .ringing
  · refine ⟨_, step_ring_leaf hj hr hb, fun k => ?_⟩
    simp only [Sys.write, setTree]
    split
    · rename_i hk
      simp only [View.writeCore]
      rw [Node.modify_absent, hk]
      intro hmem
      rw [Node.ids, List.mem_map] at hmem
      obtain ⟨⟨q, m⟩, h1, h2⟩ := hmem
      exact hno q m h1 h2
    · rfl
  · exact ⟨s, by simp only [Sys.step, hj]; rw [if_neg hr], fun _ => rfl⟩

/-- **C26.** `SetTTL` with a duration of at least 200 ns on a path that resolves to an entry adds one job, for that entry. -/
theorem C26_setTTL {s : Sys α} (h : Inv s) {i : Nat} {a : Handle} (ha : s.handles[i]? = some a) (hp : (s.trees a.tree).Plain a.view.delim)
    (hm : a.view.mode ≠ .up) {p : Str} {ns : Int} (hns : 200 ≤ ns) {q : Str} {c : Core α}
    (hr : resolve a.view.delim (s.trees a.tree).contents (a.view.full p) = some (q, c)) :
    ∃ s' j m, s.setTTL i p ns = .ok (s', 0) ∧ s'.jobs = s.jobs ++ [j] ∧ s'.trees = s.trees ∧ j.tree = a.tree ∧ j.phase = .starting ∧
      (q, m) ∈ (s.trees a.tree).root.nodes [] ∧ m.id = j.node ∧ m.core = c := by
  obtain ⟨e1, e2, e3, _⟩ := arm_same s i a
  rcases search_plain (h.ok a.tree) hp hm (a.view.full p) with ⟨q', m, par, h1, h2, _⟩ | ⟨hw, h1, c', par, pm, h2, h3⟩
  · have hmem := (Tree.nodeAt_some (h.ok a.tree)).mp (resolve_some h1)
    rw [resolve_contents (h.ok _), h1] at hr
    simp at hr
    obtain ⟨rfl, rfl⟩ := hr
    refine ⟨s.add i a a.tree m ns, ⟨(s.arm i a).2, a.tree, m.id, m.core.isBranch, m.core.pathS, false, .starting⟩, m,
      by simp only [Sys.setTTL, ha, h2], ?_, ?_, rfl, rfl, hmem, rfl, rfl⟩
    · rw [Sys.add]
      simp only
      rw [if_neg (by omega), ← e3]
    · rw [Sys.add]
      simp only
      rw [if_neg (by omega), ← e1]
  · rw [resolve_contents (h.ok _), h1] at hr
    simp at hr

/-- The tree of the first trie is reachable by ordinary calls. -/
theorem Run.reach {P : Str → Prop} {d : Char} {s : Sys α} (r : Run P (Sys.new d) s) : 0 < s.nTrees ∧ Reach P (s.trees 0) := by
  have : ∀ {s0 s : Sys α}, Run P s0 s → Inv s0 → 0 < s0.nTrees → Reach P (s0.trees 0) → 0 < s.nTrees ∧ Reach P (s.trees 0) := by
    intro s0 s r hi h1 h2
    induction r with
    | refl => exact ⟨h1, h2⟩
    | step x r hk e ih =>
      obtain ⟨n1, n2⟩ := step_trees (r.inv hi) e
      refine ⟨Nat.lt_of_lt_of_le ih.1 n1, ?_⟩
      rcases n2 0 ih.1 with e1 | ⟨o, e1, e2⟩
      · rw [e1]; exact ih.2
      · refine .step o ih.2 (fun w hw => ?_) e1
        rcases e2 with rfl | e2
        · exact hk 0 o w rfl hw
        · rw [e2] at hw; simp at hw
  exact this r (Inv.new d) (Nat.lt_succ_self 0) .new

/-- **C26.** The same in terms of answers, for the first trie and any of its views: a path that refers to the expired entry gets
the zero value and no tag, every other path gets all its answers as before. -/
theorem C26_answers {d : Char} {s s' s'' : Sys α} (r : Run (NoRoute d) (Sys.new d) s) {i : Nat} {j : Job} (hj : s.jobs[i]? = some j)
    (h0 : j.tree = 0) {q : Str} {m : Node α} (hm : (q, m) ∈ (s.trees 0).root.nodes []) (hi : m.id = j.node) (hl : m.core.leaf = true)
    (quiet : Quiet 0 q s s') (hr : (s'.jobs[i]?.map (·.phase)) = some .ringing) (hreach : Reach (NoRoute d) (s'.trees 0))
    (e : s'.step (.ring i) = .ok s'') {v : View} (hd : v.delim = d) (hv : v.mode ≠ .up) (w : Str) :
    ((∃ c, resolve d (s'.trees 0).contents (v.full w) = some (q, c)) →
      v.mustGet (s''.trees 0) w = .ok default ∧ v.getTag (s''.trees 0) w = .ok (some Option.none) ∧
      v.getDesc (s''.trees 0) w = v.getDesc (s'.trees 0) w ∧ v.has (s''.trees 0) w = .ok true) ∧
    ((∀ c, resolve d (s'.trees 0).contents (v.full w) ≠ some (q, c)) →
      v.query (s''.trees 0) w = v.query (s'.trees 0) w ∧ v.mustGet (s''.trees 0) w = v.mustGet (s'.trees 0) w ∧
      v.has (s''.trees 0) w = v.has (s'.trees 0) w ∧ v.getTag (s''.trees 0) w = v.getTag (s'.trees 0) w) := by
  obtain ⟨s2, c, g1, g2, g3, g4, -⟩ := C26_expiry r hj (by rw [h0]; exact hm) hi hl (by rw [h0]; exact quiet) hr
  rw [e] at g1
  obtain rfl := Except.ok.inj g1
  rw [h0] at g2 g3 g4
  have hok := hreach.ok
  have hpl : (s'.trees 0).Plain v.delim := by rw [hd]; exact hreach.plain
  have hc : ∀ x, (s''.trees 0).contents x = if x = q then some { c with data := default, tag := Option.none } else (s'.trees 0).contents x := by
    intro x
    by_cases hx : x = q
    · rw [if_pos hx, hx, g3]
    · rw [if_neg hx, g4 x hx]
  have hi' := r.inv (Inv.new d)
  obtain ⟨hq1, hq2, ⟨m', hm1, hm2, hm3⟩, _⟩ := quiet.keep hi' r.reach.1 hm hj
  have hok' : (s''.trees 0).OK := (hq1.step e).ok 0
  have hreach' : Reach (NoRoute d) (s''.trees 0) := by
    rcases (step_trees hq1 e).2 0 hq2 with e1 | ⟨o, e1, e2⟩
    · rw [e1]; exact hreach
    · refine .step o hreach (fun w hw => ?_) e1
      rcases e2 with e2 | e2
      · exact absurd e2 (by simp)
      · rw [e2] at hw; simp at hw
  have hpl' : (s''.trees 0).Plain v.delim := by rw [hd]; exact hreach'.plain
  have hcl : c.leaf = true := by
    obtain ⟨m2, f1, f2⟩ := (Tree.contents_node hok).mp g2
    obtain rfl := Node.nodes_unique hok.wf f1 hm1
    rw [← f2, hm3, hl]
  have hdom : ∀ x, (s''.trees 0).contents x = Option.none ↔ (s'.trees 0).contents x = Option.none := by
    intro x
    rw [hc]
    by_cases hx : x = q
    · rw [if_pos hx, hx, g2]; simp
    · rw [if_neg hx]
  have hres : ∀ z, resolve d (s'.trees 0).contents z = (match resolve d (s''.trees 0).contents z with
      | some (x, _) => ((s'.trees 0).contents x).map (fun c => (x, c))
      | Option.none => Option.none) := by
    intro z
    simp only [resolve]
    cases h1 : (s''.trees 0).contents z with
    | some c1 =>
      simp only
      cases h2 : (s'.trees 0).contents z with
      | none => rw [← hdom] at h2; rw [h1] at h2; simp at h2
      | some c2 => rfl
    | none =>
      rw [(hdom z).mp h1]
      simp only
      by_cases hz : z = []
      · rw [if_pos hz, if_pos hz]
      · rw [if_neg hz, if_neg hz]
        cases h2 : (s''.trees 0).contents (z ++ [d]) with
        | none => rw [(hdom _).mp h2]; rfl
        | some c2 => rfl
  constructor
  · rintro ⟨c1, h1⟩
    have h2 : resolve d (s''.trees 0).contents (v.full w) = some (q, { c with data := default, tag := Option.none }) := by
      have h3 := hres (v.full w)
      rw [h1] at h3
      cases h4 : resolve d (s''.trees 0).contents (v.full w) with
      | none => rw [h4] at h3; simp at h3
      | some y =>
        obtain ⟨x, c2⟩ := y
        rw [h4] at h3
        simp only at h3
        cases h5 : (s'.trees 0).contents x with
        | none => rw [h5] at h3; simp at h3
        | some c3 =>
          rw [h5] at h3
          simp at h3
          obtain ⟨rfl, rfl⟩ := h3
          have h6 := resolve_some h4
          rw [hc, if_pos rfl] at h6
          rw [← Option.some.inj h6]
    have hd1 := getNodeFast_core hok' hpl' hv w
    have hd2 := getNodeFast_core hok hpl hv w
    rw [hd, h2] at hd1
    have h1' : c1 = c := by
      have := resolve_some h1
      rw [g2] at this
      exact (Option.some.inj this).symm
    rw [hd, h1, h1'] at hd2
    simp only [hcl, Bool.true_or, if_true] at hd1 hd2
    refine ⟨?_, ?_, ?_, ?_⟩
    · rw [mustGet_hit hok' hpl' (by rw [hd]; exact h2)]
      simp
    · simp only [View.getTag]
      cases hn : v.getNodeFast (s''.trees 0) w with
      | error e => rw [hn] at hd1; simp [Except.map] at hd1
      | ok n =>
        rw [hn] at hd1
        simp only [Except.map, Except.ok.injEq] at hd1
        cases n with
        | none => simp at hd1
        | some n => simp at hd1; simp [hd1]
    · simp only [View.getDesc]
      cases hn : v.getNodeFast (s''.trees 0) w with
      | error e => rw [hn] at hd1; simp [Except.map] at hd1
      | ok n =>
        rw [hn] at hd1
        simp only [Except.map, Except.ok.injEq] at hd1
        cases hn2 : v.getNodeFast (s'.trees 0) w with
        | error e => rw [hn2] at hd2; simp [Except.map] at hd2
        | ok n2 =>
          rw [hn2] at hd2
          simp only [Except.map, Except.ok.injEq] at hd2
          cases n with
          | none => simp at hd1
          | some n =>
            cases n2 with
            | none => simp at hd2
            | some n2 => simp at hd1 hd2; simp [hd1, hd2]
    · rw [has_plain hok' hpl' hv, hd, h2]; rfl
  · intro hno
    have h2 : resolve d (s''.trees 0).contents (v.full w) = resolve d (s'.trees 0).contents (v.full w) := by
      have h3 := hres (v.full w)
      cases h4 : resolve d (s''.trees 0).contents (v.full w) with
      | none => rw [h4] at h3; rw [h3]
      | some y =>
        obtain ⟨x, c2⟩ := y
        rw [h4] at h3
        simp only at h3
        have h6 := resolve_some h4
        rw [hc] at h6
        by_cases hx : x = q
        · subst hx
          rw [g2] at h3
          exact absurd h3 (hno c)
        · rw [if_neg hx] at h6
          rw [h3, h6]
          rfl
    have hd1 := getNodeFast_core hok' hpl' hv w
    have hd2 := getNodeFast_core hok hpl hv w
    rw [hd, h2, ← hd, ← hd2] at hd1
    refine ⟨?_, ?_, ?_, ?_⟩
    · rw [query_plain hok' hpl' hv, query_plain hok hpl hv, hd, h2]
    · rw [mustGet_plain hok' hpl' hv, mustGet_plain hok hpl hv, hd, h2]
    · rw [has_plain hok' hpl' hv, has_plain hok hpl hv, hd, h2]
    · simp only [View.getTag]
      cases hn : v.getNodeFast (s''.trees 0) w with
      | error e =>
        rw [hn] at hd1
        cases hn2 : v.getNodeFast (s'.trees 0) w with
        | error e2 => rw [hn2] at hd1; simp [Except.map] at hd1; simp [hd1]
        | ok n2 => rw [hn2] at hd1; simp [Except.map] at hd1
      | ok n =>
        rw [hn] at hd1
        cases hn2 : v.getNodeFast (s'.trees 0) w with
        | error e2 => rw [hn2] at hd1; simp [Except.map] at hd1
        | ok n2 =>
          rw [hn2] at hd1
          simp only [Except.map, Except.ok.injEq] at hd1 ⊢
          cases n <;> cases n2 <;> simp at hd1 <;> simp [hd1]

/-! ### Close -/

/-- A closed TTL object: no trie uses it and its goroutines have ended. -/
structure Dead (τ : Nat) (s : Sys α) : Prop where
  lt : τ < s.ttls.length
  free : ∀ a ∈ s.handles, a.ttl ≠ some τ
  over : ∀ j ∈ s.jobs, j.ttl = τ → j.phase = .over

omit [Inhabited α] in
theorem Dead.mapJobs {τ : Nat} {s : Sys α} (h : Dead τ s) {l : List Job}
    (hl : ∀ j ∈ l, ∃ j0 ∈ s.jobs, j.ttl = j0.ttl ∧ (j0.phase = .over → j.phase = .over)) : Dead τ { s with jobs := l } :=
  ⟨h.lt, h.free, fun j hj ht => by
    obtain ⟨j0, h0, h1, h2⟩ := hl j hj
    exact h2 (h.over j0 h0 (by rw [← h1, ht]))⟩

omit [Inhabited α] in
theorem Dead.write {τ : Nat} {s : Sys α} (h : Dead τ s) (k : Nat) (t : Tree α) : Dead τ (s.write k t) :=
  ⟨h.lt, h.free, fun j hj ht => by
    obtain ⟨j0, h0, rfl⟩ := List.mem_map.mp hj
    obtain ⟨_, _, r3, r4, _⟩ := refresh_same k t j0
    rw [r4]; exact h.over j0 h0 (by rw [← r3, ht])⟩

omit [Inhabited α] in
theorem Dead.addHandle {τ : Nat} {s : Sys α} (h : Dead τ s) (src : Handle) (k : Nat) (v : View) : Dead τ (s.addHandle src k v) := by
  obtain ⟨_, _, e3, e4, o, e5, e6⟩ := addHandle_same s src k v
  refine ⟨Nat.lt_of_lt_of_le h.lt e4, ?_, by rw [e3]; exact h.over⟩
  intro a ha hτ
  rw [e5] at ha
  rcases List.mem_append.mp ha with ha | ha
  · exact h.free a ha hτ
  · simp at ha
    rw [ha] at hτ
    have := (e6 τ hτ).1
    have := h.lt
    omega

omit [Inhabited α] in
theorem Dead.add {τ : Nat} {s : Sys α} (h : Dead τ s) {i : Nat} {a : Handle} (ha : s.handles[i]? = some a) (k : Nat) (n : Node α) (ns : Int) :
    Dead τ (s.add i a k n ns) := by
  have hm := List.mem_of_getElem? ha
  have h1 : Dead τ (s.arm i a).1 ∧ (s.arm i a).2 ≠ τ := by
    unfold Sys.arm
    split
    · rename_i τ' hτ
      exact ⟨h, fun e => h.free a hm (by rw [hτ]; exact congrArg some e)⟩
    · refine ⟨⟨?_, ?_, h.over⟩, ?_⟩
      · have := h.lt; simp only [List.length_append, List.length_singleton]; omega
      · intro b hb hτ
        rcases List.mem_or_eq_of_mem_set hb with hb | hb
        · exact h.free b hb hτ
        · rw [hb] at hτ; simp at hτ; have := h.lt; omega
      · have := h.lt; simp only; omega
  unfold Sys.add
  simp only
  split
  · exact h1.1
  · refine ⟨h1.1.lt, h1.1.free, fun j hj ht => ?_⟩
    rcases List.mem_append.mp hj with hj | hj
    · exact h1.1.over j hj ht
    · simp at hj; rw [hj] at ht; exact absurd ht h1.2

theorem Dead.step {τ : Nat} {s s' : Sys α} (h : Dead τ s) {x : Step α} (e : s.step x = .ok s') : Dead τ s' := by
  have hset : ∀ (i' : Nat) (j1 j2 : Job), s.jobs[i']? = some j1 → j2.ttl = j1.ttl → (j1.phase = .over → j2.phase = .over) →
      Dead τ { s with jobs := s.jobs.set i' j2 } := by
    intro i' j1 j2 h1 h2 h3
    refine h.mapJobs fun j hj => ?_
    rcases List.mem_or_eq_of_mem_set hj with h4 | h4
    · exact ⟨j, h4, rfl, id⟩
    · exact ⟨j1, List.mem_of_getElem? h1, by rw [h4]; exact h2, by rw [h4]; exact h3⟩
  cases x with
  | op k o =>
    simp only [Sys.step] at e
    split at e
    · cases hr : o.run (s.trees k) with
      | error y => rw [hr] at e; simp at e
      | ok t =>
        rw [hr] at e
        obtain rfl := Except.ok.inj e
        exact h.write k t
    · obtain rfl := Except.ok.inj e; exact h
  | derive i v =>
    simp only [Sys.step] at e
    split at e
    · obtain rfl := Except.ok.inj e; exact h
    · obtain rfl := Except.ok.inj e; exact h.addHandle _ _ _
  | dup i =>
    simp only [Sys.step] at e
    split at e
    · obtain rfl := Except.ok.inj e; exact h
    · obtain rfl := Except.ok.inj e
      have h' : Dead τ { s.setTree s.nTrees (View.dupTree (s.trees (Handle.tree ‹_›))) with nTrees := s.nTrees + 1 } := ⟨h.lt, h.free, h.over⟩
      exact h'.addHandle _ _ _
  | setPrefix i p =>
    simp only [Sys.step] at e
    split at e
    · obtain rfl := Except.ok.inj e; exact h
    · rename_i a ha
      obtain rfl := Except.ok.inj e
      refine ⟨h.lt, fun b hb hτ => ?_, h.over⟩
      rcases List.mem_or_eq_of_mem_set hb with hb | hb
      · exact h.free b hb hτ
      · rw [hb] at hτ; exact h.free a (List.mem_of_getElem? ha) hτ
  | setTTL i p ns =>
    simp only [Sys.step, Sys.setTTL] at e
    split at e
    · obtain rfl := Except.ok.inj e; exact h
    · rename_i a ha
      cases hs : a.view.search (s.trees a.tree) (a.view.full p) with
      | error y => rw [hs] at e; simp [Except.map] at e
      | ok r =>
        obtain ⟨n, pr, pm, kv⟩ := r
        rw [hs] at e
        cases n with
        | none => obtain rfl := Except.ok.inj e; exact h
        | some n =>
          cases pm with
          | true => obtain rfl := Except.ok.inj e; exact h
          | false => obtain rfl := Except.ok.inj e; exact h.add ha _ _ _
  | setTTLFast i k id ns =>
    simp only [Sys.step] at e
    split at e
    · rename_i a n ha hn
      split at e
      · obtain rfl := Except.ok.inj e; exact h.add ha _ _ _
      · obtain rfl := Except.ok.inj e; exact h
    · obtain rfl := Except.ok.inj e; exact h
  | close i =>
    obtain rfl := Except.ok.inj e
    unfold Sys.close
    split
    · rename_i k v τ' hh
      refine ⟨by simp only [List.length_modify]; exact h.lt, fun b hb hτ => ?_, ?_⟩
      · rcases List.mem_or_eq_of_mem_set hb with hb | hb
        · exact h.free b hb hτ
        · rw [hb] at hτ; simp at hτ
      · intro j hj ht
        obtain ⟨j0, h0, rfl⟩ := List.mem_map.mp hj
        split at ht
        · rename_i hc; rw [if_pos hc]
        · rename_i hc; rw [if_neg hc]; exact h.over j0 h0 ht
    · exact h
  | expire i =>
    obtain rfl := Except.ok.inj e
    refine h.mapJobs fun j hj => ?_
    rw [List.mem_iff_getElem?] at hj
    obtain ⟨n, hn⟩ := hj
    rw [List.getElem?_modify] at hn
    cases hj0 : s.jobs[n]? with
    | none => rw [hj0] at hn; simp at hn
    | some j0 =>
      rw [hj0] at hn
      refine ⟨j0, List.mem_of_getElem? hj0, ?_⟩
      split at hn
      · obtain rfl := Option.some.inj hn
        exact ⟨rfl, fun hp => by simp [expire, hp]⟩
      · obtain rfl := Option.some.inj hn
        exact ⟨rfl, fun hp => hp⟩
  | enter i b =>
    simp only [Sys.step] at e
    split at e
    · obtain rfl := Except.ok.inj e; exact h
    · rename_i j hj
      obtain rfl := Except.ok.inj e
      refine hset i j _ hj ?_ ?_
      · unfold Sys.enter; split <;> rfl
      · intro hp; unfold Sys.enter; rw [if_neg (by rw [hp]; decide)]; exact hp
  | ring i =>
    simp only [Sys.step] at e
    split at e
    · obtain rfl := Except.ok.inj e; exact h
    · rename_i j hj
      have h0 := hset i j { j with phase := .over } hj rfl (fun _ => rfl)
      split at e
      · rcases fire_spec e with rfl | ⟨k, o, t, h1, h2, rfl⟩
        · exact h0
        · exact h0.write k t
      · obtain rfl := Except.ok.inj e; exact h

/-- **C26.** `Close` on a trie whose timers have not expired (every goroutine waits, or has ended) stops all of them: whatever
happens afterwards, none of these jobs rings. Missing for the full claim: a timer that expired before `Close` but whose
goroutine has not acted yet, or a goroutine that has not reached its `select` (`C26_close_fails`). -/
theorem C26_close_partial {P : Str → Prop} {d : Char} {s s' : Sys α} (r : Run P (Sys.new d) s) {h τ : Nat} {a : Handle}
    (ha : s.handles[h]? = some a) (hτ : a.ttl = some τ) (hw : ∀ j ∈ s.jobs, j.ttl = τ → j.phase = .parked ∨ j.phase = .over)
    (r' : Run P (s.close h) s') {i : Nat} {j : Job} (hj : s'.jobs[i]? = some j) (ht : j.ttl = τ) :
    j.phase = .over ∧ s'.step (.ring i) = .ok s' := by
  have hi := r.inv (Inv.new d)
  have hd : Dead τ (s.close h) := by
    obtain ⟨k, v, o⟩ := a
    simp only at hτ
    subst hτ
    unfold Sys.close
    rw [ha]
    refine ⟨by simp only [List.length_modify]; exact hi.httl _ (List.mem_of_getElem? ha) τ rfl, fun b hb hb' => ?_, ?_⟩
    · rw [List.mem_iff_getElem?] at hb
      obtain ⟨n, hn⟩ := hb
      rw [List.getElem?_set] at hn
      by_cases hhn : h = n
      · rw [if_pos hhn] at hn
        split at hn
        · obtain rfl := Option.some.inj hn
          simp at hb'
        · simp at hn
      · rw [if_neg hhn] at hn
        exact hhn (hi.share h n _ b τ ha hn rfl hb')
    · intro j hj ht
      obtain ⟨j0, h0, rfl⟩ := List.mem_map.mp hj
      split at ht
      · rename_i hc; rw [if_pos hc]
      · rename_i hc
        rw [if_neg hc]
        rcases hw j0 h0 ht with h1 | h1
        · exact absurd ⟨ht, h1⟩ hc
        · exact h1
  have hd' : Dead τ s' := by
    clear hj
    induction r' with
    | refl => exact hd
    | step x _ _ e ih => exact ih.step e
  have h1 := hd'.over j (List.mem_of_getElem? hj) ht
  refine ⟨h1, ?_⟩
  simp only [Sys.step, hj]
  rw [if_neg (by rw [h1]; decide)]

/-- **C26.** A goroutine that reaches its `select` after `Close`, before its timer expired, ends. -/
theorem C26_close_starting {s s' : Sys α} {i : Nat} {j : Job} {b : Bool} (hj : s.jobs[i]? = some j) {o : Ttl}
    (ho : s.ttls[j.ttl]? = some o) (hc : o.closed = true) (hx : j.expired = false) (hp : j.phase = .starting)
    (e : s.step (.enter i b) = .ok s') : s'.trees = s.trees ∧ s'.jobs[i]?.map (·.phase) = some .over := by
  simp only [Sys.step, hj, ho] at e
  obtain rfl := Except.ok.inj e
  refine ⟨rfl, ?_⟩
  rw [List.getElem?_set_self (List.getElem?_eq_some_iff.mp hj).1]
  simp [Sys.enter, hp, hx, hc]

/-! ### Branches -/

theorem _root_.Verif.Reach.mono {P Q : Str → Prop} (h : ∀ x, P x → Q x) {t : Tree α} (r : Reach P t) : Reach Q t := by
  induction r with
  | new => exact .new
  | step o _ hk e ih => exact .step o ih (fun w hw => h w (hk w hw)) e

/-- **C26.** A TTL on a branch entry `q` (set through the trie itself, no prefix): when it rings the subtree at `q` is removed and
nothing else. -/
theorem C26_branch {d : Char} {s : Sys α} (r : Run (fun p => Ascii p ∧ NoRoute d p) (Sys.new d) s) {i : Nat} {j : Job} (hj : s.jobs[i]? = some j)
    (hr : j.phase = .ringing) (h0 : j.tree = 0) {q : Str} {m : Node α} (hm : (q, m) ∈ (s.trees 0).root.nodes []) (hi : m.id = j.node)
    (hq : q ≠ []) (hb : m.core.leaf = false) {o : Ttl} {a : Handle} (ho : s.ttls[j.ttl]? = some o) (ha : s.handles[o.target]? = some a)
    (ht : a.tree = 0) (hpre : a.view.pre = []) (hd : a.view.delim = d) :
    ∃ s', s.step (.ring i) = .ok s' ∧ (∀ x, (s'.trees 0).contents x = if q <+: x then Option.none else (s.trees 0).contents x) ∧
      ∀ k, k ≠ 0 → s'.trees k = s.trees k := by
  have hinv := r.inv (Inv.new d)
  have hre := r.reach.2
  have h1 : Reach Ascii (s.trees 0) := Reach.mono (fun _ h => h.1) hre
  have h2 : Reach (NoRoute a.view.delim) (s.trees 0) := Reach.mono (fun _ h => by rw [hd]; exact h.2) hre
  obtain ⟨s1, s2⟩ := hinv.seen j (List.mem_of_getElem? hj) q m (by rw [h0]; exact hm) hi
  have hcon := (Tree.contents_node h1.ok).mpr ⟨m, hm, rfl⟩
  have hkey := ((h1.inv keyInv_ascii).2 q m.core hcon).2
  have hfull : a.view.full q = q := by rw [View.full, hpre]; simp
  obtain ⟨t', m', pr, e1, _, _, _, e2⟩ := removeEx_hit (v := a.view) (p := q) h2.ok h2.plain (by rw [hfull]; exact hq)
    (by rw [hfull]; exact resolve_at hcon)
  have hrem : a.view.remove (s.trees 0) (runes j.pathS) = .ok (t', true) := by
    rw [s2, hkey, runes_utf8, View.remove, e1]; rfl
  refine ⟨{ s with jobs := s.jobs.set i { j with phase := .over } }.write 0 t', ?_, ?_, ?_⟩
  · simp only [Sys.step, hj]
    rw [if_pos hr, fire, if_pos (by rw [s1]; simp [Core.isBranch, hb])]
    simp only [ho, ha, ht, hrem]
  · intro x
    simp only [Sys.write, setTree, if_true]
    exact e2 x
  · intro k hk
    simp only [Sys.write, setTree, if_neg hk]

/-! ### Where the claim fails -/

/-- A sequence of steps. -/
def runs (s : Sys α) : List (Step α) → Go (Sys α)
  | [] => .ok s
  | x :: l => match s.step x with | .error e => .error e | .ok s' => runs s' l

/-- `Set` through the first trie. -/
def put (p : String) (x : Nat) : Step Nat := .op 0 (.set (View.new '.') p.toList x)

/-- What `MustGet` and `Has` on tree `k` say about some paths. -/
def asks (k : Nat) (l : List (Step Nat)) (ps : List String) : Go (List (Nat × Bool)) :=
  match (Sys.new '.' : Sys Nat).runs l with
  | .error e => .error e
  | .ok s => ps.mapM fun p =>
    match (View.new '.').mustGet (s.trees k) p.toList, (View.new '.').has (s.trees k) p.toList with
    | .ok a, .ok b => .ok (a, b)
    | .error e, _ => .error e
    | _, .error e => .error e

/-- `Close` does not stop a timer that has expired when its goroutine has not cleared the entry yet, nor, if the goroutine had
not reached its `select`, one where both channels are ready. -/
theorem C26_close_fails :
    asks 0 [put "app.verbose" 1, .setTTL 0 "app.verbose".toList 1000, .enter 0 true, .expire 0, .close 0, .ring 0] ["app.verbose"] =
      .ok [(0, true)] ∧
    asks 0 [put "app.verbose" 1, .setTTL 0 "app.verbose".toList 1000, .close 0, .expire 0, .enter 0 true, .ring 0] ["app.verbose"] =
      .ok [(0, true)] ∧
    asks 0 [put "app.verbose" 1, .setTTL 0 "app.verbose".toList 1000, .close 0, .enter 0 true, .expire 0, .ring 0] ["app.verbose"] =
      .ok [(1, true)] := by decide +kernel

/-- `Close` on a view does not stop the timers that were set through the trie it was made from. -/
theorem C26_close_view_fails :
    asks 0 [put "app.verbose" 1, .setTTL 0 "app.verbose".toList 1000, .enter 0 true, .derive 0 (View.new '.'), .close 1, .expire 0, .ring 0]
      ["app.verbose"] = .ok [(0, true)] := by decide +kernel

/-- After `Set "app.verbose"`, `SetTTL "app.verbose"`, `Set "app.version"`, the expiry removes both entries: the node was split
and the job now points to the branch `app.ver`. The word "split" in the claim is needed. -/
theorem C26_split_fails :
    asks 0 [put "app.mode" 3, put "app.verbose" 1, .setTTL 0 "app.verbose".toList 1000, .enter 0 true, put "app.version" 2, .expire 0, .ring 0]
      ["app.verbose", "app.version", "app.mode"] = .ok [(0, false), (0, false), (3, true)] := by decide +kernel

/-- The word "leaf" is needed: an entry with a value that has entries below it is removed with them. -/
theorem C26_branch_value :
    asks 0 [put "ports" 1, put "port" 2, .setTTL 0 "port".toList 1000, .enter 0 true, .expire 0, .ring 0] ["port", "ports"] =
      .ok [(0, false), (0, false)] := by decide +kernel

/-- Writing a value again does not renew its time: the value of the second `Set` is cleared by the timer of the first. A second
`SetTTL` does not cancel the first either. -/
theorem C26_reset_cleared :
    asks 0 [put "k" 1, .setTTL 0 "k".toList 1000, .enter 0 true, put "k" 2, .setTTL 0 "k".toList 5000, .enter 1 true, .expire 0, .ring 0] ["k"] =
      .ok [(0, true)] := by decide +kernel

omit [Inhabited α] in
/-- Durations below 200 ns report success and do nothing. -/
theorem C26_short_ignored {s : Sys α} {h : Nat} {p : Str} {ns : Int} (hns : ns < 200) {s' : Sys α} {x : Int} (e : s.setTTL h p ns = .ok (s', x)) :
    s'.jobs = s.jobs ∧ s'.trees = s.trees := by
  have ha : ∀ (a : Handle), (s.arm h a).1.jobs = s.jobs ∧ (s.arm h a).1.trees = s.trees := fun a => by
    obtain ⟨e1, _, e3, _⟩ := arm_same s h a
    exact ⟨e3, e1⟩
  unfold Sys.setTTL at e
  split at e
  · simp at e; rw [← e.1]; exact ⟨rfl, rfl⟩
  · split at e
    · simp at e
    · simp at e
      rw [← e.1, Sys.add]
      simp only [if_pos hns]
      exact ha _
    · simp at e; rw [← e.1]; exact ⟨rfl, rfl⟩

/-- A branch TTL set on a copy (`Dup`) of a trie that has TTLs removes the branch of the original, not of the copy. -/
theorem C26_dup_fails :
    let l : List (Step Nat) := [put "app.a" 1, put "app.b" 2, .setTTL 0 "app.a".toList 9000, .dup 0, .setTTL 1 "app".toList 1000,
      .enter 1 true, .expire 1, .ring 1]
    asks 0 l ["app.a", "app.b"] = .ok [(0, false), (0, false)] ∧ asks 1 l ["app.a", "app.b"] = .ok [(1, true), (2, true)] := by decide +kernel

/-- A branch TTL set through a view with a prefix removes nothing: the prefix is applied a second time. -/
theorem C26_prefix_fails :
    asks 0 [put "app.x.a" 1, put "app.x.b" 2, .derive 0 ((View.new '.').withPrefix ["app".toList]), .setTTL 1 "x".toList 1000, .enter 0 true,
      .expire 0, .ring 0] ["app.x.a", "app.x.b"] = .ok [(1, true), (2, true)] := by decide +kernel

/-- A branch that was removed and written again is removed by the timer of the first one. -/
theorem C26_removed_branch_fails :
    asks 0 [put "app.a" 1, put "app.b" 2, .setTTL 0 "app".toList 1000, .enter 0 true, .op 0 (.remove (View.new '.') "app".toList),
      put "app.a" 3, put "app.b" 4, .expire 0, .ring 0] ["app.a", "app.b"] = .ok [(0, false), (0, false)] := by decide +kernel

/-! ### Examples -/

/-- Two entries with a TTL; the timer of the first one expires, a third entry is written in between. -/
example : asks 0 [put "app.a" 1, put "app.b" 2, .setTTL 0 "app.a".toList 1000, .setTTL 0 "app.b".toList 2000, .enter 1 true, .expire 0,
    put "app.c" 3, .enter 0 false, .ring 0] ["app.a", "app.b", "app.c"] = .ok [(0, true), (2, true), (3, true)] := by decide +kernel
example : asks 0 [put "app.a" 1, put "app.b" 2, put "x" 3, .setTTL 0 "app".toList 1000, .enter 0 true, .expire 0, .ring 0]
    ["app.a", "app.b", "x"] = .ok [(0, false), (0, false), (3, true)] := by decide +kernel

/-- The hypotheses of `C26_expiry` are met by the first of these executions. -/
example : ∃ (s s' : Sys Nat) (j : Job) (q : Str) (m : Node Nat), Run (NoRoute '.') (Sys.new '.') s ∧ s.jobs[0]? = some j ∧
    (q, m) ∈ (s.trees j.tree).root.nodes [] ∧ m.id = j.node ∧ m.core.leaf = true ∧ m.core.data = 1 ∧ Quiet j.tree q s s' ∧
    (s'.jobs[0]?.map (·.phase)) = some .ringing := by
  have hk : ∀ (w : String) (x : Nat), NoRoute '.' (View.dash w.toList) → ∀ k o q, put w x = .op k o → o.key = some q → NoRoute '.' q := by
    intro w x hw k o q e hq
    simp only [put, Step.op.injEq] at e
    rw [← e.2] at hq
    obtain rfl := Option.some.inj hq
    exact hw
  have hn : ∀ (x : Step Nat), (∀ k o, x ≠ .op k o) → ∀ k o q, x = .op k o → o.key = some q → NoRoute '.' q :=
    fun x hx k o q e => absurd e (hx k o)
  refine ⟨_, _, _, "app.a".toList, _,
    .step (.setTTL 0 "app.a".toList 1000) (.step (put "app.b" 2) (.step (put "app.a" 1) (.refl _) (hk _ _ (noRoute_of_plain (by decide +kernel) (by decide +kernel))) rfl) (hk _ _ (noRoute_of_plain (by decide +kernel) (by decide +kernel))) rfl)
      (hn _ (by simp)) rfl, rfl, List.mem_cons_of_mem _ (List.mem_cons_of_mem _ (List.mem_cons_self ..)), by decide +kernel, by decide +kernel, by decide +kernel,
    .step (.enter 0 false) (.step (put "app.c" 3) (.step (.expire 0) (.refl _) (by simp) rfl (by decide +kernel)) ?_ rfl (by decide +kernel)) (by simp) rfl (by decide +kernel),
    by decide +kernel⟩
  intro o w e hw
  simp only [put, Step.op.injEq] at e
  rw [← e.2] at hw
  obtain rfl := Option.some.inj hw
  decide +kernel

end Sys
end Verif

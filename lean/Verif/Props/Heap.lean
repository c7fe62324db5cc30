import Verif.Lemmas.HeapOps
/-
C85. The trees of the model are what readers find in memory, where `children` is a slice that `append`, `remove`
and `split` work on in place.
-/
namespace Verif
namespace Heap
variable {α : Type} [Inhabited α]

/-- Calls through the API, or on nodes to which someone kept a pointer. -/
def Calls (cs : List (Act α)) : Prop := ∀ a ∈ cs, ∀ k i f, a ≠ .op k (.node i f)

/-- Only calls through the API. -/
def NoPtr (cs : List (Act α)) : Prop := ∀ a ∈ cs, ∀ i f, a ≠ .node i f

theorem reached {grow : Nat → Nat} {cs : List (Act α)} (hc : Calls cs) {M : Mem α} (e : Mem.acts grow cs Mem.new = .ok M) :
    Grove.acts cs Grove.new = .ok M.grove ∧ ∃ R, Rep M M.grove R := by
  have h := acts_rep grow cs rep_new hc
  cases hg : Grove.acts cs (Grove.new : Grove α) with
  | error x => rw [hg] at h; simp only at h; rw [e] at h; cases h
  | ok g =>
    rw [hg] at h
    obtain ⟨M', R', e1, h1, _⟩ := h
    rw [e] at e1
    cases e1
    have := h1.grove
    rw [this]
    exact ⟨rfl, R', h1⟩

/-- Any history of calls on any number of tries, their copies and their nodes, run in memory, leaves in memory
the trees that the same history makes, and panics when and as that does. -/
theorem C85_history (grow : Nat → Nat) {cs : List (Act α)} (hc : Calls cs) :
    (Mem.acts grow cs Mem.new).map Mem.grove = Grove.acts cs Grove.new := by
  have h := acts_rep grow cs rep_new hc
  cases hg : Grove.acts cs (Grove.new : Grove α) with
  | error e => rw [hg] at h; simp only at h; rw [h]; rfl
  | ok g =>
    rw [hg] at h
    obtain ⟨M', R', e1, h1, _⟩ := h
    rw [e1]
    simp only [Except.map, h1.grove]

/-- How much room `append` makes does not matter. -/
theorem C85_grow (grow grow' : Nat → Nat) {cs : List (Act α)} (hc : Calls cs) :
    (Mem.acts grow cs Mem.new).map Mem.grove = (Mem.acts grow' cs Mem.new).map Mem.grove := by
  rw [C85_history grow hc, C85_history grow' hc]

theorem act_reached {grow : Nat → Nat} {cs : List (Act α)} (hc : Calls cs) {M M' : Mem α}
    (e : Mem.acts grow cs Mem.new = .ok M) {a : Act α} (ha : ∀ k i f, a ≠ .op k (.node i f)) (e' : M.act grow a = .ok M') :
    M.grove.act a = .ok M'.grove := by
  obtain ⟨_, R, h⟩ := reached hc e
  have h1 := act_rep grow h ha
  cases hg : M.grove.act a with
  | error x => rw [hg] at h1; simp only at h1; rw [e'] at h1; cases h1
  | ok g =>
    rw [hg] at h1
    obtain ⟨M1, R1, e1, h2, _⟩ := h1
    rw [e'] at e1
    cases e1
    rw [h2.grove]

/-- A call on one trie leaves the memory of all the others alone, copies and originals included. -/
theorem C85_apart {grow : Nat → Nat} {cs : List (Act α)} (hc : Calls cs) {M M' : Mem α}
    (e : Mem.acts grow cs Mem.new = .ok M) {k : Nat} {o : Op α} (ho : ∀ i f, o ≠ .node i f)
    (e' : M.act grow (.op k o) = .ok M') {j : Nat} (hj : j ≠ k) : M'.grove.trees[j]? = M.grove.trees[j]? := by
  have h := act_reached hc e (a := .op k o) (fun _ i f h => ho i f (by injection h)) e'
  simp only [Grove.act] at h
  split at h
  · rw [← Except.ok.inj h]
  · rename_i n hk
    cases hr : o.run { root := n, next := M.grove.next } with
    | error x => rw [hr] at h; cases h
    | ok t =>
      rw [hr] at h
      simp only [Except.map, Except.ok.injEq] at h
      rw [← h]
      simp only
      rw [List.getElem?_set_ne (Ne.symm hj)]

/-- `Dup` adds a trie with the same keys, values and flags and changes none of the others. -/
theorem C85_dup {grow : Nat → Nat} {cs : List (Act α)} (hc : Calls cs) {M M' : Mem α}
    (e : Mem.acts grow cs Mem.new = .ok M) {k : Nat} {n : Node α} (hk : M.grove.trees[k]? = some n)
    (e' : M.act grow (.dup k) = .ok M') :
    ∃ m, M'.grove.trees = M.grove.trees ++ [m] ∧ m.strip = n.strip ∧
      (∀ i ∈ m.ids, ∀ b ∈ M.grove.trees, i ∉ b.ids) := by
  have h := act_reached hc e (a := .dup k) (fun _ i f h => by cases h) e'
  simp only [Grove.act, hk, Except.ok.injEq] at h
  obtain ⟨_, R, hr⟩ := reached hc e
  refine ⟨(n.dup M.grove.next).1, by rw [← h], (Node.dup_spec n _).1, ?_⟩
  intro i hi b hb hm
  have h1 := (hr.ok b hb).ids_lt i hm
  have h2 := (Node.dup_spec n M.grove.next).2.2.1 i hi
  simp only at h1
  omega

omit [Inhabited α] in
theorem modify_none {i : Nat} {g : Node α → Node α} {n : Node α} (h : i ∉ n.ids) : n.modify i g = n := Node.modify_absent h

/-- A pointer belongs to one trie: writing through it leaves the others alone. -/
theorem C85_node {grow : Nat → Nat} {cs : List (Act α)} (hc : Calls cs) {M M' : Mem α}
    (e : Mem.acts grow cs Mem.new = .ok M) {k i : Nat} {n : Node α} {o : NodeOp α} (hk : M.grove.trees[k]? = some n)
    (hi : i ∈ n.ids) (e' : M.act grow (.node i o) = .ok M') {j : Nat} (hj : j ≠ k) :
    M'.grove.trees[j]? = M.grove.trees[j]? := by
  have h := act_reached hc e (a := .node i o) (fun _ i f h => by cases h) e'
  simp only [Grove.act, Except.ok.injEq] at h
  obtain ⟨_, R, hr⟩ := reached hc e
  rw [← h]
  simp only [List.getElem?_map]
  cases hb : M.grove.trees[j]? with
  | none => rfl
  | some b =>
    simp only [Option.map_some, Option.some.injEq]
    refine modify_none fun hm => ?_
    have hnd := hr.holds.nodup
    rw [List.map_append, Node.recsL_ids] at hnd
    have h1 := (List.nodup_append.mp hnd).1
    have key : ∀ (l : List (Node α)), (l.flatMap Node.ids).Nodup → ∀ (j k : Nat), l[j]? = some b → l[k]? = some n → j = k := by
      intro l
      induction l with
      | nil => intro _ j k hj; simp at hj
      | cons a as ih =>
        intro hnd j k hj hk
        rw [List.flatMap_cons, List.nodup_append] at hnd
        cases j with
        | zero =>
          cases k with
          | zero => rfl
          | succ k =>
            rw [List.getElem?_cons_zero, Option.some.injEq] at hj
            rw [List.getElem?_cons_succ] at hk
            exact absurd rfl (hnd.2.2 i (by rw [hj]; exact hm) i (List.mem_flatMap.mpr ⟨n, List.mem_of_getElem? hk, hi⟩))
        | succ j =>
          rw [List.getElem?_cons_succ] at hj
          cases k with
          | zero =>
            rw [List.getElem?_cons_zero, Option.some.injEq] at hk
            exact absurd rfl (hnd.2.2 i (by rw [hk]; exact hi) i (List.mem_flatMap.mpr ⟨b, List.mem_of_getElem? hj, hm⟩))
          | succ k =>
            rw [List.getElem?_cons_succ] at hk
            rw [ih hnd.2.1 j k hj hk]
    exact hj (key _ h1 j k hb hk)

/-- What `RemoveEx` returned stays readable, whole and unchanged, whatever is done to the tries afterwards. -/
theorem C85_removed {grow : Nat → Nat} {cs cs' : List (Act α)} (hc : Calls cs) {M M' M'' : Mem α}
    (e : Mem.acts grow cs Mem.new = .ok M) {k : Nat} {v : View} {p : Str} {n d q : Node α} {t : Tree α}
    (hk : M.grove.trees[k]? = some n) (hx : v.removeEx { root := n, next := M.next } p = .ok (t, some (d, q)))
    (e' : M.act grow (.op k (.remove v p)) = .ok M') (hc' : Calls cs') (hn : NoPtr cs')
    (e'' : Mem.acts grow cs' M' = .ok M'') : M''.heap.read M''.next d.id = d := by
  obtain ⟨_, R, hr⟩ := reached hc e
  have hn1 : n ∈ M.grove.trees := List.mem_of_getElem? hk
  obtain ⟨pre, post, e1, e2, e3⟩ := getElem?_split hk
  rw [View.removeEx] at hx
  cases hs : v.search { root := n, next := M.next } (v.full p) with
  | error x => rw [hs] at hx; cases hx
  | ok r =>
    rw [hs] at hx
    obtain ⟨_ | d', _ | q', _ | _, kv⟩ := r
    · cases hx
    · cases hx
    · cases hx
    · cases hx
    · cases hx
    · cases hx
    · simp only at hx
      split at hx
      · rename_i hany
        simp only [Except.ok.injEq, Prod.mk.injEq, Option.some.injEq] at hx
        obtain ⟨rfl, rfl, rfl⟩ := hx
        obtain ⟨hq, hd⟩ := View.search_pair hs
        have hprims : (Op.remove v p).prims { root := n, next := M.next } = .ok [.remove q'.id d'.id] := by
          simp only [Op.prims, hs, if_pos hany]
        have hroots := hr.roots
        have hrd : M.heap.read M.next n.id = n := by
          have h2 : M.roots.map (M.heap.read M.next) = M.grove.trees := rfl
          have h3 := congrArg (fun l => l[k]?) h2
          rw [hroots] at h3
          simp only [List.getElem?_map, hk, Option.map_some, Option.some.injEq] at h3
          exact h3
        simp only [Mem.act, hroots, List.getElem?_map, hk, Option.map_some, hrd, hprims, Except.map, List.foldl_cons,
          List.foldl_nil, Except.ok.injEq] at e'
        have hH := hr.holds.perm (recsL_perm e1 R)
        obtain ⟨h1, _⟩ := remove_holds hH hq hd
        have hok : ({ root := n, next := M.next } : Tree α).OK := hr.ok n hn1
        have hok' := (removeChild_ok hok q'.id d'.id).1
        have hlt : ∀ r ∈ d'.recs, r.id < M.next := by
          intro r hr'
          refine hok.ids_lt _ ?_
          rw [← Node.recs_ids]
          refine List.mem_map_of_mem ?_
          obtain ⟨a, b, e4⟩ := List.append_of_mem hd
          have h3 : r ∈ q'.recs ++ [] := (kid_perm e4 []).mem_iff.mpr (List.mem_append_left _ hr')
          rw [List.append_nil] at h3
          rw [Node.recs_walk] at h3 ⊢
          obtain ⟨m, hm, rfl⟩ := List.mem_map.mp h3
          exact List.mem_map_of_mem (Node.walk_trans hq hm)
        have hrep : Rep M' { trees := pre ++ n.modify q'.id (Node.removeChild d'.id) :: post, next := M.next } (d'.recs ++ R) := by
          rw [← e']
          refine ⟨rfl, ?_, ?_, ?_, ?_⟩
          · show M.roots = _
            rw [hroots, e1]
            simp [Node.modify_remove_id]
          · intro m hm
            rcases List.mem_append.mp hm with hm | hm
            · exact hr.ok m (by rw [e1]; exact List.mem_append_left _ hm)
            · rcases List.mem_cons.mp hm with rfl | hm
              · exact hok'
              · exact hr.ok m (by rw [e1]; simp [hm])
          · refine h1.perm ?_
            refine List.Perm.trans ?_ (recsL_perm rfl (d'.recs ++ R)).symm
            refine List.Perm.append_left _ ?_
            exact List.perm_append_comm_assoc ..
          · intro r hr'
            rcases List.mem_append.mp hr' with hr' | hr'
            · exact hlt r hr'
            · exact hr.lt r hr'
        have h4 := acts_rep grow cs' hrep hc'
        cases hg : Grove.acts cs' { trees := pre ++ n.modify q'.id (Node.removeChild d'.id) :: post, next := M.next } with
        | error x => rw [hg] at h4; simp only at h4; rw [e''] at h4; cases h4
        | ok g =>
          rw [hg] at h4
          obtain ⟨M2, R2, e5, h5, h6⟩ := h4
          rw [e''] at e5
          cases e5
          obtain ⟨D, hD⟩ := h6 hn
          have h7 : Holds M''.heap (d'.recs ++ (D ++ R ++ Node.recsL g.trees)) := by
            refine h5.holds.perm ?_
            rw [hD]
            refine List.perm_append_comm.trans ?_
            simp only [List.append_assoc]
            exact List.perm_append_comm_assoc ..
          refine read_holds M''.next d' h7 ?_
          rw [← List.length_map (f := fun r : Rec α => r.id), Node.recs_ids]
          refine Nat.le_succ_of_le (length_le_of_lt _ _ h7.ids.1 ?_)
          intro x hx
          rw [← Node.recs_ids] at hx
          obtain ⟨r, hr', rfl⟩ := List.mem_map.mp hx
          exact h5.lt r (by rw [hD]; exact List.mem_append_right _ (List.mem_append_left _ hr'))
      · cases hx
    · cases hx

/-! Examples: five keys, a copy of the trie, then calls on the original, on the copy, and through a pointer. -/

def v0 : View := { pre := [], delim := '.', mode := .none }

def exActs : List (Act Nat) :=
  [.op 0 (.set v0 ['a', '.', 'x'] 1), .op 0 (.set v0 ['a', '.', 'y'] 2), .op 0 (.set v0 ['b'] 3), .op 0 (.set v0 ['c'] 4), .dup 0,
   .op 0 (.remove v0 ['b']), .op 1 (.set v0 ['d'] 5), .op 0 (.setComment v0 ['c'] ['u'] ['w']), .node 4 (.setData 7),
   .op 0 (.set v0 ['e'] 6)]

example : Calls exActs := by
  intro a ha k i f h
  simp only [exActs, List.mem_cons, List.not_mem_nil, or_false] at ha
  rcases ha with h1 | h1 | h1 | h1 | h1 | h1 | h1 | h1 | h1 | h1 <;> rw [h1] at h <;> injection h <;> contradiction

/-- The values in a memory, trie by trie, with and without spare room. -/
def vals (M : Mem Nat) : List (List Nat) :=
  M.grove.trees.map (fun n => (n.walk.filter (fun m => m.core.hasData)).map (fun m => m.core.data))

def runsTo (grow : Nat → Nat) (cs : List (Act Nat)) (l : List (List Nat)) : Bool :=
  match Mem.acts grow cs Mem.new with
  | .ok M => vals M == l
  | .error _ => false

example : runsTo (fun _ => 0) exActs [[1, 7, 4, 6], [1, 2, 3, 4, 5]] = true := by decide +kernel
example : runsTo (fun n => n + 1) exActs [[1, 7, 4, 6], [1, 2, 3, 4, 5]] = true := by decide +kernel

/-- The node that `RemoveEx("b")` returned (in the history above), after the rest of the history without the pointer. -/
def exGone : Bool :=
  match Mem.acts (fun _ => 0) (exActs.take 5) (Mem.new : Mem Nat) with
  | .error _ => false
  | .ok M =>
    match M.grove.trees[0]? with
    | none => false
    | some n =>
      match v0.removeEx { root := n, next := M.next } ['b'] with
      | .ok (_, some (d, _)) =>
        match M.act (fun _ => 0) (.op 0 (.remove v0 ['b'])) with
        | .error _ => false
        | .ok M' =>
          match Mem.acts (fun _ => 0) [.op 1 (.set v0 ['d'] 5), .op 0 (.set v0 ['b', 'b'] 6), .dup 1] M' with
          | .error _ => false
          | .ok M'' => (M''.heap.read M''.next d.id).core.data == 3 && vals M'' == [[1, 2, 4, 6], [1, 2, 3, 4, 5], [1, 2, 3, 4, 5]]
      | _ => false

example : exGone = true := by decide +kernel

/-- `Remove` does write into the array: the place behind the last child keeps an old pointer. -/
def tail : List Nat :=
  match Mem.acts (fun _ => 0) (exActs.take 6) (Mem.new : Mem Nat) with
  | .ok M => M.heap.arr (M.heap.cell 0).arr
  | .error _ => []

example : tail.length = 3 ∧ tail.getLast? = tail[1]? := by decide +kernel

end Heap
end Verif

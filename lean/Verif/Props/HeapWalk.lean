import Verif.Lemmas.HeapWalk
import Verif.Props.Heap
/-
C86. `Walk` with a callback that changes the tries.
-/
namespace Verif
variable {α : Type}

/-- A node of one of the tries in memory. -/
def Mem.At [Inhabited α] (M : Mem α) (n : Node α) : Prop := ∃ r ∈ M.grove.trees, n ∈ r.walk

theorem Node.walk_perm {n m : Node α} (h : m ∈ n.walk) : ∃ Q, (n.recs).Perm (m.recs ++ Q) := by
  induction n using Node.ind with
  | h i p c k ih =>
    rw [Node.walk] at h
    rcases List.mem_cons.mp h with rfl | h
    · exact ⟨[], by rw [List.append_nil]⟩
    · obtain ⟨a, ha, h1⟩ := Node.walkL_mem.mp h
      obtain ⟨Q, hQ⟩ := ih a ha h1
      obtain ⟨pre, post, e⟩ := List.append_of_mem ha
      have h2 := Heap.kid_perm (n := .mk i p c k) e []
      rw [List.append_nil] at h2
      refine ⟨Q ++ ((Node.mk i p c k).toRec :: (Node.recsL pre ++ Node.recsL post) ++ []), h2.trans ?_⟩
      refine (hQ.append_right _).trans ?_
      rw [List.append_assoc]

namespace Heap
variable [Inhabited α]

theorem at_holds {grow : Nat → Nat} {cs : List (Act α)} (hc : Calls cs) {M : Mem α} (e : Mem.acts grow cs Mem.new = .ok M) {n : Node α}
    (hn : M.At n) : ∃ R, Holds M.heap (n.recs ++ R) ∧ (∀ r ∈ n.recs ++ R, r.id < M.next) ∧ n.recs.length ≤ M.next := by
  obtain ⟨_, R, h⟩ := reached hc e
  obtain ⟨r, hr, hm⟩ := hn
  obtain ⟨pre, post, e1⟩ := List.append_of_mem hr
  obtain ⟨Q, hQ⟩ := Node.walk_perm hm
  have hp : (Node.recsL M.grove.trees ++ R).Perm (n.recs ++ (Q ++ ((Node.recsL pre ++ Node.recsL post) ++ R))) := by
    refine (recsL_perm e1 R).trans ?_
    rw [← List.append_assoc n.recs]
    exact hQ.append_right _
  have hlt : ∀ r ∈ n.recs ++ (Q ++ ((Node.recsL pre ++ Node.recsL post) ++ R)), r.id < M.next := by
    intro x hx
    rcases List.mem_append.mp (hp.mem_iff.mpr hx) with hx | hx
    · exact h.lt_trees x hx
    · exact h.lt x hx
  have hH := h.holds.perm hp
  refine ⟨_, hH, hlt, ?_⟩
  rw [← List.length_map (f := fun r : Rec α => r.id)]
  refine length_le_of_lt _ _ ?_ ?_
  · have := hH.nodup
    rw [List.map_append, List.nodup_append] at this
    exact this.1
  · intro x hx
    obtain ⟨r, hr, rfl⟩ := List.mem_map.mp hx
    exact hlt r (List.mem_append_left _ hr)

/-- A callback that changes nothing but the visited node and what is below it is called once for each node of the tree that is there at
the end, in the order of that tree, and for no other. -/
theorem C86_local {grow : Nat → Nat} {cs : List (Act α)} (hc : Calls cs) {M : Mem α} (e : Mem.acts grow cs Mem.new = .ok M) {n : Node α}
    (hn : M.At n) {P : Node α → Node α → Prop} (hP : ∀ n m, P n m → m.id = n.id) {cb : Nat → Heap α → Heap α}
    (hcb : Local (fun _ _ => True) P cb) {fuel : Nat} {H' : Heap α} {vs : List Nat} (hw : walk cb fuel n.id M.heap = some (H', vs)) :
    ∃ n', Walked P [n] [n'] vs ∧ vs = n'.walk.map Node.id ∧ ∀ f, n'.recs.length ≤ f + 1 → H'.read f n.id = n' := by
  obtain ⟨R, h, _⟩ := at_holds hc e hn
  obtain ⟨n', D, h1, h2, _, h4⟩ := (walk_local (fun _ _ _ _ h => h) hP hcb fuel).1 n M.heap H' R vs h trivial hw
  have hi := h1.ids hP
  simp only [List.map_cons, List.map_nil, List.cons.injEq, and_true, Node.walkL, List.append_nil] at hi
  refine ⟨n', h1, hi.2, fun f hf => ?_⟩
  rw [← hi.1]
  exact read_holds f n' h2 hf

omit [Inhabited α] in
/-- Such a callback leaves alone all the rest of the memory, whatever it is: other tries, their copies, removed nodes. -/
theorem C86_apart {H H' : Heap α} {n : Node α} {R : List (Rec α)} (h : Holds H (n.recs ++ R)) {P : Node α → Node α → Prop}
    (hP : ∀ n m, P n m → m.id = n.id) {cb : Nat → Heap α → Heap α} (hcb : Local (fun _ _ => True) P cb) {fuel : Nat} {vs : List Nat}
    (hw : walk cb fuel n.id H = some (H', vs)) {m : Node α} (hm : ∃ Q, R.Perm (m.recs ++ Q)) (f : Nat) (hf : m.recs.length ≤ f + 1) :
    H'.read f m.id = m := by
  obtain ⟨n', D, h1, h2, _, h4⟩ := (walk_local (fun _ _ _ _ h => h) hP hcb fuel).1 n H H' R vs h trivial hw
  obtain ⟨Q, hQ⟩ := hm
  refine read_holds f m (R := Q ++ (n'.recs ++ D)) (h2.perm ?_) hf
  rw [← List.append_assoc]
  refine List.perm_append_comm.trans ?_
  rw [← List.append_assoc m.recs]
  exact hQ.append_right _

/-- It comes to an end if it makes no node larger. -/
theorem C86_ends {grow : Nat → Nat} {cs : List (Act α)} (hc : Calls cs) {M : Mem α} (e : Mem.acts grow cs Mem.new = .ok M) {n : Node α}
    (hn : M.At n) {P : Node α → Node α → Prop} (hP : ∀ n m, P n m → m.id = n.id) (hs : ∀ n m, P n m → m.recs.length ≤ n.recs.length)
    {cb : Nat → Heap α → Heap α} (hcb : Local (fun _ _ => True) P cb) (fuel : Nat) (hf : 2 * M.next ≤ fuel) :
    ∃ q, walk cb fuel n.id M.heap = some q := by
  obtain ⟨R, h, _, hl⟩ := at_holds hc e hn
  exact (walk_ends (fun _ _ _ _ h => h) hP hs hcb fuel).1 n M.heap R h trivial (by omega)

/-! Callbacks that write to the visited node. -/

omit [Inhabited α] in
theorem write_local (f : Core α → Core α) : Local (α := α) (fun _ _ => True) (fun n m => m = n.mapCore f) (fun i H => H.write i f) := by
  intro n H R h _
  have hi : ∀ r ∈ R, r.id ≠ n.id := fun r hr e => h.ids.2 r hr (by rw [e, Node.ids_cons]; simp)
  obtain ⟨h1, h2⟩ := write_holds h n.id f hi
  have hm : n.modify n.id (Node.mapCore f) = n.mapCore f := by
    have hnd := h.ids.1
    cases n with
    | mk i p c k =>
      rw [Node.ids_mk, List.nodup_cons] at hnd
      rw [Node.modify, Node.modifyL_eq]
      have : k.map (Node.modify i (Node.mapCore f)) = k := by
        conv => rhs; rw [← List.map_id k]
        refine List.map_congr_left fun m hm => Node.modify_absent fun hx => hnd.1 (List.mem_flatMap.mpr ⟨m, hm, hx⟩)
      simp only [Node.id, if_true, this, Node.mapCore]
  rw [hm] at h1
  refine ⟨n.mapCore f, [], rfl, by cases n; rfl, h1, trivial, h2⟩

/-- A callback that writes to the visited node (`SetData`, `SetComment`, `SetModified`, ...) sees every node once, in order, and the
tree at the end is the one before with every node written to. -/
theorem C86_write {grow : Nat → Nat} {cs : List (Act α)} (hc : Calls cs) {M : Mem α} (e : Mem.acts grow cs Mem.new = .ok M) {n : Node α}
    (hn : M.At n) (f : Core α → Core α) (fuel : Nat) (hf : 2 * M.next ≤ fuel) :
    ∃ H' n', walk (fun i H => H.write i f) fuel n.id M.heap = some (H', n.walk.map Node.id) ∧
      (∀ d, n'.recs.length ≤ d + 1 → H'.read d n.id = n') ∧
      n'.walk.map (fun m => (m.id, m.path, m.core, m.kids.map Node.id)) =
        n.walk.map (fun m => (m.id, m.path, f m.core, m.kids.map Node.id)) := by
  have hP : ∀ n m : Node α, m = n.mapCore f → m.id = n.id := by intro n m e; subst e; cases n; rfl
  obtain ⟨q, hq⟩ := C86_ends hc e hn hP (by
    intro n m e; subst e; cases n
    simp [Node.mapCore, Node.recs]) (write_local f) fuel hf
  obtain ⟨n', h1, h2, h3⟩ := C86_local hc e hn hP (write_local f) hq
  have key : ∀ (l l' : List (Node α)) (vs : List Nat), Walked (fun n m => m = n.mapCore f) l l' vs →
      (Node.walkL l').map (fun m => (m.id, m.path, m.core, m.kids.map Node.id)) =
        (Node.walkL l).map (fun m => (m.id, m.path, f m.core, m.kids.map Node.id)) := by
    intro l l' vs h
    induction h with
    | nil => rfl
    | @cons n m ks as as' vs ws a b _ ih1 ih2 =>
      have hids := (b.ids hP).1
      subst a
      cases n with
      | mk i p c k =>
        rw [Node.walkL, Node.walkL, List.map_append, List.map_append, ih2]
        congr 1
        rw [Node.walk, Node.walk, List.map_cons, List.map_cons, ih1]
        congr 1
        simp only [Node.id, Node.path, Node.core, Node.kids, Prod.mk.injEq]
        exact ⟨rfl, rfl, rfl, hids⟩
  have h4 := key _ _ _ h1
  simp only [Node.walkL, List.append_nil] at h4
  have h5 := congrArg (List.map (fun x : Nat × Str × Core α × List Nat => x.1)) h4
  simp only [List.map_map] at h5
  refine ⟨q.1, n', ?_, h3, h4⟩
  rw [hq, Option.some.injEq]
  refine Prod.ext rfl ?_
  rw [h2]
  exact h5

/-! Callbacks that remove below the visited node. -/

/-- Remove the children of the node `i` that satisfy `q`. -/
def prune (q : Str → Core α → Bool) (i : Nat) (H : Heap α) : Heap α :=
  ((H.kids i).filter (fun j => q (H.cell j).path (H.cell j).core)).foldl (fun H j => H.remove i j) H

omit [Inhabited α] in
theorem removes_holds (js : List Nat) : ∀ (n : Node α) (H : Heap α) (R : List (Rec α)), Holds H (n.recs ++ R) → js.Nodup →
    (∀ j ∈ js, j ∈ n.kids.map Node.id) →
    ∃ D, Holds (js.foldl (fun H j => H.remove n.id j) H)
        ((Node.mk n.id n.path n.core (n.kids.filter (fun c => decide (c.id ∉ js)))).recs ++ (D ++ R)) ∧
      Keeps R H (js.foldl (fun H j => H.remove n.id j) H) := by
  induction js with
  | nil =>
    intro n H R h _ _
    refine ⟨[], ?_, Keeps.refl _ _⟩
    cases n with
    | mk i p c k =>
      show Holds H ((Node.mk i p c (k.filter (fun c => decide (c.id ∉ [])))).recs ++ R)
      rw [List.filter_eq_self.mpr (by simp)]
      exact h
  | cons j js ih =>
    intro n H R h hnd hj
    obtain ⟨d, hd, rfl⟩ := List.mem_map.mp (hj j (by simp))
    have hself : n ∈ n.walk := by cases n; rw [Node.walk]; exact List.mem_cons_self
    obtain ⟨h1, k1⟩ := remove_holds h hself hd
    have hids := h.ids.1
    have hk : (n.kids.map Node.id).Nodup := by
      rw [Node.ids_cons, List.nodup_cons] at hids
      refine List.Nodup.sublist ?_ hids.2
      have : ∀ l : List (Node α), (l.map Node.id).Sublist (l.flatMap Node.ids) := by
        intro l
        induction l with
        | nil => exact List.Sublist.refl _
        | cons a as ih =>
          rw [List.map_cons, List.flatMap_cons, Node.ids_cons a, List.cons_append]
          exact (ih.trans (List.sublist_append_right ..)).cons_cons _
      exact this _
    have hm : n.modify n.id (Node.removeChild d.id) = Node.mk n.id n.path n.core (n.kids.filter (fun c => decide (c.id ≠ d.id))) := by
      cases n with
      | mk i p c k =>
        rw [Node.ids_mk, List.nodup_cons] at hids
        rw [Node.modify, Node.modifyL_eq]
        have e1 : k.map (Node.modify i (Node.removeChild d.id)) = k := by
          conv => rhs; rw [← List.map_id k]
          refine List.map_congr_left fun m hm => Node.modify_absent fun hx => hids.1 (List.mem_flatMap.mpr ⟨m, hm, hx⟩)
        have e2 : ∀ l : List (Node α), (l.map Node.id).Nodup → l.eraseP (fun n => n.id = d.id) = l.filter (fun c => decide (c.id ≠ d.id)) := by
          intro l
          induction l with
          | nil => intro _; rfl
          | cons a as ih =>
            intro hn
            rw [List.map_cons, List.nodup_cons] at hn
            by_cases ha : a.id = d.id
            · rw [List.eraseP_cons_of_pos (by simpa using ha), List.filter_cons_of_neg (by simpa using ha)]
              symm
              rw [List.filter_eq_self]
              intro x hx
              have : x.id ≠ d.id := fun h => hn.1 (List.mem_map.mpr ⟨x, hx, by rw [h, ha]⟩)
              simpa using this
            · rw [List.eraseP_cons_of_neg (by simpa using ha), List.filter_cons_of_pos (by simpa using ha), ih hn.2]
        show (if i = i then Node.removeChild d.id (Node.mk i p c (k.map (Node.modify i (Node.removeChild d.id)))) else _) = _
        rw [if_pos rfl, e1]
        show Node.mk i p c (k.eraseP (fun n => n.id = d.id)) = Node.mk i p c (k.filter (fun c => decide (c.id ≠ d.id)))
        rw [e2 k hk]
    rw [hm] at h1
    rw [List.nodup_cons] at hnd
    obtain ⟨D, h2, k2⟩ := ih _ _ _ h1 hnd.2 (by
      intro x hx
      obtain ⟨c, hc, rfl⟩ := List.mem_map.mp (hj x (by simp [hx]))
      refine List.mem_map.mpr ⟨c, ?_, rfl⟩
      have : c.id ≠ d.id := fun h => hnd.1 (by rw [← h]; exact hx)
      exact List.mem_filter.mpr ⟨hc, by simpa using this⟩)
    refine ⟨D ++ d.recs, ?_, ?_⟩
    · rw [List.foldl_cons, List.append_assoc]
      have e3 : (n.kids.filter (fun c => decide (c.id ≠ d.id))).filter (fun c => decide (c.id ∉ js)) =
          n.kids.filter (fun c => decide (c.id ∉ d.id :: js)) := by
        rw [List.filter_filter]
        refine List.filter_congr fun c _ => ?_
        simp only [List.mem_cons, not_or, Bool.decide_and]
        exact Bool.and_comm ..
      have h3 := h2
      rw [show (Node.mk n.id n.path n.core (n.kids.filter (fun c => decide (c.id ≠ d.id)))).kids =
        n.kids.filter (fun c => decide (c.id ≠ d.id)) from rfl, e3] at h3
      exact h3
    · rw [List.foldl_cons]
      exact (k1.mono (fun x hx => by simp [hx])).trans (k2.mono (fun x hx => by simp [hx]))

/-- What pruning makes of a node. -/
def pruned (q : Str → Core α → Bool) (n : Node α) : Node α :=
  .mk n.id n.path n.core (n.kids.filter (fun c => !q c.path c.core))

omit [Inhabited α] in
theorem prune_local (q : Str → Core α → Bool) : Local (α := α) (fun _ _ => True) (fun n m => m = pruned q n) (prune q) := by
  intro n H R h _
  have hrec : n.toRec ∈ n.recs ++ R := List.mem_append_left _ (mem_recs_self n)
  have hkids : H.kids n.id = n.kids.map Node.id := h.kids _ hrec
  have hcell : ∀ c ∈ n.kids, (H.cell c.id).path = c.path ∧ (H.cell c.id).core = c.core := by
    intro c hc
    obtain ⟨pre, post, e⟩ := List.append_of_mem hc
    have h1 := h.perm (kid_perm e R)
    have h2 : c.toRec ∈ c.recs ++ (n.toRec :: (Node.recsL pre ++ Node.recsL post) ++ R) := List.mem_append_left _ (mem_recs_self c)
    exact ⟨h1.path _ h2, h1.core _ h2⟩
  have hnd : (n.kids.map Node.id).Nodup := by
    have := h.ids.1
    rw [Node.ids_cons, List.nodup_cons] at this
    refine List.Nodup.sublist ?_ this.2
    have : ∀ l : List (Node α), (l.map Node.id).Sublist (l.flatMap Node.ids) := by
      intro l
      induction l with
      | nil => exact List.Sublist.refl _
      | cons a as ih =>
        rw [List.map_cons, List.flatMap_cons, Node.ids_cons a, List.cons_append]
        exact (ih.trans (List.sublist_append_right ..)).cons_cons _
    exact this _
  have hjs : (H.kids n.id).filter (fun j => q (H.cell j).path (H.cell j).core) = (n.kids.filter (fun c => q c.path c.core)).map Node.id := by
    rw [hkids, List.filter_map]
    congr 1
    refine List.filter_congr fun c hc => ?_
    simp only [Function.comp, (hcell c hc).1, (hcell c hc).2]
  obtain ⟨D, h1, h2⟩ := removes_holds ((n.kids.filter (fun c => q c.path c.core)).map Node.id) n H R h
    (hnd.sublist (List.filter_sublist.map _))
    (fun j hj => by
      obtain ⟨c, hc, rfl⟩ := List.mem_map.mp hj
      exact List.mem_map_of_mem (List.mem_filter.mp hc).1)
  have e : n.kids.filter (fun c => decide (c.id ∉ (n.kids.filter (fun c => q c.path c.core)).map Node.id)) =
      n.kids.filter (fun c => !q c.path c.core) := by
    refine List.filter_congr fun c hc => ?_
    by_cases hq : q c.path c.core = true
    · have : c.id ∈ (n.kids.filter (fun c => q c.path c.core)).map Node.id :=
        List.mem_map_of_mem (List.mem_filter.mpr ⟨hc, hq⟩)
      simp [hq, this]
    · have hno : c.id ∉ (n.kids.filter (fun c => q c.path c.core)).map Node.id := by
        intro hm
        obtain ⟨c', hc', he⟩ := List.mem_map.mp hm
        obtain ⟨g1, g2⟩ := List.mem_filter.mp hc'
        have := Node.inj_of_nodup hnd g1 hc he
        rw [this] at g2
        exact hq g2
      simp [hq, hno]
  rw [e] at h1
  refine ⟨pruned q n, D, rfl, rfl, ?_, trivial, ?_⟩
  · rw [prune, hjs]; exact h1
  · rw [prune, hjs]; exact h2

/-- A callback that removes children of the visited node: it is called for the nodes that are left, each once, in their order; the others
are gone with all below them. -/
theorem C86_prune {grow : Nat → Nat} {cs : List (Act α)} (hc : Calls cs) {M : Mem α} (e : Mem.acts grow cs Mem.new = .ok M) {n : Node α}
    (hn : M.At n) (q : Str → Core α → Bool) (fuel : Nat) (hf : 2 * M.next ≤ fuel) :
    ∃ H' n', walk (prune q) fuel n.id M.heap = some (H', n'.walk.map Node.id) ∧
      (∀ d, n'.recs.length ≤ d + 1 → H'.read d n.id = n') ∧ Walked (fun n m => m = pruned q n) [n] [n'] (n'.walk.map Node.id) := by
  have hP : ∀ n m : Node α, m = pruned q n → m.id = n.id := by intro n m e; subst e; rfl
  have hfl : ∀ l : List (Node α), ∀ r : Node α → Bool, (Node.recsL (l.filter r)).length ≤ (Node.recsL l).length := by
    intro l r
    induction l with
    | nil => exact Nat.le_refl _
    | cons a as ih =>
      rw [List.filter_cons]
      split
      · simp only [Node.recsL, List.length_append]; omega
      · simp only [Node.recsL, List.length_append]; omega
  obtain ⟨x, hx⟩ := C86_ends hc e hn hP (by
    intro n m e; subst e
    rw [Node.recs_eq n]
    simp only [pruned, Node.recs, List.length_cons]
    have := hfl n.kids (fun c => !q c.path c.core)
    omega) (prune_local q) fuel hf
  obtain ⟨n', h1, h2, h3⟩ := C86_local hc e hn hP (prune_local q) hx
  refine ⟨x.1, n', ?_, h3, by rw [← h2]; exact h1⟩
  rw [hx, ← h2]

/-! Callbacks that add below the visited node. -/

/-- Append a leaf to the visited node, as `Set` of a longer key does. -/
def sprout (grow : Nat → Nat) (word : Str) (x : α) (i : Nat) (H : Heap α) : Heap α :=
  H.leaf grow (H.na - 1) i word [] x

theorem sprout_local (grow : Nat → Nat) (word : Str) (x : α) :
    Local (fun H L => 0 < H.na ∧ ∀ r ∈ L, r.id < H.na) (fun n m => m.id = n.id ∧ m.kids ≠ []) (sprout grow word x) := by
  intro n H R h hi
  obtain ⟨hna, hi⟩ := hi
  have e : H.na - 1 + 1 = H.na := by omega
  obtain ⟨h1, h2⟩ := h.leaf grow (H.na - 1) (by
    rw [e]
    intro hm
    obtain ⟨r, hr, he⟩ := List.mem_map.mp hm
    have := hi r hr
    omega) word [] x
  have hna' : H.na < (sprout grow word x n.id H).na := by
    have h3 := h.make H.na (by
      intro hm
      obtain ⟨r, hr, he⟩ := List.mem_map.mp hm
      have := hi r hr
      omega) word (Node.leafCore [] x) 0
    simp only [sprout, Heap.leaf, e]
    have h4 : H.na < (H.make H.na word { Core.zero with pathS := [], leaf := true, hasData := true, data := x } 0).na := by
      simp [Heap.make]
    refine Nat.lt_of_lt_of_le h4 ?_
    rw [Heap.append]
    split
    · exact Nat.le_refl _
    · exact Nat.le_succ _
  refine ⟨.mk n.id n.path n.core (n.kids ++ [Node.newLeaf (H.na - 1 + 1) word [] x]), [], ⟨rfl, ?_⟩, rfl, h1, ⟨by omega, ?_⟩, h2⟩
  · show n.kids ++ _ ≠ []
    simp
  intro r hr
  rcases List.mem_append.mp hr with hr | hr
  · rw [Node.recs] at hr
    rcases List.mem_cons.mp hr with rfl | hr
    · have := hi n.toRec (List.mem_append_left _ (mem_recs_self n))
      simp only [Node.toRec] at this
      simp only
      omega
    · rw [Node.recsL_append] at hr
      rcases List.mem_append.mp hr with hr | hr
      · have := hi r (by rw [Node.recs_eq]; simp [hr])
        omega
      · simp only [Node.recsL, Node.newLeaf, Node.recs, List.append_nil, List.mem_singleton] at hr
        rw [hr, e]
        exact hna'
  · have := hi r (by simp at hr; simp [hr])
    omega

omit [Inhabited α] in
/-- A callback after which the visited node always has a child never lets the walk end. -/
theorem C86_endless {I : Heap α → List (Rec α) → Prop} (hI : ∀ H L L', L.Perm L' → I H L → I H L') {P : Node α → Node α → Prop}
    (hP : ∀ n m, P n m → m.id = n.id ∧ m.kids ≠ []) {cb : Nat → Heap α → Heap α} (hc : Local I P cb) (n : Node α) (H : Heap α)
    (R : List (Rec α)) (h : Holds H (n.recs ++ R)) (hi : I H (n.recs ++ R)) (fuel : Nat) : walk cb fuel n.id H = none :=
  walk_endless hI (fun n m h => (hP n m h).1) (fun n m h => (hP n m h).2) hc fuel n H R h hi

/-- So it is with a callback that adds a leaf to every visited node. -/
theorem C86_sprout_fails (grow : Nat → Nat) (word : Str) (x : α) (n : Node α) (H : Heap α) (R : List (Rec α))
    (h : Holds H (n.recs ++ R)) (hi : ∀ r ∈ n.recs ++ R, r.id < H.na) (fuel : Nat) : walk (sprout grow word x) fuel n.id H = none := by
  refine C86_endless ?_ (fun _ _ h => h) (sprout_local grow word x) n H R h ⟨?_, hi⟩ fuel
  · rintro H L L' p ⟨h1, h2⟩
    exact ⟨h1, fun r hr => h2 r (p.mem_iff.mpr hr)⟩
  · have := hi n.toRec (List.mem_append_left _ (mem_recs_self n))
    omega

/-! Callbacks that remove the visited node. -/

/-- Remove the node `a` from `par` when it is visited. -/
def dropAt (par a : Nat) (i : Nat) (H : Heap α) : Heap α := if i = a then H.remove par a else H

omit [Inhabited α] in
/-- A callback that removes the visited node, a leaf: the next sibling takes its place in the array and is passed over, and the last one,
whose place still holds it, is visited a second time. -/
theorem C86_skip_fails (H : Heap α) (n : Node α) (R : List (Rec α)) (h : Holds H (n.recs ++ R)) (pre post : List (Node α)) (a last : Node α)
    (hk : n.kids = pre ++ a :: post) (ha : a.kids = []) (hl : post.getLast? = some last) (fuel : Nat) (hf : 4 * n.recs.length ≤ fuel) :
    walk (dropAt n.id a.id) fuel n.id H =
      some (H.remove n.id a.id, n.id :: (pre.flatMap Node.ids ++ a.id :: (post.tail ++ [last]).flatMap Node.ids)) := by
  have hrec : n.toRec ∈ n.recs ++ R := List.mem_append_left _ (mem_recs_self n)
  have hkids : H.kids n.id = n.kids.map Node.id := h.kids _ hrec
  have hlen : (H.cell n.id).len = n.kids.length := by
    have := h.len _ hrec
    simpa [Node.toRec] using this
  have hnd := h.ids.1
  rw [Node.ids_cons, List.nodup_cons, hk, List.flatMap_append, List.flatMap_cons, List.nodup_append, List.nodup_append] at hnd
  obtain ⟨hn0, hnp, ⟨hna, hnq, hnaq⟩, hnpa⟩ := hnd
  have hida : a.id ∈ a.ids := by rw [Node.ids_cons]; simp
  have hna' : n.id ≠ a.id := by
    intro e
    exact hn0 (by rw [e]; exact List.mem_append_right _ (List.mem_append_left _ hida))
  have hpa : ∀ m ∈ pre, ∀ i ∈ m.ids, i ≠ a.id := fun m hm i hi e =>
    hnpa i (List.mem_flatMap.mpr ⟨m, hm, hi⟩) a.id (List.mem_append_left _ hida) e
  have hqa : ∀ m ∈ post, ∀ i ∈ m.ids, i ≠ a.id := fun m hm i hi e =>
    hnaq a.id hida i (List.mem_flatMap.mpr ⟨m, hm, hi⟩) e.symm
  have hidx : (n.kids.map Node.id).findIdx? (fun j => j = a.id) = some pre.length := by
    rw [hk, List.map_append, List.map_cons, List.findIdx?_append]
    have : (pre.map Node.id).findIdx? (fun j => decide (j = a.id)) = none := by
      rw [List.findIdx?_eq_none_iff]
      intro x hx
      obtain ⟨m, hm, rfl⟩ := List.mem_map.mp hx
      simpa using hpa m hm m.id (by rw [Node.ids_cons]; simp)
    rw [this]
    simp [List.findIdx?_cons]
  have hp0 : (n.recs ++ R) = n.toRec :: (Node.recsL n.kids ++ R) := by rw [Node.recs_eq, List.cons_append]
  obtain ⟨h1, k1⟩ := (hp0 ▸ h : Holds H (n.toRec :: (Node.recsL n.kids ++ R))).remove a.id pre.length hidx
  have k1' : Keeps (Node.recsL n.kids ++ R) H (H.remove n.id a.id) := k1
  have hsz := recsL_len (k := n.kids)
  have hnsz : n.recs.length = (Node.recsL n.kids).length + 1 := by rw [Node.recs_eq, List.length_cons]
  -- both memories hold all the children
  have held : ∀ m ∈ n.kids, (∃ Q, Holds H (m.recs ++ Q)) ∧ ∃ Q, Holds (H.remove n.id a.id) (m.recs ++ Q) := by
    intro m hm
    obtain ⟨x, y, e⟩ := List.append_of_mem hm
    have hp := recsL_perm e R
    refine ⟨⟨_, h.perm (kid_perm e R)⟩, ⟨_, (h1.sub (List.sublist_cons_self ..)).perm hp⟩⟩
  have ham : a ∈ n.kids := by rw [hk]; simp
  have hpl : pre.length + (post.length + 1) = n.kids.length := by rw [hk]; simp
  have hpos : 1 ≤ post.length := by
    cases post with
    | nil => cases hl
    | cons x xs => simp
  -- the arrays
  have harr : ∀ j, j < n.kids.length → (H.arr (H.cell n.id).arr)[j]? = (n.kids.map Node.id)[j]? := by
    intro j hj
    rw [← hkids, Heap.kids, List.getElem?_take, hlen, if_pos hj]
  have harr1 : (H.remove n.id a.id).arr (H.cell n.id).arr =
      (H.arr (H.cell n.id).arr).take pre.length ++ (n.kids.map Node.id).drop (pre.length + 1) ++ (H.arr (H.cell n.id).arr).drop (n.kids.length - 1) := by
    simp only [Heap.remove, hkids, hidx, hlen, setCell, setArr, if_true]
  have hcell1 : (H.remove n.id a.id).cell a.id = H.cell a.id := by
    refine k1.cell a.toRec ?_
    refine List.mem_append_left _ ?_
    obtain ⟨x, y, e⟩ := List.append_of_mem ham
    rw [e, Node.recsL_append, Node.recsL]
    simp [mem_recs_self]
  obtain ⟨f, rfl⟩ : ∃ f, fuel = (f + post.length + 1) + pre.length + 1 := ⟨fuel - (post.length + pre.length + 2), by omega⟩
  have hgf : 2 * n.recs.length ≤ f := by omega
  have hone : ∀ (m : Node α), m ∈ n.kids → ∀ g, f ≤ g → 2 * m.recs.length ≤ g := by
    intro m hm g hg
    have := hsz.2 m hm
    omega
  rw [walk]
  have hcb0 : dropAt n.id a.id n.id H = H := by simp [dropAt, hna']
  rw [hcb0, hlen]
  rw [range_noop (f + post.length + 1) _ _ pre 0 ?_ (by omega) ?_]
  · rw [Nat.zero_add, range, if_pos (by omega)]
    have e0 : (H.arr (H.cell n.id).arr).getD pre.length 0 = a.id := by
      rw [List.getD_eq_getElem?_getD, harr _ (by omega), hk]
      simp
    rw [e0]
    have hwa : walk (dropAt n.id a.id) (f + post.length) a.id H = some (H.remove n.id a.id, [a.id]) := by
      obtain ⟨g, hg⟩ : ∃ g, f + post.length = g + 1 + 1 := ⟨f + post.length - 2, by omega⟩
      rw [hg, walk]
      have hcb1 : dropAt n.id a.id a.id H = H.remove n.id a.id := by simp [dropAt]
      have hl0 : (H.cell a.id).len = 0 := by
        obtain ⟨Q, hQ⟩ := (held a ham).1
        have := hQ.len a.toRec (List.mem_append_left _ (mem_recs_self a))
        simpa [Node.toRec, ha] using this
      rw [hcb1, hcell1, hl0, range, if_neg (by omega)]
      rfl
    rw [hwa]
    simp only
    have hrest : range (dropAt n.id a.id) (f + post.length) (H.cell n.id).arr n.kids.length (pre.length + 1) (H.remove n.id a.id) =
        some (H.remove n.id a.id, (post.tail ++ [last]).flatMap Node.ids) := by
      have hll : (post.tail ++ [last]).length = post.length := by
        rw [List.length_append, List.length_tail, List.length_singleton]; omega
      have hlm : last ∈ post := List.mem_of_getLast? hl
      have hsub : ∀ m ∈ post.tail ++ [last], m ∈ post := by
        intro m hm
        rcases List.mem_append.mp hm with hm | hm
        · exact List.mem_of_mem_tail hm
        · rw [List.mem_singleton.mp hm]; exact hlm
      have := range_noop (cb := dropAt n.id a.id) (H := H.remove n.id a.id) f (H.cell n.id).arr n.kids.length (post.tail ++ [last]) (pre.length + 1)
        (by
          intro m hm g hg
          have hm' : m ∈ n.kids := by rw [hk]; simp [hsub m hm]
          obtain ⟨Q, hQ⟩ := (held m hm').2
          refine walk_noop m Q hQ (fun i hi => ?_) g (hone m hm' g hg)
          have := hqa m (hsub m hm) i hi
          simp [dropAt, this])
        (by omega)
        (by
          intro j m hj
          have htake : ((H.arr (H.cell n.id).arr).take pre.length).length = pre.length := by
            rw [List.length_take]
            have : n.kids.length ≤ (H.arr (H.cell n.id).arr).length := by
              have h4 := congrArg List.length hkids
              rw [Heap.kids, List.length_take, hlen, List.length_map] at h4
              omega
            omega
          rw [List.getD_eq_getElem?_getD, harr1, List.append_assoc, List.getElem?_append_right (by omega), htake]
          rw [show pre.length + 1 + j - pre.length = j + 1 by omega]
          have hd : (n.kids.map Node.id).drop (pre.length + 1) = post.map Node.id := by
            rw [hk, List.map_append, List.map_cons, show pre.length = (pre.map Node.id).length by simp, List.drop_append]
            simp
          rw [hd]
          by_cases hjl : j + 1 < post.length
          · rw [List.getElem?_append_left (by simpa using hjl), List.getElem?_map]
            rw [List.getElem?_append_left (by rw [List.length_tail]; omega), List.getElem?_tail] at hj
            rw [hj]; rfl
          · have hjj : j + 1 = post.length := by
              have := (List.getElem?_eq_some_iff.mp hj).1
              omega
            rw [List.getElem?_append_right (by simp; omega), List.length_map, hjj, Nat.sub_self, List.getElem?_drop]
            rw [List.getElem?_append_right (by rw [List.length_tail]; omega), List.length_tail,
              show j - (post.length - 1) = 0 by omega] at hj
            simp only [List.getElem?_cons_zero, Option.some.injEq] at hj
            have hlast : n.kids.getLast? = some last := by
              rw [hk, List.getLast?_append, List.getLast?_cons, hl]; rfl
            rw [Nat.add_zero, harr _ (by omega), List.getElem?_map, ← List.getLast?_eq_getElem?, hlast, hj]
            rfl)
      rw [hll] at this
      rw [this, show pre.length + 1 + post.length = n.kids.length by omega]
      obtain ⟨g, rfl⟩ : ∃ g, f = g + 1 := ⟨f - 1, by omega⟩
      rw [range, if_neg (by omega)]
      simp
    rw [hrest]
    simp
  · intro m hm g hg
    have hm' : m ∈ n.kids := by rw [hk]; simp [hm]
    obtain ⟨Q, hQ⟩ := (held m hm').1
    refine walk_noop m Q hQ (fun i hi => ?_) g (hone m hm' g (by omega))
    have := hpa m hm i hi
    simp [dropAt, this]
  · intro j m hj
    have hjl := (List.getElem?_eq_some_iff.mp hj).1
    rw [Nat.zero_add, List.getD_eq_getElem?_getD, harr _ (by omega), List.getElem?_map, hk, List.getElem?_append_left hjl, hj]
    rfl

/-! Examples: a trie with the keys `a`, `b`, `c`, `d.x`, `d.y`. -/

def exKeys : List (Act Nat) :=
  [.op 0 (.set v0 ['a'] 1), .op 0 (.set v0 ['b'] 2), .op 0 (.set v0 ['c'] 3), .op 0 (.set v0 ['d', '.', 'x'] 4), .op 0 (.set v0 ['d', '.', 'y'] 5)]

example : Calls exKeys := by
  intro a ha k i f h
  simp only [exKeys, List.mem_cons, List.not_mem_nil, or_false] at ha
  rcases ha with h1 | h1 | h1 | h1 | h1 <;> rw [h1] at h <;> injection h <;> contradiction

/-- The values that a callback sees, and those that the trie has at the end. -/
def sees (cs : List (Act Nat)) (cb : Mem Nat → Nat → Heap Nat → Heap Nat) : List Nat × List Nat :=
  match Mem.acts (fun _ => 0) cs (Mem.new : Mem Nat) with
  | .error _ => ([], [])
  | .ok M =>
    match walk (cb M) 100 0 M.heap with
    | none => ([], [])
    | some (H', vs) => ((vs.filter (fun i => (M.heap.cell i).core.hasData)).map (fun i => (M.heap.cell i).core.data),
        ((H'.read 10 0).walk.filter (fun m => m.core.hasData)).map (fun m => m.core.data))

/-- The node with the value `x`. -/
def nodeOf (M : Mem Nat) (x : Nat) : Nat :=
  ((M.heap.read 10 0).walk.filter (fun m => m.core.hasData ∧ m.core.data = x)).map (fun m => m.id) |>.headD 0

def noop : Mem Nat → Nat → Heap Nat → Heap Nat := fun _ _ H => H

example : sees exKeys noop = ([1, 2, 3, 4, 5], [1, 2, 3, 4, 5]) := by decide +kernel

/-- Writing to each node, and removing below each node. -/
example : sees exKeys (fun _ i H => H.write i (fun c => { c with data := c.data + 10 })) = ([1, 2, 3, 4, 5], [11, 12, 13, 14, 15]) := by
  decide +kernel
example : sees exKeys (fun _ => prune (fun _ c => c.hasData ∧ c.data % 2 = 0)) = ([1, 3, 5], [1, 3, 5]) := by decide +kernel

/-- Removing the node of `a` when it is visited: `b` is not visited although it stays, and what is at `d` is visited twice. -/
example : sees exKeys (fun M => dropAt 0 (nodeOf M 1)) = ([1, 3, 4, 5, 4, 5], [2, 3, 4, 5]) := by decide +kernel

/-- Removing another node than the visited one: the callback is called for a node that it has removed itself, with all below it, ... -/
theorem C86_ghost_fails : ∃ cb : Mem Nat → Nat → Heap Nat → Heap Nat,
    (∀ M i H, cb M i H = H ∨ ∃ par item, cb M i H = H.remove par item) ∧ sees exKeys cb = ([1, 2, 3, 4, 5], [1, 2, 3]) := by
  refine ⟨fun M i H => if i = nodeOf M 1 then H.remove 0 ((H.kids 0).getLastD 0) else H, ?_, by decide +kernel⟩
  intro M i H
  by_cases h : i = nodeOf M 1
  · exact .inr ⟨0, (H.kids 0).getLastD 0, by simp only [if_pos h]⟩
  · exact .inl (by simp only [if_neg h])

/-- ... or twice for a node that is not concerned. -/
theorem C86_twice_fails : ∃ cb : Mem Nat → Nat → Heap Nat → Heap Nat,
    (∀ M i H, cb M i H = H ∨ ∃ par item, cb M i H = H.remove par item) ∧ sees exKeys cb = ([1, 3, 4, 5, 4, 5], [1, 3, 4, 5]) := by
  refine ⟨fun M i H => if i = nodeOf M 1 then H.remove 0 (nodeOf M 2) else H, ?_, by decide +kernel⟩
  intro M i H
  by_cases h : i = nodeOf M 1
  · exact .inr ⟨0, nodeOf M 2, by simp only [if_pos h]⟩
  · exact .inl (by simp only [if_neg h])

end Heap
end Verif

import Verif.Lemmas.Insert
import Verif.Model.Steps
/-
What every intermediate tree of an insertion has in common with the tree before it.
-/
namespace Verif
namespace Node
variable {α : Type} [Inhabited α]

/-- Two words that part after `u` share nothing beyond `u`. -/
theorem prefix_of_part {u z p q : Str} (hp : p.head? ≠ q.head?) (h1 : z <+: u ++ p) (h2 : z <+: u ++ q) :
    z <+: u := by
  induction u generalizing z with
  | nil =>
    cases z with
    | nil => simp
    | cons a z' =>
      obtain ⟨x, hx⟩ := h1
      obtain ⟨y, hy⟩ := h2
      simp only [List.nil_append] at hx hy
      rw [← hx, ← hy] at hp
      simp at hp
  | cons a u ih =>
    cases z with
    | nil => simp
    | cons b z' =>
      simp only [List.cons_append, List.cons_prefix_cons] at h1 h2 ⊢
      exact ⟨h1.1, ih h1.2 h2.2⟩

omit [Inhabited α] in
theorem mem_entries (u : Str) (n : Node α) (e : Str × Core α) :
    e ∈ entries u n ↔ e = (u ++ n.path, n.core) ∨ ∃ c ∈ n.kids, e ∈ entries (u ++ n.path) c := by
  simp only [entries, List.mem_map]
  constructor
  · rintro ⟨x, h, rfl⟩
    rcases (mem_nodes ..).mp h with h | ⟨c, hc, h⟩
    · subst h; exact .inl rfl
    · exact .inr ⟨c, hc, x, h, rfl⟩
  · rintro (h | ⟨c, hc, x, h, rfl⟩)
    · exact ⟨_, (mem_nodes ..).mpr (.inl rfl), h.symm⟩
    · exact ⟨x, (mem_nodes ..).mpr (.inr ⟨c, hc, h⟩), rfl⟩

omit [Inhabited α] in
theorem mem_keys_entries {u : Str} {n : Node α} {s : Str} :
    s ∈ keys u n ↔ ∃ c, (s, c) ∈ entries u n := by
  simp only [keys, entries, List.mem_map]
  constructor
  · rintro ⟨x, h, rfl⟩; exact ⟨_, x, h, rfl⟩
  · rintro ⟨c, x, h, he⟩; exact ⟨x, h, by cases he; rfl⟩

omit [Inhabited α] in
theorem prefix_of_mem_entries {u : Str} {n : Node α} {q c} (h : (q, c) ∈ entries u n) :
    (u ++ n.path) <+: q := by
  simp only [entries, List.mem_map] at h
  obtain ⟨⟨a, b⟩, h, he⟩ := h
  cases he
  exact prefix_of_mem_nodes h

/-- What a snapshot `E'` taken during the insertion of `w` keeps of the entries `E`: everything that does
not extend `m`, the longest beginning `w` has in common with a path of `E`; and when `m` is itself a path,
everything but the entry at `w`. -/
structure Near (w : Str) (v : α) (E E' : List (Str × Core α)) (m : Str) : Prop where
  below : m <+: w
  shared : ∃ s c, (s, c) ∈ E ∧ m <+: s
  longest : ∀ s c, (s, c) ∈ E → ∀ z, z <+: s → z <+: w → z <+: m
  away : ∀ q c, ¬ m <+: q → ((q, c) ∈ E' ↔ (q, c) ∈ E)
  whole : (∃ c, (m, c) ∈ E) → ∀ q c, q ≠ w → ((q, c) ∈ E' ↔ (q, c) ∈ E)
  here : (∃ c, (m, c) ∈ E) → ∀ c, (w, c) ∈ E' →
    (c.data = v ∧ c.hasData = true) ∨ ∃ c0, (w, c0) ∈ E ∧ c = { c0 with hasData := true }
  stays : (∃ c, (m, c) ∈ E) → ∀ c0, (w, c0) ∈ E → ∃ c, (w, c) ∈ E'

structure StepOK (fresh : Nat) (v : α) (u w : Str) (n n' : Node α) : Prop where
  wf : n'.WF
  id : n'.id = n.id
  nil : n.path = [] → n'.path = []
  head : n.path ≠ [] → n'.path ≠ [] ∧ n'.path.head? = n.path.head?
  ids : ∃ extra, extra.Sublist [fresh, fresh + 1] ∧
    ((nodes u n').map (·.2.id)).Perm ((nodes u n).map (·.2.id) ++ extra)
  near : ∃ m, Near (u ++ w) v (entries u n) (entries u n') m

/-- The steps of the children: one child makes a step, or a leaf is appended. -/
theorem kidSteps_cases (ins : Node α → List (Node α)) (fresh : Nat) (w : Str) (ps : List UInt8) (v : α)
    (k k' : List (Node α)) (h : k' ∈ kidSteps ins fresh w ps v k) :
    (∃ pre c c' post, k = pre ++ c :: post ∧ k' = pre ++ c' :: post ∧ c.path.head? = w.head? ∧ c' ∈ ins c) ∨
    (k' = k ++ [newLeaf (fresh + 1) w ps v] ∧ ∀ c ∈ k, c.path.head? ≠ w.head?) := by
  induction k generalizing k' with
  | nil => simp [kidSteps] at h; exact .inr ⟨by simp [h], by simp⟩
  | cons c cs ih =>
    rw [kidSteps] at h
    split at h
    · rename_i hh
      obtain ⟨c', hc', rfl⟩ := List.mem_map.mp h
      exact .inl ⟨[], c, c', cs, rfl, rfl, hh, hc'⟩
    · rename_i hh
      obtain ⟨cs', hc', rfl⟩ := List.mem_map.mp h
      rcases ih _ hc' with ⟨pre, d, d', post, rfl, rfl, h1, h2⟩ | ⟨rfl, h2⟩
      · exact .inl ⟨c :: pre, d, d', post, rfl, rfl, h1, h2⟩
      · refine .inr ⟨rfl, ?_⟩
        intro x hx
        rcases List.mem_cons.mp hx with rfl | hx
        · exact hh
        · exact h2 x hx

theorem head?_append_ne {p q : Str} (hp : p ≠ []) : (p ++ q).head? = p.head? := by
  cases p with
  | nil => exact absurd rfl hp
  | cons a p => rfl

omit [Inhabited α] in
/-- An entry below a child that parts from `w` shares with `w` nothing beyond the path of the parent. -/
theorem part_kid {u w : Str} {d : Node α} (hd : d.path ≠ []) (hh : d.path.head? ≠ w.head?) {s c}
    (hs : (s, c) ∈ entries u d) {z : Str} (h1 : z <+: s) (h2 : z <+: u ++ w) : z <+: u := by
  obtain ⟨r, rfl⟩ := prefix_of_mem_entries hs
  rw [List.append_assoc] at h1
  exact prefix_of_part (p := d.path ++ r) (q := w) (by rw [head?_append_ne hd]; exact hh) h1 h2

/-- A leaf is appended. -/
theorem leaf_ok (fresh : Nat) (ps : List UInt8) (v : α) (u x : Str) (n : Node α) (hw : n.WF) (hx : x ≠ [])
    (hno : ∀ c ∈ n.kids, c.path.head? ≠ x.head?) :
    StepOK fresh v u (n.path ++ x) n (mk n.id n.path n.core (n.kids ++ [newLeaf (fresh + 1) x ps v])) := by
  have hwn := (wf_iff n).mp hw
  have hmem : ∀ e, e ∈ entries u (mk n.id n.path n.core (n.kids ++ [newLeaf (fresh + 1) x ps v])) ↔
      e ∈ entries u n ∨ e = (u ++ n.path ++ x, leafCore ps v) := by
    intro e
    rw [mem_entries, mem_entries]
    simp only [path_mk, core_mk, kids_mk, List.mem_append, List.mem_singleton]
    constructor
    · rintro (h | ⟨c, hc | rfl, h⟩)
      · exact .inl (.inl h)
      · exact .inl (.inr ⟨c, hc, h⟩)
      · right
        simpa [entries, nodes_newLeaf, core_newLeaf] using h
    · rintro ((h | ⟨c, hc, h⟩) | h)
      · exact .inl h
      · exact .inr ⟨c, .inl hc, h⟩
      · exact .inr ⟨_, .inr rfl, by simpa [entries, nodes_newLeaf, core_newLeaf] using h⟩
  have hnot : ∀ c, (u ++ n.path ++ x, c) ∉ entries u n := by
    intro c hc
    rw [mem_entries] at hc
    rcases hc with h | ⟨d, hd, h⟩
    · simp at h; exact hx h.1
    · have := part_kid (hwn.2 d hd).1 (hno d hd) h (List.prefix_refl _) (List.prefix_refl _)
      have := this.length_le
      have := List.length_pos_iff.mpr hx
      simp at *; omega
  refine ⟨?_, rfl, fun h => h, fun h => ⟨h, rfl⟩, ⟨[fresh + 1], by simp, ?_⟩, u ++ n.path, ?_⟩
  · rw [wf_mk]
    refine ⟨?_, ?_⟩
    · rw [List.map_append, List.nodup_append]
      refine ⟨hwn.1, by simp, ?_⟩
      intro a ha b hb
      obtain ⟨c, hc, rfl⟩ := List.mem_map.mp ha
      simp [newLeaf] at hb
      subst hb
      exact hno c hc
    · intro c hc
      rcases List.mem_append.mp hc with hc | hc
      · exact hwn.2 c hc
      · simp at hc; subst hc; exact ⟨by simpa [newLeaf] using hx, wf_newLeaf ..⟩
  · have hL : ∀ (k : List (Node α)) (l : Node α) (u : Str), nodesL u (k ++ [l]) = nodesL u k ++ nodes u l := by
      intro k l u
      induction k with
      | nil => simp [nodesL]
      | cons c cs ih => simp [nodesL, ih]
    rw [nodes_eq, nodes_eq]
    simp [hL, nodes_newLeaf]
    simp [newLeaf]
  · rw [← List.append_assoc]
    refine ⟨List.prefix_append _ _, ⟨u ++ n.path, n.core, ?_, List.prefix_refl _⟩, ?_, ?_, ?_, ?_, ?_⟩
    · rw [mem_entries]; exact .inl rfl
    · intro s c hs z h1 h2
      rw [mem_entries] at hs
      rcases hs with h | ⟨d, hd, h⟩
      · simp at h; exact h.1 ▸ h1
      · exact part_kid (hwn.2 d hd).1 (hno d hd) h h1 h2
    · intro q c hq
      rw [hmem]
      constructor
      · rintro (h | h)
        · exact h
        · simp at h; exact absurd ⟨x, by simp [h.1]⟩ hq
      · exact .inl
    · intro _ q c hq
      rw [hmem]
      constructor
      · rintro (h | h)
        · exact h
        · simp at h; exact absurd (by simp [h.1]) hq
      · exact .inl
    · intro _ c hc
      rcases (hmem _).mp hc with h | h
      · exact absurd h (hnot c)
      · simp at h; subst h; exact .inl ⟨rfl, rfl⟩
    · intro _ c0 h; exact absurd h (hnot c0)

omit [Inhabited α] in
theorem entries_kid {u : Str} {n c : Node α} (hc : c ∈ n.kids) {e} (he : e ∈ entries (u ++ n.path) c) :
    e ∈ entries u n := by rw [mem_entries]; exact .inr ⟨c, hc, he⟩

omit [Inhabited α] in
/-- A child makes a step. -/
theorem kid_ok (fresh : Nat) (v : α) (u x : Str) (i : Nat) (p : Str) (co : Core α)
    (pre post : List (Node α)) (c c' : Node α) (hw : (mk i p co (pre ++ c :: post)).WF) (hx : x ≠ [])
    (hh : c.path.head? = x.head?) (ih : StepOK fresh v (u ++ p) x c c') :
    StepOK fresh v u (p ++ x) (mk i p co (pre ++ c :: post)) (mk i p co (pre ++ c' :: post)) := by
  have hwn := (wf_mk ..).mp hw
  have hc := hwn.2 c (by simp)
  have hhead := ih.head hc.1
  obtain ⟨m, hm⟩ := ih.near
  -- the other children part from `x`
  have hoth : ∀ d, d ∈ pre ∨ d ∈ post → d.path.head? ≠ x.head? := by
    intro d hd he
    have hnd := hwn.1
    rw [List.map_append, List.map_cons, List.nodup_append, List.nodup_cons] at hnd
    rcases hd with hd | hd
    · exact hnd.2.2 _ (List.mem_map_of_mem hd) _ (List.mem_cons_self ..) (he.trans hh.symm)
    · exact hnd.2.1.1 (List.mem_map.mpr ⟨d, hd, he.trans hh.symm⟩)
  have hwd : ∀ d, d ∈ pre ∨ d ∈ post → d.path ≠ [] := by
    intro d hd
    rcases hd with hd | hd
    · exact (hwn.2 d (by simp [hd])).1
    · exact (hwn.2 d (by simp [hd])).1
  have hmem : ∀ (c : Node α) e, e ∈ entries u (mk i p co (pre ++ c :: post)) ↔
      (e = (u ++ p, co) ∨ ∃ d, (d ∈ pre ∨ d ∈ post) ∧ e ∈ entries (u ++ p) d) ∨ e ∈ entries (u ++ p) c := by
    intro c e
    rw [mem_entries]
    simp only [path_mk, core_mk, kids_mk, List.mem_append, List.mem_cons]
    constructor
    · rintro (h | ⟨d, h1 | rfl | h1, h⟩)
      · exact .inl (.inl h)
      · exact .inl (.inr ⟨d, .inl h1, h⟩)
      · exact .inr h
      · exact .inl (.inr ⟨d, .inr h1, h⟩)
    · rintro ((h | ⟨d, h1 | h1, h⟩) | h)
      · exact .inl h
      · exact .inr ⟨d, .inl h1, h⟩
      · exact .inr ⟨d, .inr (.inr h1), h⟩
      · exact .inr ⟨c, .inr (.inl rfl), h⟩
  -- entries outside the child share with the key at most the path of the parent
  have hout : ∀ e, (e = (u ++ p, co) ∨ ∃ d, (d ∈ pre ∨ d ∈ post) ∧ e ∈ entries (u ++ p) d) →
      ∀ z, z <+: e.1 → z <+: u ++ p ++ x → z <+: u ++ p := by
    rintro e (rfl | ⟨d, hd, h⟩) z h1 h2
    · exact h1
    · exact part_kid (hwd d hd) (hoth d hd) (c := e.2) h h1 h2
  have hstep : ∃ b, u ++ p ++ [b] <+: m := by
    obtain ⟨b, x', rfl⟩ : ∃ b x', x = b :: x' := by
      cases x with
      | nil => exact absurd rfl hx
      | cons b x' => exact ⟨b, x', rfl⟩
    refine ⟨b, hm.longest (u ++ p ++ c.path) c.core ?_ _ ?_ ?_⟩
    · rw [mem_entries]; exact .inl rfl
    · cases hcp : c.path with
      | nil => exact absurd hcp hc.1
      | cons a q =>
        rw [hcp] at hh
        simp at hh
        subst hh
        exact ⟨q, by simp⟩
    · exact ⟨x', by simp⟩
  obtain ⟨b, hb⟩ := hstep
  have hup : u ++ p <+: m := (List.prefix_append _ _).trans hb
  -- a path that extends `m` is not outside
  have hnout : ∀ e, (e = (u ++ p, co) ∨ ∃ d, (d ∈ pre ∨ d ∈ post) ∧ e ∈ entries (u ++ p) d) → ¬ m <+: e.1 := by
    intro e he hme
    have := hout e he (u ++ p ++ [b]) (hb.trans hme) (hb.trans hm.below)
    have := this.length_le
    simp at this
    omega
  have hmin : (∃ d, (m, d) ∈ entries u (mk i p co (pre ++ c :: post))) → ∃ d, (m, d) ∈ entries (u ++ p) c := by
    rintro ⟨d, hd⟩
    rcases (hmem _ _).mp hd with h | h
    · exact absurd (List.prefix_refl m) (hnout _ h)
    · exact ⟨d, h⟩
  refine ⟨?_, rfl, fun h => h, fun h => ⟨h, rfl⟩, ?_, m, ?_⟩
  · rw [wf_mk]
    refine ⟨?_, ?_⟩
    · have h := hwn.1
      rw [List.map_append, List.map_cons] at h ⊢
      rw [hhead.2]; exact h
    · intro d hd
      rcases List.mem_append.mp hd with hd | hd
      · exact hwn.2 d (by simp [hd])
      · rcases List.mem_cons.mp hd with rfl | hd
        · exact ⟨hhead.1, ih.wf⟩
        · exact hwn.2 d (by simp [hd])
  · obtain ⟨ex, he, hp⟩ := ih.ids
    refine ⟨ex, he, ?_⟩
    have hL : ∀ (k l : List (Node α)) (u : Str), nodesL u (k ++ l) = nodesL u k ++ nodesL u l := by
      intro k l u
      induction k with
      | nil => simp [nodesL]
      | cons c cs ih => simp [nodesL, ih]
    rw [nodes_eq, nodes_eq]
    simp only [path_mk, kids_mk, id_mk, hL, nodesL, List.map_cons, List.map_append, List.cons_append,
      List.append_assoc]
    refine List.Perm.cons _ (List.Perm.append_left _ ?_)
    refine (hp.append_right _).trans ?_
    rw [List.append_assoc]
    exact List.perm_append_comm.append_left _
  · rw [← List.append_assoc]
    refine ⟨hm.below, ?_, ?_, ?_, ?_, ?_, ?_⟩
    · obtain ⟨s, d, h1, h2⟩ := hm.shared
      exact ⟨s, d, (hmem _ _).mpr (.inr h1), h2⟩
    · intro s d hs z h1 h2
      rcases (hmem _ _).mp hs with h | h
      · exact (hout _ h z h1 h2).trans hup
      · exact hm.longest s d h z h1 h2
    · intro q d hq
      rw [hmem, hmem, hm.away q d hq]
    · intro hme q d hq
      rw [hmem, hmem, hm.whole (hmin hme) q d hq]
    · intro hme d hd
      rcases (hmem _ _).mp hd with h | h
      · exact absurd hm.below (hnout _ h)
      · rcases hm.here (hmin hme) d h with h | ⟨c0, h, h'⟩
        · exact .inl h
        · exact .inr ⟨c0, (hmem _ _).mpr (.inr h), h'⟩
    · intro hme c0 h0
      rcases (hmem _ _).mp h0 with h | h
      · exact absurd hm.below (hnout _ h)
      · obtain ⟨d, hd⟩ := hm.stays (hmin hme) c0 h
        exact ⟨d, (hmem _ _).mpr (.inr hd)⟩

omit [Inhabited α] in
/-- A node whose path has been cut. -/
theorem near_split (v : α) (u s x y : Str) (n n' : Node α) (hp : n.path = s ++ y) (hp' : n'.path = s)
    (hy : y ≠ []) (hxy : x = [] ∨ x.head? ≠ y.head?) :
    Near (u ++ (s ++ x)) v (entries u n) (entries u n') (u ++ s) := by
  have hE : ∀ q c, (q, c) ∈ entries u n → u ++ s ++ y <+: q := by
    intro q c h
    have := prefix_of_mem_entries h
    rwa [hp, ← List.append_assoc] at this
  have hE' : ∀ q c, (q, c) ∈ entries u n' → u ++ s <+: q := by
    intro q c h
    have := prefix_of_mem_entries h
    rwa [hp'] at this
  have hne : ¬ ∃ c, (u ++ s, c) ∈ entries u n := by
    rintro ⟨c, h⟩
    have := (hE _ _ h).length_le
    have := List.length_pos_iff.mpr hy
    simp at *; omega
  refine ⟨⟨x, by simp⟩, ⟨u ++ n.path, n.core, ?_, ⟨y, by simp [hp]⟩⟩, ?_, ?_, ?_, ?_, ?_⟩
  · rw [mem_entries]; exact .inl rfl
  · intro q c hq z h1 h2
    rcases hxy with rfl | hxy
    · simpa using h2
    · obtain ⟨r, rfl⟩ := hE q c hq
      rw [List.append_assoc] at h1
      rw [← List.append_assoc] at h2
      exact prefix_of_part (p := y ++ r) (q := x)
        (by rw [head?_append_ne hy]; exact fun h => hxy h.symm) h1 h2
  · intro q c hq
    constructor
    · intro h; exact absurd (hE' q c h) hq
    · intro h; exact absurd ((List.prefix_append _ _).trans (hE q c h)) hq
  · intro h; exact absurd h hne
  · intro h; exact absurd h hne
  · intro h; exact absurd h hne

omit [Inhabited α] in
/-- The key is the path of the node, whose fields are written. -/
theorem hit_ok (fresh : Nat) (v : α) (u : Str) (n : Node α) (hw : n.WF) (co : Core α)
    (hco : co = { n.core with hasData := true } ∨ co = { n.core with hasData := true, data := v }) :
    StepOK fresh v u n.path n (mk n.id n.path co n.kids) := by
  have hwn := (wf_iff n).mp hw
  have hkid : ∀ d ∈ n.kids, ∀ q c, (q, c) ∈ entries (u ++ n.path) d → q ≠ u ++ n.path := by
    intro d hd q c h he
    have := (prefix_of_mem_entries h).length_le
    have := List.length_pos_iff.mpr (hwn.2 d hd).1
    rw [he] at *
    simp at *; omega
  refine ⟨?_, rfl, fun h => h, fun h => ⟨h, rfl⟩, ⟨[], by simp, ?_⟩, u ++ n.path, ?_⟩
  · rw [wf_mk]; exact hwn
  · rw [nodes_eq, nodes_eq]; simp
  · refine ⟨List.prefix_refl _, ⟨u ++ n.path, n.core, ?_, List.prefix_refl _⟩, fun _ _ _ z _ h => h, ?_, ?_, ?_, ?_⟩
    · rw [mem_entries]; exact .inl rfl
    · intro q c hq
      constructor
      · intro h; exact absurd (prefix_of_mem_entries h) hq
      · intro h; exact absurd (prefix_of_mem_entries h) hq
    · intro _ q c hq
      rw [mem_entries, mem_entries]
      simp [hq]
    · intro _ c hc
      rw [mem_entries] at hc
      rcases hc with h | ⟨d, hd, h⟩
      · simp at h
        subst h
        rcases hco with h | h
        · exact .inr ⟨n.core, by rw [mem_entries]; exact .inl rfl, h⟩
        · exact .inl (by rw [h]; exact ⟨rfl, rfl⟩)
      · exact absurd rfl (hkid d hd _ c h)
    · intro _ c0 _
      exact ⟨co, by rw [mem_entries]; exact .inl rfl⟩

omit [Inhabited α] in
theorem ids_irrel (u u' : Str) (n : Node α) : (nodes u n).map (·.2.id) = (nodes u' n).map (·.2.id) := by
  have h : ∀ w, (nodes w n).map (·.2.id) = (nodes [] n).map (·.2.id) := by
    intro w
    have := nodes_append w [] n
    rw [List.append_nil] at this
    rw [this]; simp
  rw [h u, h u']

omit [Inhabited α] in
theorem idsL_irrel (u u' : Str) (k : List (Node α)) :
    (nodesL u k).map (·.2.id) = (nodesL u' k).map (·.2.id) := by
  induction k with
  | nil => simp [nodesL]
  | cons c cs ih => simp only [nodesL, List.map_append, ih, ids_irrel u u' c]

/-- A node with its path cut, its children being the old ones or the lower half and perhaps the new leaf. -/
theorem cut_ok (fresh : Nat) (ps : List UInt8) (v : α) (u s x y : Str) (n : Node α) (hw : n.WF)
    (hp : n.path = s ++ y) (hs : s ≠ []) (hy : y ≠ []) (hxy : x = [] ∨ x.head? ≠ y.head?) (co : Core α)
    (k : List (Node α)) (hk : k = n.kids ∨ k = [mk fresh y n.core n.kids] ∨
      x ≠ [] ∧ k = [mk fresh y n.core n.kids, newLeaf (fresh + 1) x ps v]) :
    StepOK fresh v u (s ++ x) n (mk n.id s co k) := by
  have hwn := (wf_iff n).mp hw
  refine ⟨?_, rfl, ?_, ?_, ?_, u ++ s, near_split v u s x y n _ hp rfl hy hxy⟩
  · rw [wf_mk]
    rcases hk with rfl | rfl | ⟨hx, rfl⟩
    · exact hwn
    · refine ⟨by simp, ?_⟩
      intro c hc
      simp only [List.mem_singleton] at hc
      subst hc
      exact ⟨hy, by rw [wf_mk]; exact hwn⟩
    · refine ⟨?_, ?_⟩
      · have : y.head? ≠ x.head? := by
          rcases hxy with h | h
          · exact absurd h hx
          · exact fun e => h e.symm
        simp [newLeaf, this]
      · intro c hc
        simp only [List.mem_cons, List.not_mem_nil, or_false] at hc
        rcases hc with rfl | rfl
        · exact ⟨hy, by rw [wf_mk]; exact hwn⟩
        · exact ⟨by simpa [newLeaf] using hx, wf_newLeaf ..⟩
  · intro h; rw [hp] at h; simp at h; exact absurd h.2 hy
  · intro _
    refine ⟨hs, ?_⟩
    rw [path_mk, hp, head?_append_ne hs]
  · rcases hk with rfl | rfl | ⟨hx, rfl⟩
    · refine ⟨[], by simp, ?_⟩
      rw [nodes_eq, nodes_eq]
      simp [idsL_irrel (u ++ s) (u ++ n.path)]
    · refine ⟨[fresh], by simp, ?_⟩
      rw [nodes_eq, nodes_eq u n]
      simp only [path_mk, kids_mk, nodesL, nodes_eq, List.map_cons, List.append_nil, id_mk,
        idsL_irrel (u ++ s ++ y) (u ++ n.path)]
      refine List.Perm.cons _ ?_
      exact List.perm_append_comm (l₁ := [fresh])
    · refine ⟨[fresh, fresh + 1], by simp, ?_⟩
      rw [nodes_eq, nodes_eq u n]
      simp only [path_mk, kids_mk, nodesL, nodes_newLeaf, nodes_eq (u ++ s) (mk _ _ _ _),
        List.map_cons, List.map_append, List.map_nil, List.append_nil, id_mk,
        idsL_irrel (u ++ s ++ y) (u ++ n.path), List.cons_append]
      refine List.Perm.cons _ ?_
      simp only [newLeaf, id_mk]
      generalize (nodesL (u ++ n.path) n.kids).map (fun x => x.2.id) = L
      exact (List.perm_middle (l₁ := L) (l₂ := [fresh + 1]) (a := fresh)).symm

theorem splitSteps_mem {fresh pos : Nat} {n n' : Node α} (h : n' ∈ splitSteps fresh pos n) :
    ∃ co k, n' = mk n.id (n.path.take pos) co k ∧
      (k = n.kids ∨ k = [mk fresh (n.path.drop pos) n.core n.kids]) := by
  obtain ⟨i, p, c, k⟩ := n
  simp only [splitSteps, List.mem_cons, List.not_mem_nil, or_false] at h
  rcases h with h | h | h | h | h | h | h | h
  · exact ⟨_, _, h, .inl rfl⟩
  · exact ⟨_, _, h, .inl rfl⟩
  all_goals exact ⟨_, _, h, .inr rfl⟩

/-- Every tree met during an insertion. -/
theorem insSteps_ok (fresh : Nat) (ps : List UInt8) (v : α) (fuel : Nat) :
    ∀ (word : Str) (n : Node α) (u : Str), n.WF →
      (n.path = [] ∧ word.length + 2 ≤ fuel ∨
        word ≠ [] ∧ n.path ≠ [] ∧ n.path.head? = word.head? ∧ word.length + 1 ≤ fuel) →
      ∀ n' ∈ insSteps fresh ps v fuel word n, StepOK fresh v u word n n' := by
  induction fuel with
  | zero => intro word n u _ h; omega
  | succ fuel ih =>
    intro word n u hw hcase n' hn'
    rw [insSteps] at hn'
    have hwn := (wf_iff n).mp hw
    by_cases hearly : n.path.length = 0 ∧ word.length > 0 ∧ n.kids.length = 0
    · rw [if_pos hearly] at hn'
      simp only [List.mem_singleton] at hn'
      subst hn'
      obtain ⟨h1, h2, h3⟩ := hearly
      have hp : n.path = [] := List.eq_nil_of_length_eq_zero h1
      have hk : n.kids = [] := List.eq_nil_of_length_eq_zero h3
      have hwd : word ≠ [] := by intro h; simp [h] at h2
      have := leaf_ok fresh ps v u word n hw hwd (by simp [hk])
      rwa [show n.path ++ word = word by simp [hp]] at this
    · rw [if_neg hearly] at hn'
      have hcpl : ∃ s x y, word = s ++ x ∧ n.path = s ++ y ∧
          (if n.path.length > 0 ∧ word.length > 0 then commonPrefixLen word n.path else 0) = s.length ∧
          (n.path ≠ [] → s ≠ []) ∧
          (x = [] ∨ y = [] ∨ ∃ p q x' y', x = p :: x' ∧ y = q :: y' ∧ p ≠ q) := by
        rcases hcase with ⟨hp, _⟩ | ⟨hwd, hp, hh, _⟩
        · exact ⟨[], word, [], by simp, by simp [hp], by simp [hp], fun h => absurd hp h, .inr (.inl rfl)⟩
        · have h1 : n.path.length > 0 := List.length_pos_iff.mpr hp
          have h2 : word.length > 0 := List.length_pos_iff.mpr hwd
          simp only [h1, h2, and_self, if_true]
          obtain ⟨s, x, y, ha, hb, hc, hd⟩ := commonPrefixLen_spec word n.path
          refine ⟨s, x, y, ha, hb, hc, fun _ hs => ?_, hd⟩
          subst hs
          simp only [List.nil_append] at ha hb
          rw [ha, hb] at hh
          rcases hd with rfl | rfl | ⟨p, q, x', y', rfl, rfl, hpq⟩
          · exact hwd ha
          · exact hp hb
          · simp at hh; exact hpq hh.symm
      obtain ⟨s, x, y, hword, hpath, hc, hsne, hxy⟩ := hcpl
      simp only [hc] at hn'
      have hlw : word.length = s.length + x.length := by rw [hword]; simp
      have hlp : n.path.length = s.length + y.length := by rw [hpath]; simp
      have hdropw : word.drop s.length = x := by rw [hword]; simp
      rw [hdropw] at hn'
      by_cases hy : y = []
      · -- no split
        subst hy
        simp only [List.append_nil] at hpath
        have hnlt' : ¬ s.length < n.path.length := by rw [hpath]; omega
        simp only [hnlt', if_false, List.nil_append] at hn'
        by_cases hx : x = []
        · subst hx
          simp only [List.append_nil] at hword
          have hnlt : ¬ s.length < word.length := by rw [hword]; omega
          simp only [hnlt, if_false, List.mem_cons, List.not_mem_nil, or_false] at hn'
          have hwp : word = n.path := by rw [hword, hpath]
          rw [hwp]
          rcases hn' with rfl | rfl
          · exact hit_ok fresh v u n hw _ (.inl rfl)
          · exact hit_ok fresh v u n hw _ (.inr rfl)
        · have hlt : s.length < word.length := by
            have := List.length_pos_iff.mpr hx; omega
          simp only [hlt, if_true, List.mem_map] at hn'
          obtain ⟨k', hk', rfl⟩ := hn'
          have hwp : word = n.path ++ x := by rw [hword, hpath]
          rw [hwp]
          rcases kidSteps_cases _ _ _ _ _ _ _ hk' with ⟨pre, c, c', post, hk, rfl, hh, hc'⟩ | ⟨rfl, hno⟩
          · have hcm : c ∈ n.kids := by rw [hk]; simp
            have hstep := ih x c (u ++ n.path) (hwn.2 c hcm).2 (.inr ⟨hx, (hwn.2 c hcm).1, hh, by
              rcases hcase with ⟨hp, hf⟩ | ⟨_, hp, _, hf⟩
              · rw [hpath] at hp; subst hp; simp at hlw; omega
              · have := List.length_pos_iff.mpr (hsne hp); omega⟩) c' hc'
            obtain ⟨i, p, co, k⟩ := n
            simp only [path_mk, kids_mk, id_mk, core_mk] at *
            subst hk
            exact kid_ok fresh v u x i p co pre post c c' hw hx hh hstep
          · exact leaf_ok fresh ps v u x n hw hx hno
      · -- split
        have hlt' : s.length < n.path.length := by
          have := List.length_pos_iff.mpr hy; omega
        have hs : s ≠ [] := hsne (by rw [hpath]; simp [hy])
        have htake : n.path.take s.length = s := by rw [hpath]; simp
        have hdrop : n.path.drop s.length = y := by rw [hpath]; simp
        have hxy' : x = [] ∨ x.head? ≠ y.head? := by
          rcases hxy with h | h | ⟨p, q, x', y', rfl, rfl, h⟩
          · exact .inl h
          · exact absurd h hy
          · exact .inr (by simpa using h)
        have hcut := fun co k hk => cut_ok fresh ps v u s x y n hw hpath hs hy hxy' co k hk
        rw [← hword] at hcut
        have hsp : n' ∈ splitSteps fresh s.length n → StepOK fresh v u word n n' := by
          intro h
          obtain ⟨co, k, rfl, hk⟩ := splitSteps_mem h
          rw [htake]
          rw [hdrop] at hk
          exact hcut co k (hk.imp (fun h => h) .inl)
        simp only [hlt', if_true] at hn'
        by_cases hx : x = []
        · have hnlt : ¬ s.length < word.length := by rw [hlw, hx]; simp
          simp only [hnlt, if_false, List.mem_append] at hn'
          rcases hn' with h | h
          · exact hsp h
          · simp only [List.mem_cons, List.not_mem_nil, or_false, split_id, split_path, split_kids, htake, hdrop] at h
            rcases h with rfl | rfl
            · exact hcut _ _ (.inr (.inl rfl))
            · exact hcut _ _ (.inr (.inl rfl))
        · have hlt : s.length < word.length := by
            have := List.length_pos_iff.mpr hx; omega
          simp only [hlt, if_true, List.mem_append] at hn'
          rcases hn' with h | h
          · exact hsp h
          · rw [split_id, split_path, split_kids, htake, hdrop] at h
            have hne : ¬ y.head? = x.head? := by
              rcases hxy' with h | h
              · exact absurd h hx
              · exact fun e => h e.symm
            simp only [kidSteps, path_mk, hne, if_false, List.map_cons, List.map_nil, List.mem_singleton] at h
            subst h
            exact hcut _ _ (.inr (.inr ⟨hx, rfl⟩))

theorem kidSteps_last (ins : Node α → List (Node α)) (ins' : Node α → Ins α) (fresh : Nat) (w : Str)
    (ps : List UInt8) (v : α) (h : ∀ c, (ins c).getLast? = some (ins' c).tree) (k : List (Node α)) :
    (kidSteps ins fresh w ps v k).getLast? = some (insKids ins' fresh w ps v k).kids := by
  induction k with
  | nil => simp [kidSteps, insKids]
  | cons c cs ih =>
    rw [kidSteps, insKids]
    by_cases hh : c.path.head? = w.head?
    · rw [if_pos hh, if_pos hh, List.getLast?_map, h]; rfl
    · rw [if_neg hh, if_neg hh, List.getLast?_map, ih]; rfl

theorem getLast?_append_some {β : Type} (a b : List β) (x : β) (h : b.getLast? = some x) :
    (a ++ b).getLast? = some x := by
  rw [List.getLast?_append, h]; rfl

/-- The last of the steps is the whole insertion. -/
theorem insSteps_last (fresh : Nat) (ps : List UInt8) (v : α) (fuel : Nat) :
    ∀ (word : Str) (n : Node α),
      (insSteps fresh ps v fuel word n).getLast? = some (insertFuel fresh ps v fuel word n).tree := by
  induction fuel with
  | zero => intro word n; rfl
  | succ fuel ih =>
    intro word n
    rw [insSteps, insertFuel]
    by_cases hearly : n.path.length = 0 ∧ word.length > 0 ∧ n.kids.length = 0
    · rw [if_pos hearly, if_pos hearly]; rfl
    · rw [if_neg hearly, if_neg hearly]
      dsimp only
      generalize (if n.path.length > 0 ∧ word.length > 0 then commonPrefixLen word n.path else 0) = pos
      generalize (if pos < n.path.length then splitSteps fresh pos n else []) = sp
      generalize (if pos < n.path.length then split fresh pos n else n) = base
      split
      · refine getLast?_append_some _ _ _ ?_
        rw [List.getLast?_map, kidSteps_last _ (insertFuel fresh ps v fuel (word.drop pos)) _ _ _ _
          (fun c => ih _ c)]
        rfl
      · exact getLast?_append_some _ _ _ rfl

/-- `split` done step by step. -/
theorem splitSteps_last (fresh pos : Nat) (n : Node α) :
    (splitSteps fresh pos n).getLast? = some (split fresh pos n) := by
  obtain ⟨i, p, c, k⟩ := n
  rfl

end Node
end Verif

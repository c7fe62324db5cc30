import Verif.Spec.Entries
namespace Verif
namespace Node
variable {α : Type}

theorem ind {P : Node α → Prop} (h : ∀ i p c k, (∀ n ∈ k, P n) → P (mk i p c k)) : ∀ n, P n := by
  intro n
  refine Node.rec (motive_1 := P) (motive_2 := fun k => ∀ n ∈ k, P n) ?_ ?_ ?_ n
  · intro i p c k hk; exact h i p c k hk
  · intro n hn; cases hn
  · intro a as ha has n hn
    cases hn with
    | head => exact ha
    | tail _ h => exact has n h

theorem wfl_iff (k : List (Node α)) : WFL k ↔ ∀ c ∈ k, c.path ≠ [] ∧ c.WF := by
  induction k with
  | nil => simp [WFL]
  | cons a as ih => simp [WFL, ih, and_assoc]

theorem wf_mk (i p) (c : Core α) (k) :
    (mk i p c k).WF ↔ (k.map (fun c => c.path.head?)).Nodup ∧ ∀ c ∈ k, c.path ≠ [] ∧ c.WF := by
  simp [WF, wfl_iff]

theorem wf_iff (n : Node α) :
    n.WF ↔ (n.kids.map (fun c => c.path.head?)).Nodup ∧ ∀ c ∈ n.kids, c.path ≠ [] ∧ c.WF := by
  cases n; simp [wf_mk]

theorem mem_nodesL (u : Str) (k : List (Node α)) (x) :
    x ∈ nodesL u k ↔ ∃ c ∈ k, x ∈ nodes u c := by
  induction k with
  | nil => simp [nodesL]
  | cons a as ih => simp [nodesL, ih]

theorem nodesL_eq (u : Str) (k : List (Node α)) : nodesL u k = k.flatMap (nodes u) := by
  induction k with
  | nil => simp [nodesL]
  | cons a as ih => simp [nodesL, ih]

theorem nodes_eq (u : Str) (n : Node α) :
    nodes u n = (u ++ n.path, n) :: nodesL (u ++ n.path) n.kids := by
  cases n; simp [nodes]

theorem mem_nodes (u : Str) (n : Node α) (x) :
    x ∈ nodes u n ↔ x = (u ++ n.path, n) ∨ ∃ c ∈ n.kids, x ∈ nodes (u ++ n.path) c := by
  rw [nodes_eq]; simp [mem_nodesL]

theorem prefix_of_mem_nodes {u : Str} {n : Node α} {q m} (h : (q, m) ∈ nodes u n) :
    (u ++ n.path) <+: q := by
  induction n using ind generalizing u with
  | h i p c k ih =>
    rw [mem_nodes] at h
    rcases h with h | ⟨c', hc, h⟩
    · simp at h; rw [h.1]; simp
    · exact List.IsPrefix.trans ⟨_, rfl⟩ (ih c' hc h)

/-- The nodes below `u` only depend on `u` by concatenation. -/
theorem nodes_append (u v : Str) (n : Node α) :
    nodes (u ++ v) n = (nodes v n).map (fun x => (u ++ x.1, x.2)) := by
  induction n using ind generalizing v with
  | h i p c k ih =>
    rw [nodes_eq, nodes_eq]
    simp only [path_mk, kids_mk, List.map_cons, List.append_assoc, List.cons.injEq, true_and]
    generalize v ++ p = w
    clear p v
    induction k with
    | nil => simp [nodesL]
    | cons a as iha =>
      simp only [nodesL, List.map_append]
      rw [ih a (by simp), iha (fun n hn => ih n (by simp [hn]))]

theorem nodesL_append (u v : Str) (k : List (Node α)) :
    nodesL (u ++ v) k = (nodesL v k).map (fun x => (u ++ x.1, x.2)) := by
  induction k with
  | nil => simp [nodesL]
  | cons a as iha => simp [nodesL, nodes_append, iha]

theorem ne_of_heads {u : Str} {a b : Node α} (ha : a.path ≠ []) (hb : b.path ≠ [])
    (hne : a.path.head? ≠ b.path.head?) {q m q' m'} (hq : (q, m) ∈ nodes u a)
    (hq' : (q', m') ∈ nodes u b) : q ≠ q' := by
  rintro rfl
  obtain ⟨x, hx⟩ := prefix_of_mem_nodes hq
  obtain ⟨y, hy⟩ := prefix_of_mem_nodes hq'
  rw [← hy, List.append_assoc, List.append_assoc, List.append_cancel_left_eq] at hx
  cases h1 : a.path with
  | nil => exact ha h1
  | cons a1 as =>
    cases h2 : b.path with
    | nil => exact hb h2
    | cons b1 bs =>
      rw [h1, h2] at hx hne
      simp at hx hne
      exact hne hx.1

/-- Full paths are unique in a well-formed tree. -/
theorem keys_nodup {n : Node α} (hw : n.WF) (u : Str) : (keys u n).Nodup := by
  induction n using ind generalizing u with
  | h i p c k ih =>
    rw [wf_mk] at hw
    obtain ⟨hn, hk⟩ := hw
    simp only [keys, nodes_eq, path_mk, kids_mk, List.map_cons, List.nodup_cons]
    constructor
    · simp only [List.mem_map, not_exists, not_and]
      rintro ⟨q, m⟩ hq heq
      rw [mem_nodesL] at hq
      obtain ⟨c', hc', hq⟩ := hq
      have := prefix_of_mem_nodes hq
      simp only at heq
      subst heq
      have hlen := this.length_le
      have := List.length_pos_iff.mpr (hk c' hc').1
      simp at hlen; omega
    · generalize u ++ p = w
      induction k with
      | nil => simp [nodesL]
      | cons a as iha =>
        simp only [List.map_cons, List.nodup_cons] at hn
        simp only [nodesL, List.map_append]
        rw [List.nodup_append]
        refine ⟨ih a (by simp) (hk a (by simp)).2 w,
          iha (fun n hn => ih n (by simp [hn])) hn.2 (fun c hc => hk c (by simp [hc])), ?_⟩
        intro x hx y hy
        simp only [List.mem_map, mem_nodesL] at hx hy
        obtain ⟨⟨q, m⟩, hq, rfl⟩ := hx
        obtain ⟨⟨q', m'⟩, ⟨c', hc', hq'⟩, rfl⟩ := hy
        refine ne_of_heads (hk a (by simp)).1 (hk c' (by simp [hc'])).1 ?_ hq hq'
        intro heq
        exact hn.1 (by rw [heq]; exact List.mem_map.mpr ⟨c', hc', rfl⟩)

theorem nodes_unique {n : Node α} (hw : n.WF) {u q m m'} (h : (q, m) ∈ nodes u n)
    (h' : (q, m') ∈ nodes u n) : m = m' := by
  have hnd := keys_nodup hw u
  rw [keys] at hnd
  generalize nodes u n = l at *
  induction l with
  | nil => cases h
  | cons a as ih =>
    simp only [List.map_cons, List.nodup_cons, List.mem_map, not_exists, not_and] at hnd
    rcases List.mem_cons.mp h with h | h <;> rcases List.mem_cons.mp h' with h' | h'
    · rw [← h'] at h; simpa using h
    · exact absurd (by rw [← h]) (hnd.1 _ h')
    · exact absurd (by rw [← h']) (hnd.1 _ h)
    · exact ih h h' hnd.2

/-- Below a node found in the tree. -/
theorem nodes_trans {n : Node α} {u q m x} (h : (q, m) ∈ nodes u n)
    (hx : x ∈ nodesL q m.kids) : x ∈ nodes u n := by
  induction n using ind generalizing u with
  | h i p c k ih =>
    rw [mem_nodes] at h ⊢
    rcases h with h | ⟨c', hc, h⟩
    · simp at h
      obtain ⟨rfl, rfl⟩ := h
      rw [mem_nodesL] at hx
      exact .inr hx
    · exact .inr ⟨c', hc, ih c' hc h⟩

theorem wf_of_mem {n : Node α} {u q m} (hw : n.WF) (h : (q, m) ∈ nodes u n) : m.WF := by
  induction n using ind generalizing u with
  | h i p c k ih =>
    rw [mem_nodes] at h
    rcases h with h | ⟨c', hc, h⟩
    · simp at h; rw [h.2]; exact hw
    · exact ih c' hc (((wf_mk ..).mp hw).2 c' hc).2 h

end Node
end Verif

import Verif.Lemmas.Insert
import Verif.Model.Trie
import Verif.Spec.Map
/-
Trees as finite maps.
-/
namespace Verif
variable {α : Type}

theorem assoc_eq_some {β : Type} {l : List (Str × β)} (hn : (l.map (·.1)).Nodup) {q : Str} {b : β} :
    assoc l q = some b ↔ (q, b) ∈ l := by
  induction l with
  | nil => simp [assoc]
  | cons a as ih =>
    obtain ⟨k, c⟩ := a
    simp only [List.map_cons, List.nodup_cons, List.mem_map, not_exists, not_and] at hn
    simp only [assoc, List.mem_cons, Prod.mk.injEq]
    by_cases h : k = q
    · subst h
      simp only [if_true, Option.some.injEq, true_and]
      constructor
      · intro h; exact .inl h.symm
      · rintro (h | h)
        · exact h.symm
        · exact absurd rfl (hn.1 _ h)
    · simp only [h, if_false, ih hn.2]
      constructor
      · intro h'; exact .inr h'
      · rintro (⟨rfl, _⟩ | h')
        · exact absurd rfl h
        · exact h'

theorem assoc_eq_none {β : Type} {l : List (Str × β)} {q : Str} :
    assoc l q = none ↔ ∀ b, (q, b) ∉ l := by
  induction l with
  | nil => simp [assoc]
  | cons a as ih =>
    obtain ⟨k, c⟩ := a
    simp only [assoc, List.mem_cons, Prod.mk.injEq]
    by_cases h : k = q
    · subst h; simp only [if_true, reduceCtorEq, false_iff]; exact fun h' => h' c (.inl ⟨trivial, rfl⟩)
    · simp only [h, if_false, ih]
      constructor
      · rintro h' b (⟨rfl, _⟩ | h'')
        · exact h rfl
        · exact h' b h''
      · intro h' b hb; exact h' b (.inr hb)

/-- What a tree stores, as a finite map. -/
def Tree.contents (t : Tree α) : Str → Option (Core α) := assoc (t.root.entries [])

/-- The invariant of all reachable tries. -/
structure Tree.OK (t : Tree α) : Prop where
  wf : t.root.WF
  nil : t.root.path = []
  nodup : ((t.root.nodes []).map (·.2.id)).Nodup
  lt : ∀ x ∈ t.root.nodes [], x.2.id < t.next

theorem Tree.OK.new [Inhabited α] : (Tree.new : Tree α).OK := by
  refine ⟨by simp [Tree.new, Node.wf_mk], rfl, by simp [Tree.new, Node.nodes_eq, Node.nodesL], ?_⟩
  simp [Tree.new, Node.nodes_eq, Node.nodesL]

theorem Node.entries_keys (u : Str) (n : Node α) : (n.entries u).map (·.1) = n.keys u := by
  simp [Node.entries, Node.keys]

theorem Tree.contents_some {t : Tree α} (h : t.OK) {q c} :
    t.contents q = some c ↔ (q, c) ∈ t.root.entries [] :=
  assoc_eq_some (by rw [Node.entries_keys]; exact Node.keys_nodup h.wf [])

theorem Tree.contents_node {t : Tree α} (h : t.OK) {q c} :
    t.contents q = some c ↔ ∃ m, (q, m) ∈ t.root.nodes [] ∧ m.core = c := by
  rw [contents_some h, Node.entries, List.mem_map]
  constructor
  · rintro ⟨⟨q', m⟩, h1, h2⟩
    simp at h2
    exact ⟨m, h2.1 ▸ h1, h2.2⟩
  · rintro ⟨m, h1, h2⟩
    exact ⟨(q, m), h1, by simp [h2]⟩

theorem Tree.contents_none {t : Tree α} {q} :
    t.contents q = none ↔ ∀ m, (q, m) ∉ t.root.nodes [] := by
  rw [Tree.contents, assoc_eq_none]
  simp only [Node.entries, List.mem_map, not_exists, not_and]
  constructor
  · intro h m hm; exact h m.core _ hm rfl
  · rintro h c ⟨q', m⟩ hm heq
    simp at heq
    exact h m (heq.1 ▸ hm)

theorem Tree.contents_root {t : Tree α} (h : t.OK) : t.contents [] = some t.root.core := by
  rw [contents_node h]
  exact ⟨t.root, by rw [Node.mem_nodes]; simp [h.nil], rfl⟩

/-- The tree has no route pattern for the delimiter `d`. -/
def Tree.Plain (d : Char) (t : Tree α) : Prop := ∀ q c, t.contents q = some c → NoRoute d q

/-- The path `w` does not leave any entry at a route marker. -/
def Tree.ClearAt (d : Char) (w : Str) (t : Tree α) : Prop := ∀ q c, t.contents q = some c → Misses d w q

theorem Tree.Plain.at {d : Char} {t : Tree α} (hp : t.Plain d) (w : Str) : t.ClearAt d w := fun q c h => (hp q c h).clear w

theorem Tree.ClearAt.keys {d : Char} {w : Str} {t : Tree α} (hp : t.ClearAt d w) (h : t.OK) :
    ∀ q ∈ t.root.keys [], Misses d w q := by
  intro q hq
  rw [← Node.entries_keys] at hq
  obtain ⟨x, hx, rfl⟩ := List.mem_map.mp hq
  exact hp x.1 x.2 ((Tree.contents_some h).mpr hx)

theorem Tree.Plain.keys {d : Char} {t : Tree α} (hp : t.Plain d) (h : t.OK) :
    ∀ q ∈ t.root.keys [], NoRoute d q := by
  intro q hq
  simp only [Node.keys, List.mem_map] at hq
  obtain ⟨⟨q', m⟩, h1, rfl⟩ := hq
  exact hp q' m.core ((contents_node h).mpr ⟨m, h1, rfl⟩)

section insert
variable [Inhabited α]

theorem View.insertAt_ok {t : Tree α} (h : t.OK) (key : Str) (x : α) :
    (View.insertAt t key x).1.OK := by
  have hi := Node.insert_ok t.next key x t.root h.wf h.nil
  refine ⟨hi.wf, hi.nil h.nil, ?_, ?_⟩
  · obtain ⟨ex, he, hp⟩ := hi.ids
    refine hp.nodup_iff.mpr ?_
    rw [List.nodup_append]
    refine ⟨h.nodup, he.nodup (by simp), ?_⟩
    intro a ha b hb
    simp only [List.mem_map] at ha
    obtain ⟨y, hy, rfl⟩ := ha
    have h1 := h.lt y hy
    have h2 := he.subset hb
    simp at h2
    omega
  · intro y hy
    obtain ⟨ex, he, hp⟩ := hi.ids
    have : y.2.id ∈ (t.root.nodes []).map (·.2.id) ++ ex := hp.mem_iff.mp (List.mem_map.mpr ⟨y, hy, rfl⟩)
    rw [List.mem_append] at this
    simp only [View.insertAt]
    rcases this with h1 | h1
    · simp only [List.mem_map] at h1
      obtain ⟨z, hz, hz'⟩ := h1
      have := h.lt z hz
      omega
    · have := he.subset h1
      simp at this
      omega

/-- The entry stored at `key` after `Set(key, x)`. -/
def putCore (t : Tree α) (key : Str) (x : α) (c : Core α) : Prop :=
  match t.contents key with
  | some c0 => c = { c0 with hasData := true, data := x }
  | none => (c = Node.leafCore (utf8 key) x ∧ ∀ q c0, t.contents q = some c0 → ¬ key <+: q) ∨
      ∃ q c0, t.contents q = some c0 ∧ key <+: q ∧ key ≠ q ∧
        c = { Node.cutCore c0 q key.length with hasData := true, data := x }

theorem mem_perm_unique {β : Type} {E : List (Str × β)} (hn : (E.map (·.1)).Nodup) {k : Str} {b : β} {R}
    (hp : E.Perm ((k, b) :: R)) {c} (h : (k, c) ∈ E) : c = b := by
  have h1 := (assoc_eq_some hn).mpr h
  have h2 := (assoc_eq_some hn).mpr (hp.mem_iff.mpr (by simp) : (k, b) ∈ E)
  rw [h1] at h2
  exact Option.some.inj h2

theorem lcp_append {s : Str} {a b : Char} {x y : Str} (h : a ≠ b) :
    lcp (s ++ a :: x) (s ++ b :: y) = s := by
  induction s with
  | nil => simp [lcp, h]
  | cons c cs ih => simp [lcp, ih]

theorem lcp_prefix_left (a b : Str) : lcp a b <+: a := by
  induction a generalizing b with
  | nil => simp [lcp]
  | cons a1 as ih =>
    cases b with
    | nil => simp [lcp]
    | cons b1 bs =>
      simp only [lcp]
      split
      · rw [List.cons_prefix_cons]; exact ⟨rfl, ih bs⟩
      · exact List.nil_prefix

theorem lcp_prefix_right (a b : Str) : lcp a b <+: b := by
  induction a generalizing b with
  | nil => simp [lcp]
  | cons a1 as ih =>
    cases b with
    | nil => simp [lcp]
    | cons b1 bs =>
      simp only [lcp]
      split
      · rename_i h; subst h; rw [List.cons_prefix_cons]; exact ⟨rfl, ih bs⟩
      · exact List.nil_prefix

/-- The contents after an insertion. `sp` is the position of the branch created by a split, if one
is created that is not `key` itself. -/
structure PutSpec (t t' : Tree α) (key : Str) (x : α) (old : Option α) : Prop where
  /-- the entry of `key` -/
  atKey : ∃ c, t'.contents key = some c ∧ putCore t key x c
  /-- other entries are kept -/
  keep : ∀ q c, q ≠ key → t.contents q = some c → t'.contents q = some c
  /-- nothing else appears, except for at most one empty branch at the longest common prefix of
  `key` and some entry -/
  new : ∀ q c, q ≠ key → t.contents q = none → t'.contents q = some c →
    ∃ k0 c0, t.contents k0 = some c0 ∧ q = lcp k0 key ∧ q ≠ k0 ∧ c = Node.cutCore c0 k0 q.length
  /-- the old data -/
  oldHit : ∀ c0, t.contents key = some c0 → old = some c0.data
  oldSplit : ∀ q c0, t.contents key = none → t.contents q = some c0 → key <+: q → old = some default
  oldNew : t.contents key = none → (∀ q c0, t.contents q = some c0 → ¬ key <+: q) → old = none

omit [Inhabited α] in
theorem Node.below_of_prefix {n : Node α} (hw : n.WF) {u k q : Str} {m m' : Node α} (h : (k, m) ∈ n.nodes u)
    (h' : (q, m') ∈ n.nodes u) (hp : k <+: q) : q = k ∧ m' = m ∨ (q, m') ∈ Node.nodesL k m.kids := by
  induction n using Node.ind generalizing u with
  | h i p c ks ih =>
    have hwn := (Node.wf_mk ..).mp hw
    rw [Node.mem_nodes] at h
    rcases h with h | ⟨c1, hc1, h⟩
    · simp at h
      obtain ⟨rfl, rfl⟩ := h
      rw [Node.nodes_eq] at h'
      rcases List.mem_cons.mp h' with h' | h'
      · simp at h'; exact .inl ⟨h'.1, h'.2⟩
      · exact .inr h'
    · rw [Node.mem_nodes] at h'
      rcases h' with h' | ⟨c2, hc2, h'⟩
      · simp at h'
        have h1 := (Node.prefix_of_mem_nodes h).length_le
        have h2 := List.length_pos_iff.mpr (hwn.2 c1 hc1).1
        have h3 := hp.length_le
        rw [h'.1] at h3
        simp at h1 h3; omega
      · by_cases hcc : c1.path.head? = c2.path.head?
        · obtain rfl := Node.heads_inj hwn.1 hc1 hc2 hcc
          exact ih c1 hc1 (hwn.2 c1 hc1).2 h h'
        · exfalso
          obtain ⟨x, hx⟩ := Node.prefix_of_mem_nodes h
          obtain ⟨y, hy⟩ := Node.prefix_of_mem_nodes h'
          obtain ⟨z, hz⟩ := hp
          rw [← hx, ← hy] at hz
          simp only [List.append_assoc, List.append_cancel_left_eq] at hz
          cases h1 : c1.path with
          | nil => exact (hwn.2 c1 hc1).1 h1
          | cons a as =>
            cases h2 : c2.path with
            | nil => exact (hwn.2 c2 hc2).1 h2
            | cons b bs =>
              rw [h1, h2] at hz hcc
              simp at hz hcc
              exact hcc hz.1

theorem View.insertAt_spec {t : Tree α} (h : t.OK) (key : Str) (x : α) :
    PutSpec t (View.insertAt t key x).1 key x (View.insertAt t key x).2.old := by
  have h' := View.insertAt_ok h key x
  have hi := Node.insert_ok t.next key x t.root h.wf h.nil
  have hnd : ((t.root.entries []).map (·.1)).Nodup := by
    rw [Node.entries_keys]; exact Node.keys_nodup h.wf []
  have hnd' : (((View.insertAt t key x).1.root.entries []).map (·.1)).Nodup := by
    rw [Node.entries_keys]; exact Node.keys_nodup h'.wf []
  have hspec := hi.spec
  simp only [List.nil_append] at hspec
  have hroot : (View.insertAt t key x).1.root = (t.root.insert t.next key x).tree := rfl
  have hold : (View.insertAt t key x).2.old = (t.root.insert t.next key x).old := rfl
  rw [← hroot, ← hold] at hspec
  have hleaf : (View.insertAt t key x).2.old = none → ∀ q c0, t.contents q = some c0 →
      (∀ q c, (q, c) ∈ t.root.entries [] → (q, c) ∈ (View.insertAt t key x).1.root.entries []) →
      t.contents key = none → ¬ key <+: q := by
    intro ho q c0 hq hsub hk hp
    have h1 := hi.hit
    simp only [List.nil_append] at h1
    rw [← hroot] at h1
    have h2 := (Tree.contents_node h').mp ((Tree.contents_some h').mpr (hsub _ _ ((Tree.contents_some h).mp hq)))
    obtain ⟨m, h2, _⟩ := h2
    rcases Node.below_of_prefix h'.wf h1 h2 hp with ⟨h3, _⟩ | h3
    · subst h3; rw [hk] at hq; simp at hq
    · rw [hi.hitLeaf (hold ▸ ho)] at h3; simp [Node.nodesL] at h3
  generalize hT : (View.insertAt t key x).1 = t' at *
  generalize (View.insertAt t key x).2.old = old at *
  cases hspec with
  | hit c0 rest h1 h2 ho =>
    have hk : t.contents key = some c0 := (Tree.contents_some h).mpr (h1.mem_iff.mpr (by simp))
    have hk' : t'.contents key = some { c0 with hasData := true, data := x } :=
      (Tree.contents_some h').mpr (h2.mem_iff.mpr (by simp))
    refine ⟨⟨_, hk', by simp [putCore, hk]⟩, ?_, ?_, by simp [hk, ho], by simp [hk], by simp [hk]⟩
    · intro q c hne hq
      rw [Tree.contents_some h, h1.mem_iff] at hq
      rw [Tree.contents_some h', h2.mem_iff]
      simp [hne] at hq ⊢; exact hq
    · intro q c hne hq hq'
      rw [Tree.contents_some h', h2.mem_iff] at hq'
      simp [hne] at hq'
      have := (Tree.contents_some h).mpr (h1.mem_iff.mpr (List.mem_cons_of_mem _ hq'))
      rw [hq] at this; simp at this
  | leaf h1 ho =>
    have hk : t.contents key = none := by
      have := (h1.map (·.1)).nodup_iff.mp hnd'
      rw [List.map_cons, List.nodup_cons] at this
      cases hc : t.contents key with
      | none => rfl
      | some c =>
        exact absurd (List.mem_map.mpr ⟨_, (Tree.contents_some h).mp hc, rfl⟩) this.1
    have hk' : t'.contents key = some (Node.leafCore (utf8 key) x) :=
      (Tree.contents_some h').mpr (h1.mem_iff.mpr (by simp))
    have hno : ∀ q c0, t.contents q = some c0 → ¬ key <+: q := fun q c0 hq =>
      hleaf ho q c0 hq (fun q c hqc => h1.mem_iff.mpr (by simp [hqc])) hk
    refine ⟨⟨_, hk', ?_⟩, ?_, ?_, ?_, ?_, ?_⟩
    · simp only [putCore, hk]; exact .inl ⟨trivial, hno⟩
    · intro q c hne hq
      rw [Tree.contents_some h] at hq
      rw [Tree.contents_some h', h1.mem_iff]
      simp [hq]
    · intro q c hne hq hq'
      rw [Tree.contents_some h', h1.mem_iff] at hq'
      simp [hne] at hq'
      have := (Tree.contents_some h).mpr hq'
      rw [hq] at this; simp at this
    · simp [hk]
    · intro q c0 _ hq hp
      exact absurd hp (hleaf ho q c0 hq (fun q c hqc => h1.mem_iff.mpr (by simp [hqc])) hk)
    · intro _ _; exact ho
  | splitHit q0 c0 hq0 hp hne0 h1 ho =>
    have hk : t.contents key = none := by
      have := (h1.map (·.1)).nodup_iff.mp hnd'
      rw [List.map_cons, List.nodup_cons] at this
      cases hc : t.contents key with
      | none => rfl
      | some c =>
        exact absurd (List.mem_map.mpr ⟨_, (Tree.contents_some h).mp hc, rfl⟩) this.1
    have hk' := (Tree.contents_some h').mpr (h1.mem_iff.mpr (List.mem_cons_self ..))
    refine ⟨⟨_, hk', ?_⟩, ?_, ?_, ?_, ?_, ?_⟩
    · simp only [putCore, hk]
      exact .inr ⟨q0, c0, (Tree.contents_some h).mpr hq0, hp, hne0, rfl⟩
    · intro q c hne hq
      rw [Tree.contents_some h] at hq
      rw [Tree.contents_some h', h1.mem_iff]
      simp [hq]
    · intro q c hne hq hq'
      rw [Tree.contents_some h', h1.mem_iff] at hq'
      simp [hne] at hq'
      have := (Tree.contents_some h).mpr hq'
      rw [hq] at this; simp at this
    · simp [hk]
    · intro _ _ _ _ _; exact ho
    · intro _ hno; exact absurd hp (hno q0 c0 ((Tree.contents_some h).mpr hq0))
  | splitLeaf q0 c0 sp a y b z hq0 e1 e2 hab h1 ho =>
    have hk : t.contents key = none := by
      have := (h1.map (·.1)).nodup_iff.mp hnd'
      rw [List.map_cons, List.nodup_cons, List.map_cons, List.nodup_cons] at this
      cases hc : t.contents key with
      | none => rfl
      | some c =>
        exact absurd (List.mem_map.mpr ⟨_, (Tree.contents_some h).mp hc, rfl⟩) this.2.1
    have hk' : t'.contents key = some (Node.leafCore (utf8 key) x) :=
      (Tree.contents_some h').mpr (h1.mem_iff.mpr (by simp))
    have hno : ∀ q c0, t.contents q = some c0 → ¬ key <+: q := fun q c0 hq =>
      hleaf ho q c0 hq (fun q c hqc => h1.mem_iff.mpr (by simp [hqc])) hk
    refine ⟨⟨_, hk', ?_⟩, ?_, ?_, ?_, ?_, ?_⟩
    · simp only [putCore, hk]; exact .inl ⟨trivial, hno⟩
    · intro q c hne hq
      rw [Tree.contents_some h] at hq
      rw [Tree.contents_some h', h1.mem_iff]
      simp [hq]
    · intro q c hne hq hq'
      rw [Tree.contents_some h', h1.mem_iff] at hq'
      simp only [List.mem_cons, Prod.mk.injEq] at hq'
      rcases hq' with ⟨rfl, rfl⟩ | ⟨h3, _⟩ | hq'
      · refine ⟨q0, c0, (Tree.contents_some h).mpr hq0, ?_, ?_, rfl⟩
        · rw [e1, e2, lcp_append hab]
        · rw [e1]; simp
      · exact absurd h3 hne
      · have := (Tree.contents_some h).mpr hq'
        rw [hq] at this; simp at this
    · simp [hk]
    · intro q c0 _ hq hp
      exact absurd hp (hleaf ho q c0 hq (fun q c hqc => h1.mem_iff.mpr (by simp [hqc])) hk)
    · intro _ _; exact ho

end insert
end Verif

import Verif.Props.Walk
/-
C51: StartsWith and EndsWith of a trie.
-/
namespace Verif
variable {α : Type}

/-- radix/node.go:156-161 `StartsWith`. -/
def Node.startsWith (n : Node α) (r : Char) : Bool :=
  match n.path with
  | [] => false
  | c :: _ => c == r

/-- radix/cvter.go:326-332 `StartsWith`. -/
def View.startsWith (v : View) (t : Tree α) (path : Str) (r : Char) : Go Bool :=
  match v.locate t path with
  | .error e => .error e
  | .ok (some n, _, _, true) => .ok (n.startsWith r)
  | .ok _ => .ok false

/-- radix/cvter.go:334-340 `EndsWith`. -/
def View.endsWith (v : View) (t : Tree α) (path : Str) (r : Char) : Go Bool :=
  match v.locate t path with
  | .error e => .error e
  | .ok (some n, _, _, true) => .ok (n.endsWith r)
  | .ok _ => .ok false

section
variable [Inhabited α]

omit [Inhabited α] in
theorem child_path {t : Tree α} (h : t.OK) {qp q : Str} {p m : Node α} (hp : (qp, p) ∈ t.root.nodes [])
    (hk : m ∈ p.kids) (hm : (q, m) ∈ t.root.nodes []) : q = qp ++ m.path ∧ m.path ≠ [] := by
  obtain ⟨w, h1, -, h3⟩ := Node.nodes_at h.wf hp
  have k1 : p.WF := Node.wf_of_mem h.wf hp
  have hw := (Node.wf_mk ..).mp (show (Node.mk p.id p.path p.core p.kids).WF by cases p; exact k1)
  have hself : (qp ++ m.path, m) ∈ t.root.nodes [] :=
    ((h3 _).mp (by cases p; exact (Node.mem_nodes ..).mpr (.inr ⟨m, hk, h1 ▸ (by rw [Node.nodes_eq]; simp)⟩))).1
  have := List.inj_on_of_nodup_map h.nodup hm hself rfl
  exact ⟨by simpa using this, (hw.2 m hk).1⟩

/-- **C51** `EndsWith(p, r)` is true exactly when `p` is stored (in either spelling) and the stored path ends with `r`. -/
theorem C51_endsWith {v : View} {t : Tree α} (h : Reach (NoRoute v.delim) t) (hm : v.mode ≠ .up) (p : Str) (r : Char) :
    (v.endsWith t p r = .ok true ↔ ∃ q c, resolve v.delim t.contents (v.full p) = some (q, c) ∧ endsW r q = true) ∧
    ∃ b, v.endsWith t p r = .ok b := by
  rw [resolve_contents h.ok]
  rcases search_plain h.ok h.plain hm (v.full p) with ⟨q, m, par, h1, h2, _⟩ | ⟨hw, h1, c, par, pm, h2, h3⟩
  · have hmem := (Tree.nodeAt_some h.ok).mp (resolve_cases h1).1
    have e : v.endsWith t p r = .ok (endsW r q) := by
      simp only [View.endsWith, View.locate, h2, Bool.not_false, endsWith_of_mem h.ok hmem]
    refine ⟨?_, _, e⟩
    rw [e, h1]
    simp
  · have e : v.endsWith t p r = .ok false := by
      have := h3.not_found
      simp only [View.endsWith, View.locate, h2]
      cases c with
      | none => rfl
      | some c => cases pm <;> simp_all
    refine ⟨?_, _, e⟩
    rw [e, h1]
    simp

/-- **C51** `StartsWith(p, r)` looks at the fragment of the tree node: it is true exactly when `p` is stored and `r` is the first character after
the longest stored proper prefix of the stored path. -/
theorem C51_startsWith {v : View} {t : Tree α} (h : Reach (NoRoute v.delim) t) (hm : v.mode ≠ .up) (p : Str) (r : Char) :
    (v.startsWith t p r = .ok true ↔ ∃ q c q0, resolve v.delim t.contents (v.full p) = some (q, c) ∧
      (t.contents q0).isSome ∧ (∀ k, (t.contents k).isSome → k <+: q → k ≠ q → k <+: q0) ∧ q0 ++ [r] <+: q) ∧
    ∃ b, v.startsWith t p r = .ok b := by
  rw [resolve_contents h.ok]
  rcases search_plain h.ok h.plain hm (v.full p) with ⟨q, m, par, h1, h2, hpar⟩ | ⟨hw, h1, c, par, pm, h2, h3⟩
  · have hmem := (Tree.nodeAt_some h.ok).mp (resolve_cases h1).1
    have e : v.startsWith t p r = .ok (m.startsWith r) := by
      simp only [View.startsWith, View.locate, h2, Bool.not_false]
    refine ⟨?_, _, e⟩
    rw [e, h1]
    simp only [Option.map_some, Option.some.injEq, Prod.mk.injEq, Except.ok.injEq]
    rcases hpar with ⟨hw, -, rfl⟩ | ⟨qp, n, -, hn, hk⟩
    · have hq : q = [] := by
        have := List.inj_on_of_nodup_map h.ok.nodup hmem h.ok.root_mem rfl
        simpa using this
      constructor
      · intro hs; simp [Node.startsWith, h.ok.nil] at hs
      · rintro ⟨q', c, q0, ⟨rfl, -⟩, -, -, h4⟩
        rw [hq] at h4; simp at h4
    · obtain ⟨g1, g2, g3⟩ := parent_between h.ok hn hk hmem
      obtain ⟨g4, g5⟩ := child_path h.ok hn hk hmem
      have hqp : (t.contents qp).isSome := by rw [(Tree.contents_node h.ok).mpr ⟨n, hn, rfl⟩]; rfl
      obtain ⟨a, as, ha⟩ := List.exists_cons_of_ne_nil g5
      have hs : m.startsWith r = true ↔ a = r := by simp [Node.startsWith, ha]
      rw [hs]
      constructor
      · rintro rfl
        refine ⟨q, m.core, qp, ⟨rfl, rfl⟩, hqp, ?_, ?_⟩
        · intro k hk1 hk2 hk3
          obtain ⟨ck, hck⟩ := Option.isSome_iff_exists.mp hk1
          obtain ⟨nk, hnk, -⟩ := (Tree.contents_node h.ok).mp hck
          exact g3 k nk hnk hk2 hk3
        · rw [g4, ha, List.prefix_append_right_inj]; simp
      · rintro ⟨q', c, q0, ⟨rfl, -⟩, h4, h5, h6⟩
        obtain ⟨c0, hc0⟩ := Option.isSome_iff_exists.mp h4
        obtain ⟨n0, hn0, -⟩ := (Tree.contents_node h.ok).mp hc0
        have hq0 : q0 <+: q := (List.prefix_append _ _).trans h6
        have hq0ne : q0 ≠ q := by
          intro e0; have := h6.length_le; rw [e0] at this; simp only [List.length_append, List.length_singleton] at this; omega
        have e1 : q0 = qp := by
          have k1 := g3 q0 n0 hn0 hq0 hq0ne
          have k2 := h5 qp hqp g1 g2
          exact k1.eq_of_length (Nat.le_antisymm k1.length_le k2.length_le)
        rw [e1, g4, ha, List.prefix_append_right_inj] at h6
        simp at h6
        exact h6.symm
  · have e : v.startsWith t p r = .ok false := by
      have := h3.not_found
      simp only [View.startsWith, View.locate, h2]
      cases c with
      | none => rfl
      | some c => cases pm <;> simp_all
    refine ⟨?_, _, e⟩
    rw [e, h1]
    simp

/-- So the answer of `StartsWith` for a key changes when an unrelated key is stored, and it need not be the first character of the
key's last component. -/
theorem C51_startsWith_fails : ∃ (v : View) (t t' : Tree Nat), t = sets [(v, "app.debug".toList, 1), (v, "app.log".toList, 2)] Tree.new ∧
    t' = (v.set t "app.dump".toList 3).1 ∧
    v.startsWith t "app.debug".toList 'd' = .ok true ∧ v.startsWith t' "app.debug".toList 'd' = .ok false :=
  ⟨View.new '.', _, _, rfl, rfl, by decide +kernel, by decide +kernel⟩

example : let t : Tree Nat := sets [(View.new '.', "app.debug".toList, 1), (View.new '.', "app.log".toList, 2)] Tree.new
    (View.new '.').endsWith t "app.debug".toList 'g' = .ok true ∧ (View.new '.').endsWith t "app".toList '.' = .ok true ∧
    (View.new '.').endsWith t "app.debug".toList 'x' = .ok false ∧ (View.new '.').startsWith t "app.log".toList 'l' = .ok true := by
  decide +kernel

end
end Verif

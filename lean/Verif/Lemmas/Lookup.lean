import Verif.Lemmas.Match
/-
What a lookup result says about the contents of the tree.
-/
namespace Verif
namespace Node
variable {α : Type}

/-- Extension of prefixes is prefix-comparable. -/
theorem head_of_prefix {a b : Str} {c : Char} {x : Str} (hb : b ≠ []) (h : a ++ b <+: a ++ c :: x ∨ a ++ c :: x <+: a ++ b) :
    b.head? = some c := by
  cases b with
  | nil => exact absurd rfl hb
  | cons b1 bs =>
    rcases h with h | h
    · rw [List.prefix_append_right_inj, List.cons_prefix_cons] at h; simp [h.1]
    · rw [List.prefix_append_right_inj, List.cons_prefix_cons] at h; simp [h.1]

/-- A node whose path continues with `b` after the fragment lies below the child that starts with `b`. -/
theorem below_kid {n : Node α} (hw : n.WF) {u q : Str} {m : Node α} {b : Char} {y : Str}
    (h : (q, m) ∈ nodes u n) (hp : u ++ (n.path ++ b :: y) <+: q) :
    ∃ c ∈ n.kids, c.path.head? = some b ∧ (q, m) ∈ nodes (u ++ n.path) c := by
  rw [mem_nodes] at h
  rcases h with h | ⟨c, hc, h⟩
  · simp at h
    rw [h.1] at hp
    have := hp.length_le
    simp at this; omega
  · refine ⟨c, hc, ?_, h⟩
    have h1 := prefix_of_mem_nodes h
    have hcp := (((wf_iff n).mp hw).2 c hc).1
    rw [← List.append_assoc] at hp
    exact head_of_prefix hcp (List.prefix_or_prefix_of_prefix h1 hp)

/-- Result of a successful lookup. -/
structure Hit (d : Char) (u w : Str) (n : Node α) (par : Option (Node α)) (r : MR α) : Prop where
  matched : r.matched = true
  part : r.part = false
  node : ∃ m, r.child = some m ∧
    ((u ++ w, m) ∈ nodes u n ∨ ((u ++ w ++ [d], m) ∈ nodes u n ∧ ∀ m', (u ++ w, m') ∉ nodes u n)) ∧
    ((m = n ∧ r.parent = par) ∨ ∃ q p, r.parent = some p ∧ (q, p) ∈ nodes u n ∧ m ∈ p.kids)

/-- Result of an unsuccessful lookup. -/
structure Miss (d : Char) (u w : Str) (n : Node α) (r : MR α) : Prop where
  matched : r.matched = false
  noExact : ∀ m, (u ++ w, m) ∉ nodes u n
  noDelim : ∀ m, (u ++ w ++ [d], m) ∉ nodes u n
  part : (r = MR.nothing ∧ ∀ q m, (q, m) ∈ nodes u n → ¬ u ++ w <+: q) ∨
    (r.part = true ∧ ∃ q m, (q, m) ∈ nodes u n ∧ u ++ w <+: q ∧ r.child = some m) ∨
    (r.part = true ∧ (∀ q m, (q, m) ∈ nodes u n → ¬ u ++ w <+: q) ∧
      ∃ q m, (q, m) ∈ nodes u n ∧ m.kids = [] ∧ q <+: u ++ w ∧ q ≠ u ++ w ∧
        ((m.path ≠ [] ∧ r.child = some m) ∨ (m = n ∧ m.path = [] ∧ r.child = none)))

theorem Miss.of_noExt {d : Char} {u w : Str} {n : Node α} {r : MR α} (hm : r.matched = false)
    (h : ∀ q m, (q, m) ∈ nodes u n → ¬ u ++ w <+: q)
    (hp : r = MR.nothing ∨ (r.part = true ∧
      ∃ q m, (q, m) ∈ nodes u n ∧ m.kids = [] ∧ q <+: u ++ w ∧ q ≠ u ++ w ∧
        ((m.path ≠ [] ∧ r.child = some m) ∨ (m = n ∧ m.path = [] ∧ r.child = none)))) : Miss d u w n r := by
  refine ⟨hm, fun m hm' => h _ _ hm' ⟨[], by simp⟩, fun m hm' => h _ _ hm' ⟨[d], by simp⟩, ?_⟩
  rcases hp with hp | hp
  · exact .inl ⟨hp, h⟩
  · exact .inr (.inr ⟨hp.1, h, hp.2⟩)

theorem PM.spec {d : Char} {n : Node α} {w : Str} {par : Option (Node α)} {r : MR α}
    (h : PM d n w par r) (hw : n.WF) (u : Str) : Hit d u w n par r ∨ Miss d u w n r := by
  induction h generalizing u with
  | @exact n par hne =>
    exact .inl ⟨rfl, rfl, n, rfl, .inl (by rw [mem_nodes]; simp), .inl ⟨rfl, rfl⟩⟩
  | @delim n w par hne h =>
    refine .inl ⟨rfl, rfl, n, rfl, .inr ⟨?_, ?_⟩, .inl ⟨rfl, rfl⟩⟩
    · rw [mem_nodes, h]; simp
    · intro m' hm'
      have := (prefix_of_mem_nodes hm').length_le
      rw [h] at this; simp at this; omega
  | @part n w x y par hne h hx =>
    refine .inr ⟨rfl, ?_, ?_, .inr (.inl ⟨rfl, u ++ n.path, n, by rw [mem_nodes]; simp, by rw [h]; simp, rfl⟩)⟩
    · intro m' hm'
      have := (prefix_of_mem_nodes hm').length_le
      rw [h] at this; simp at this; omega
    · intro m' hm'
      have := prefix_of_mem_nodes hm'
      rw [h, List.append_assoc, List.prefix_append_right_inj, List.prefix_append_right_inj] at this
      rw [List.prefix_cons_iff] at this
      rcases this with h | ⟨t, h, h'⟩
      · simp at h
      · simp at h'; subst h'; exact hx h
  | @diff n s a b x y par h hab =>
    refine .inr (.of_noExt rfl ?_ (.inl rfl))
    intro q m hm hp
    have h1 := prefix_of_mem_nodes hm
    rw [h] at h1
    rcases List.prefix_or_prefix_of_prefix h1 hp with h | h
    · rw [List.prefix_append_right_inj, List.prefix_append_right_inj, List.cons_prefix_cons] at h
      exact hab h.1
    · rw [List.prefix_append_right_inj, List.prefix_append_right_inj, List.cons_prefix_cons] at h
      exact hab h.1.symm
  | @dead n b y par hk hne =>
    refine .inr (.of_noExt rfl ?_ (.inr ⟨rfl, u ++ n.path, n, by rw [mem_nodes]; simp, hk, by simp, by simp, .inl ⟨hne, rfl⟩⟩))
    intro q m hm hp
    obtain ⟨c, hc, _⟩ := below_kid hw hm hp
    rw [hk] at hc; cases hc
  | @deadRoot n b y par hk hne =>
    refine .inr (.of_noExt rfl ?_ (.inr ⟨rfl, u ++ n.path, n, by rw [mem_nodes]; simp, hk, by simp [hne], by simp [hne], .inr ⟨rfl, hne, rfl⟩⟩))
    intro q m hm hp
    obtain ⟨c, hc, _⟩ := below_kid hw hm (b := b) (y := y) (by rw [hne]; exact hp)
    rw [hk] at hc; cases hc
  | @noKid n b y par hk h =>
    refine .inr (.of_noExt rfl ?_ (.inl rfl))
    intro q m hm hp
    obtain ⟨c, hc, hh, _⟩ := below_kid hw hm hp
    exact h c hc hh
  | @kid n c b y par r hc h hr ih =>
    have hwn := (wf_iff n).mp hw
    have hup : ∀ x, x ∈ nodes (u ++ n.path) c → x ∈ nodes u n := fun x hx =>
      (mem_nodes ..).mpr (.inr ⟨c, hc, hx⟩)
    have hdown : ∀ q m, (q, m) ∈ nodes u n → u ++ (n.path ++ b :: y) <+: q → (q, m) ∈ nodes (u ++ n.path) c := by
      intro q m hm hp
      obtain ⟨c', hc', hh, hm'⟩ := below_kid hw hm hp
      obtain rfl := heads_inj hwn.1 hc hc' (by rw [h, hh])
      exact hm'
    have e : u ++ (n.path ++ b :: y) = u ++ n.path ++ b :: y := by simp
    rcases ih (hwn.2 c hc).2 (u ++ n.path) with hit | miss
    · obtain ⟨m, h1, h2, h3⟩ := hit.node
      refine .inl ⟨hit.matched, hit.part, m, h1, ?_, ?_⟩
      · rw [e]
        rcases h2 with h2 | ⟨h2, h2'⟩
        · exact .inl (hup _ h2)
        · exact .inr ⟨hup _ h2, fun m' hm' => h2' m' (hdown _ _ hm' (by rw [e]; exact List.prefix_rfl))⟩
      · rcases h3 with ⟨rfl, h3⟩ | ⟨q, p, h3, h4, h5⟩
        · exact .inr ⟨u ++ n.path, n, h3, by rw [mem_nodes]; simp, hc⟩
        · exact .inr ⟨q, p, h3, hup _ h4, h5⟩
    · refine .inr ⟨miss.matched, ?_, ?_, ?_⟩
      · intro m hm
        have := hdown _ _ hm List.prefix_rfl
        rw [e] at this
        exact miss.noExact _ this
      · intro m hm
        have := hdown _ _ hm (by simp)
        rw [e] at this
        exact miss.noDelim _ this
      · rw [e]
        rcases miss.part with ⟨h1, h2⟩ | ⟨h1, q, m, h2, h3, h4⟩ | ⟨h1, h2, q, m, h3, h4, h5, h6, h7⟩
        · exact .inl ⟨h1, fun q m hm hp => h2 q m (hdown q m hm (by rw [e]; exact hp)) hp⟩
        · exact .inr (.inl ⟨h1, q, m, hup _ h2, h3, h4⟩)
        · refine .inr (.inr ⟨h1, fun q m hm hp => h2 q m (hdown q m hm (by rw [e]; exact hp)) hp, q, m, hup _ h3, h4, h5, h6, ?_⟩)
          rcases h7 with h7 | ⟨rfl, h7, h8⟩
          · exact .inl h7
          · exact absurd h7 (hwn.2 m hc).1

end Node
end Verif

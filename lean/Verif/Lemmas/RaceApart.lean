import Verif.Lemmas.RaceStep
import Verif.Lemmas.Steps
/-
Keys that do not get in each other's way.
-/
namespace Verif
namespace Race
variable {α : Type}

open Node (commonPrefixLen)

theorem part_nodes {u w : Str} {d : Node α} (hd : d.path ≠ []) (hh : d.path.head? ≠ w.head?) {s : Str} {x : Node α}
    (hs : (s, x) ∈ Node.nodes u d) {z : Str} (h1 : z <+: s) (h2 : z <+: u ++ w) : z <+: u :=
  Node.part_kid hd hh (c := x.core) (List.mem_map.mpr ⟨(s, x), hs, rfl⟩) h1 h2

theorem drop_split {p w : Str} (h : p <+: w) (u : Str) : u ++ w = u ++ p ++ w.drop p.length := by
  obtain ⟨r, rfl⟩ := h
  simp

/-- The path of a node on the way. -/
theorem Goes.path {n : Node α} {w : Str} {m : Node α} {w' : Str} (h : Goes n w m w') (u : Str) :
    ∃ u', (u' ++ m.path, m) ∈ Node.nodes u n ∧ u ++ w = u' ++ w' := by
  induction h generalizing u with
  | here n w => exact ⟨u, by rw [Node.mem_nodes]; exact .inl rfl, rfl⟩
  | @down n w c m w' hp hg ih =>
    obtain ⟨u', h1, h2⟩ := ih (u ++ n.path)
    refine ⟨u', ?_, ?_⟩
    · rw [Node.mem_nodes]; exact .inr ⟨c, hp.mem, h1⟩
    · rw [drop_split hp.1, h2]

/-- What a key shares with any stored path it shares with the path of the node where its insertion stops. -/
theorem Goes.longest {n : Node α} {w : Str} {m : Node α} {w' : Str} (h : Goes n w m w') (hs : Stop w' m) (hw : n.WF)
    {u u' : Str} (hm : (u' ++ m.path, m) ∈ Node.nodes u n) (he : u ++ w = u' ++ w') (hnd : n.ids.Nodup)
    {s : Str} {x : Node α} (hx : (s, x) ∈ Node.nodes u n) {z : Str} (h1 : z <+: s) (h2 : z <+: u ++ w) :
    z <+: u' ++ m.path := by
  induction h generalizing u with
  | here n w =>
    have hwn := (Node.wf_iff n).mp hw
    have hu : u' = u := by
      have := congrArg List.length he
      exact (List.append_inj' he rfl).1.symm
    subst hu
    rw [Node.mem_nodes] at hx
    rcases hx with hx | ⟨d, hd, hx⟩
    · cases hx; exact h1
    · have h3 := (List.prefix_append (u' ++ n.path) d.path).trans (Node.prefix_of_mem_nodes hx)
      rcases List.prefix_or_prefix_of_prefix h1 h3 with h4 | h4
      · exact h4
      · have h5 : n.path <+: w := by
          have := h4.trans h2
          rwa [List.prefix_append_right_inj] at this
        by_cases hl : n.path.length < w.length
        · have := hs.kids h5 hl d hd
          rw [drop_split h5] at h2
          exact part_nodes (hwn.2 d hd).1 this hx h1 h2
        · have : n.path = w := h5.eq_of_length (Nat.le_antisymm h5.length_le (by omega))
          rw [this]; exact h2
  | @down n w c m w' hp hg ih =>
    have hwn := (Node.wf_iff n).mp hw
    rw [Node.ids_cons, List.nodup_cons] at hnd
    have hcm := hp.mem
    -- `m` is below `c`
    have hmc : (u' ++ m.path, m) ∈ Node.nodes (u ++ n.path) c := by
      obtain ⟨u2, h3, h4⟩ := hg.path (u ++ n.path)
      have : u2 = u' := by
        rw [← drop_split hp.1, he] at h4
        exact (List.append_inj' h4 rfl).1.symm
      rw [← this]; exact h3
    have hup : u ++ n.path <+: u' ++ m.path :=
      (List.prefix_append _ _).trans (Node.prefix_of_mem_nodes hmc)
    rw [Node.mem_nodes] at hx
    rcases hx with hx | ⟨d, hd, hx⟩
    · cases hx; exact h1.trans hup
    · by_cases hdc : d.path.head? = (w.drop n.path.length).head?
      · have : d = c := by
          obtain ⟨_, _, pre, post, h3, h4, h5⟩ := hp
          have hn := hwn.1
          rw [h3, List.map_append, List.map_cons, List.nodup_append, List.nodup_cons] at hn
          rw [h3] at hd
          rcases List.mem_append.mp hd with hd | hd
          · exact absurd hdc (h4 d hd)
          · rcases List.mem_cons.mp hd with hd | hd
            · exact hd
            · exact absurd (List.mem_map.mpr ⟨d, hd, hdc.trans h5.symm⟩) hn.2.1.1
        subst this
        refine ih hs (hwn.2 d hd).2 hmc ?_ (Node.ids_nodup_kid hnd.2 hd) hx ?_
        · rw [← drop_split hp.1, he]
        · rw [← drop_split hp.1]; exact h2
      · rw [drop_split hp.1] at h2
        exact (part_nodes (hwn.2 d hd).1 hdc hx h1 h2).trans hup

/-- The insertion of a stored path stops at its node. -/
theorem Goes.hits {n : Node α} {w : Str} {m : Node α} {w' : Str} (h : Goes n w m w') (hs : Stop w' m) (hw : n.WF)
    {u : Str} {x : Node α} (hx : (u ++ w, x) ∈ Node.nodes u n) : w' = m.path := by
  induction h generalizing u with
  | here n w =>
    have hwn := (Node.wf_iff n).mp hw
    rw [Node.mem_nodes] at hx
    rcases hx with hx | ⟨d, hd, hx⟩
    · have := (Prod.mk.inj hx).1
      exact List.append_cancel_left this
    · exfalso
      have h3 := Node.prefix_of_mem_nodes hx
      rw [List.append_assoc, List.prefix_append_right_inj] at h3
      obtain ⟨r, hr⟩ := h3
      have hp : n.path <+: w := ⟨d.path ++ r, by rw [← hr, List.append_assoc]⟩
      have hdl := List.length_pos_iff.mpr (hwn.2 d hd).1
      have hl : n.path.length < w.length := by rw [← hr]; simp; omega
      refine hs.kids hp hl d hd ?_
      rw [← hr, List.append_assoc]
      rw [List.drop_left, Node.head?_append_ne (hwn.2 d hd).1]
  | @down n w c m w' hp hg ih =>
    have hwn := (Node.wf_iff n).mp hw
    rw [Node.mem_nodes] at hx
    rcases hx with hx | ⟨d, hd, hx⟩
    · have := List.append_cancel_left (Prod.mk.inj hx).1
      have h2 := hp.2.1
      rw [this] at h2; omega
    · by_cases hdc : d.path.head? = (w.drop n.path.length).head?
      · have : d = c := by
          obtain ⟨_, _, pre, post, h3, h4, h5⟩ := hp
          have hn := hwn.1
          rw [h3, List.map_append, List.map_cons, List.nodup_append, List.nodup_cons] at hn
          rw [h3] at hd
          rcases List.mem_append.mp hd with hd | hd
          · exact absurd hdc (h4 d hd)
          · rcases List.mem_cons.mp hd with hd | hd
            · exact hd
            · exact absurd (List.mem_map.mpr ⟨d, hd, hdc.trans h5.symm⟩) hn.2.1.1
        subst this
        refine ih hs (hwn.2 d hd).2 (u := u ++ n.path) ?_
        rw [← drop_split hp.1]; exact hx
      · exfalso
        have h1 := part_nodes (hwn.2 d hd).1 hdc hx (List.prefix_refl _) (by rw [← drop_split hp.1]; exact List.prefix_refl _)
        have := h1.length_le
        have := hp.2.1
        simp at *; omega

/-- Two nodes with one identity are one node. -/
theorem same_node {t : Tree α} (h : t.OK) {q q' : Str} {m m' : Node α} (h1 : (q, m) ∈ t.root.nodes [])
    (h2 : (q', m') ∈ t.root.nodes []) (he : m.id = m'.id) : q = q' ∧ m = m' := by
  have hn := h.nodup
  generalize t.root.nodes [] = L at h1 h2 hn
  induction L with
  | nil => cases h1
  | cons a as ih =>
    rw [List.map_cons, List.nodup_cons] at hn
    rcases List.mem_cons.mp h1 with e1 | h1' <;> rcases List.mem_cons.mp h2 with e2 | h2'
    · exact Prod.mk.inj (e1.trans e2.symm)
    · refine absurd (List.mem_map.mpr ⟨_, h2', ?_⟩) hn.1
      rw [← e1]; exact he.symm
    · refine absurd (List.mem_map.mpr ⟨_, h1', ?_⟩) hn.1
      rw [← e2]; exact he
    · exact ih h1' h2' hn.2

/-- Keys that are free of each other: when one comes across the node where the other stops, the other only
replaces a value there, and the first goes on. -/
theorem free_apart {t : Tree α} (h : t.OK) {a b : Str} (hab : Free t a b) (hba : Free t b a)
    {mA mB : Node α} {wA wB : Str} (hA : Goes t.root a mA wA) (sA : Stop wA mA) (hB : Goes t.root b mB wB)
    (sB : Stop wB mB) {m1 : Node α} {w1 : Str} (h1 : Goes t.root a m1 w1) (he : m1.id = mB.id) :
    wB = mB.path ∧ mB.id ≠ mA.id := by
  obtain ⟨uA, pA, eA⟩ := hA.path []
  obtain ⟨uB, pB, eB⟩ := hB.path []
  obtain ⟨u1, p1, e1⟩ := h1.path []
  rw [List.nil_append] at eA eB e1
  have hnd : t.root.ids.Nodup := h.nodup
  have stored : ∀ s, (t.contents s).isSome → ∃ x, (s, x) ∈ t.root.nodes [] := by
    intro s hs
    obtain ⟨c, hc⟩ := Option.isSome_iff_exists.mp hs
    obtain ⟨x, hx, _⟩ := (Tree.contents_node h).mp hc
    exact ⟨x, hx⟩
  have longA : ∀ s z, (t.contents s).isSome → z <+: s → z <+: a → z <+: uA ++ mA.path := by
    intro s z hs hz hza
    obtain ⟨x, hx⟩ := stored s hs
    exact hA.longest sA h.wf pA eA hnd hx hz hza
  have longB : ∀ s z, (t.contents s).isSome → z <+: s → z <+: b → z <+: uB ++ mB.path := by
    intro s z hs hz hzb
    obtain ⟨x, hx⟩ := stored s hs
    exact hB.longest sB h.wf pB eB hnd hx hz hzb
  have hitA : (t.contents a).isSome → uA ++ mA.path = a := by
    intro hs
    obtain ⟨x, hx⟩ := stored a hs
    rw [eA, hA.hits sA h.wf (u := []) hx]
  have hitB : (t.contents b).isSome → wB = mB.path ∧ uB ++ mB.path = b := by
    intro hs
    obtain ⟨x, hx⟩ := stored b hs
    have := hB.hits sB h.wf (u := []) hx
    exact ⟨this, by rw [eB, this]⟩
  rcases hab with ⟨hsb, hne⟩ | ⟨s, z, hs, hz, hzb, hza⟩
  · refine ⟨(hitB hsb).1, fun hid => ?_⟩
    have hq := (same_node h pB pA hid).1
    rw [(hitB hsb).2] at hq
    rcases hba with ⟨hsa, _⟩ | ⟨s', z', hs', hz', hza', hzb'⟩
    · rw [hitA hsa] at hq; exact hne hq
    · exact hzb' (hq ▸ longA s' z' hs' hz' hza')
  · exfalso
    have hq := (same_node h p1 pB he).1
    have hzq := longB s z hs hz hzb
    rcases pass_or_stop w1 m1 with ⟨c, hp⟩ | hst
    · refine hza (hzq.trans ?_)
      rw [← hq, e1, List.prefix_append_right_inj]
      exact hp.1
    · obtain ⟨rfl, rfl⟩ := h1.unique hst hA sA
      have hq' := (same_node h pA pB he).1
      rw [← hq'] at hzq
      rcases hba with ⟨hsa, _⟩ | ⟨s', z', hs', hz', hza', hzb'⟩
      · rw [hitA hsa] at hzq; exact hza hzq
      · rcases List.prefix_or_prefix_of_prefix hzq (longA s' z' hs' hz' hza') with h3 | h3
        · exact hza (h3.trans hza')
        · exact hzb' (h3.trans hzb)

end Race
end Verif

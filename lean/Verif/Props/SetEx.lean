import Verif.Props.Dump
/-
C15: how often `SetEx` calls its callback.
-/
namespace Verif
variable {α : Type} [Inhabited α]

namespace Node

theorem insertFuel_count (fresh : Nat) (ps : List UInt8) (x : α) (fuel : Nat) :
    ∀ (w : Str) (n : Node α) (u : Str) (lvl : Nat), n.WF →
      (n.path = [] ∧ w.length + 2 ≤ fuel ∧ ¬ (w ≠ [] ∧ n.kids = []) ∨
        w ≠ [] ∧ n.path ≠ [] ∧ n.path.head? = w.head? ∧ w.length + 1 ≤ fuel) →
      ∃ L, (L, u ++ w, (insertFuel fresh ps x fuel w n).hit) ∈ nodesD u lvl (insertFuel fresh ps x fuel w n).tree ∧
        (insertFuel fresh ps x fuel w n).cbs.length + lvl =
          L + (if (insertFuel fresh ps x fuel w n).old.isSome then 1 else 0) := by
  induction fuel with
  | zero => intro w n u lvl _ h; omega
  | succ fuel ih =>
    intro w n u lvl hw hcase
    have hwn := (wf_iff n).mp hw
    have hk : ∀ (w' : Str) (u' : Str) (k : List (Node α)), w' ≠ [] → w'.length + 1 ≤ fuel → (∀ c ∈ k, c.path ≠ [] ∧ c.WF) →
        ∃ L, (L, u' ++ w', (insKids (insertFuel fresh ps x fuel w') fresh w' ps x k).hit) ∈
            nodesDL u' (lvl + 1) (insKids (insertFuel fresh ps x fuel w') fresh w' ps x k).kids ∧
          (insKids (insertFuel fresh ps x fuel w') fresh w' ps x k).cbs.length + lvl =
            L + (if (insKids (insertFuel fresh ps x fuel w') fresh w' ps x k).old.isSome then 1 else 0) := by
      intro w' u' k hw' hf hkk
      induction k with
      | nil =>
        refine ⟨lvl + 1, ?_, ?_⟩
        · simp [insKids, nodesDL, newLeaf, nodesD]
        · simp [insKids]; omega
      | cons a as ihk =>
        simp only [insKids]
        split
        · rename_i hc
          obtain ⟨L, h1, h2⟩ := ih w' a u' (lvl + 1) (hkk a (by simp)).2 (.inr ⟨hw', (hkk a (by simp)).1, hc, hf⟩)
          refine ⟨L, by simp only [nodesDL, List.mem_append]; exact .inl h1, ?_⟩
          simp only [List.length_append, List.length_singleton]
          omega
        · obtain ⟨L, h1, h2⟩ := ihk (fun c hc => hkk c (by simp [hc]))
          exact ⟨L, by simp only [nodesDL, List.mem_append]; exact .inr h1, h2⟩
    rw [insertFuel]
    have hearly : ¬ (n.path.length = 0 ∧ w.length > 0 ∧ n.kids.length = 0) := by
      rintro ⟨h1, h2, h3⟩
      rcases hcase with ⟨-, -, h⟩ | ⟨-, h, -⟩
      · exact h ⟨List.length_pos_iff.mp h2, List.eq_nil_of_length_eq_zero h3⟩
      · exact h (List.eq_nil_of_length_eq_zero h1)
    simp only [hearly, if_false]
    have hcpl : ∃ s y z, w = s ++ y ∧ n.path = s ++ z ∧
        (if n.path.length > 0 ∧ w.length > 0 then commonPrefixLen w n.path else 0) = s.length ∧ (n.path ≠ [] → s ≠ []) := by
      rcases hcase with ⟨hp, _⟩ | ⟨hwd, hp, hh, _⟩
      · exact ⟨[], w, [], by simp, by simp [hp], by simp [hp], fun h => absurd hp h⟩
      · have h1 : n.path.length > 0 := List.length_pos_iff.mpr hp
        have h2 : w.length > 0 := List.length_pos_iff.mpr hwd
        simp only [h1, h2, and_self, if_true]
        obtain ⟨s, y, z, ha, hb, hc, hd⟩ := commonPrefixLen_spec w n.path
        refine ⟨s, y, z, ha, hb, hc, fun _ hs => ?_⟩
        subst hs
        simp only [List.nil_append] at ha hb
        rw [ha, hb] at hh
        rcases hd with rfl | rfl | ⟨p, q, x', y', rfl, rfl, hpq⟩
        · exact hwd ha
        · exact hp hb
        · simp at hh; exact hpq hh.symm
    obtain ⟨s, y, z, hword, hpath, hc, hsne⟩ := hcpl
    rw [hc]
    have hlw : w.length = s.length + y.length := by rw [hword]; simp
    -- the node at which we stand after a possible split
    have hbase : ∃ b : Node α, (if s.length < n.path.length then split fresh s.length n else n) = b ∧ b.path = s ∧
        ∀ c ∈ b.kids, c.path ≠ [] ∧ c.WF := by
      refine ⟨_, rfl, ?_, ?_⟩
      · split
        · rw [split_path, hpath]; simp
        · rename_i h; rw [hpath] at h ⊢
          have : z = [] := by
            cases z with
            | nil => rfl
            | cons a as => simp at h
          simp [this]
      · split
        · rename_i hlt
          rw [split_kids]
          intro c hcm
          simp only [List.mem_singleton] at hcm
          subst hcm
          refine ⟨?_, by rw [wf_mk]; exact hwn⟩
          simp only [path_mk]
          intro e
          have := congrArg List.length e
          simp at this; omega
        · exact hwn.2
    obtain ⟨b, hb, hbp, hbk⟩ := hbase
    simp only [hb]
    by_cases hy : y = []
    · subst hy
      have hnlt : ¬ s.length < w.length := by simp at hlw; omega
      simp only [hnlt, if_false]
      refine ⟨lvl, ?_, by simp; omega⟩
      simp [nodesD, hbp, hword]
    · have hlt : s.length < w.length := by
        have := List.length_pos_iff.mpr hy; omega
      simp only [hlt, if_true]
      have hdrop : w.drop s.length = y := by rw [hword]; simp
      rw [hdrop]
      obtain ⟨L, h1, h2⟩ := hk y (u ++ s) b.kids hy (by
        rcases hcase with ⟨hp, hf, -⟩ | ⟨_, hp, _, hf⟩
        · rw [hpath] at hp; have : s = [] := (List.append_eq_nil_iff.mp hp).1; simp [this] at hlw; omega
        · have := List.length_pos_iff.mpr (hsne hp); omega) hbk
      refine ⟨L, ?_, h2⟩
      simp only [nodesD, hbp, List.mem_cons]
      refine .inr ?_
      rw [hword, ← List.append_assoc]; exact h1

end Node

/-- **C15** The number of calls of the callback: none if the trie was empty (and the key is not); otherwise one for every stored proper prefix of `k`
(after the call), and one more if `k` or an extension of it was stored before. -/
theorem C15_count_partial {P : Str → Prop} {v : View} {t : Tree α} (h : Reach P t) (p : Str) (x : α) :
    (v.full p ≠ [] → (∀ q c, t.contents q = some c → q = []) → (v.setEx t p x).2.cbs = []) ∧
    ((v.full p = [] ∨ ∃ q c, t.contents q = some c ∧ q ≠ []) →
      ∃ L : List Str, L.Nodup ∧ (∀ q, q ∈ L ↔ ((v.setEx t p x).1.contents q).isSome ∧ q <+: v.full p ∧ q ≠ v.full p) ∧
        ((∃ q c, t.contents q = some c ∧ v.full p <+: q) → (v.setEx t p x).2.cbs.length = L.length + 1) ∧
        ((∀ q c, t.contents q = some c → ¬ v.full p <+: q) → (v.setEx t p x).2.cbs.length = L.length)) := by
  have hok := h.ok
  have hspec := View.insertAt_spec hok (v.full p) x
  have hok' := View.insertAt_ok hok (v.full p) x
  have hkids : (∀ q c, t.contents q = some c → q = []) ↔ t.root.kids = [] := by
    constructor
    · intro h1
      cases hk : t.root.kids with
      | nil => rfl
      | cons a as =>
        exfalso
        have hmem : (a.path, a) ∈ t.root.nodes [] := by
          rw [Node.nodes_eq, hok.nil, hk]
          simp only [List.nil_append, Node.nodesL, List.mem_cons, List.mem_append]
          refine .inr (.inl ?_)
          rw [Node.nodes_eq]; simp
        have := h1 a.path a.core ((Tree.contents_node hok).mpr ⟨a, hmem, rfl⟩)
        exact (((Node.wf_iff _).mp hok.wf).2 a (by rw [hk]; simp)).1 this
    · intro hk q c hc
      obtain ⟨n, hn, -⟩ := (Tree.contents_node hok).mp hc
      rw [Node.nodes_eq, hk, hok.nil] at hn
      simp [Node.nodesL] at hn
      exact hn.1
  constructor
  · intro h1 h2
    have hk := hkids.mp h2
    simp only [View.setEx, View.insertAt, Node.insert]
    rw [Node.insertFuel]
    simp [hok.nil, hk, List.length_pos_iff, h1]
  · intro h1
    have hne : ¬ (v.full p ≠ [] ∧ t.root.kids = []) := by
      rintro ⟨h2, h3⟩
      rcases h1 with h1 | ⟨q, c, h4, h5⟩
      · exact h2 h1
      · exact h5 (hkids.mpr h3 q c h4)
    obtain ⟨L, hL, hcount⟩ := Node.insertFuel_count t.next (utf8 (v.full p)) x ((v.full p).length + 2) (v.full p) t.root [] 0 hok.wf
      (.inl ⟨hok.nil, Nat.le_refl _, hne⟩)
    have hd := Node.nodesD_depth (Node.insert_ok t.next (v.full p) x t.root hok.wf hok.nil).wf hL
    simp only [List.nil_append, Nat.zero_add] at hd
    refine ⟨(((v.setEx t p x).1.root.nodes []).map (·.1)).filter (fun k => decide (k <+: v.full p ∧ k ≠ v.full p)), ?_, ?_, ?_, ?_⟩
    · exact (Node.keys_nodup hok'.wf []).filter _
    · intro q
      simp only [List.mem_filter, decide_eq_true_eq, List.mem_map]
      refine and_congr_left (fun _ => ?_)
      constructor
      · rintro ⟨⟨q', n⟩, hn, rfl⟩
        have : (v.setEx t p x).1.contents q' = some n.core := (Tree.contents_node hok').mpr ⟨n, hn, rfl⟩
        simp only [this]; rfl
      · intro hs
        obtain ⟨c, hc⟩ := Option.isSome_iff_exists.mp hs
        obtain ⟨n, hn, -⟩ := (Tree.contents_node hok').mp hc
        exact ⟨_, hn, rfl⟩
    · rintro ⟨q, c, h2, h3⟩
      have hold : (v.setEx t p x).2.old.isSome = true := by
        cases hc : t.contents (v.full p) with
        | some c0 => simp only [View.setEx]; rw [hspec.oldHit c0 hc]; rfl
        | none => simp only [View.setEx]; rw [hspec.oldSplit q c hc h2 h3]; rfl
      have hold' : (Node.insertFuel t.next (utf8 (v.full p)) x ((v.full p).length + 2) (v.full p) t.root).old.isSome = true := hold
      rw [hold', if_pos rfl, hd] at hcount
      exact hcount
    · intro h2
      have hold : (v.setEx t p x).2.old = none := by
        refine hspec.oldNew ?_ h2
        cases hc : t.contents (v.full p) with
        | none => rfl
        | some c0 => exact absurd (List.prefix_refl _) (h2 _ c0 hc)
      have hold' : (Node.insertFuel t.next (utf8 (v.full p)) x ((v.full p).length + 2) (v.full p) t.root).old = none := hold
      rw [hold', hd] at hcount
      simp only [Option.isSome_none, Bool.false_eq_true, if_false, Nat.add_zero] at hcount
      exact hcount

example : ((View.new '.').setEx (sets [(View.new '.', "app.debug".toList, 1), (View.new '.', "app.dump".toList, 2)] (Tree.new : Tree Nat))
    "app.debug".toList 3).2.cbs.length = 3 := by decide +kernel

end Verif

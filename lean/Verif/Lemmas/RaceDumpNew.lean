import Verif.Lemmas.RaceDump
/-
A dump of the trie after the other goroutines have returned.
-/
namespace Verif
namespace Parts
variable {α : Type} [Inhabited α]
open Prune (Cell Mem Turn)

/-- The dump of the trie below a node, if the trie does not change. -/
theorem ucleads_walk (F : DumpFmt α) (nc : Bool) {M : Mem α} (n : Node α) : ∀ (u : Str),
    (∀ q m, (q, m) ∈ n.nodes u → (M m.id).path = m.path ∧ (M m.id).core = m.core ∧ (M m.id).arr.take (M m.id).len = m.kids.map Node.id ∧ (M m.id).len = m.kids.length) →
    ∃ N, ∀ stk out, ULeads F nc (fun _ _ : Unit => True) (fun _ => M) (fun r => r = (.next stk, out ++ n.dumpR F nc stk.length)) N () (.visit n.id stk, out) := by
  induction n using Node.ind with
  | h i p c k ih =>
    intro u hM
    obtain ⟨m1, m2, m3, m4⟩ := hM _ _ ((Node.mem_nodes u (.mk i p c k) _).mpr (.inl rfl))
    simp only [Node.id, Node.path, Node.core, Node.kids] at m1 m2 m3 m4
    have hloop : ∀ (k' : List (Node α)) (j : Nat), k.drop j = k' → j ≤ k.length → ∃ N, ∀ stk out,
        ULeads F nc (fun _ _ : Unit => True) (fun _ => M) (fun r => r = (.next stk, out ++ Node.dumpRL F nc (stk.length + 1) k')) N () (.next (⟨i, k.length, j⟩ :: stk), out) := by
      intro k'
      induction k' with
      | nil =>
        intro j hj hle
        have hle : ¬ j < k.length := by
          have := congrArg List.length hj
          simp at this
          omega
        refine ⟨1, fun stk out => .inr fun s1 _ => ?_⟩
        simp only [ustep, if_neg hle]
        exact .now (by simp [Node.dumpRL]) _
      | cons e k' ihk =>
        intro j hj _
        have hlt : j < k.length := by
          by_cases h : j < k.length
          · exact h
          · rw [List.drop_eq_nil_of_le (by omega)] at hj; cases hj
        rw [List.drop_eq_getElem_cons hlt] at hj
        obtain ⟨he, hj'⟩ := List.cons.inj hj
        have hmem : e ∈ k := he ▸ List.getElem_mem hlt
        obtain ⟨N1, h1⟩ := ih e hmem (u ++ p) fun q m hm => hM q m ((Node.mem_nodes u (.mk i p c k) _).mpr (.inr ⟨e, hmem, hm⟩))
        obtain ⟨N2, h2⟩ := ihk (j + 1) hj' hlt
        refine ⟨(N1 + N2) + 1, fun stk out => .inr fun s1 _ => ?_⟩
        have hget : (M i).arr.getD j 0 = e.id := by
          have : ((M i).arr.take (M i).len)[j]? = some e.id := by rw [m3, List.getElem?_map, List.getElem?_eq_getElem hlt, he]; rfl
          rw [List.getElem?_take_of_lt (by omega)] at this
          rw [List.getD_eq_getElem?_getD, this]
          rfl
        simp only [ustep, if_pos hlt, hget]
        refine (h1 _ out).trans (fun _ => trivial) (fun _ _ _ _ _ => trivial) ?_
        rintro s2 r _ rfl
        have := h2 stk (out ++ e.dumpR F nc (stk.length + 1))
        simp only [Node.dumpRL, List.length_cons] at this ⊢
        rw [← List.append_assoc]
        exact this
    obtain ⟨N, hN⟩ := hloop k 0 rfl (Nat.zero_le _)
    refine ⟨N + 4, fun stk out => .inr fun s1 _ => .inr fun s2 _ => .inr fun s3 _ => .inr fun s4 _ => ?_⟩
    have := hN stk (out ++ dumpLine F nc stk.length (.mk i p c []))
    have e : dumpLine F nc stk.length (.mk i p c k) = dumpLine F nc stk.length (.mk i p c []) := rfl
    simp only [ustep, Node.id, m1, m2, m4, Node.dumpR, e]
    rw [← List.append_assoc]
    exact this

end Parts
end Verif

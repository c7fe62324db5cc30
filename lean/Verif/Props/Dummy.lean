import Verif.Model.Dummy
/-
C77: the dummy store against an empty store.
-/
namespace Verif
namespace Dummy
variable {α β κ : Type} [Inhabited α]

theorem full_ne {v : View} {p : Str} (hp : p ≠ []) : v.full p ≠ [] := by
  simp only [View.full]
  split
  · rename_i h
    simp [View.join, h]
  · exact hp

/-- On an empty trie a search for anything but the empty path ends with a partial match of nothing. -/
theorem search_new (v : View) {w : Str} (hw : w ≠ []) : v.search (Tree.new : Tree α) w = .ok (none, none, true, []) := by
  have hl : 0 < w.length := List.length_pos_iff.2 hw
  have hm : Node.masterLoop v.delim (Tree.new : Tree α).root w false none [] = .ok (.go 0 0 false ⟨false, false, none, none⟩, []) := by
    simp [Node.masterLoop, Tree.new, Node.path, Node.cmpLoop]
  have hv : Node.verdict v.delim (Tree.new : Tree α).root none w.length 0 ⟨false, false, none, none⟩ = ⟨false, false, none, none⟩ := by
    simp [Node.verdict, Tree.new, Node.path]
  have : (Tree.new : Tree α).root.matchR v.delim w false none [] = .ok (⟨false, true, none, none⟩, []) := by
    have e : (Tree.new : Tree α).root = .mk 0 [] Core.zero [] := rfl
    rw [e] at hm hv ⊢
    rw [Node.matchR]
    simp only [hw, if_false, hm, hv]
    simp [hl]
  simp [View.search, this]

/-- **C77** Reading and removing in a dummy store, as in an empty store, with any prefix and mode: nothing is there, whatever has been written to it before (it has
no state to write to). Missing for the full claim: see `C77_answers_fail`. -/
theorem C77_dummy_partial (v : View) {p : Str} (hp : p ≠ []) :
    v.mustGet (Tree.new : Tree α) p = .ok (mustGet p) ∧
    v.get (Tree.new : Tree α) p = .ok (get p) ∧
    v.has (Tree.new : Tree α) p = .ok (has p) ∧
    v.remove (Tree.new : Tree α) p = .ok (Tree.new, remove p) ∧
    (∀ d c, v.setComment (Tree.new : Tree α) p d c = .ok (Tree.new, setComment p d c)) ∧
    (∀ x, v.setTag (Tree.new : Tree α) p x = .ok (Tree.new, setTag p x)) ∧
    (∃ n x b, v.getNode (Tree.new : Tree α) p = .ok (n, x, b, (getEx (α := α) p).isSome)) ∧
    (∀ (conv : α → Go β) (zero : β), v.mustTyped conv zero (Tree.new : Tree α) p [] = .ok (mustTyped zero p [])) ∧
    (∀ (conv : α → Go β) (zero : β), ∃ e, v.getTyped conv zero (Tree.new : Tree α) p [] = .ok ((getTyped zero p []).1, e)) := by
  have h := search_new (α := α) v (full_ne (v := v) hp)
  refine ⟨?_, ?_, ?_, ?_, fun d c => ?_, fun x => ?_, ⟨none, default, false, ?_⟩, fun conv zero => ?_, fun conv zero => ⟨true, ?_⟩⟩ <;>
  simp [View.mustGet, View.get, View.has, View.remove, View.removeEx, View.setComment, View.setTag, View.getNode, View.mustTyped, View.getTyped, View.query,
    View.queryKV, h, mustGet, get, has, remove, setComment, setTag, getEx, mustTyped, getTyped, lastDefault]

/-- **C77** Where the two differ, for every path: an empty store gives the defaults and an error, calls a lookup a partial match, and shows its root to `Walk`; the
dummy store gives the zero value, no error, no partial match and no node. -/
theorem C77_answers_fail (v : View) {p : Str} (hp : p ≠ []) :
    (∀ (conv : α → Go β) (zero x : β), v.getTyped conv zero (Tree.new : Tree α) p [x] = .ok (x, true) ∧ getTyped zero p [x] = (zero, false)) ∧
    (∀ (conv : α → Go β) (zero x : β), v.mustTyped conv zero (Tree.new : Tree α) p [x] = .ok x ∧ mustTyped zero p [x] = zero) ∧
    (v.getDesc (Tree.new : Tree α) p = .ok none ∧ (getDesc p).2 = true) ∧
    (v.locate (Tree.new : Tree α) p = .ok (none, false, true, false) ∧ locate (α := α) p = (none, false, false, false)) ∧
    (v.walk (Tree.new : Tree α) [] = .ok [(Tree.new : Tree α).root] ∧ walk (α := α) [] = []) := by
  have h := search_new (α := α) v (full_ne (v := v) hp)
  refine ⟨fun conv zero x => ⟨?_, rfl⟩, fun conv zero x => ⟨?_, rfl⟩, ⟨?_, rfl⟩, ⟨?_, rfl⟩, ⟨by simp [View.walk, Tree.new, Node.walk, Node.walkL], rfl⟩⟩ <;>
  simp [View.mustTyped, View.getTyped, View.query, View.queryKV, View.getDesc, View.getNodeFast, View.locate, h, lastDefault]

omit [Inhabited α] in
/-- **C77** And where an empty store panics, the dummy store does not: `GetM` of a path. -/
theorem C77_getM_fails (v : View) {p : Str} (hp : p ≠ []) (h1 : p ≠ ".".toList) (h2 : p ≠ "(root)".toList) (o : MOpts α κ) :
    v.getM (Tree.new : Tree (Any α κ)) p o = .error .panic ∧ getM p o = none := by
  refine ⟨?_, rfl⟩
  simp only [View.getM, hp, h1, h2, or_self, if_false, View.locate, search_new v (full_ne (v := v) hp)]
  rfl

example : (View.new '.').mustTyped (fun n => .ok n) 0 (Tree.new : Tree Nat) "app.port".toList [8080] = .ok 8080 ∧
    mustTyped 0 "app.port".toList [8080] = 0 ∧ mustGet (α := Nat) "app.port".toList = 0 := by
  refine ⟨((C77_answers_fail (View.new '.') (by decide)).2.1 _ _ _).1, rfl, rfl⟩

end Dummy
end Verif

import Verif.Props.Write
/-
C07, C08: removal.
-/
namespace Verif
variable {α : Type} [Inhabited α]

omit [Inhabited α] in
/-- `RemoveEx` of a path that resolves to the entry `q`. -/
theorem removeEx_hit {v : View} {t : Tree α} (h : t.OK) (hp : t.Plain v.delim) {p q : Str} {c : Core α}
    (hne : v.full p ≠ []) (hr : resolve v.delim t.contents (v.full p) = some (q, c)) :
    ∃ t' m pr, v.removeEx t p = .ok (t', some (m, pr)) ∧ t'.OK ∧ (q, m) ∈ t.root.nodes [] ∧ m.core = c ∧
      (∀ x, t'.contents x = if q <+: x then none else t.contents x) := by
  rw [resolve_contents h] at hr
  cases h1 : resolve v.delim t.nodeAt (v.full p) with
  | none => rw [h1] at hr; simp at hr
  | some y =>
    obtain ⟨q', m⟩ := y
    rw [h1] at hr
    simp at hr
    obtain ⟨rfl, rfl⟩ := hr
    have hmem : (q', m) ∈ t.root.nodes [] := (Tree.nodeAt_some h).mp (resolve_some h1)
    obtain ⟨par, h2, h3⟩ := search_hit h hp h1
    rcases h3 with ⟨e, _⟩ | ⟨qp, pr, rfl, hpr, hkid⟩
    · exact absurd e hne
    · have hq : q' = qp ++ m.path := by
        have hm2 : (qp ++ m.path, m) ∈ t.root.nodes [] := by
          refine Node.nodes_trans hpr ?_
          rw [Node.mem_nodesL]
          exact ⟨m, hkid, by rw [Node.mem_nodes]; simp⟩
        have := h.id_inj hmem hm2 rfl
        simp at this; exact this
      obtain ⟨h4, h5⟩ := removeAt_ok h hpr hkid
      refine ⟨_, m, pr, ?_, h4, hmem, rfl, by rw [hq]; exact h5⟩
      have hany : (pr.kids.any fun k => decide (k.id = m.id)) = true :=
        List.any_eq_true.mpr ⟨m, hkid, by simp⟩
      simp only [View.removeEx, h2, hany, if_true]

omit [Inhabited α] in
/-- `RemoveEx` of a path that does not resolve, or of the empty path. -/
theorem removeEx_miss {v : View} {t : Tree α} (h : t.OK) (hp : t.Plain v.delim) (hm : v.mode ≠ .up) {p : Str}
    (hr : v.full p = [] ∨ resolve v.delim t.contents (v.full p) = none) : v.removeEx t p = .ok (t, none) := by
  rcases search_plain h hp hm (v.full p) with ⟨q, m, par, h1, h2, h3⟩ | ⟨hw, h1, c, par, pm, h2, h3⟩
  · have hnn : v.full p = [] := by
      rcases hr with hr | hr
      · exact hr
      · rw [resolve_contents h, h1] at hr; simp at hr
    rcases h3 with ⟨_, rfl, _⟩ | ⟨qp, pr, rfl, hpr, hkid⟩
    · simp only [View.removeEx, h2]
    · exfalso
      rw [hnn] at h1
      have hres : resolve v.delim t.nodeAt [] = some ([], t.root) := by
        simp [resolve, (Tree.nodeAt_some h).mpr h.root_mem]
      rw [hres] at h1
      simp at h1
      obtain ⟨rfl, rfl⟩ := h1
      have hm2 : (qp ++ t.root.path, t.root) ∈ t.root.nodes [] := by
        refine Node.nodes_trans hpr ?_
        rw [Node.mem_nodesL]
        exact ⟨t.root, hkid, by rw [Node.mem_nodes]; simp⟩
      exact absurd h.nil (((Node.wf_iff _).mp (Node.wf_of_mem h.wf hpr)).2 _ hkid).1
  · cases h3 <;> simp only [View.removeEx, h2]

theorem Reach.remove {P : Str → Prop} {t t' : Tree α} (h : Reach P t) {v : View} {p : Str} {b : Bool}
    (e : v.remove t p = .ok (t', b)) : Reach P t' :=
  .step (.remove v p) h (by simp [Op.key]) (by simp [Op.run, e, Except.map])

omit [Inhabited α] in
/-- What `Remove` did when it returned true. -/
theorem remove_true {v : View} {t t' : Tree α} (h : t.OK) (hp : t.Plain v.delim) (hm : v.mode ≠ .up) {p : Str}
    (e : v.remove t p = .ok (t', true)) :
    v.full p ≠ [] ∧ ∃ q c, resolve v.delim t.contents (v.full p) = some (q, c) ∧
      ∀ x, t'.contents x = if q <+: x then none else t.contents x := by
  by_cases hne : v.full p = []
  · rw [View.remove, removeEx_miss h hp hm (.inl hne)] at e; simp at e
  · refine ⟨hne, ?_⟩
    cases hr : resolve v.delim t.contents (v.full p) with
    | none => rw [View.remove, removeEx_miss h hp hm (.inr hr)] at e; simp at e
    | some y =>
      obtain ⟨q, c⟩ := y
      obtain ⟨t1, m, pr, h1, _, _, _, h2⟩ := removeEx_hit h hp hne hr
      rw [View.remove, h1] at e
      simp at e
      exact ⟨q, c, rfl, e ▸ h2⟩

/-- **C07** After a successful `Remove(p)` there is a removed full path `q` — `p`, or `p` plus the
delimiter if `p` had no entry — such that nothing at or below `q` is found any more, and every path
whose answer could not come from below `q` answers everything as before. -/
theorem C07_remove_subtree {v : View} {t t' : Tree α} (h : Reach (NoRoute v.delim) t) (hm : v.mode ≠ .up) {p : Str}
    (e : v.remove t p = .ok (t', true)) :
    ∃ q, (q = v.full p ∧ (t.contents q).isSome ∨
        q = v.full p ++ [v.delim] ∧ (t.contents q).isSome ∧ t.contents (v.full p) = none) ∧
      ∀ (r : View) (w : Str), r.delim = v.delim → r.mode ≠ .up →
        (q <+: r.full w → r.has t' w = .ok false ∧ r.get t' w = .ok (default, false) ∧ r.mustGet t' w = .ok default) ∧
        (¬ q <+: r.full w → (r.full w ++ [r.delim] ≠ q ∨ (t.contents (r.full w)).isSome) →
          r.has t' w = r.has t w ∧ r.query t' w = r.query t w ∧ r.get t' w = r.get t w ∧ r.mustGet t' w = r.mustGet t w) := by
  have h' := h.remove e
  obtain ⟨hne, q, c, hr, hc⟩ := remove_true h.ok h.plain hm e
  obtain ⟨hq, hcase⟩ := resolve_cases hr
  refine ⟨q, ?_, ?_⟩
  · rcases hcase with e | ⟨e, e2, _⟩
    · exact .inl ⟨e, by rw [hq]; rfl⟩
    · exact .inr ⟨e, by rw [hq]; rfl, e2⟩
  · intro r w hd hrm
    have hpl : t.Plain r.delim := by rw [hd]; exact h.plain
    have hpl' : t'.Plain r.delim := by rw [hd]; exact h'.plain
    constructor
    · intro hpre
      have hres : resolve r.delim t'.contents (r.full w) = none := by
        rw [resolve_none]
        refine ⟨by rw [hc]; simp [hpre], fun _ => ?_⟩
        rw [hc]
        simp [hpre.trans (List.prefix_append (r.full w) [r.delim])]
      rw [has_plain h'.ok hpl' hrm, get_plain h'.ok hpl' hrm, mustGet_plain h'.ok hpl' hrm, hres]
      exact ⟨rfl, rfl, rfl⟩
    · intro hno hcond
      have e1 : t'.contents (r.full w) = t.contents (r.full w) := by rw [hc]; simp [hno]
      have hres : resolve r.delim t'.contents (r.full w) = resolve r.delim t.contents (r.full w) := by
        cases hx : t.contents (r.full w) with
        | some c0 => rw [resolve_at hx, resolve_at (e1.trans hx)]
        | none =>
          simp only [resolve, e1, hx]
          split
          · rfl
          · have : ¬ q <+: r.full w ++ [r.delim] := by
              intro hp2
              rw [List.prefix_concat_iff] at hp2
              rcases hp2 with hp2 | hp2
              · rcases hcond with h1 | h1
                · exact h1 hp2.symm
                · rw [hx] at h1; simp at h1
              · exact hno hp2
            rw [hc]; simp [this]
      have hq' : r.query t' w = r.query t w := by
        rw [query_plain h'.ok hpl' hrm, query_plain h.ok hpl hrm, hres]
      refine ⟨by rw [has_plain h'.ok hpl' hrm, has_plain h.ok hpl hrm, hres], hq', ?_, ?_⟩
      · simp only [View.get, hq']
      · simp only [View.mustGet, hq']

/-- "below `q`" is by characters, not by components: `Remove("app.d")` deletes "app.debug" and "app.dump". -/
theorem C07_removes_siblings : ∃ (v : View) (t t' : Tree Nat),
    t = sets [(v, "app.debug".toList, 1), (v, "app.dump".toList, 2), (v, "app.x".toList, 3)] Tree.new ∧
    v.remove t "app.d".toList = .ok (t', true) ∧
    v.has t' "app.debug".toList = .ok false ∧ v.has t' "app.dump".toList = .ok false ∧
    v.mustGet t' "app.x".toList = .ok 3 := by
  refine ⟨View.new '.', _, _, rfl, rfl, ?_, ?_, ?_⟩ <;> decide

/-- **C08** `Remove(p)` reports true exactly when the full path is not empty and `Has(p)` held. -/
theorem C08_remove_iff_has {v : View} {t : Tree α} (h : Reach (NoRoute v.delim) t) (hm : v.mode ≠ .up) (p : Str) :
    ∃ t' b, v.remove t p = .ok (t', b) ∧ (b = true ↔ v.full p ≠ [] ∧ v.has t p = .ok true) ∧ (b = false → t' = t) := by
  rw [has_plain h.ok h.plain hm]
  by_cases hne : v.full p = []
  · exact ⟨t, false, by rw [View.remove, removeEx_miss h.ok h.plain hm (.inl hne)]; rfl, by simp [hne], fun _ => rfl⟩
  · cases hr : resolve v.delim t.contents (v.full p) with
    | none =>
      exact ⟨t, false, by rw [View.remove, removeEx_miss h.ok h.plain hm (.inr hr)]; rfl, by simp, fun _ => rfl⟩
    | some y =>
      obtain ⟨q, c⟩ := y
      obtain ⟨t1, m, pr, h1, _⟩ := removeEx_hit h.ok h.plain hne hr
      exact ⟨t1, true, by rw [View.remove, h1]; rfl, by simp [hne], by simp⟩

/-- **C08** `Remove` is idempotent: after it succeeded, `Has(p)` is false and a second `Remove(p)`
reports false and changes nothing. -/
theorem C08_remove_idempotent {v : View} {t t' : Tree α} (h : Reach (NoRoute v.delim) t) (hm : v.mode ≠ .up) {p : Str}
    (e : v.remove t p = .ok (t', true)) : v.has t' p = .ok false ∧ v.remove t' p = .ok (t', false) := by
  have h' := h.remove e
  obtain ⟨hne, q, c, hr, hc⟩ := remove_true h.ok h.plain hm e
  have hres : resolve v.delim t'.contents (v.full p) = none := by
    obtain ⟨hq, hcase⟩ := resolve_cases hr
    rw [resolve_none]
    rcases hcase with e1 | ⟨e1, e2, _⟩
    · exact ⟨by rw [hc]; simp [e1], fun _ => by rw [hc]; simp [e1]⟩
    · refine ⟨by rw [hc, e2]; split <;> rfl, fun _ => by rw [hc]; simp [e1]⟩
  exact ⟨by rw [has_plain h'.ok h'.plain hm, hres]; rfl, by rw [View.remove, removeEx_miss h'.ok h'.plain hm (.inr hres)]; rfl⟩

/-- `RemoveEx` returns the removed entry: the one that `Get` read before. -/
theorem C08_removed_node {v : View} {t t' : Tree α} (h : Reach (NoRoute v.delim) t) (hm : v.mode ≠ .up) {p : Str} {m pr : Node α}
    (e : v.removeEx t p = .ok (t', some (m, pr))) : v.mustGet t p = .ok m.core.data := by
  by_cases hne : v.full p = []
  · rw [removeEx_miss h.ok h.plain hm (.inl hne)] at e; simp at e
  · cases hr : resolve v.delim t.contents (v.full p) with
    | none => rw [removeEx_miss h.ok h.plain hm (.inr hr)] at e; simp at e
    | some y =>
      obtain ⟨q, c⟩ := y
      obtain ⟨t1, m', pr', h1, _, _, h3, _⟩ := removeEx_hit h.ok h.plain hne hr
      rw [h1] at e
      simp at e
      rw [mustGet_hit h.ok h.plain hr, ← e.2.1, h3]
      cases hd : c.hasData with
      | true => rfl
      | false => rw [(h.inv noData_zero).2 q c (resolve_cases hr).1 hd]; rfl

section examples
example : ((exV.remove (sets exH (Tree.new : Tree Nat)) "app.debug".toList).bind fun r =>
    .ok (r.2, exV.mustGet r.1 "app.debug".toList, exV.mustGet r.1 "apple".toList)) = .ok (true, .ok 0, .ok 3) := by decide +kernel
example : (exV.remove (sets exH (Tree.new : Tree Nat)) "nope".toList).map (·.2) = .ok false := by decide +kernel
end examples

end Verif

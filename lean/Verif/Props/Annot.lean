import Verif.Props.Dump
import Verif.Props.Walk
/-
C14: what SetComment and SetTag do on a path that is not stored.
-/
namespace Verif
variable {α : Type}

namespace Node

/-- Which node a failed lookup ends at. -/
inductive MissNode (u w : Str) (n : Node α) : Option (Node α) → Prop
  | ext (q m) (h : (q, m) ∈ nodes u n) (hp : u ++ w <+: q)
      (hmin : ∀ q' m', (q', m') ∈ nodes u n → u ++ w <+: q' → q <+: q') : MissNode u w n (some m)
  | dead (q m) (h : (q, m) ∈ nodes u n) (hk : m.kids = []) (hm : m.path ≠ []) (hp : q <+: u ++ w)
      (hno : ∀ q' m', (q', m') ∈ nodes u n → ¬ u ++ w <+: q') : MissNode u w n (some m)
  | nothing (hno : ∀ q' m', (q', m') ∈ nodes u n → ¬ u ++ w <+: q')
      (hnd : ∀ q' m', (q', m') ∈ nodes u n → q' <+: u ++ w → m'.path ≠ [] → m'.kids ≠ []) : MissNode u w n none

theorem PM.missNode {d : Char} {n : Node α} {w : Str} {par : Option (Node α)} {r : MR α}
    (h : PM d n w par r) (hw : n.WF) (hr : r.matched = false) (u : Str) : MissNode u w n r.child := by
  induction h generalizing u with
  | @exact n par hne => simp at hr
  | @delim n w par hne h => simp at hr
  | @part n w x y par hne h hx =>
    refine .ext (u ++ n.path) n (by rw [mem_nodes]; simp) (by rw [h]; simp) ?_
    intro q' m' hm' _
    exact prefix_of_mem_nodes hm'
  | @diff n s a b x y par h hab =>
    have hinc : ∀ q m, (q, m) ∈ nodes u n → ¬ u ++ (s ++ b :: y) <+: q ∧ ¬ q <+: u ++ (s ++ b :: y) := by
      intro q m hm
      have h1 := prefix_of_mem_nodes hm
      rw [h] at h1
      constructor
      · intro hp
        rcases List.prefix_or_prefix_of_prefix h1 hp with h | h
        · rw [List.prefix_append_right_inj, List.prefix_append_right_inj, List.cons_prefix_cons] at h
          exact hab h.1
        · rw [List.prefix_append_right_inj, List.prefix_append_right_inj, List.cons_prefix_cons] at h
          exact hab h.1.symm
      · intro hp
        have h := h1.trans hp
        rw [List.prefix_append_right_inj, List.prefix_append_right_inj, List.cons_prefix_cons] at h
        exact hab h.1
    exact .nothing (fun q m hm => (hinc q m hm).1) (fun q m hm hp => absurd hp (hinc q m hm).2)
  | @dead n b y par hk hne =>
    refine .dead (u ++ n.path) n (by rw [mem_nodes]; simp) hk hne (by simp) ?_
    intro q m hm hp
    obtain ⟨c, hc, _⟩ := below_kid hw hm hp
    rw [hk] at hc; cases hc
  | @deadRoot n b y par hk hne =>
    refine .nothing ?_ ?_
    · intro q m hm hp
      obtain ⟨c, hc, _⟩ := below_kid hw hm (b := b) (y := y) (by rw [hne]; exact hp)
      rw [hk] at hc; cases hc
    · intro q m hm _ hmp
      rw [mem_nodes, hk] at hm
      rcases hm with hm | ⟨c, hc, _⟩
      · simp only [Prod.mk.injEq] at hm
        exact absurd (hm.2 ▸ hne) hmp
      · cases hc
  | @noKid n b y par hk h =>
    refine .nothing ?_ ?_
    · intro q m hm hp
      obtain ⟨c, hc, hh, _⟩ := below_kid hw hm hp
      exact h c hc hh
    · intro q m hm hp hmp
      rw [mem_nodes] at hm
      rcases hm with hm | ⟨c, hc, hm⟩
      · simp only [Prod.mk.injEq] at hm
        rw [hm.2]; exact hk
      · have hcp := (((wf_iff n).mp hw).2 c hc).1
        have h1 := (prefix_of_mem_nodes hm).trans hp
        rw [← List.append_assoc] at h1
        exact absurd (head_of_prefix hcp (.inl h1)) (h c hc)
  | @kid n c b y par r hc h hr' ih =>
    have hwn := (wf_iff n).mp hw
    have hup : ∀ x, x ∈ nodes (u ++ n.path) c → x ∈ nodes u n := fun x hx =>
      (mem_nodes ..).mpr (.inr ⟨c, hc, hx⟩)
    have hdown : ∀ q m, (q, m) ∈ nodes u n → u ++ (n.path ++ b :: y) <+: q → (q, m) ∈ nodes (u ++ n.path) c := by
      intro q m hm hp
      obtain ⟨c', hc', hh, hm'⟩ := below_kid hw hm hp
      obtain rfl := heads_inj hwn.1 hc hc' (by rw [h, hh])
      exact hm'
    have e : u ++ (n.path ++ b :: y) = u ++ n.path ++ b :: y := by simp
    have := ih (hwn.2 c hc).2 hr (u ++ n.path)
    generalize r.child = rc at this
    cases this with
    | ext q m h1 h2 h3 =>
      exact .ext q m (hup _ h1) (by rw [e]; exact h2) (fun q' m' hm' hp => h3 q' m' (hdown q' m' hm' hp) (by rw [← e]; exact hp))
    | dead q m h1 h2 h3 h4 h5 =>
      exact .dead q m (hup _ h1) h2 h3 (by rw [e]; exact h4) (fun q' m' hm' hp => h5 q' m' (hdown q' m' hm' hp) (by rw [← e]; exact hp))
    | nothing h1 h2 =>
      refine .nothing (fun q' m' hm' hp => h1 q' m' (hdown q' m' hm' hp) (by rw [← e]; exact hp)) ?_
      intro q m hm hp hmp
      rw [mem_nodes] at hm
      rcases hm with hm | ⟨c', hc', hm⟩
      · simp only [Prod.mk.injEq] at hm
        rw [hm.2]; exact List.ne_nil_of_mem hc
      · have hcp := (hwn.2 c' hc').1
        have hh := head_of_prefix hcp (.inl (by rw [← List.append_assoc] at hp; exact (prefix_of_mem_nodes hm).trans hp))
        obtain rfl := heads_inj hwn.1 hc hc' (by rw [h, hh])
        exact h2 q m hm (by rw [← e]; exact hp) hmp

end Node

theorem search_missNode {v : View} {t : Tree α} (h : t.OK) (hp : t.Plain v.delim) (hm : v.mode ≠ .up) {w : Str} (hw : w ≠ [])
    (hno : resolve v.delim t.nodeAt w = none) :
    ∃ c par pm, v.search t w = .ok (c, par, pm, []) ∧ Node.MissNode [] w t.root c := by
  obtain ⟨r, h1, h2⟩ := Node.matchR_plain v.delim t.root h.wf [] w false none [] hw (by simp [endsW]) (hp.keys h)
  rcases matchR_root h hp w [] with ⟨q, m, par, h3, -⟩ | ⟨-, -, r', h3, h4, -, h6⟩
  · rw [hno] at h3; cases h3
  · rw [h1] at h3
    cases h3
    have h7 := h2.missNode h.wf h4 []
    refine ⟨r.child, r.parent, r.part, ?_, h7⟩
    rw [View.search, h1]
    simp only [h4, Bool.false_or, hm, false_and, if_false]
    cases hpm : r.part with
    | true => simp
    | false =>
      have := h6 hpm
      subst this
      simp

section
variable [Inhabited α]

/-- **C14** What `SetComment` and `SetTag` do on a path that is not stored. If some entry extends the path, the shortest such entry is annotated;
otherwise, if a stored proper prefix of the path (other than the root) has no entry below it, that one is annotated; otherwise nothing happens. -/
theorem C14_missing_partial {v : View} {t : Tree α} (h : Reach (NoRoute v.delim) t) (hm : v.mode ≠ .up) {p : Str} (ds cm : Str) (tag : Option α)
    (hh : v.has t p = .ok false) :
    ((∃ q c, t.contents q = some c ∧ v.full p <+: q) → ∃ q c, t.contents q = some c ∧ v.full p <+: q ∧
      (∀ q' c', t.contents q' = some c' → v.full p <+: q' → q <+: q') ∧
      (∃ t', v.setComment t p ds cm = .ok (t', true) ∧
        ∀ x, t'.contents x = if x = q then some { c with desc := ds, comment := cm } else t.contents x) ∧
      (∃ t', v.setTag t p tag = .ok (t', true) ∧
        ∀ x, t'.contents x = if x = q then some { c with tag := tag } else t.contents x)) ∧
    ((∀ q c, t.contents q = some c → ¬ v.full p <+: q) →
      (∀ q c, t.contents q = some c → q ≠ [] → q <+: v.full p → (∀ q' c', t.contents q' = some c' → q <+: q' → q' = q) →
        (∃ t', v.setComment t p ds cm = .ok (t', true) ∧
          ∀ x, t'.contents x = if x = q then some { c with desc := ds, comment := cm } else t.contents x) ∧
        (∃ t', v.setTag t p tag = .ok (t', true) ∧
          ∀ x, t'.contents x = if x = q then some { c with tag := tag } else t.contents x)) ∧
      ((∀ q c, t.contents q = some c → q ≠ [] → q <+: v.full p → ∃ q' c', t.contents q' = some c' ∧ q <+: q' ∧ q' ≠ q) →
        v.setComment t p ds cm = .ok (t, false) ∧ v.setTag t p tag = .ok (t, false))) := by
  have hok := h.ok
  have hno : resolve v.delim t.nodeAt (v.full p) = none := by
    rw [has_plain hok h.plain hm, resolve_contents hok, Except.ok.injEq] at hh
    cases hr : resolve v.delim t.nodeAt (v.full p) with
    | none => rfl
    | some y => rw [hr] at hh; simp at hh
  have hw : v.full p ≠ [] := by
    intro e
    rw [e] at hno
    simp [resolve, (Tree.nodeAt_some hok).mpr hok.root_mem] at hno
  obtain ⟨c, par, pm, hs, hmn⟩ := search_missNode hok h.plain hm hw hno
  have toC : ∀ {q m}, (q, m) ∈ t.root.nodes [] → t.contents q = some m.core := fun hq => (Tree.contents_node hok).mpr ⟨_, hq, rfl⟩
  have root : ∀ {m : Node α}, (([] : Str), m) ∈ t.root.nodes [] → m.path = [] := by
    intro m hmm
    have := List.inj_on_of_nodup_map (Node.keys_nodup hok.wf []) hmm hok.root_mem rfl
    rw [(Prod.mk.inj this).2, hok.nil]
  have wr : ∀ {q m}, (q, m) ∈ t.root.nodes [] → c = some m →
      (∃ t', v.setComment t p ds cm = .ok (t', true) ∧
        ∀ x, t'.contents x = if x = q then some { m.core with desc := ds, comment := cm } else t.contents x) ∧
      (∃ t', v.setTag t p tag = .ok (t', true) ∧
        ∀ x, t'.contents x = if x = q then some { m.core with tag := tag } else t.contents x) := by
    rintro q m hq rfl
    exact ⟨⟨_, by rw [View.setComment, hs], fun x => writeCore_contents hok hq _ x⟩,
      ⟨_, by rw [View.setTag, hs], fun x => writeCore_contents hok hq _ x⟩⟩
  constructor
  · rintro ⟨q0, c0, hq0, hp0⟩
    obtain ⟨m0, hm0, -⟩ := (Tree.contents_node hok).mp hq0
    cases hmn with
    | ext q m h1 h2 h3 =>
      refine ⟨q, m.core, toC h1, h2, ?_, wr h1 rfl⟩
      intro q' c' hq' hp'
      obtain ⟨m', hm', -⟩ := (Tree.contents_node hok).mp hq'
      exact h3 q' m' hm' hp'
    | dead q m _ _ _ _ hno => exact absurd hp0 (hno q0 m0 hm0)
    | nothing hno _ => exact absurd hp0 (hno q0 m0 hm0)
  · intro hnoext
    have hend : ∀ {q m}, (q, m) ∈ t.root.nodes [] → (m.kids = [] ↔ ∀ q' c', t.contents q' = some c' → q <+: q' → q' = q) := by
      intro q m hq
      constructor
      · intro hk q' c' hc' hp'
        obtain ⟨m', hm', -⟩ := (Tree.contents_node hok).mp hc'
        rcases Node.below_of_prefix hok.wf hq hm' hp' with h1 | h1
        · exact h1.1
        · rw [hk] at h1; cases h1
      · intro hall
        cases hk : m.kids with
        | nil => rfl
        | cons a as =>
          exfalso
          obtain ⟨w', e1, -, e3⟩ := Node.nodes_at hok.wf hq
          have hmem : (q ++ a.path, a) ∈ t.root.nodes [] := by
            refine ((e3 _).mp ?_).1
            rw [Node.mem_nodes]
            exact .inr ⟨a, by rw [hk]; simp, e1 ▸ (by rw [Node.nodes_eq]; simp)⟩
          have h1 := hall _ _ (toC hmem) (List.prefix_append ..)
          have hwm := (Node.wf_iff _).mp (Node.wf_of_mem hok.wf hq)
          have h2 := (hwm.2 a (by rw [hk]; simp)).1
          exact h2 (by simpa using h1)
    constructor
    · intro q cq hcq hq hpq hmax
      obtain ⟨m, hm', rfl⟩ := (Tree.contents_node hok).mp hcq
      have hkm := (hend hm').mpr hmax
      have hmp : m.path ≠ [] := by
        rcases Node.path_ne_of_mem_nodes hok.wf hm' with h1 | h1
        · exact absurd (by rw [h1.1, hok.nil]; rfl) hq
        · exact h1
      refine wr hm' ?_
      cases hmn with
      | ext q' m' h1 h2 _ => exact absurd h2 (hnoext q' _ (toC h1))
      | nothing _ h2 => exact absurd hkm (h2 q m hm' (by simpa using hpq) hmp)
      | dead q' m' h1 h2 h3 h4 h5 =>
        have hq' : q' = q := by
          rcases List.prefix_or_prefix_of_prefix (by simpa using h4) hpq with h6 | h6
          · exact ((hend h1).mp h2 q _ hcq h6).symm
          · exact hmax q' _ (toC h1) h6
        subst hq'
        have := List.inj_on_of_nodup_map (Node.keys_nodup hok.wf []) hm' h1 rfl
        rw [(Prod.mk.inj this).2]
    · intro hall
      have hnone : c = none := by
        cases hmn with
        | nothing _ _ => rfl
        | ext q' m' h1 h2 _ => exact absurd h2 (hnoext q' _ (toC h1))
        | dead q' m' h1 h2 h3 h4 h5 =>
          have hne : q' ≠ [] := by rintro rfl; exact h3 (root h1)
          obtain ⟨q2, c2, h6, h7, h8⟩ := hall q' _ (toC h1) hne (by simpa using h4)
          exact absurd ((hend h1).mp h2 q2 c2 h6 h7) h8
      subst hnone
      exact ⟨by rw [View.setComment, hs], by rw [View.setTag, hs]⟩

section examples
/-- "app.deb" is a partial match: "app.debug" is annotated; below the leaf "app.debug" that leaf is; elsewhere nothing happens. -/
example : let t : Tree Nat := sets [(View.new '.', "app.debug".toList, 1), (View.new '.', "app.dump".toList, 2)] Tree.new
    let v := View.new '.'
    let note := fun (p q : String) => match v.setComment t p.toList "d".toList "c".toList with
      | .ok (t', b) => (b, v.getComment t' q.toList)
      | .error _ => (false, .ok none)
    v.has t "app.deb".toList = .ok false ∧ v.has t "app.debug.x".toList = .ok false ∧ v.has t "zzz".toList = .ok false ∧
    note "app.deb" "app.debug" = (true, .ok (some "c".toList)) ∧ note "app.debug.x" "app.debug" = (true, .ok (some "c".toList)) ∧
    note "zzz" "app.debug" = (false, .ok (some [])) := by decide +kernel
end examples

end
end Verif

import Verif.Lemmas.Lookup
/-
`insertInternal` as an update of the list of entries.
-/
namespace Verif
namespace Node
variable {α : Type} [Inhabited α]

/-- The fields of a new leaf. -/
def leafCore (ps : List UInt8) (v : α) : Core α :=
  { Core.zero with pathS := ps, leaf := true, hasData := true, data := v }

/-- The fields of a branch made by splitting an entry `c0` of path `q` after `n` runes. -/
def cutCore (c0 : Core α) (q : Str) (n : Nat) : Core α :=
  { Core.zero with pathS := c0.pathS.take (c0.pathS.length - (q.length - n)) }

/-- Effect of inserting `w ↦ v` on the entries, up to order. -/
inductive InsSpec (w : Str) (ps : List UInt8) (v : α) (E E' : List (Str × Core α)) (old : Option α) : Prop
  | hit (c0 rest) (h : E.Perm ((w, c0) :: rest))
      (h' : E'.Perm ((w, { c0 with hasData := true, data := v }) :: rest)) (ho : old = some c0.data)
  | leaf (h : E'.Perm ((w, leafCore ps v) :: E)) (ho : old = none)
  | splitHit (q c0) (hq : (q, c0) ∈ E) (hp : w <+: q) (hne : w ≠ q)
      (h : E'.Perm ((w, { cutCore c0 q w.length with hasData := true, data := v }) :: E))
      (ho : old = some default)
  | splitLeaf (q c0 sp a x b y) (hq : (q, c0) ∈ E) (h1 : q = sp ++ a :: x) (h2 : w = sp ++ b :: y)
      (hab : a ≠ b) (h : E'.Perm ((sp, cutCore c0 q sp.length) :: (w, leafCore ps v) :: E))
      (ho : old = none)

theorem InsSpec.frame {w : Str} {ps : List UInt8} {v : α} {E E' : List (Str × Core α)} {old}
    (h : InsSpec w ps v E E' old) {G G' F : List (Str × Core α)} (hG : G.Perm (F ++ E))
    (hG' : G'.Perm (F ++ E')) : InsSpec w ps v G G' old := by
  cases h with
  | hit c0 rest h h' ho =>
    exact .hit c0 (F ++ rest) (hG.trans ((h.append_left F).trans List.perm_middle))
      (hG'.trans ((h'.append_left F).trans List.perm_middle)) ho
  | leaf h ho =>
    exact .leaf (hG'.trans ((h.append_left F).trans (List.perm_middle.trans (hG.symm.cons _)))) ho
  | splitHit q c0 hq hp hne h ho =>
    refine .splitHit q c0 (hG.mem_iff.mpr (by simp [hq])) hp hne ?_ ho
    exact hG'.trans ((h.append_left F).trans (List.perm_middle.trans (hG.symm.cons _)))
  | splitLeaf q c0 sp a x b y hq h1 h2 hab h ho =>
    refine .splitLeaf q c0 sp a x b y (hG.mem_iff.mpr (by simp [hq])) h1 h2 hab ?_ ho
    refine hG'.trans ((h.append_left F).trans ?_)
    refine List.perm_middle.trans (.cons _ ?_)
    exact List.perm_middle.trans (hG.symm.cons _)

theorem commonPrefixLen_spec (a b : Str) :
    ∃ s x y, a = s ++ x ∧ b = s ++ y ∧ commonPrefixLen a b = s.length ∧
      (x = [] ∨ y = [] ∨ ∃ p q x' y', x = p :: x' ∧ y = q :: y' ∧ p ≠ q) := by
  induction a generalizing b with
  | nil => exact ⟨[], [], b, by simp, by simp, by simp [commonPrefixLen], .inl rfl⟩
  | cons a1 as ih =>
    cases b with
    | nil => exact ⟨[], a1 :: as, [], by simp, by simp, by simp [commonPrefixLen], .inr (.inl rfl)⟩
    | cons b1 bs =>
      by_cases h : a1 = b1
      · subst h
        obtain ⟨s, x, y, rfl, rfl, h3, h4⟩ := ih bs
        exact ⟨a1 :: s, x, y, by simp, by simp, by simp [commonPrefixLen, h3], h4⟩
      · exact ⟨[], a1 :: as, b1 :: bs, by simp, by simp, by simp [commonPrefixLen, h],
          .inr (.inr ⟨a1, b1, as, bs, rfl, rfl, h⟩)⟩

/-- Everything that is known about one insertion. -/
structure InsOK (fresh : Nat) (ps : List UInt8) (v : α) (u w : Str) (n : Node α) (r : Ins α) : Prop where
  wf : r.tree.WF
  id : r.tree.id = n.id
  nil : n.path = [] → r.tree.path = []
  head : n.path ≠ [] → r.tree.path ≠ [] ∧ r.tree.path.head? = n.path.head?
  spec : InsSpec (u ++ w) ps v (entries u n) (entries u r.tree) r.old
  hit : (u ++ w, r.hit) ∈ nodes u r.tree
  hitLeaf : r.old = none → r.hit.kids = []
  ids : ∃ extra, extra.Sublist [fresh, fresh + 1] ∧
    ((nodes u r.tree).map (·.2.id)).Perm ((nodes u n).map (·.2.id) ++ extra)

structure InsKOK (fresh : Nat) (ps : List UInt8) (v : α) (u w : Str) (k : List (Node α)) (r : InsK α) : Prop where
  wfl : ∀ c ∈ r.kids, c.path ≠ [] ∧ c.WF
  heads : (r.kids.map (fun c => c.path.head?)) = k.map (fun c => c.path.head?) ∨
    (r.kids.map (fun c => c.path.head?)) = k.map (fun c => c.path.head?) ++ [w.head?] ∧
      w.head? ∉ k.map (fun c => c.path.head?)
  spec : InsSpec (u ++ w) ps v (entriesL u k) (entriesL u r.kids) r.old
  hit : (u ++ w, r.hit) ∈ nodesL u r.kids
  hitLeaf : r.old = none → r.hit.kids = []
  ids : ∃ extra, extra.Sublist [fresh, fresh + 1] ∧
    ((nodesL u r.kids).map (·.2.id)).Perm ((nodesL u k).map (·.2.id) ++ extra)

theorem nodes_newLeaf (f : Nat) (w : Str) (ps : List UInt8) (v : α) (u : Str) :
    nodes u (newLeaf f w ps v) = [(u ++ w, newLeaf f w ps v)] := by
  simp [nodes_eq, newLeaf, nodesL]

theorem core_newLeaf (f : Nat) (w : Str) (ps : List UInt8) (v : α) :
    (newLeaf f w ps v).core = leafCore ps v := rfl

theorem wf_newLeaf (f : Nat) (w : Str) (ps : List UInt8) (v : α) : (newLeaf f w ps v).WF := by
  simp [newLeaf, wf_mk]

theorem insKids_ok (ins : Node α → Ins α) (fresh : Nat) (ps : List UInt8) (v : α) (u w : Str)
    (hw : w ≠ []) (k : List (Node α)) (hk : ∀ c ∈ k, c.path ≠ [] ∧ c.WF)
    (hins : ∀ c ∈ k, c.path.head? = w.head? → InsOK fresh ps v u w c (ins c)) :
    InsKOK fresh ps v u w k (insKids ins fresh w ps v k) := by
  induction k with
  | nil =>
    refine ⟨?_, .inr ?_, ?_, ?_, fun _ => rfl, [fresh + 1], by simp, ?_⟩
    · simp [insKids, newLeaf, wf_mk, hw]
    · simp [insKids, newLeaf]
    · exact .leaf (by simp [insKids, entriesL, nodesL, nodes_newLeaf, core_newLeaf]) rfl
    · simp [insKids, nodesL, nodes_newLeaf]
    · simp [insKids, nodesL, nodes_newLeaf]; simp [newLeaf]
  | cons c cs ih =>
    rw [insKids]
    by_cases hh : c.path.head? = w.head?
    · simp only [hh, if_true]
      have h1 := hins c (by simp) hh
      have hc := hk c (by simp)
      refine ⟨?_, .inl ?_, ?_, ?_, h1.hitLeaf, ?_⟩
      · intro x hx
        rcases List.mem_cons.mp hx with rfl | hx
        · exact ⟨(h1.head hc.1).1, h1.wf⟩
        · exact hk x (by simp [hx])
      · simp [(h1.head hc.1).2]
      · refine h1.spec.frame (F := entriesL u cs) ?_ ?_
        · simp only [entriesL, entries, nodesL, List.map_append]; exact List.perm_append_comm
        · simp only [entriesL, entries, nodesL, List.map_append]; exact List.perm_append_comm
      · simp [nodesL, h1.hit]
      · obtain ⟨ex, he, hp⟩ := h1.ids
        refine ⟨ex, he, ?_⟩
        simp only [nodesL, List.map_append]
        refine (hp.append_right _).trans ?_
        simp only [List.append_assoc]
        exact List.perm_append_comm.append_left _
    · simp only [hh, if_false]
      have h1 := ih (fun x hx => hk x (by simp [hx])) (fun x hx => hins x (by simp [hx]))
      refine ⟨?_, ?_, ?_, ?_, h1.hitLeaf, ?_⟩
      · intro x hx
        rcases List.mem_cons.mp hx with rfl | hx
        · exact hk _ (by simp)
        · exact h1.wfl x hx
      · rcases h1.heads with h | ⟨h, h'⟩
        · exact .inl (by simp [h])
        · refine .inr ⟨by simp [h], ?_⟩
          simp only [List.map_cons, List.mem_cons, not_or]
          exact ⟨fun e => hh e.symm, h'⟩
      · refine h1.spec.frame (F := entries u c) ?_ ?_
        · simp [entriesL, entries, nodesL]
        · simp [entriesL, entries, nodesL]
      · simp [nodesL, h1.hit]
      · obtain ⟨ex, he, hp⟩ := h1.ids
        refine ⟨ex, he, ?_⟩
        simp only [nodesL, List.map_append, List.append_assoc]
        exact hp.append_left _

theorem nodes_split (f pos : Nat) (n : Node α) (u : Str) :
    nodes u (split f pos n) =
      (u ++ n.path.take pos, split f pos n) :: (u ++ n.path, mk f (n.path.drop pos) n.core n.kids) ::
        nodesL (u ++ n.path) n.kids := by
  obtain ⟨i, p, c, k⟩ := n
  simp [split, nodes_eq, nodesL]

theorem split_path (f pos : Nat) (n : Node α) : (split f pos n).path = n.path.take pos := by
  cases n; rfl
theorem split_id (f pos : Nat) (n : Node α) : (split f pos n).id = n.id := by
  cases n; rfl
theorem split_kids (f pos : Nat) (n : Node α) :
    (split f pos n).kids = [mk f (n.path.drop pos) n.core n.kids] := by
  cases n; rfl
theorem split_core (f pos : Nat) (n : Node α) :
    (split f pos n).core = { Core.zero with pathS := n.core.pathS.take (n.core.pathS.length - (n.path.length - pos)) } := by
  cases n; rfl

omit [Inhabited α] in
theorem wf_irrel {i j p q} {c e : Core α} {k : List (Node α)} : (mk i p c k).WF ↔ (mk j q e k).WF := by
  simp [wf_mk]

omit [Inhabited α] in
theorem entries_eq (u : Str) (n : Node α) :
    entries u n = (u ++ n.path, n.core) :: entriesL (u ++ n.path) n.kids := by
  simp [entries, entriesL, nodes_eq]

theorem insertFuel_ok (fresh : Nat) (ps : List UInt8) (v : α) (fuel : Nat) :
    ∀ (word : Str) (n : Node α) (u : Str), n.WF →
      (n.path = [] ∧ word.length + 2 ≤ fuel ∨
        word ≠ [] ∧ n.path ≠ [] ∧ n.path.head? = word.head? ∧ word.length + 1 ≤ fuel) →
      InsOK fresh ps v u word n (insertFuel fresh ps v fuel word n) := by
  induction fuel with
  | zero => intro word n u _ h; omega
  | succ fuel ih =>
    intro word n u hw hcase
    rw [insertFuel]
    have hwn := (wf_iff n).mp hw
    by_cases hearly : n.path.length = 0 ∧ word.length > 0 ∧ n.kids.length = 0
    · -- empty root
      simp only [hearly, and_self, if_true]
      obtain ⟨h1, h2, h3⟩ := hearly
      have hp : n.path = [] := List.eq_nil_of_length_eq_zero h1
      have hk : n.kids = [] := List.eq_nil_of_length_eq_zero h3
      have hwd : word ≠ [] := by intro h; simp [h] at h2
      refine ⟨?_, rfl, fun _ => hp, fun h => absurd hp h, ?_, ?_, fun _ => rfl, [fresh + 1], by simp, ?_⟩
      · rw [hk, wf_mk]; simp [wf_newLeaf]; simp [newLeaf, hwd]
      · refine .leaf ?_ rfl
        rw [entries_eq, entries_eq]
        simp [hp, hk, entriesL, nodesL, nodes_newLeaf, core_newLeaf]
        exact List.Perm.swap ..
      · simp [nodes_eq, hp, hk, nodesL, newLeaf]
      · rw [nodes_eq, nodes_eq]; simp [hk, hp, nodesL, nodes_newLeaf]; simp [newLeaf]
    · simp only [hearly, if_false]
      -- the split position
      have hcpl : ∃ s x y, word = s ++ x ∧ n.path = s ++ y ∧
          (if n.path.length > 0 ∧ word.length > 0 then commonPrefixLen word n.path else 0) = s.length ∧
          (n.path ≠ [] → s ≠ []) ∧
          (x = [] ∨ y = [] ∨ ∃ p q x' y', x = p :: x' ∧ y = q :: y' ∧ p ≠ q) := by
        rcases hcase with ⟨hp, _⟩ | ⟨hwd, hp, hh, _⟩
        · exact ⟨[], word, [], by simp, by simp [hp], by simp [hp], fun h => absurd hp h, .inr (.inl rfl)⟩
        · have h1 : n.path.length > 0 := List.length_pos_iff.mpr hp
          have h2 : word.length > 0 := List.length_pos_iff.mpr hwd
          simp only [h1, h2, and_self, if_true]
          obtain ⟨s, x, y, ha, hb, hc, hd⟩ := commonPrefixLen_spec word n.path
          refine ⟨s, x, y, ha, hb, hc, fun _ hs => ?_, hd⟩
          subst hs
          simp only [List.nil_append] at ha hb
          rw [ha, hb] at hh
          rcases hd with rfl | rfl | ⟨p, q, x', y', rfl, rfl, hpq⟩
          · exact hwd ha
          · exact hp hb
          · simp at hh; exact hpq hh.symm
      obtain ⟨s, x, y, hword, hpath, hc, hsne, hxy⟩ := hcpl
      rw [hc]
      have hlw : word.length = s.length + x.length := by rw [hword]; simp
      have hlp : n.path.length = s.length + y.length := by rw [hpath]; simp
      by_cases hx : x = []
      · -- the whole word is consumed here
        subst hx
        simp only [List.append_nil] at hword
        have hnlt : ¬ s.length < word.length := by rw [hword]; omega
        simp only [hnlt, if_false]
        by_cases hy : y = []
        · -- exact hit
          subst hy
          simp only [List.append_nil] at hpath
          have hnlt' : ¬ s.length < n.path.length := by rw [hpath]; omega
          simp only [hnlt', if_false]
          refine ⟨?_, rfl, fun h => h, fun h => ⟨h, rfl⟩, ?_, ?_, fun h => by simp at h, [], by simp, ?_⟩
          · rw [wf_mk]; exact hwn
          · refine .hit n.core (entriesL (u ++ n.path) n.kids) ?_ ?_ rfl
            · rw [entries_eq, hpath, hword]
            · rw [entries_eq]; simp [hpath, hword]
          · rw [nodes_eq]; simp [hpath, hword]
          · rw [nodes_eq, nodes_eq]; simp
        · -- the node is split and its front half receives the data
          have hlt : s.length < n.path.length := by
            have := List.length_pos_iff.mpr hy; omega
          simp only [hlt, if_true]
          have hs : s ≠ [] := hsne (by rw [hpath]; simp [hy])
          have htake : n.path.take s.length = s := by rw [hpath]; simp
          have hdrop : n.path.drop s.length = y := by rw [hpath]; simp
          refine ⟨?_, split_id .., ?_, ?_, ?_, ?_, fun h => by simp at h, [fresh], by simp, ?_⟩
          · rw [split_kids, hdrop, wf_mk]
            refine ⟨by simp, fun c hcm => ?_⟩
            simp only [List.mem_singleton] at hcm
            subst hcm
            exact ⟨hy, by rw [wf_mk]; exact hwn⟩
          · intro h; rw [h] at hlt; simp at hlt
          · intro h
            simp only [path_mk, split_path, htake]
            refine ⟨hs, ?_⟩
            rw [hpath]
            cases s with
            | nil => exact absurd rfl hs
            | cons a as => simp
          · refine .splitHit (u ++ n.path) n.core ?_ ?_ ?_ ?_ ?_
            · rw [entries_eq]; simp
            · rw [hword, hpath]; simp
            · rw [hword, hpath]; simp; exact hy
            · rw [entries_eq, entries_eq]
              simp only [path_mk, core_mk, kids_mk, split_path, split_kids, htake, hdrop, split_core,
                cutCore, entriesL, nodesL, nodes_eq, List.map_cons, List.append_assoc, hword,
                List.append_nil, ← hpath]
              have : u.length + n.path.length - (u.length + s.length) = n.path.length - s.length := by omega
              simp only [List.length_append, this]
              exact List.Perm.refl _
            · simp [split_core, Core.zero]
          · rw [nodes_eq]; simp [split_path, htake, hword]
          · rw [nodes_eq, nodes_eq u n]
            simp only [path_mk, kids_mk, split_path, split_kids, htake, hdrop, nodesL, List.map_cons,
              List.append_nil, split_id, id_mk, nodes_eq, List.append_assoc, ← hpath]
            refine List.Perm.cons _ ?_
            exact List.perm_append_comm (l₁ := [fresh])
      · -- some of the word is left for the children
        have hlt : s.length < word.length := by
          have := List.length_pos_iff.mpr hx; omega
        simp only [hlt, if_true]
        have hdropw : word.drop s.length = x := by rw [hword]; simp
        rw [hdropw]
        by_cases hy : y = []
        · -- descend
          subst hy
          simp only [List.append_nil] at hpath
          have hnlt' : ¬ s.length < n.path.length := by rw [hpath]; omega
          simp only [hnlt', if_false]
          have hk := insKids_ok (insertFuel fresh ps v fuel x) fresh ps v (u ++ n.path) x hx n.kids hwn.2
            (fun c hc hh => ih x c (u ++ n.path) (hwn.2 c hc).2 (.inr ⟨hx, (hwn.2 c hc).1, hh, by
              rcases hcase with ⟨hp, hf⟩ | ⟨_, hp, _, hf⟩
              · rw [hpath] at hp; subst hp; simp at hlw; omega
              · have := List.length_pos_iff.mpr (hsne hp); omega⟩))
          generalize insKids (insertFuel fresh ps v fuel x) fresh x ps v n.kids = r at hk
          have huw : u ++ n.path ++ x = u ++ word := by rw [hword, hpath]; simp
          refine ⟨?_, rfl, fun h => h, fun h => ⟨h, rfl⟩, ?_, ?_, hk.hitLeaf, ?_⟩
          · rw [wf_mk]
            refine ⟨?_, hk.wfl⟩
            rcases hk.heads with h | ⟨h, h'⟩
            · rw [h]; exact hwn.1
            · rw [h, List.nodup_append]
              refine ⟨hwn.1, by simp, ?_⟩
              intro a ha b hb
              simp only [List.mem_singleton] at hb
              rintro rfl
              exact h' (hb ▸ ha)
          · have := hk.spec
            rw [huw] at this
            refine this.frame (F := [(u ++ n.path, n.core)]) ?_ ?_
            · rw [entries_eq]; simp
            · rw [entries_eq]; simp
          · have := hk.hit
            rw [huw] at this
            rw [nodes_eq]
            simp [this]
          · obtain ⟨ex, he, hp⟩ := hk.ids
            refine ⟨ex, he, ?_⟩
            rw [nodes_eq, nodes_eq]
            simp only [path_mk, kids_mk, List.map_cons, id_mk, List.cons_append]
            exact hp.cons _
        · -- split, then a new leaf beside the lower half
          have hlt' : s.length < n.path.length := by
            have := List.length_pos_iff.mpr hy; omega
          simp only [hlt', if_true]
          have hs : s ≠ [] := hsne (by rw [hpath]; simp [hy])
          have htake : n.path.take s.length = s := by rw [hpath]; simp
          have hdrop : n.path.drop s.length = y := by rw [hpath]; simp
          rcases hxy with rfl | rfl | ⟨b, a, x', y', rfl, rfl, hab⟩
          · exact absurd rfl hx
          · exact absurd rfl hy
          have hne : ¬ (a = b) := fun h => hab h.symm
          have hkids : insKids (insertFuel fresh ps v fuel (b :: x')) fresh (b :: x') ps v
              (split fresh s.length n).kids =
              { kids := [mk fresh (a :: y') n.core n.kids, newLeaf (fresh + 1) (b :: x') ps v],
                hit := newLeaf (fresh + 1) (b :: x') ps v, old := none,
                cbs := [(none, newLeaf (fresh + 1) (b :: x') ps v)] } := by
            rw [split_kids, hdrop]
            simp [insKids, hne]
          rw [hkids]
          refine ⟨?_, split_id .., ?_, ?_, ?_, ?_, fun _ => rfl, [fresh, fresh + 1], by simp, ?_⟩
          · rw [wf_mk]
            refine ⟨by simp [newLeaf, hne], fun c hcm => ?_⟩
            simp only [List.mem_cons, List.not_mem_nil, or_false] at hcm
            rcases hcm with rfl | rfl
            · exact ⟨hy, by rw [wf_mk]; exact hwn⟩
            · exact ⟨by simp [newLeaf], wf_newLeaf ..⟩
          · intro h; rw [h] at hlt'; simp at hlt'
          · intro h
            simp only [path_mk, split_path, htake]
            refine ⟨hs, ?_⟩
            rw [hpath]
            cases s with
            | nil => exact absurd rfl hs
            | cons a as => simp
          · refine .splitLeaf (u ++ n.path) n.core (u ++ s) a y' b x' ?_ ?_ ?_ hne ?_ rfl
            · rw [entries_eq]; simp
            · rw [hpath]; simp
            · rw [hword]; simp
            · rw [entries_eq, entries_eq]
              simp only [path_mk, core_mk, kids_mk, split_path, htake, split_core,
                cutCore, entriesL, nodesL, nodes_eq, List.map_cons, List.append_assoc, hword,
                List.append_nil, ← hpath, List.map_append]
              have : u.length + n.path.length - (u.length + s.length) = n.path.length - s.length := by omega
              simp only [List.length_append, this]
              refine List.Perm.cons _ ?_
              exact (List.perm_append_comm (l₁ := _ :: _) (l₂ := [_]))
          · rw [nodes_eq]
            simp [split_path, htake, nodesL, nodes_newLeaf, hword]
          · rw [nodes_eq, nodes_eq u n]
            simp only [path_mk, kids_mk, split_path, htake, nodesL, List.map_cons, List.map_append,
              List.append_nil, split_id, id_mk, nodes_eq, List.append_assoc, ← hpath]
            refine List.Perm.cons _ ?_
            generalize (nodesL (u ++ n.path) n.kids).map (fun x => x.2.id) = L
            simp only [newLeaf, id_mk]
            refine (List.perm_append_comm (l₁ := fresh :: L) (l₂ := [fresh + 1])).trans ?_
            simp only [List.cons_append, List.nil_append]
            refine List.Perm.trans ?_ (List.perm_append_comm (l₁ := [fresh, fresh + 1]) (l₂ := L))
            exact List.Perm.swap ..

/-- Insertion at the root of a trie. -/
theorem insert_ok (fresh : Nat) (key : Str) (v : α) (n : Node α) (hw : n.WF) (hp : n.path = []) :
    InsOK fresh (utf8 key) v [] key n (insert fresh key v n) :=
  insertFuel_ok fresh (utf8 key) v _ key n [] hw (.inl ⟨hp, by omega⟩)

end Node
end Verif

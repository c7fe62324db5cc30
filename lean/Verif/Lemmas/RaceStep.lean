import Verif.Lemmas.RaceSolo
/-
Insertion with a program counter: where a goroutine can stand, and what its next step depends on.
-/
namespace Verif
namespace Race
variable {α : Type} [Inhabited α]

open Node (commonPrefixLen)

/-- Where a goroutine can stand once it has come to the node `i` at which it stops. -/
inductive Tail (J : Job α) (M : Mem α) (i : Nat) (w : Str) : Mem α → Pc → Prop
  | halve (hc : commonPrefixLen w (M i).path < (M i).path.length) :
      Tail J M i w M (.halve w i (commonPrefixLen w (M i).path))
  | cut (k : Nat) (hk : k ≤ 7) (hc : commonPrefixLen w (M i).path < (M i).path.length) :
      Tail J M i w
        ((M.set J.fresh (lower (commonPrefixLen w (M i).path) (M i))).set i
          (cutTo J.fresh (commonPrefixLen w (M i).path) ((M i).path.length - commonPrefixLen w (M i).path) k (M i)))
        (.cut w i (commonPrefixLen w (M i).path) ((M i).path.length - commonPrefixLen w (M i).path) k)
  | look (hw : commonPrefixLen w (M i).path < w.length) :
      Tail J M i w (base J M i w) (.look (w.drop (commonPrefixLen w (M i).path)) i)
  | scan (hw : commonPrefixLen w (M i).path < w.length) (js : List Nat) (hj : js <:+ (base J M i w i).kids) :
      Tail J M i w (base J M i w) (.scan (w.drop (commonPrefixLen w (M i).path)) i js)
  | leaf (hw : commonPrefixLen w (M i).path < w.length) :
      Tail J M i w (base J M i w) (.leaf (w.drop (commonPrefixLen w (M i).path)) i)
  | link (hw : commonPrefixLen w (M i).path < w.length) :
      Tail J M i w ((base J M i w).set (J.fresh + 1) (leafCell (w.drop (commonPrefixLen w (M i).path)) J))
        (.link i (base J M i w i).kids)
  | mark (hw : ¬ commonPrefixLen w (M i).path < w.length) : Tail J M i w (base J M i w) (.mark i)
  | store (hw : ¬ commonPrefixLen w (M i).path < w.length) :
      Tail J M i w ((base J M i w).set i
        { base J M i w i with core := { (base J M i w i).core with hasData := true } }) (.store i)
  | done : Tail J M i w (final J M i w) .done

/-- Nothing below the node takes the rest of the word. -/
def Quiet (J : Job α) (M : Mem α) (i : Nat) (w : Str) : Prop :=
  commonPrefixLen w (M i).path < w.length →
    ∀ j ∈ (base J M i w i).kids, (base J M i w j).path.head? ≠ (w.drop (commonPrefixLen w (M i).path)).head?

omit [Inhabited α] in
theorem set_set (M : Mem α) (i : Nat) (c c' : Cell α) : (M.set i c).set i c' = M.set i c' := by
  funext x
  by_cases h : x = i
  · subst h; rw [set_eq, set_eq]
  · rw [set_ne _ _ h, set_ne _ _ h, set_ne _ _ h]

omit [Inhabited α] in
theorem set_same (M : Mem α) (i : Nat) : M.set i (M i) = M := by
  funext x
  by_cases h : x = i
  · subst h; rw [set_eq]
  · rw [set_ne _ _ h]

theorem Tail.halved {J : Job α} {M : Mem α} {i : Nat} {w : Str} (hf : i ≠ J.fresh)
    (hc : commonPrefixLen w (M i).path < (M i).path.length) :
    Tail J M i w (Race.step J M (.halve w i (commonPrefixLen w (M i).path))).1
      (Race.step J M (.halve w i (commonPrefixLen w (M i).path))).2 := by
  rw [Race.step]
  rw [if_pos (by omega)]
  have := Tail.cut (J := J) (M := M) (i := i) (w := w) 0 (by omega) hc
  rw [cutTo] at this
  have he : ((M.set J.fresh (lower (commonPrefixLen w (M i).path) (M i))).set i (M i)) =
      M.set J.fresh (lower (commonPrefixLen w (M i).path) (M i)) := by
    have := set_same (M.set J.fresh (lower (commonPrefixLen w (M i).path) (M i))) i
    rw [set_ne _ _ hf] at this
    exact this
  rw [he] at this
  exact this

theorem Tail.step {J : Job α} {M : Mem α} {i : Nat} {w : Str} (hq : Quiet J M i w) (hf : i ≠ J.fresh)
    (hi : i ≠ J.fresh + 1) {M' : Mem α} {pc : Pc} (h : Tail J M i w M' pc) :
    Tail J M i w (step J M' pc).1 (step J M' pc).2 := by
  cases h with
  | halve hc => exact Tail.halved hf hc
  | cut k hk hc =>
    rw [Race.step]
    simp only [set_eq, set_set]
    by_cases h7 : k < 7
    · rw [if_pos h7]
      exact .cut (k + 1) (by omega) hc
    · obtain rfl : k = 7 := by omega
      have hb : (M.set J.fresh (lower (commonPrefixLen w (M i).path) (M i))).set i
          (assign J.fresh (commonPrefixLen w (M i).path) ((M i).path.length - commonPrefixLen w (M i).path) 7
            (cutTo J.fresh (commonPrefixLen w (M i).path) ((M i).path.length - commonPrefixLen w (M i).path) 7 (M i)))
          = base J M i w := by
        rw [base]
        simp only [hc, if_true]
        rfl
      rw [if_neg h7, hb]
      by_cases hw : commonPrefixLen w (M i).path < w.length
      · rw [if_pos hw]; exact .look hw
      · rw [if_neg hw]; exact .mark hw
  | look hw => exact .scan hw _ (List.suffix_refl _)
  | scan hw js hj =>
    cases js with
    | nil => exact .leaf hw
    | cons j js =>
      rw [Race.step, if_neg (hq hw j (hj.subset (by simp)))]
      exact .scan hw js ((List.suffix_cons j js).trans hj)
  | leaf hw => exact .link hw
  | link hw =>
    rw [Race.step, set_ne _ _ hi]
    have := Tail.done (J := J) (M := M) (i := i) (w := w)
    rw [final] at this
    simp only [hw, if_true] at this
    exact this
  | mark hw => exact .store hw
  | store hw =>
    rw [Race.step, set_eq, set_set]
    have := Tail.done (J := J) (M := M) (i := i) (w := w)
    rw [final] at this
    simp only [hw, if_false] at this
    exact this
  | done => exact .done

/-! ### What the next step depends on -/

/-- The pointers a goroutine writes to. -/
def Own (J : Job α) (i x : Nat) : Prop := x = i ∨ x = J.fresh ∨ x = J.fresh + 1

instance (J : Job α) (i x : Nat) : Decidable (Own J i x) := by unfold Own; infer_instance

/-- The step in `M` is the step in `M'`, restricted to the own pointers. -/
def Sim (J : Job α) (i : Nat) (M M' : Mem α) (pc : Pc) : Prop :=
  (step J M pc).2 = (step J M' pc).2 ∧
    ∀ x, (step J M pc).1 x = if Own J i x then (step J M' pc).1 x else M x

omit [Inhabited α] in
theorem sim_id {J : Job α} {i : Nat} {M M' : Mem α} (hM : ∀ x, Own J i x → M x = M' x) (x : Nat) :
    M x = if Own J i x then M' x else M x := by
  split
  · exact hM x ‹_›
  · rfl

omit [Inhabited α] in
theorem sim_set {J : Job α} {i : Nat} {M M' : Mem α} (hM : ∀ x, Own J i x → M x = M' x) {y : Nat} (hy : Own J i y)
    (c : Cell α) (x : Nat) : M.set y c x = if Own J i x then M'.set y c x else M x := by
  by_cases hx : x = y
  · subst hx; rw [set_eq, set_eq, if_pos hy]
  · rw [set_ne _ _ hx, set_ne _ _ hx]; exact sim_id hM x

theorem Tail.sim {J : Job α} {M0 : Mem α} {i : Nat} {w : Str} {M M' : Mem α} {pc : Pc} (h : Tail J M0 i w M' pc)
    (hM : ∀ x, Own J i x → M x = M' x)
    (hh : ∀ j ∈ (base J M0 i w i).kids, (M j).path.head? = (M' j).path.head?) : Sim J i M M' pc := by
  have hi : M i = M' i := hM i (.inl rfl)
  cases h with
  | halve hc =>
    rw [Sim, Race.step, Race.step, hi]
    split
    · exact ⟨rfl, fun x => sim_set hM (.inr (.inl rfl)) _ x⟩
    · exact ⟨rfl, fun x => sim_id hM x⟩
  | cut k hk hc =>
    refine ⟨rfl, fun x => ?_⟩
    rw [Race.step, Race.step, hi]
    exact sim_set hM (.inl rfl) _ x
  | look hw => exact ⟨by rw [Race.step, Race.step, hi], fun x => sim_id hM x⟩
  | scan hw js hj =>
    cases js with
    | nil => exact ⟨rfl, fun x => sim_id hM x⟩
    | cons j js =>
      rw [Sim, Race.step, Race.step, hh j (hj.subset (by simp))]
      split
      · exact ⟨rfl, fun x => sim_id hM x⟩
      · exact ⟨rfl, fun x => sim_id hM x⟩
  | leaf hw =>
    rw [Sim, Race.step, Race.step, hi]
    exact ⟨rfl, fun x => sim_set hM (.inr (.inr rfl)) _ x⟩
  | link hw =>
    rw [Sim, Race.step, Race.step, hi]
    exact ⟨rfl, fun x => sim_set hM (.inl rfl) _ x⟩
  | mark hw =>
    rw [Sim, Race.step, Race.step, hi]
    exact ⟨rfl, fun x => sim_set hM (.inl rfl) _ x⟩
  | store hw =>
    rw [Sim, Race.step, Race.step, hi]
    exact ⟨rfl, fun x => sim_set hM (.inl rfl) _ x⟩
  | done => exact ⟨rfl, fun x => sim_id hM x⟩

/-- What the steps at the last node leave alone. -/
theorem Tail.out {J : Job α} {M0 : Mem α} {i : Nat} {w : Str} {M : Mem α} {pc : Pc} (h : Tail J M0 i w M pc) {x : Nat}
    (hx : ¬ Own J i x) : M x = M0 x := by
  simp only [Own, not_or] at hx
  cases h with
  | halve hc => rfl
  | cut k hk hc => rw [set_ne _ _ hx.1, set_ne _ _ hx.2.1]
  | look hw => exact base_out _ _ _ _ hx.1 hx.2.1
  | scan hw js hj => exact base_out _ _ _ _ hx.1 hx.2.1
  | leaf hw => exact base_out _ _ _ _ hx.1 hx.2.1
  | link hw => rw [set_ne _ _ hx.2.2]; exact base_out _ _ _ _ hx.1 hx.2.1
  | mark hw => exact base_out _ _ _ _ hx.1 hx.2.1
  | store hw => rw [set_ne _ _ hx.1]; exact base_out _ _ _ _ hx.1 hx.2.1
  | done => exact final_out _ _ _ _ hx.1 hx.2.1 hx.2.2

theorem cutTo_head {f pos d : Nat} {s : Cell α} (hp : 0 < pos) (k : Nat) : (cutTo f pos d k s).path.head? = s.path.head? := by
  induction k with
  | zero => rfl
  | succ k ih =>
    rw [cutTo]
    match k, ih with
    | 0, ih =>
      simp only [assign, cutTo, List.head?_take]
      rw [if_neg (by omega)]
    | 1, ih => exact ih
    | 2, ih => exact ih
    | 3, ih => exact ih
    | 4, ih => exact ih
    | 5, ih => exact ih
    | 6, ih => exact ih
    | _ + 7, ih => exact ih

theorem base_head {J : Job α} {M : Mem α} {i : Nat} {w : Str}
    (hp : commonPrefixLen w (M i).path < (M i).path.length → 0 < commonPrefixLen w (M i).path) :
    (base J M i w i).path.head? = (M i).path.head? := by
  rw [base]
  by_cases hc : commonPrefixLen w (M i).path < (M i).path.length
  · simp only [hc, if_true, set_eq]; exact cutTo_head (hp hc) 8
  · simp only [hc, if_false]

/-- The first rune of the node stays. -/
theorem Tail.head {J : Job α} {M0 : Mem α} {i : Nat} {w : Str} {M : Mem α} {pc : Pc} (h : Tail J M0 i w M pc)
    (hi : i ≠ J.fresh + 1)
    (hp : commonPrefixLen w (M0 i).path < (M0 i).path.length → 0 < commonPrefixLen w (M0 i).path) :
    (M i).path.head? = (M0 i).path.head? := by
  cases h with
  | halve hc => rfl
  | cut k hk hc => rw [set_eq]; exact cutTo_head (hp hc) k
  | look hw => exact base_head hp
  | scan hw js hj => exact base_head hp
  | leaf hw => exact base_head hp
  | link hw => rw [set_ne _ _ hi]; exact base_head hp
  | mark hw => exact base_head hp
  | store hw => rw [set_eq]; exact base_head hp
  | done =>
    rw [final]
    split
    · rw [set_eq]; exact base_head hp
    · rw [set_eq]; exact base_head hp

/-- Nothing but the value of the node is written when the word ends with its path. -/
theorem Tail.soft {J : Job α} {M0 : Mem α} {i : Nat} {w : Str} {M : Mem α} {pc : Pc} (h : Tail J M0 i w M pc)
    (hw : w = (M0 i).path) : (M i).path = (M0 i).path ∧ (M i).kids = (M0 i).kids := by
  have hc : commonPrefixLen w (M0 i).path = w.length := by rw [← hw]; exact cpl_prefix (List.prefix_refl _)
  have hb : base J M0 i w = M0 := by
    rw [base, if_neg]
    rw [hc, hw]; omega
  cases h with
  | halve h => exact ⟨rfl, rfl⟩
  | cut k hk h => rw [hc, ← hw] at h; omega
  | look h => omega
  | scan h js hj => omega
  | leaf h => omega
  | link h => omega
  | mark h => rw [hb]; exact ⟨rfl, rfl⟩
  | store h => rw [hb, set_eq]; exact ⟨rfl, rfl⟩
  | done =>
    rw [final]
    simp only [hc, Nat.lt_irrefl, if_false, hb, set_eq]
    exact ⟨trivial, trivial⟩

/-! ### The whole way -/

/-- Where a goroutine that runs alone can stand; it stops at `m`. -/
inductive At (J : Job α) (M0 : Mem α) (n : Node α) (w : Str) (m : Node α) (w' : Str) : Mem α → Pc → Prop
  | enter {m1 w1} (h : Goes n w m1 w1) : At J M0 n w m w' M0 (.enter w1 m1.id)
  | look {m1 w1 c} (h : Goes n w m1 w1) (hp : Pass w1 m1 c) :
      At J M0 n w m w' M0 (.look (w1.drop m1.path.length) m1.id)
  | scan {m1 w1 c} (h : Goes n w m1 w1) (hp : Pass w1 m1 c) (k pre post) (hk : m1.kids = k ++ (pre ++ c :: post))
      (hpre : ∀ d ∈ pre, d.path.head? ≠ (w1.drop m1.path.length).head?) :
      At J M0 n w m w' M0 (.scan (w1.drop m1.path.length) m1.id ((pre ++ c :: post).map Node.id))
  | tail {M pc} (h : Tail J M0 m.id w' M pc) : At J M0 n w m w' M pc

/-- The setting of a goroutine: the tree it finds, where it will stop, and two pointers of its own. -/
structure Setup (J : Job α) (M0 : Mem α) (n : Node α) (w : Str) (m : Node α) (w' : Str) : Prop where
  holds : Holds M0 n
  wf : n.WF
  goes : Goes n w m w'
  stop : Stop w' m
  f1 : J.fresh ∉ n.ids
  f2 : J.fresh + 1 ∉ n.ids

omit [Inhabited α] in
theorem Setup.cell {J : Job α} {M0 : Mem α} {n : Node α} {w : Str} {m : Node α} {w' : Str} (S : Setup J M0 n w m w') :
    M0 m.id = ⟨m.path, m.core, m.kids.map Node.id⟩ := (S.goes.holds S.holds).cell

omit [Inhabited α] in
theorem Setup.ne1 {J : Job α} {M0 : Mem α} {n : Node α} {w : Str} {m : Node α} {w' : Str} (S : Setup J M0 n w m w')
    {x : Nat} (hx : x ∈ n.ids) : x ≠ J.fresh := fun e => S.f1 (e ▸ hx)

omit [Inhabited α] in
theorem Setup.ne2 {J : Job α} {M0 : Mem α} {n : Node α} {w : Str} {m : Node α} {w' : Str} (S : Setup J M0 n w m w')
    {x : Nat} (hx : x ∈ n.ids) : x ≠ J.fresh + 1 := fun e => S.f2 (e ▸ hx)

omit [Inhabited α] in
theorem Setup.mid {J : Job α} {M0 : Mem α} {n : Node α} {w : Str} {m : Node α} {w' : Str} (S : Setup J M0 n w m w') :
    m.id ∈ n.ids := S.goes.ids (id_ids m)

theorem Setup.quiet {J : Job α} {M0 : Mem α} {n : Node α} {w : Str} {m : Node α} {w' : Str} (S : Setup J M0 n w m w') :
    Quiet J M0 m.id w' := by
  intro hw j hj
  have hc := S.cell
  have hpath : (M0 m.id).path = m.path := by rw [hc]
  rw [hpath] at hw ⊢
  by_cases hlt : commonPrefixLen w' m.path < m.path.length
  · have hb : base J M0 m.id w' = (M0.set J.fresh (lower (commonPrefixLen w' m.path) (M0 m.id))).set m.id
        (cutTo J.fresh (commonPrefixLen w' m.path) (m.path.length - commonPrefixLen w' m.path) 8 (M0 m.id)) := by
      rw [base]; simp only [hpath, hlt, if_true]
    rw [hb, set_eq] at hj
    have hj' : j = J.fresh := by
      change j ∈ [J.fresh] at hj
      simpa using hj
    rw [hb, hj', set_ne _ _ (Ne.symm (S.ne1 S.mid)), set_eq, lower, hpath]
    exact cpl_part hw hlt
  · have hb : base J M0 m.id w' = M0 := by rw [base]; simp only [hpath, hlt, if_false]
    rw [hb, hc] at hj
    obtain ⟨d, hd, rfl⟩ := List.mem_map.mp hj
    rw [hb, ((S.goes.holds S.holds).kid hd).cell]
    have hp := prefix_cpl hlt
    rw [cpl_prefix hp] at hw ⊢
    exact S.stop.kids hp hw d hd

/-- Coming to the node where it stops. -/
theorem Setup.enter {J : Job α} {M0 : Mem α} {n : Node α} {w : Str} {m : Node α} {w' : Str} (S : Setup J M0 n w m w') :
    Tail J M0 m.id w' (Race.step J M0 (.enter w' m.id)).1 (Race.step J M0 (.enter w' m.id)).2 := by
  rw [Race.step]
  simp only [cplOf_eq]
  by_cases hl : (M0 m.id).path.length = 0 ∧ w'.length > 0 ∧ (M0 m.id).kids.length = 0
  · rw [if_pos hl]
    have hp : (M0 m.id).path = [] := List.eq_nil_of_length_eq_zero hl.1
    have hc0 : commonPrefixLen w' (M0 m.id).path = 0 := by rw [hp]; cases w' <;> rfl
    have hb : base J M0 m.id w' = M0 := by
      rw [base]; simp only [hc0]; rw [if_neg (by omega)]
    have := Tail.leaf (J := J) (M := M0) (i := m.id) (w := w') (by rw [hc0]; exact hl.2.1)
    rw [hb, hc0, List.drop_zero] at this
    exact this
  · rw [if_neg hl]
    by_cases hlt : commonPrefixLen w' (M0 m.id).path < (M0 m.id).path.length
    · rw [if_pos hlt]
      exact .halve hlt
    · rw [if_neg hlt]
      have hb : base J M0 m.id w' = M0 := by
        rw [base]; simp only [hlt, if_false]
      by_cases hw : commonPrefixLen w' (M0 m.id).path < w'.length
      · rw [if_pos hw]
        have := Tail.look (J := J) (M := M0) (i := m.id) (w := w') hw
        rw [hb] at this; exact this
      · rw [if_neg hw]
        have := Tail.mark (J := J) (M := M0) (i := m.id) (w := w') hw
        rw [hb] at this; exact this

theorem At.step {J : Job α} {M0 : Mem α} {n : Node α} {w : Str} {m : Node α} {w' : Str} (S : Setup J M0 n w m w')
    {M : Mem α} {pc : Pc} (h : At J M0 n w m w' M pc) :
    At J M0 n w m w' (step J M pc).1 (step J M pc).2 := by
  cases h with
  | @enter m1 w1 h =>
    have hc := (h.holds S.holds).cell
    rcases pass_or_stop w1 m1 with ⟨c, hp⟩ | hs
    · have hcm := hp.mem
      rw [Race.step, hc]
      simp only [cplOf_eq, cpl_prefix hp.1, Nat.lt_irrefl, if_false, hp.2.1, if_true]
      rw [if_neg]
      · exact .look h hp
      · rintro ⟨_, _, h3⟩
        rw [List.length_map] at h3
        rw [List.eq_nil_of_length_eq_zero h3] at hcm
        cases hcm
    · obtain ⟨rfl, rfl⟩ := h.unique hs S.goes S.stop
      exact .tail S.enter
  | @look m1 w1 c h hp =>
    rw [Race.step, (h.holds S.holds).cell]
    obtain ⟨h1, h2, pre, post, h3, h4, h5⟩ := id hp
    have := At.scan (J := J) (M0 := M0) (m := m) (w' := w') h hp [] pre post (by simpa using h3) h4
    simp only
    rw [h3]
    exact this
  | @scan m1 w1 c h hp k pre post hk hpre =>
    cases pre with
    | nil =>
      have hcm := hp.mem
      simp only [List.nil_append, List.map_cons]
      rw [Race.step, ((h.holds S.holds).kid hcm).cell, if_pos]
      · exact .enter (h.snoc hp)
      · obtain ⟨h1, h2, pre, post, h3, h4, h5⟩ := hp
        exact h5
    | cons a as =>
      simp only [List.cons_append, List.map_cons]
      have ham : a ∈ m1.kids := by rw [hk]; simp
      rw [Race.step, ((h.holds S.holds).kid ham).cell, if_neg (hpre a (by simp))]
      exact .scan h hp (k ++ [a]) as post (by rw [hk]; simp) (fun d hd => hpre d (by simp [hd]))
  | tail h => exact .tail (h.step S.quiet (S.ne1 S.mid) (S.ne2 S.mid))

/-- The next step of a goroutine in a memory that differs from what it would have found alone. -/
theorem At.sim {J : Job α} {M0 : Mem α} {n : Node α} {w : Str} {m : Node α} {w' : Str} (S : Setup J M0 n w m w')
    {M M' : Mem α} {pc : Pc} (h : At J M0 n w m w' M' pc)
    (hown : ∀ x, Own J m.id x → M x = M' x)
    (htrail : ∀ m1 w1, Goes n w m1 w1 → m1.id ≠ m.id → (M m1.id).path = (M0 m1.id).path ∧ (M m1.id).kids = (M0 m1.id).kids)
    (hpass : ∀ m1 w1 c, Goes n w m1 w1 → Pass w1 m1 c → m1.id ≠ m.id)
    (hhead : ∀ x ∈ n.ids, (M x).path.head? = (M' x).path.head?) : Sim J m.id M M' pc := by
  cases h with
  | @enter m1 w1 h =>
    rcases pass_or_stop w1 m1 with ⟨c, hp⟩ | hs
    · have hne := hpass m1 w1 c h hp
      obtain ⟨e1, e2⟩ := htrail m1 w1 h hne
      have hcm := hp.mem
      have hc := (h.holds S.holds).cell
      have hk : ¬ ((m1.path.length = 0) ∧ w1.length > 0 ∧ (m1.kids.map Node.id).length = 0) := by
        rintro ⟨_, _, h3⟩
        rw [List.length_map] at h3
        rw [List.eq_nil_of_length_eq_zero h3] at hcm
        cases hcm
      have hstep : ∀ N : Mem α, (N m1.id).path = m1.path → (N m1.id).kids = m1.kids.map Node.id →
          Race.step J N (.enter w1 m1.id) = (N, .look (w1.drop m1.path.length) m1.id) := by
        intro N h1 h2
        rw [Race.step]
        simp only [h1, h2, cplOf_eq, cpl_prefix hp.1, Nat.lt_irrefl, if_false, hp.2.1, if_true]
        rw [if_neg hk]
      rw [Sim, hstep M (by rw [e1, hc]) (by rw [e2, hc]), hstep M0 (by rw [hc]) (by rw [hc])]
      exact ⟨rfl, fun x => sim_id hown x⟩
    · obtain ⟨rfl, rfl⟩ := h.unique hs S.goes S.stop
      rw [Sim, Race.step, Race.step, hown m1.id (.inl rfl)]
      simp only
      split
      · exact ⟨rfl, fun x => sim_id hown x⟩
      · split
        · exact ⟨rfl, fun x => sim_id hown x⟩
        · split
          · exact ⟨rfl, fun x => sim_id hown x⟩
          · exact ⟨rfl, fun x => sim_id hown x⟩
  | @look m1 w1 c h hp =>
    obtain ⟨e1, e2⟩ := htrail m1 w1 h (hpass m1 w1 c h hp)
    rw [Sim, Race.step, Race.step, e2]
    exact ⟨rfl, fun x => sim_id hown x⟩
  | @scan m1 w1 c h hp k pre post hk hpre =>
    have hone : ∀ (j : Nat) (js : List Nat), j ∈ n.ids → Sim J m.id M M0 (.scan (w1.drop m1.path.length) m1.id (j :: js)) := by
      intro j js hj
      rw [Sim, Race.step, Race.step, hhead j hj]
      split
      · exact ⟨rfl, fun x => sim_id hown x⟩
      · exact ⟨rfl, fun x => sim_id hown x⟩
    cases pre with
    | nil =>
      simp only [List.nil_append, List.map_cons]
      exact hone _ _ (h.ids (kid_ids hp.mem (id_ids c)))
    | cons a as =>
      simp only [List.cons_append, List.map_cons]
      exact hone _ _ (h.ids (kid_ids (by rw [hk]; simp) (id_ids a)))
  | tail h =>
    refine h.sim hown fun j hj => ?_
    have hc := S.cell
    by_cases hlt : commonPrefixLen w' (M0 m.id).path < (M0 m.id).path.length
    · have : base J M0 m.id w' m.id = cutTo J.fresh (commonPrefixLen w' (M0 m.id).path)
          ((M0 m.id).path.length - commonPrefixLen w' (M0 m.id).path) 8 (M0 m.id) := by
        rw [base]; simp only [hlt, if_true, set_eq]
      rw [this] at hj
      change j ∈ [J.fresh] at hj
      rw [hown j (.inr (.inl (by simpa using hj)))]
    · have : base J M0 m.id w' = M0 := by rw [base]; simp only [hlt, if_false]
      rw [this, hc] at hj
      obtain ⟨d, hd, rfl⟩ := List.mem_map.mp hj
      exact hhead _ (S.goes.ids (kid_ids hd (id_ids d)))

/-! ### Ending -/

omit [Inhabited α] in
theorem Goes.nodup {n : Node α} {w : Str} {m : Node α} {w' : Str} (h : Goes n w m w') (hn : n.ids.Nodup) : m.ids.Nodup := by
  induction h with
  | here n w => exact hn
  | down hq _ ih =>
    rw [Node.ids_cons, List.nodup_cons] at hn
    exact ih (Node.ids_nodup_kid hn.2 hq.mem)

omit [Inhabited α] in
/-- The way through a node leads through the child. -/
theorem Goes.via {n : Node α} {w : Str} {m m1 c : Node α} {w' w1 : Str} (h : Goes n w m w') (hs : Stop w' m)
    (h1 : Goes n w m1 w1) (hp : Pass w1 m1 c) : Goes c (w1.drop m1.path.length) m w' := by
  induction h1 with
  | here n w =>
    cases h with
    | here => exact absurd hp (hs _)
    | down hq h =>
      obtain rfl := hq.unique hp
      exact h
  | down hq _ ih =>
    cases h with
    | here => exact absurd hq (hs _)
    | down hq' h =>
      obtain rfl := hq.unique hq'
      exact ih h hp

omit [Inhabited α] in
theorem Goes.pass_ne {n : Node α} {w : Str} {m m1 c : Node α} {w' w1 : Str} (hn : n.ids.Nodup) (h : Goes n w m w')
    (hs : Stop w' m) (h1 : Goes n w m1 w1) (hp : Pass w1 m1 c) : m1.id ≠ m.id := by
  have h2 := (h.via hs h1 hp).ids (id_ids m)
  have h3 := h1.nodup hn
  rw [Node.ids_cons, List.nodup_cons] at h3
  intro e
  exact h3.1 (List.mem_flatMap.mpr ⟨c, hp.mem, e ▸ h2⟩)

/-- The goroutine by itself, `N` steps. -/
def alone (J : Job α) : Nat → Mem α × Pc → Mem α × Pc
  | 0, s => s
  | N + 1, s => alone J N (step J s.1 s.2)

theorem alone_succ (J : Job α) (N : Nat) (s : Mem α × Pc) :
    alone J (N + 1) s = step J (alone J N s).1 (alone J N s).2 := by
  induction N generalizing s with
  | zero => rfl
  | succ N ih => rw [alone, ih (step J s.1 s.2)]; rfl

theorem alone_done (J : Job α) (N : Nat) (M : Mem α) : alone J N (M, .done) = (M, .done) := by
  induction N with
  | zero => rfl
  | succ N ih => rw [alone]; exact ih

theorem alone_add (J : Job α) (A B : Nat) (s : Mem α × Pc) : alone J (A + B) s = alone J B (alone J A s) := by
  induction A generalizing s with
  | zero => rw [Nat.zero_add]; rfl
  | succ A ih => rw [Nat.succ_add, alone, ih, alone]

theorem alone_at {J : Job α} {M0 : Mem α} {n : Node α} {w : Str} {m : Node α} {w' : Str} (S : Setup J M0 n w m w')
    (N : Nat) {M : Mem α} {pc : Pc} (h : At J M0 n w m w' M pc) :
    At J M0 n w m w' (alone J N (M, pc)).1 (alone J N (M, pc)).2 := by
  induction N with
  | zero => exact h
  | succ N ih => rw [alone_succ]; exact ih.step S

def Ends (J : Job α) (M : Mem α) (pc : Pc) : Prop := ∃ N, (alone J N (M, pc)).2 = .done

theorem Ends.of_step {J : Job α} {M : Mem α} {pc : Pc} (h : Ends J (step J M pc).1 (step J M pc).2) : Ends J M pc := by
  obtain ⟨N, h⟩ := h
  exact ⟨N + 1, h⟩

theorem ends_done (J : Job α) (M : Mem α) : Ends J M .done := ⟨0, rfl⟩
theorem ends_store (J : Job α) (M : Mem α) (i : Nat) : Ends J M (.store i) := .of_step (ends_done J _)
theorem ends_mark (J : Job α) (M : Mem α) (i : Nat) : Ends J M (.mark i) := .of_step (ends_store J _ i)
theorem ends_link (J : Job α) (M : Mem α) (i : Nat) (ks : List Nat) : Ends J M (.link i ks) := .of_step (ends_done J _)
theorem ends_leaf (J : Job α) (M : Mem α) (w : Str) (i : Nat) : Ends J M (.leaf w i) := .of_step (ends_link J _ i _)

/-- At the node where it stops, the goroutine ends. -/
theorem Tail.ends {J : Job α} {M : Mem α} {i : Nat} {w : Str} (hq : Quiet J M i w) (hf : i ≠ J.fresh) {M' : Mem α} {pc : Pc}
    (h : Tail J M i w M' pc) : Ends J M' pc := by
  have hscan : ∀ js, commonPrefixLen w (M i).path < w.length → js <:+ (base J M i w i).kids →
      Ends J (base J M i w) (.scan (w.drop (commonPrefixLen w (M i).path)) i js) := by
    intro js hw hj
    induction js with
    | nil => exact .of_step (ends_leaf J _ _ i)
    | cons j js ih =>
      refine .of_step ?_
      rw [Race.step, if_neg (hq hw j (hj.subset (by simp)))]
      exact ih ((List.suffix_cons j js).trans hj)
  have hlook : commonPrefixLen w (M i).path < w.length →
      Ends J (base J M i w) (.look (w.drop (commonPrefixLen w (M i).path)) i) :=
    fun hw => .of_step (hscan _ hw (List.suffix_refl _))
  have hcut : ∀ k, k ≤ 7 → commonPrefixLen w (M i).path < (M i).path.length →
      Ends J ((M.set J.fresh (lower (commonPrefixLen w (M i).path) (M i))).set i
        (cutTo J.fresh (commonPrefixLen w (M i).path) ((M i).path.length - commonPrefixLen w (M i).path) k (M i)))
        (.cut w i (commonPrefixLen w (M i).path) ((M i).path.length - commonPrefixLen w (M i).path) k) := by
    intro k hk hc
    have hb : (M.set J.fresh (lower (commonPrefixLen w (M i).path) (M i))).set i
        (cutTo J.fresh (commonPrefixLen w (M i).path) ((M i).path.length - commonPrefixLen w (M i).path) 8 (M i))
        = base J M i w := by
      rw [base]
      simp only [hc, if_true]
    have hlast : Ends J ((M.set J.fresh (lower (commonPrefixLen w (M i).path) (M i))).set i
        (cutTo J.fresh (commonPrefixLen w (M i).path) ((M i).path.length - commonPrefixLen w (M i).path) 7 (M i)))
        (.cut w i (commonPrefixLen w (M i).path) ((M i).path.length - commonPrefixLen w (M i).path) 7) := by
      refine .of_step ?_
      rw [Race.step]
      simp only [set_eq, set_set, Nat.lt_irrefl, if_false]
      rw [show assign J.fresh (commonPrefixLen w (M i).path) ((M i).path.length - commonPrefixLen w (M i).path) 7
        (cutTo J.fresh (commonPrefixLen w (M i).path) ((M i).path.length - commonPrefixLen w (M i).path) 7 (M i)) =
        cutTo J.fresh (commonPrefixLen w (M i).path) ((M i).path.length - commonPrefixLen w (M i).path) 8 (M i) from rfl, hb]
      by_cases hw : commonPrefixLen w (M i).path < w.length
      · rw [if_pos hw]; exact hlook hw
      · rw [if_neg hw]; exact ends_mark J _ i
    have hback : ∀ e k, k + e = 7 → Ends J ((M.set J.fresh (lower (commonPrefixLen w (M i).path) (M i))).set i
        (cutTo J.fresh (commonPrefixLen w (M i).path) ((M i).path.length - commonPrefixLen w (M i).path) k (M i)))
        (.cut w i (commonPrefixLen w (M i).path) ((M i).path.length - commonPrefixLen w (M i).path) k) := by
      intro e
      induction e with
      | zero => intro k hk; obtain rfl : k = 7 := by omega
                exact hlast
      | succ e ih =>
        intro k hk
        refine .of_step ?_
        rw [Race.step]
        simp only [set_eq, set_set]
        rw [if_pos (by omega)]
        exact ih (k + 1) (by omega)
    exact hback (7 - k) k (by omega)
  cases h with
  | halve hc =>
    refine .of_step ?_
    have hz := hcut 0 (by omega) hc
    have hs := set_same (M.set J.fresh (lower (commonPrefixLen w (M i).path) (M i))) i
    rw [set_ne _ _ hf] at hs
    rw [cutTo, hs] at hz
    rw [Race.step]
    rw [if_pos (by omega)]
    exact hz
  | cut k hk hc => exact hcut k hk hc
  | look hw => exact hlook hw
  | scan hw js hj => exact hscan js hw hj
  | leaf hw => exact ends_leaf J _ _ i
  | link hw => exact ends_link J _ i _
  | mark hw => exact ends_mark J _ i
  | store hw => exact ends_store J _ i
  | done => exact ends_done J _

/-- A goroutine that runs alone ends. -/
theorem enter_ends {J : Job α} {M0 : Mem α} {n : Node α} {w : Str} {m : Node α} {w' : Str} (S : Setup J M0 n w m w')
    (m1 : Node α) : ∀ w1, Goes n w m1 w1 → Ends J M0 (.enter w1 m1.id) := by
  induction m1 using Node.ind with
  | h i p co k ih =>
    intro w1 h
    rcases pass_or_stop w1 (.mk i p co k) with ⟨c, hp⟩ | hs
    · have hpk := ih c hp.mem _ (h.snoc hp)
      refine .of_step ?_
      have hcm := hp.mem
      have hc := (h.holds S.holds).cell
      rw [Race.step, hc]
      simp only [cplOf_eq, cpl_prefix hp.1, Nat.lt_irrefl, if_false, hp.2.1, if_true]
      rw [if_neg]
      · refine .of_step ?_
        rw [Race.step]
        dsimp only
        rw [hc]
        obtain ⟨h1, h2, pre, post, h3, h4, h5⟩ := id hp
        have hgo : ∀ pre', (∀ d ∈ pre', d ∈ k ∧ d.path.head? ≠ (w1.drop p.length).head?) →
            Ends J M0 (.scan (w1.drop p.length) i ((pre' ++ c :: post).map Node.id)) := by
          intro pre' hpre'
          induction pre' with
          | nil =>
            refine .of_step ?_
            simp only [List.nil_append, List.map_cons]
            rw [Race.step, ((h.holds S.holds).kid hcm).cell, if_pos]
            · exact hpk
            · exact h5
          | cons a as iha =>
            refine .of_step ?_
            simp only [List.cons_append, List.map_cons]
            rw [Race.step, ((h.holds S.holds).kid (c := a) (hpre' a (by simp)).1).cell,
              if_neg (hpre' a (by simp)).2]
            exact iha fun d hd => hpre' d (by simp [hd])
        simp only [Node.kids_mk] at h3
        simp only [Node.kids_mk, Node.path_mk, Node.id_mk]
        rw [h3]
        exact hgo pre fun d hd => ⟨by rw [h3]; simp [hd], h4 d hd⟩
      · rintro ⟨_, _, h3⟩
        rw [List.length_map] at h3
        rw [List.eq_nil_of_length_eq_zero h3] at hcm
        cases hcm
    · obtain ⟨rfl, rfl⟩ := h.unique hs S.goes S.stop
      exact .of_step (S.enter.ends S.quiet (S.ne1 S.mid))

end Race
end Verif

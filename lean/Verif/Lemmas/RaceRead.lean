import Verif.Model.RaceRead
import Verif.Lemmas.RaceApart
import Verif.Lemmas.Search
/-
A lookup with a program counter, in a memory that changes meanwhile.
-/
namespace Verif
namespace Race
variable {α : Type} [Inhabited α]

/-- Whatever the memories are that the reader finds, as long as they satisfy `G`: within `N` steps it comes to a
state with `Q`. -/
def Leads (d : Char) (G : Mem α → Prop) (Q : Rd α → Prop) : Nat → Rd α → Prop
  | 0, r => Q r
  | n + 1, r => Q r ∨ ∀ M, G M → Leads d G Q n (rstep d M r)

section
variable {d : Char} {G : Mem α → Prop} {Q Q' : Rd α → Prop}

theorem Leads.now {r : Rd α} (h : Q r) : ∀ n, Leads d G Q n r
  | 0 => h
  | _ + 1 => .inl h

theorem Leads.mono {n m : Nat} (hnm : n ≤ m) {r : Rd α} (h : Leads d G Q n r) : Leads d G Q m r := by
  induction n generalizing m r with
  | zero => exact .now h m
  | succ n ih =>
    cases m with
    | zero => omega
    | succ m =>
      rcases h with h | h
      · exact .inl h
      · exact .inr fun M hM => ih (by omega) (h M hM)

theorem Leads.trans {n m : Nat} {r : Rd α} (h : Leads d G Q n r) (h' : ∀ r, Q r → Leads d G Q' m r) :
    Leads d G Q' (n + m) r := by
  induction n generalizing r with
  | zero => exact (h' r h).mono (by omega)
  | succ n ih =>
    rcases h with h | h
    · exact (h' r h).mono (by omega)
    · rw [Nat.add_right_comm]
      exact .inr fun M hM => ih (h M hM)

theorem Leads.step {r : Rd α} {n : Nat} (h : ∀ M, G M → Leads d G Q n (rstep d M r)) : Leads d G Q (n + 1) r := .inr h

/-- One step with a known outcome. -/
theorem Leads.to {r r' : Rd α} {n : Nat} (e : ∀ M, G M → rstep d M r = r') (h : Leads d G Q n r') :
    Leads d G Q (n + 1) r := .inr fun M hM => by rw [e M hM]; exact h
end

/-- What a memory must have in common with the tree for the lookup of `w` below `n`: the paths of the nodes on the
way, but for an end of a path that the lookup does not come to, and the children of those it goes through, with
their first runes. -/
def Calm (d : Char) (M : Mem α) (n : Node α) (w : Str) : Prop :=
  ∀ m w', Goes n w m w' →
    ((M m.id).path = m.path ∨ ((M m.id).path <+: m.path ∧ ¬ (M m.id).path <+: w' ++ [d])) ∧
    (m.path <+: w' → m.path.length < w'.length →
      (M m.id).kids = m.kids.map Node.id ∧ ∀ c ∈ m.kids, (M c.id).path.head? = c.path.head?)

/-- A call that returns; what is left of the loops does not matter if the node was found. -/
def Rets (m p : Bool) (child : Option Nat) (stk : Stack) (r : Rd α) : Prop :=
  ∃ stk', r = .ret m p child stk' ∧ (m = false → p = false → stk' = stk)

section
variable {d : Char} {G : Mem α → Prop}

/-- The comparing loop goes through what the path and the word have in common. -/
theorem leads_cmp {Q : Rd α → Prop} {w s y : Str} {i : Nat} (hw : w = s ++ y) (hG : ∀ M, G M → s <+: (M i).path)
    {l : Nat} (hl : s.length ≤ l) (stk : Stack) {N : Nat} : ∀ j k, j + k = s.length →
      Leads d G Q N (.cmp w i l s.length stk) → Leads d G Q (N + j) (.cmp w i l k stk) := by
  intro j
  induction j with
  | zero => intro k hk h; rw [Nat.zero_add] at hk; rw [hk]; exact h
  | succ j ih =>
    intro k hk h
    refine .to (r' := .cmp w i l (k + 1) stk) (fun M hM => ?_) (ih (k + 1) (by omega) h)
    have hk' : k < s.length := by omega
    obtain ⟨x, hx⟩ := hG M hM
    rw [rstep, if_pos (by rw [hw]; simp; omega), ← hx, List.getElem?_append_left hk', List.getElem?_eq_getElem hk']
    simp only
    rw [hw, List.getElem?_append_left hk', List.getElem?_eq_getElem hk', if_pos rfl]

/-- A node with another first rune is left at once. -/
theorem leads_miss {b : Char} {y : Str} {i : Nat} {a : Char} (hab : a ≠ b)
    (hG : ∀ M, G M → (M i).path.head? = some a) (stk : Stack) :
    Leads d G (Rets false false none stk) 2 (.enter (b :: y) i stk) := by
  refine .inr fun M hM => ?_
  rw [rstep, if_neg (by simp)]
  refine .inr fun M' hM' => .now ⟨stk, ?_, fun _ _ => rfl⟩ 0
  have h1 : 0 < (M i).path.length := by
    have := hG M hM
    cases h : (M i).path with
    | nil => rw [h] at this; simp at this
    | cons => simp
  have h2 : (M' i).path[0]? = some a := by rw [← List.head?_eq_getElem?]; exact hG M' hM'
  rw [rstep, if_pos (by simp; omega), h2]
  simp only
  rw [if_neg (by simp; exact fun h => hab h.symm)]

/-- A loop over children none of which fits. -/
theorem leads_skip {Q : Rd α → Prop} {b : Char} {y : Str} {stk : Stack} (post : List Nat) {N : Nat}
    (h : Leads d G Q N (.ret false false none ((post, b :: y) :: stk))) (pre : List (Node α))
    (hG : ∀ M, G M → ∀ c ∈ pre, (M c.id).path.head? = c.path.head?)
    (hne : ∀ c ∈ pre, c.path ≠ []) (hb : ∀ c ∈ pre, c.path.head? ≠ some b) :
    Leads d G Q (N + 3 * pre.length) (.ret false false none ((pre.map Node.id ++ post, b :: y) :: stk)) := by
  induction pre with
  | nil => exact h
  | cons c cs ih =>
    have h' := ih (fun M hM e he => hG M hM e (by simp [he])) (fun e he => hne e (by simp [he]))
      (fun e he => hb e (by simp [he]))
    obtain ⟨a, p, hp⟩ := List.exists_cons_of_ne_nil (hne c (by simp))
    have hab : a ≠ b := by
      intro e
      have := hb c (by simp)
      rw [hp, e] at this
      simp at this
    have h1 := leads_miss (d := d) (y := y) hab (fun M hM => by rw [hG M hM c (by simp), hp]; rfl)
      ((cs.map Node.id ++ post, b :: y) :: stk)
    refine Leads.mono (n := (2 + (N + 3 * cs.length)) + 1) (by simp; omega)
      (.to (r' := .enter (b :: y) c.id ((cs.map Node.id ++ post, b :: y) :: stk)) ?_ (h1.trans fun r hr => ?_))
    · intro M _; rfl
    · obtain ⟨stk', rfl, hs⟩ := hr
      rw [hs rfl rfl]; exact h'

theorem getElem?_mid (s : Str) (a : Char) (x : Str) : (s ++ a :: x)[s.length]? = some a := by simp

/-- A lookup that runs while the memory changes returns what it returns in the tree, as long as the memory stays
calm on its way. -/
theorem leads_pm {n : Node α} {w : Str} {par : Option (Node α)} {r : MR α} (h : Node.PM d n w par r) (hw : n.WF)
    (hG : ∀ M, G M → Calm d M n w) :
    ∃ N, ∀ stk, Leads d G (Rets r.matched r.part (r.child.map Node.id) stk) N (.enter w n.id stk) := by
  -- what is there of the path of the node, and of its length
  have loose : ∀ {n : Node α} {w s : Str} {a : Char} {x : Str}, n.path = s ++ a :: x → s <+: w → (∀ M, G M → Calm d M n w) →
      ∀ M, G M → (∃ x', x' <+: x ∧ (M n.id).path = s ++ a :: x') ∧
        (n.path = s ++ a :: x ∧ s = w → (M n.id).path = w ++ [d] → n.path = w ++ [d]) := by
    intro n w s a x hp hs hG M hM
    rcases (hG M hM n w (.here _ _)).1 with h | ⟨h1, h2⟩
    · refine ⟨⟨x, List.prefix_refl _, by rw [h, hp]⟩, fun _ e => by rw [← h, e]⟩
    · have hlt : s.length < (M n.id).path.length := by
        by_cases hle : (M n.id).path.length ≤ s.length
        · refine absurd ?_ h2
          have := List.prefix_of_prefix_length_le h1 (hp ▸ List.prefix_append s (a :: x)) hle
          exact (this.trans hs).trans (List.prefix_append _ _)
        · omega
      have h3 : s ++ [a] <+: (M n.id).path := by
        refine List.prefix_of_prefix_length_le ?_ h1 (by simp; omega)
        rw [hp, List.prefix_append_right_inj]
        exact ⟨x, rfl⟩
      obtain ⟨x', hx'⟩ := h3
      have hx'' : (M n.id).path = s ++ a :: x' := by rw [← hx']; simp
      refine ⟨⟨x', ?_, hx''⟩, fun _ e => absurd (e ▸ List.prefix_refl _) h2⟩
      rw [hx'', hp, List.prefix_append_right_inj, List.cons_prefix_cons] at h1
      exact h1.2
  have begin_ : ∀ {n : Node α} {w s x y : Str} {Q : Rd α → Prop} {stk : Stack} {N : Nat}, w ≠ [] → n.path = s ++ x →
      w = s ++ y → (∀ M, G M → (M n.id).path = n.path) →
      Leads d G Q N (.cmp w n.id n.path.length s.length stk) → Leads d G Q (N + s.length + 1) (.enter w n.id stk) := by
    intro n w s x y Q stk N hw h1 h2 hG h
    refine .to (r' := .cmp w n.id n.path.length 0 stk) (fun M hM => ?_) ?_
    · rw [rstep, if_neg hw, hG M hM]
    · exact leads_cmp h2 (fun M hM => by rw [hG M hM, h1]; exact List.prefix_append _ _) (by rw [h1]; simp) stk _ 0
        (by omega) h
  have firm : ∀ {n : Node α} {w : Str}, (∀ M, G M → Calm d M n w) → n.path <+: w ++ [d] → ∀ M, G M → (M n.id).path = n.path := by
    intro n w hG hp M hM
    rcases (hG M hM n w (.here _ _)).1 with h | ⟨h1, h2⟩
    · exact h
    · exact absurd (h1.trans hp) h2
  have through : ∀ {n : Node α} {w y : Str} {Q : Rd α → Prop} {stk : Stack} {N : Nat}, w ≠ [] → y ≠ [] → w = n.path ++ y →
      (∀ M, G M → Calm d M n w) → Leads d G Q N (.kids w n.id n.path.length stk) →
      Leads d G Q (N + 1 + 1 + n.path.length + 1) (.enter w n.id stk) := by
    intro n w y Q stk N hw hy h2 hG h
    have hyl := List.length_pos_iff.mpr hy
    refine begin_ (x := []) hw (by simp) h2 (firm hG (by rw [h2, List.append_assoc]; exact List.prefix_append _ _)) (.to (r' := .tail w n.id n.path.length stk) (fun M _ => ?_)
      (.to (r' := .kids w n.id n.path.length stk) (fun M _ => ?_) h))
    · rw [rstep, if_neg (by rw [h2]; simp)]
    · have : w.length = n.path.length + y.length := by rw [h2]; simp
      rw [rstep, if_neg (by omega), if_neg (by omega), if_pos (by omega)]
  have enter_kids : ∀ {n : Node α} {y : Str} {Q : Rd α → Prop} {stk : Stack} {N : Nat}, n.kids ≠ [] →
      (∀ M, G M → (M n.id).kids = n.kids.map Node.id ∧ ∀ c ∈ n.kids, (M c.id).path.head? = c.path.head?) →
      Leads d G Q N (.ret false false none ((n.kids.map Node.id, y) :: stk)) →
      Leads d G Q (N + 1 + 1) (.kids (n.path ++ y) n.id n.path.length stk) := by
    intro n y Q stk N hk hc h
    refine .to (r' := .range (n.path ++ y) n.id n.path.length stk) (fun M hM => ?_)
      (.to (r' := .ret false false none ((n.kids.map Node.id, y) :: stk)) (fun M hM => ?_) h)
    · rw [rstep, if_neg (by rw [(hc M hM).1]; simpa using hk)]
    · rw [rstep, (hc M hM).1, List.drop_left]
      cases hks : n.kids with
      | nil => exact absurd hks hk
      | cons a as => rfl
  induction h with
  | @exact n par hne =>
    refine ⟨0 + 1 + 1 + n.path.length + 1, fun stk => begin_ (x := []) (y := []) hne (by simp) (by simp)
      (firm hG (List.prefix_append _ _)) ?_⟩
    refine .to (r' := .tail n.path n.id n.path.length stk) (fun M _ => ?_)
      (.to (r' := .ret true false (some n.id) stk) (fun M _ => ?_) (.now ⟨stk, rfl, fun _ _ => rfl⟩ _))
    · rw [rstep, if_neg (by simp)]
    · rw [rstep, if_neg (by omega), if_neg (by omega), if_neg (by omega)]
  | @delim n w par hwne hp =>
    have hf := firm hG (by rw [hp]; exact List.prefix_refl _)
    refine ⟨0 + 1 + 1 + w.length + 1, fun stk => begin_ (y := []) hwne hp (by simp) hf ?_⟩
    refine .to (r' := .tail w n.id n.path.length stk) (fun M _ => ?_)
      (.to (r' := .ret true false (some n.id) stk) (fun M hM => ?_) (.now ⟨stk, rfl, fun _ _ => rfl⟩ _))
    · rw [rstep, if_neg (by omega)]
    · rw [rstep, if_pos (by rw [hp]; simp), hf M hM, hp, getElem?_mid]
      simp only [if_true]
  | @part n w x y par hwne hp hx =>
    have hl := loose hp (List.prefix_refl _) hG
    refine ⟨0 + 1 + 1 + w.length + 1, fun stk => .inr fun M hM => ?_⟩
    obtain ⟨⟨x1, _, h1⟩, h2⟩ := hl M hM
    rw [rstep, if_neg hwne]
    refine leads_cmp (s := w) (y := []) (by simp) (fun M hM => ?_) (by rw [h1]; simp) stk _ 0 (by omega)
      (.to (r' := .tail w n.id (M n.id).path.length stk) (fun M _ => ?_)
      (.to (r' := .ret false true (some n.id) stk) (fun M' hM' => ?_) (.now ⟨stk, rfl, fun h h' => by cases h'⟩ _)))
    · obtain ⟨⟨x2, _, h3⟩, _⟩ := hl M hM
      rw [h3]; exact List.prefix_append _ _
    · rw [rstep, if_neg (by omega)]
    · rw [rstep]
      by_cases hle : w.length + 1 = (M n.id).path.length
      · obtain ⟨⟨x2, _, h3⟩, _⟩ := hl M' hM'
        rw [if_pos hle, h3, getElem?_mid]
        simp only
        have hy : x1 = [] := by
          rw [h1, List.length_append, List.length_cons] at hle
          exact List.eq_nil_of_length_eq_zero (by omega)
        rw [if_neg]
        intro e
        refine hx ?_
        have := h2 ⟨hp, rfl⟩ (by rw [h1, hy, e])
        rw [hp] at this
        exact List.append_cancel_left this
      · rw [if_neg hle, if_pos (by rw [h1] at hle ⊢; simp at hle ⊢)]
  | @diff n s a b x y par hp hab =>
    have hl := loose hp (List.prefix_append s (b :: y)) hG
    refine ⟨0 + 1 + s.length + 1, fun stk => .inr fun M hM => ?_⟩
    obtain ⟨⟨x1, _, h1⟩, _⟩ := hl M hM
    rw [rstep, if_neg (by simp)]
    refine leads_cmp (s := s) rfl (fun M hM => ?_) (by rw [h1]; simp) stk _ 0 (by omega)
      (.to (r' := .ret false false none stk) (fun M' hM' => ?_) (.now ⟨stk, rfl, fun _ _ => rfl⟩ _))
    · obtain ⟨⟨x2, _, h3⟩, _⟩ := hl M hM
      rw [h3]; exact List.prefix_append _ _
    · obtain ⟨⟨x2, _, h3⟩, _⟩ := hl M' hM'
      rw [rstep, if_pos (by rw [h1]; simp), h3, getElem?_mid]
      simp only
      rw [getElem?_mid, if_neg (fun e => hab (by simpa using e.symm))]
  | @dead n b y par hk hne =>
    have hc : ∀ M, G M → (M n.id).kids = [] := fun M hM => by
      rw [((hG M hM n _ (.here _ _)).2 (List.prefix_append _ _) (by simp)).1, hk]; rfl
    refine ⟨_, fun stk => through (by simp) (by simp) rfl hG (.to (r' := .ret false true (some n.id) stk) (fun M hM => ?_)
      (.now ⟨stk, rfl, fun h h' => by cases h'⟩ 0))⟩
    rw [rstep, if_pos (hc M hM), if_pos (List.length_pos_iff.mpr hne)]
  | @deadRoot n b y par hk hne =>
    have hc : ∀ M, G M → (M n.id).kids = [] := fun M hM => by
      rw [((hG M hM n _ (.here _ _)).2 (by rw [hne]; simp) (by rw [hne]; simp)).1, hk]; rfl
    refine ⟨_, fun stk => through (y := b :: y) (by simp) (by simp) (by rw [hne]; rfl) hG (.to (r' := .ret false true none stk) (fun M hM => ?_)
      (.now ⟨stk, rfl, fun h h' => by cases h'⟩ 0))⟩
    rw [rstep, if_pos (hc M hM), hne]
    rfl
  | @noKid n b y par hk hh =>
    have hwn := (Node.wf_iff n).mp hw
    have hc : ∀ M, G M → _ := fun M hM => (hG M hM n _ (.here _ _)).2 (List.prefix_append _ _) (by simp)
    refine ⟨(1 + 3 * n.kids.length) + 1 + 1 + 1 + 1 + n.path.length + 1,
      fun stk => through (by simp) (by simp) rfl hG (enter_kids hk hc ?_)⟩
    have := leads_skip (d := d) (y := y) (stk := stk) [] (N := 1)
        (.to (r' := .ret false false none stk) (fun M _ => rfl) (.now (Q := Rets false false none stk) ⟨stk, rfl, fun _ _ => rfl⟩ 0))
        n.kids (fun M hM => (hc M hM).2) (fun c hcm => (hwn.2 c hcm).1) hh
    rw [List.append_nil] at this
    exact this
  | @kid n c b y par r hcm hh hr ih =>
    have hwn := (Node.wf_iff n).mp hw
    have hc : ∀ M, G M → _ := fun M hM => (hG M hM n _ (.here _ _)).2 (List.prefix_append _ _) (by simp)
    rcases first_match n.kids (some b) with hm | ⟨pre, c', post, hk, ha, hb⟩
    · exact absurd hh (hm c hcm)
    have hcc : c' = c := Node.heads_inj hwn.1 (by rw [hk]; simp) hcm (by rw [hb, hh])
    subst hcc
    have hpass : Pass (n.path ++ b :: y) n c' :=
      ⟨List.prefix_append _ _, by simp, pre, post, hk, by simpa using ha, by simpa using hb⟩
    have hpost : ∀ e ∈ post, e.path.head? ≠ some b := by
      intro e he h2
      have hn := hwn.1
      rw [hk, List.map_append, List.map_cons, List.nodup_append, List.nodup_cons] at hn
      exact hn.2.1.1 (List.mem_map.mpr ⟨e, he, h2.trans hb.symm⟩)
    obtain ⟨N, hN⟩ := ih (hwn.2 c' hcm).2 fun M hM m w' hg => by
      refine hG M hM m w' (.down hpass ?_)
      rw [List.drop_left]; exact hg
    have hkne : n.kids ≠ [] := by rw [hk]; simp
    refine ⟨(((N + (1 + 3 * post.length)) + 1) + 3 * pre.length) + 1 + 1 + 1 + 1 + n.path.length + 1,
      fun stk => through (by simp) (by simp) rfl hG (enter_kids hkne hc ?_)⟩
    have hpre := leads_skip (d := d) (G := G) (Q := Rets r.matched r.part (r.child.map Node.id) stk) (y := y) (stk := stk)
      ((c' :: post).map Node.id) (N := (N + (1 + 3 * post.length)) + 1) ?_
      pre (fun M hM e he => (hc M hM).2 e (by rw [hk]; simp [he])) (fun e he => (hwn.2 e (by rw [hk]; simp [he])).1) ha
    · rw [← List.map_append, ← hk] at hpre
      exact hpre
    · refine .to (r' := .enter (b :: y) c'.id ((post.map Node.id, b :: y) :: stk)) (fun M _ => rfl) ((hN _).trans fun r' hr' => ?_)
      obtain ⟨stk', rfl, hs⟩ := hr'
      by_cases hm : r.matched = false ∧ r.part = false
      · rw [hs hm.1 hm.2]
        have := hr.nothing hm.1 hm.2
        rw [this]
        have := leads_skip (d := d) (y := y) (stk := stk) [] (N := 1)
          (.to (r' := .ret false false none stk) (fun M _ => rfl) (.now (Q := Rets false false none stk) ⟨stk, rfl, fun _ _ => rfl⟩ 0))
          post (fun M hM e he => (hc M hM).2 e (by rw [hk]; simp [he])) (fun e he => (hwn.2 e (by rw [hk]; simp [he])).1) hpost
        rw [List.append_nil] at this
        exact this
      · exact .now ⟨stk', rfl, fun h1 h2 => absurd ⟨h1, h2⟩ hm⟩ _

/-- The reads at the node that was found. -/
theorem leads_answer {t : Tree α} (h : t.OK) {q : Str} {m : Node α} (hm : (q, m) ∈ t.root.nodes []) {P : View.Ans α → Prop}
    (hG : ∀ M, G M → (M m.id).path = m.path ∧ (M m.id).core.leaf = m.core.leaf ∧
      (M m.id).core.hasData = m.core.hasData ∧ P (ansOf d q (M m.id).core)) (stk : Stack) :
    Leads d G (fun r => ∃ a, r = .done a ∧ P a) 5 (.ret true false (some m.id) stk) := by
  have he := endsWith_of_mem h hm d
  have last : ∀ br, br = !m.core.leaf → ∀ found, found = (m.core.leaf || endsW d q) →
      Leads d G (fun r => ∃ a, r = .done a ∧ P a) 2 (.has m.id br found) := by
    intro br hbr found hfo
    refine .step fun M hM => ?_
    obtain ⟨h1, h2, h3, h4⟩ := hG M hM
    rw [rstep]
    by_cases hd : (M m.id).core.hasData = true
    · rw [if_pos hd]
      refine .step fun M' hM' => .now ⟨_, rfl, ?_⟩ 0
      obtain ⟨h1', h2', h3', h4'⟩ := hG M' hM'
      rw [ansOf, h2', h3', if_pos (by rw [← h3]; exact hd), ← hbr, ← hfo] at h4'
      exact h4'
    · rw [if_neg hd]
      refine .now ⟨_, rfl, ?_⟩ _
      rw [ansOf, h2, if_neg hd, ← hbr, ← hfo] at h4
      exact h4
  refine .to (r' := .branch m.id) (fun _ _ => rfl) (.step fun M hM => ?_)
  obtain ⟨h1, h2, _, _⟩ := hG M hM
  rw [rstep, Core.isBranch, h2]
  cases hl : m.core.leaf with
  | true =>
    simp only [Bool.not_true, Bool.false_eq_true, if_false]
    exact (last false (by rw [hl]; rfl) true (by rw [hl]; rfl)).mono (by omega)
  | false =>
    simp only [Bool.not_false, if_true]
    refine .to (r' := .has m.id true (endsW d q)) (fun M hM => ?_) (last true (by rw [hl]; rfl) _ (by rw [hl]; rfl))
    rw [rstep, (hG M hM).1, ← he, Node.endsWith]
    cases m.path.getLast? with
    | none => rfl
    | some c => simp [Option.some_beq_some]

/-- A lookup that runs while the memory changes. -/
theorem leads_query {t : Tree α} (h : t.OK) {w : Str} (hp : t.ClearAt d w) (hG : ∀ M, G M → Calm d M t.root w)
    {P : View.Ans α → Prop}
    (hit : ∀ q m, resolve d t.nodeAt w = some (q, m) → ∀ M, G M → (M m.id).path = m.path ∧
      (M m.id).core.leaf = m.core.leaf ∧ (M m.id).core.hasData = m.core.hasData ∧ P (ansOf d q (M m.id).core))
    (miss : resolve d t.nodeAt w = none → ∀ M, G M → P ansNone) :
    ∃ N, Leads d G (fun r => ∃ a, r = .done a ∧ P a) N (.enter w t.root.id []) := by
  by_cases hw : w = []
  · subst hw
    have hr : resolve d t.nodeAt [] = some ([], t.root) := by
      simp [resolve, (Tree.nodeAt_some h).mpr h.root_mem]
    exact ⟨5 + 1, .to (r' := .ret true false (some t.root.id) []) (fun _ _ => rfl)
      (leads_answer h h.root_mem (hit _ _ hr) [])⟩
  · obtain ⟨r, h1, h2⟩ := Node.matchR_clear d t.root h.wf [] w false none [] hw (by simp [endsW]) (hp.keys h)
    obtain ⟨N, hN⟩ := leads_pm h2 h.wf hG
    rcases matchR_root_at h w hp [] with ⟨q, m, par, h3, h4, _⟩ | ⟨_, h3, r', h4, h5, h6, _⟩
    · rw [h1] at h4
      have hr : r = ⟨true, false, some m, par⟩ := (Prod.mk.inj (Except.ok.inj h4)).1
      subst hr
      refine ⟨N + 5, (hN []).trans fun s hs => ?_⟩
      obtain ⟨stk, rfl, _⟩ := hs
      exact leads_answer h ((Tree.nodeAt_some h).mp (resolve_some h3)) (hit _ _ h3) stk
    · rw [h1] at h4
      have hr : r = r' := (Prod.mk.inj (Except.ok.inj h4)).1
      subst hr
      refine ⟨N + 1, (hN []).trans fun s hs => ?_⟩
      obtain ⟨stk, rfl, hstk⟩ := hs
      refine .step fun M hM => .now ⟨ansNone, ?_, miss h3 M hM⟩ 0
      rw [h5]
      cases hpart : r.part with
      | true => cases r.child <;> rfl
      | false => rw [hstk h5 hpart]; rfl

/-- `Leads` and the schedules: a reader that comes to an answer whatever it finds comes to it under every schedule
that gives it enough steps. -/
theorem watch_leads (Js : Nat → Job α) {P : View.Ans α → Prop} (S : List (Option Nat)) : ∀ {W : World α} {r : Rd α} {N : Nat},
    (∀ S1 S2, S = S1 ++ S2 → G (watch d Js (W, r) S1).1.mem) → Leads d G (fun r => ∃ a, r = .done a ∧ P a) N r →
    Leads d G (fun r => ∃ a, r = .done a ∧ P a) (N - S.count none) (watch d Js (W, r) S).2 := by
  induction S with
  | nil => intro W r N _ h; exact h
  | cons a S ih =>
    intro W r N hG h
    have hG' : ∀ S1 S2, S = S1 ++ S2 → G (watch d Js (watch d Js (W, r) [a]) S1).1.mem := by
      intro S1 S2 e
      have := hG (a :: S1) S2 (by rw [e]; rfl)
      cases a <;> exact this
    cases a with
    | some k =>
      have := ih (W := W.tick Js k) (r := r) hG' h
      rw [show (some k :: S).count none = S.count none from by simp]
      exact this
    | none =>
      have h0 := hG [] (none :: S) rfl
      have hstep : Leads d G (fun r => ∃ a, r = .done a ∧ P a) (N - 1) (rstep d W.mem r) := by
        cases N with
        | zero =>
          obtain ⟨a, rfl, ha⟩ := h
          exact ⟨a, rfl, ha⟩
        | succ N =>
          rcases h with ⟨a, rfl, ha⟩ | h
          · exact .now ⟨a, rfl, ha⟩ _
          · exact h _ h0
      have := ih (W := W) (r := rstep d W.mem r) hG' hstep
      rw [List.count_cons_self, Nat.add_comm, ← Nat.sub_sub]
      exact this

theorem leads_done {P : View.Ans α → Prop} {a : View.Ans α} {M : Mem α} (hM : G M) : ∀ {N : Nat},
    Leads d G (fun r => ∃ a, r = .done a ∧ P a) N (.done a) → P a
  | 0, h => by obtain ⟨b, e, hb⟩ := h; cases e; exact hb
  | N + 1, h => by
    rcases h with ⟨b, e, hb⟩ | h
    · cases e; exact hb
    · exact leads_done hM (N := N) (h M hM)

theorem leads_crash {P : View.Ans α → Prop} {M : Mem α} (hM : G M) : ∀ {N : Nat},
    ¬ Leads d G (fun r => ∃ a, r = .done a ∧ P a) N (.crash : Rd α)
  | 0, h => by obtain ⟨b, e, hb⟩ := h; cases e
  | N + 1, h => by
    rcases h with ⟨b, e, hb⟩ | h
    · cases e
    · exact leads_crash hM (N := N) (h M hM)
end

end Race
end Verif

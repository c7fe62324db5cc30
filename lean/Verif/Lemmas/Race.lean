import Verif.Spec.Race
import Verif.Lemmas.Modify
/-
Insertion with a program counter: one goroutine by itself.
-/
namespace Verif
namespace Race
variable {α : Type}

open Node (commonPrefixLen)

/-- The memory holds the tree. -/
inductive Holds (M : Mem α) : Node α → Prop
  | mk {i p c k} (h : M i = ⟨p, c, k.map Node.id⟩) (hk : ∀ n ∈ k, Holds M n) : Holds M (.mk i p c k)

theorem Holds.cell {M : Mem α} {n : Node α} (h : Holds M n) : M n.id = ⟨n.path, n.core, n.kids.map Node.id⟩ := by
  cases h with | mk h hk => exact h

theorem Holds.kid {M : Mem α} {n c : Node α} (h : Holds M n) (hc : c ∈ n.kids) : Holds M c := by
  cases h with | mk h hk => exact hk c hc

theorem Holds.intro {M : Mem α} {n : Node α} (h : M n.id = ⟨n.path, n.core, n.kids.map Node.id⟩)
    (hk : ∀ c ∈ n.kids, Holds M c) : Holds M n := by
  obtain ⟨i, p, c, k⟩ := n
  exact .mk h hk

theorem Holds.frame {M M' : Mem α} {n : Node α} (h : Holds M n) (he : ∀ x ∈ n.ids, M' x = M x) : Holds M' n := by
  induction n using Node.ind with
  | h i p c k ih =>
    cases h with
    | mk h hk =>
      refine .mk ?_ fun m hm => ih m hm (hk m hm) fun x hx => he x ?_
      · rw [he i (by rw [Node.ids_mk]; simp), h]
      · rw [Node.ids_mk]; exact List.mem_cons_of_mem _ (List.mem_flatMap.mpr ⟨m, hm, hx⟩)

theorem kid_ids {n c : Node α} (hc : c ∈ n.kids) {x : Nat} (hx : x ∈ c.ids) : x ∈ n.ids := by
  rw [Node.ids_cons]; exact List.mem_cons_of_mem _ (List.mem_flatMap.mpr ⟨c, hc, hx⟩)

theorem id_ids (n : Node α) : n.id ∈ n.ids := by rw [Node.ids_cons]; exact List.mem_cons_self ..

mutual
theorem lay_out : ∀ (n : Node α) (M : Mem α) (x : Nat), x ∉ n.ids → lay n M x = M x
  | .mk i p c k, M, x, h => by
    rw [Node.ids_mk] at h
    simp only [List.mem_cons, not_or] at h
    rw [lay, Mem.set, if_neg h.1]
    exact layL_out k M x h.2
theorem layL_out : ∀ (k : List (Node α)) (M : Mem α) (x : Nat), x ∉ k.flatMap Node.ids → layL k M x = M x
  | [], M, x, _ => rfl
  | n :: ns, M, x, h => by
    simp only [List.flatMap_cons, List.mem_append, not_or] at h
    rw [layL, lay_out n _ x h.1, layL_out ns M x h.2]
end

mutual
theorem lay_holds : ∀ (n : Node α) (M : Mem α), n.ids.Nodup → Holds (lay n M) n
  | .mk i p c k, M, h => by
    rw [Node.ids_mk, List.nodup_cons] at h
    refine .mk (by simp [lay, Mem.set]) fun n hn => ?_
    refine (layL_holds k M h.2 n hn).frame fun x hx => ?_
    rw [lay, Mem.set, if_neg]
    rintro rfl
    exact h.1 (List.mem_flatMap.mpr ⟨n, hn, hx⟩)
theorem layL_holds : ∀ (k : List (Node α)) (M : Mem α), (k.flatMap Node.ids).Nodup → ∀ n ∈ k, Holds (layL k M) n
  | [], M, _, n, hn => by cases hn
  | m :: ms, M, h, n, hn => by
    rw [List.flatMap_cons, List.nodup_append] at h
    rw [layL]
    by_cases e : n = m
    · rw [e]; exact lay_holds m _ h.1
    · have hn' : n ∈ ms := by
        rcases List.mem_cons.mp hn with h1 | h1
        · exact absurd h1 e
        · exact h1
      refine (layL_holds ms M h.2.1 n hn').frame fun x hx => lay_out m _ x fun hxm => ?_
      exact h.2.2 x hxm x (List.mem_flatMap.mpr ⟨n, hn', hx⟩) rfl
end

theorem read_holds {M : Mem α} (n : Node α) : Holds M n → ∃ D, ∀ d, D ≤ d → read M d n.id = n := by
  induction n using Node.ind with
  | h i p c k ih =>
    intro h
    have hk : ∃ D, ∀ d, D ≤ d → ∀ m ∈ k, read M d m.id = m := by
      have hh : ∀ m ∈ k, Holds M m := fun m hm => h.kid hm
      clear h
      induction k with
      | nil => exact ⟨0, fun _ _ _ h => by cases h⟩
      | cons a as ihk =>
        obtain ⟨D1, h1⟩ := ih a (by simp) (hh a (by simp))
        obtain ⟨D2, h2⟩ := ihk (fun m hm => ih m (by simp [hm])) (fun m hm => hh m (by simp [hm]))
        refine ⟨max D1 D2, fun d hd m hm => ?_⟩
        rcases List.mem_cons.mp hm with rfl | hm
        · exact h1 d (by omega)
        · exact h2 d (by omega) m hm
    obtain ⟨D, hD⟩ := hk
    refine ⟨D + 1, fun d hd => ?_⟩
    obtain ⟨d, rfl⟩ : ∃ d', d = d' + 1 := ⟨d - 1, by omega⟩
    have hc := h.cell
    simp only [Node.id_mk, Node.path_mk, Node.core_mk, Node.kids_mk] at hc ⊢
    rw [read, hc]
    congr 1
    rw [List.map_map]
    conv => rhs; rw [← List.map_id k]
    refine List.map_congr_left fun m hm => ?_
    exact hD d (by omega) m hm

/-! ### The way of an insertion -/

theorem cplOf_eq (w p : Str) : cplOf w p = commonPrefixLen w p := by
  rw [cplOf]; cases w <;> cases p <;> simp [commonPrefixLen]

/-- The insertion of `w` goes from `n` to its child `c`. -/
def Pass (w : Str) (n c : Node α) : Prop :=
  n.path <+: w ∧ n.path.length < w.length ∧
    ∃ pre post, n.kids = pre ++ c :: post ∧ (∀ d ∈ pre, d.path.head? ≠ (w.drop n.path.length).head?) ∧
      c.path.head? = (w.drop n.path.length).head?

theorem Pass.mem {w : Str} {n c : Node α} (h : Pass w n c) : c ∈ n.kids := by
  obtain ⟨_, _, pre, post, h, _⟩ := h
  rw [h]; simp

theorem Pass.unique {w : Str} {n c c' : Node α} (h : Pass w n c) (h' : Pass w n c') : c = c' := by
  obtain ⟨_, _, pre, post, h1, h2, h3⟩ := h
  obtain ⟨_, _, pre', post', h1', h2', h3'⟩ := h'
  rw [h1] at h1'
  clear h1
  induction pre generalizing pre' with
  | nil =>
    cases pre' with
    | nil => exact (List.cons.inj h1').1
    | cons a as =>
      have := (List.cons.inj h1').1
      exact absurd (this ▸ h3) (h2' a (by simp))
  | cons b bs ih =>
    cases pre' with
    | nil =>
      have := (List.cons.inj h1').1
      exact absurd (this ▸ h3') (h2 b (by simp))
    | cons a as =>
      exact ih (fun d hd => h2 d (by simp [hd])) as (List.cons.inj h1').2 (fun d hd => h2' d (by simp [hd]))

theorem cpl_prefix {w p : Str} (h : p <+: w) : commonPrefixLen w p = p.length := by
  obtain ⟨r, rfl⟩ := h
  induction p with
  | nil => cases r <;> rfl
  | cons a p ih => simp only [List.cons_append, commonPrefixLen, if_true, ih, List.length_cons]

theorem prefix_cpl {w p : Str} (h : ¬ commonPrefixLen w p < p.length) : p <+: w := by
  obtain ⟨s, x, y, h1, h2, h3, _⟩ := Node.commonPrefixLen_spec w p
  rw [h3, h2, List.length_append] at h
  have : y = [] := List.eq_nil_of_length_eq_zero (by omega)
  exact ⟨x, by rw [h1, h2, this, List.append_nil]⟩

theorem cpl_le_left (w p : Str) : commonPrefixLen w p ≤ w.length := by
  obtain ⟨s, x, y, h1, h2, h3, _⟩ := Node.commonPrefixLen_spec w p
  have := congrArg List.length h1
  rw [List.length_append] at this
  omega

theorem cpl_le_right (w p : Str) : commonPrefixLen w p ≤ p.length := by
  obtain ⟨s, x, y, h1, h2, h3, _⟩ := Node.commonPrefixLen_spec w p
  have := congrArg List.length h2
  rw [List.length_append] at this
  omega

theorem cpl_part {w p : Str} (ha : commonPrefixLen w p < w.length) (hb : commonPrefixLen w p < p.length) :
    (p.drop (commonPrefixLen w p)).head? ≠ (w.drop (commonPrefixLen w p)).head? := by
  obtain ⟨s, x, y, h1, h2, h3, h4⟩ := Node.commonPrefixLen_spec w p
  have e1 : w.drop s.length = x := by rw [h1]; simp
  have e2 : p.drop s.length = y := by rw [h2]; simp
  have l1 := congrArg List.length h1
  have l2 := congrArg List.length h2
  rw [List.length_append] at l1 l2
  rw [h3] at ha hb ⊢
  rw [e1, e2]
  rcases h4 with rfl | rfl | ⟨a, b, x', y', rfl, rfl, hab⟩
  · simp at l1; omega
  · simp at l2; omega
  · simp; exact fun h => hab h.symm

/-- The insertion of `w` below `n` comes to `m`, with `w'` left to insert there. -/
inductive Goes : Node α → Str → Node α → Str → Prop
  | here (n : Node α) (w : Str) : Goes n w n w
  | down {n : Node α} {w : Str} {c m : Node α} {w' : Str} (hp : Pass w n c)
      (h : Goes c (w.drop n.path.length) m w') : Goes n w m w'

theorem Goes.snoc {n : Node α} {w : Str} {m : Node α} {w' : Str} (h : Goes n w m w') {c : Node α}
    (hp : Pass w' m c) : Goes n w c (w'.drop m.path.length) := by
  induction h with
  | here n w => exact .down hp (.here _ _)
  | down hq _ ih => exact .down hq (ih hp)

theorem Goes.ids {n : Node α} {w : Str} {m : Node α} {w' : Str} (h : Goes n w m w') {x : Nat} (hx : x ∈ m.ids) :
    x ∈ n.ids := by
  induction h with
  | here n w => exact hx
  | down hq _ ih => exact kid_ids hq.mem (ih hx)

theorem Goes.holds {M : Mem α} {n : Node α} {w : Str} {m : Node α} {w' : Str} (h : Goes n w m w') (hn : Holds M n) :
    Holds M m := by
  induction h with
  | here n w => exact hn
  | down hq _ ih => exact ih (hn.kid hq.mem)

/-- The insertion goes no further than `m`. -/
def Stop (w : Str) (m : Node α) : Prop := ∀ c, ¬ Pass w m c

theorem first_match (k : List (Node α)) (x : Option Char) :
    (∀ c ∈ k, c.path.head? ≠ x) ∨
    ∃ pre c post, k = pre ++ c :: post ∧ (∀ d ∈ pre, d.path.head? ≠ x) ∧ c.path.head? = x := by
  induction k with
  | nil => left; simp
  | cons a as ih =>
    by_cases h : a.path.head? = x
    · exact .inr ⟨[], a, as, rfl, by simp, h⟩
    · rcases ih with ih | ⟨pre, c, post, rfl, h1, h2⟩
      · left
        intro c hc
        rcases List.mem_cons.mp hc with rfl | hc
        · exact h
        · exact ih c hc
      · refine .inr ⟨a :: pre, c, post, rfl, ?_, h2⟩
        intro d hd
        rcases List.mem_cons.mp hd with rfl | hd
        · exact h
        · exact h1 d hd

theorem pass_or_stop (w : Str) (n : Node α) : (∃ c, Pass w n c) ∨ Stop w n := by
  by_cases h : ∃ c, Pass w n c
  · exact .inl h
  · exact .inr fun c hc => h ⟨c, hc⟩

theorem Stop.kids {w : Str} {n : Node α} (h : Stop w n) (h1 : n.path <+: w) (h2 : n.path.length < w.length) :
    ∀ c ∈ n.kids, c.path.head? ≠ (w.drop n.path.length).head? := by
  rcases first_match n.kids (w.drop n.path.length).head? with hm | ⟨pre, c, post, hk, ha, hb⟩
  · exact hm
  · exact absurd ⟨h1, h2, pre, post, hk, ha, hb⟩ (h c)

/-- Where the insertion ends. -/
theorem target (n : Node α) : ∀ w, ∃ m w', Goes n w m w' ∧ Stop w' m := by
  induction n using Node.ind with
  | h i p c k ih =>
    intro w
    rcases pass_or_stop w (.mk i p c k) with ⟨d, hd⟩ | hs
    · obtain ⟨m, w', h1, h2⟩ := ih d hd.mem (w.drop p.length)
      exact ⟨m, w', .down hd h1, h2⟩
    · exact ⟨_, w, .here _ _, hs⟩

theorem Goes.unique {n : Node α} {w : Str} {m m' : Node α} {w' w'' : Str} (h : Goes n w m w') (hs : Stop w' m)
    (h' : Goes n w m' w'') (hs' : Stop w'' m') : m = m' ∧ w' = w'' := by
  induction h with
  | here n w =>
    cases h' with
    | here => exact ⟨rfl, rfl⟩
    | down hp _ => exact absurd hp (hs _)
  | down hp _ ih =>
    cases h' with
    | here => exact absurd hp (hs' _)
    | down hp' h' =>
      obtain rfl := hp.unique hp'
      exact ih hs h'

end Race
end Verif

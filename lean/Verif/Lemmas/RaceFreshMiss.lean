import Verif.Lemmas.RaceLeafGet
/-
The lookup of any key, beside `Set` for new keys and `Remove`.
-/
namespace Verif
namespace Parts
variable {α : Type} [Inhabited α]
open Prune (Cell Mem Pc Call Up Shows Sure Task Loop)
open Race (Job)

/-- Two words: what they have in common, and the rest. -/
theorem split_common : ∀ a b : Str, ∃ s x y, a = s ++ x ∧ b = s ++ y ∧ (x = [] ∨ y = [] ∨ ∃ c x' e y', x = c :: x' ∧ y = e :: y' ∧ c ≠ e)
  | [], b => ⟨[], [], b, rfl, rfl, .inl rfl⟩
  | a, [] => ⟨[], a, [], rfl, rfl, .inr (.inl rfl)⟩
  | c :: a, e :: b => by
    by_cases h : c = e
    · subst h
      obtain ⟨s, x, y, rfl, rfl, h⟩ := split_common a b
      exact ⟨c :: s, x, y, rfl, rfl, h⟩
    · exact ⟨[], c :: a, e :: b, rfl, rfl, .inr (.inr ⟨c, a, e, b, rfl, rfl, h⟩)⟩

section
variable {c : Call} {d : Char} {R : (Nat → Nat) → Mem α → Prop} {n : Node α} {w : Str} {par : Option Nat} {stk : List Loop} {σ : Nat → Nat}

theorem comes_part {x : Char} {y : Str} (hwne : w ≠ []) (hp : n.path = w ++ x :: y) (hx : x :: y ≠ [d]) (hS : ∀ σ M, R σ M → (M n.id).path = n.path) :
    Comes (Prune.step c d) R (fun r => r = .ret false true (some n.id) par stk) (0 + 1 + 1 + w.length + 1) σ (.enter w n.id par stk) := by
  refine comes_begin (y := []) hwne hp (by simp) hS
    (.to (.tail w n.id par n.path.length stk) (fun σ' M _ hM => ?_)
      (.to (.ret false true (some n.id) par stk) (fun σ' M _ hM => ?_) (.at _)))
  · simp only [Prune.step]
    rw [if_neg (by omega)]
  · simp only [Prune.step]
    by_cases hl : w.length + 1 = n.path.length
    · rw [if_pos hl, hS σ' M hM, hp, Race.getElem?_mid]
      simp only
      have hy : y = [] := by
        have := congrArg List.length hp
        rw [List.length_append, List.length_cons] at this
        exact List.eq_nil_of_length_eq_zero (by omega)
      rw [if_neg]
      intro e
      exact hx (by rw [hy]; simpa using e)
    · rw [if_neg hl, if_pos (by rw [hp, List.length_append, List.length_cons]; omega)]

theorem comes_diff {s : Str} {a b : Char} {x y : Str} (hp : n.path = s ++ a :: x) (hab : a ≠ b) (hS : ∀ σ M, R σ M → (M n.id).path = n.path) :
    Comes (Prune.step c d) R (fun r => r = .ret false false none none stk) (0 + 1 + s.length + 1) σ (.enter (s ++ b :: y) n.id par stk) := by
  refine comes_begin (by simp) hp rfl hS
    (.to (.ret false false none none stk) (fun σ' M _ hM => ?_) (.at _))
  simp only [Prune.step]
  rw [if_pos (by rw [hp]; simp), hS σ' M hM, hp, Race.getElem?_mid]
  simp only
  rw [Race.getElem?_mid, if_neg (fun e => hab (by simpa using e.symm))]
end

section
variable {v : View} {t : Tree α} {as : List (Act α)} {base : Mem α} {plan : Nat → Option Task} {site : Site α} {B : Nat → Nat}
  {p : Str} {d : Char} {R : (Nat → Nat) → Mem α → Prop} {Q : Pc α → Prop}

/-- At a leaf that has another key. -/
theorem down_leaf {i : Nat} {w word : Str} (hquit : ∀ r, Quits p d r → Q r) (hword : word ≠ []) (h1 : word ≠ w) (h2 : w ≠ word ++ [d]) {σ : Nat → Nat}
    (hG : ∀ σ' M, Up σ σ' → R σ' M → (M i).path = w ∧ (M i).len = 0) :
    Down p d R Q (fun n => n + word.length + w.length + 6) σ word i := by
  intro Nu par stk hstk
  have hG' : ∀ σ' M, R σ' M ∧ Up σ σ' → (M (Node.mk (α := α) i w Core.zero []).id).path = (Node.mk (α := α) i w Core.zero []).path :=
    fun σ' M h => (hG σ' M h.2 h.1).1
  obtain ⟨s, x, y, rfl, rfl, h⟩ := split_common w word
  cases x with
  | nil =>
    cases y with
    | nil => exact absurd rfl h1
    | cons b y =>
      have hc := comes_through (c := .get p) (d := d) (R := fun s M => R s M ∧ Up σ s) (Q := Q) (n := .mk i (s ++ []) Core.zero []) (par := par) (stk := stk) (N := 1)
        (σ := σ) hword (List.cons_ne_nil b y) (by simp) hG' (.inr fun σ' M hs hM => by
          simp only [Prune.step]
          rw [if_pos (show (M (Node.mk i (s ++ []) Core.zero ([] : List (Node α))).id).len = 0 from (hG σ' M hs hM.1).2)]
          exact ⟨trivial, hquit _ (quits_part _ _ _)⟩)
      refine (Comes.within (.refl σ) hc).mono ?_
      simp only [Node.path_mk, List.length_append, List.length_nil, List.length_cons]
      omega
  | cons a x =>
    cases y with
    | nil =>
      rw [List.append_nil] at hword h2 ⊢
      have hc := comes_part (c := .get p) (d := d) (R := fun s M => R s M ∧ Up σ s) (n := .mk i (s ++ a :: x) Core.zero []) (par := par) (stk := stk)
        (σ := σ) hword rfl (fun e => h2 (by rw [e])) hG'
      refine ((Comes.within (.refl σ) hc).weak fun r hr => ?_).mono ?_
      · rw [hr]; exact hquit _ (quits_part _ _ _)
      · simp only [List.length_append, List.length_cons]; omega
    | cons b y =>
      have hab : a ≠ b := by
        rcases h with h | h | ⟨_, _, _, _, h3, h4, h5⟩
        · cases h
        · cases h
        · rw [(List.cons.inj h3).1, (List.cons.inj h4).1]; exact h5
      have hc := comes_diff (c := .get p) (d := d) (R := fun s M => R s M ∧ Up σ s) (n := .mk i (s ++ a :: x) Core.zero []) (par := par) (stk := stk)
        (σ := σ) (y := y) rfl hab hG'
      refine ((Comes.within (.refl σ) hc).trans (m := Nu) fun s r hs hr => ?_).mono ?_
      · rw [hr]; exact hstk s hs
      · simp only [List.length_append, List.length_cons]; omega

/-- Into the children of a node. -/
theorem down_into (X : Setting v t as base plan site B) (hsub : ∀ σ M, R σ M → Tells t (Prune.mems base plan) site σ M) (hquit : ∀ r, Quits p d r → Q r)
    {q : Str} {n : Node α} (hn : (q, n) ∈ t.root.nodes []) (hF : Prune.Firm (Prune.mems base plan) n) {b : Char} {y : Str} {F : Nat → Nat}
    (hkids : ∀ e ∈ n.kids, ∀ σ, Down p d R Q F σ (b :: y) e.id) (hno : ∀ k w, site k = some (n, w) → b :: y ≠ w ∧ w ≠ b :: y ++ [d]) :
    ∃ F', ∀ σ, Down p d R Q F' σ (n.path ++ b :: y) n.id := by
  have hL := (like_looks (plan := plan) (X := Joined site none) X.lays hn).fewer fun s M h => tells_like (hsub s M h)
  have hleaf : ∃ F1 : Nat → Nat, ∀ k w σ M, site k = some (n, w) → R σ M → 0 < σ k → Down p d R Q F1 σ (b :: y) (t.next + 2 * k + 1) := by
    by_cases hx : ∃ k w, site k = some (n, w)
    · obtain ⟨k, w, hk⟩ := hx
      refine ⟨fun m => m + (b :: y).length + w.length + 6, fun k' w' σ M hk' hM h0 => ?_⟩
      · obtain rfl := X.sites k' k n w' n w hk' hk rfl
        rw [hk] at hk'
        cases hk'
        exact down_leaf (w := w) hquit (by simp) (hno _ _ hk).1 (hno _ _ hk).2 fun σ' M' hs hM' => tells_leaf X (hsub _ _ hM') hk (by have := hs k'; omega)
    · exact ⟨id, fun k w _ _ h => absurd ⟨k, w, h⟩ hx⟩
  obtain ⟨F1, hF1⟩ := hleaf
  let F0 : Nat → Nat := fun m => F m + F1 m
  have hread : ∀ σ M0 σ' M k, R σ M0 → k < (M0 n.id).len → Up σ σ' → R σ' M → Down p d R Q F0 σ' (b :: y) ((M n.id).arr.getD k 0) := by
    intro σ M0 σ' M k h0 hk hs hM
    rcases tells_reads X hn (hsub _ _ h0) hs (hsub _ _ hM) hk with ⟨e, he, hee⟩ | ⟨l, w', g1, g2, _, g4⟩
    · rw [hee]
      exact fun Nu par stk hstk => (hkids e he σ' Nu par stk hstk).mono (Nat.le_add_right _ _)
    · rw [g4]
      have hl := hs l
      exact fun Nu par stk hstk => (hF1 l w' σ' M g1 hM (by omega) Nu par stk hstk).mono (Nat.le_add_left _ _)
  have hB : ∀ Nu, ∃ N, ∀ j, j ≤ n.kids.length + 1 → loopSteps F0 Nu j ≤ N := fun Nu => bounded _ _
  refine ⟨fun Nu => (((hB Nu).choose + Nu) + 1 + 1) + 1 + 1 + n.path.length + 1, fun σ Nu par stk hstk => ?_⟩
  refine comes_through (by simp) (by simp) rfl hL.path (.inr fun σ' M hs hM => ?_)
  simp only [Prune.step]
  by_cases h0 : (M n.id).len = 0
  · rw [if_pos h0]
    exact ⟨trivial, .now (hquit _ (quits_part _ _ _)) _⟩
  · rw [if_neg h0]
    refine ⟨trivial, .inr fun σ'' M' hs' hM' => ?_⟩
    simp only [Prune.step]
    by_cases h1 : (M' n.id).len = 0
    · have hpath : n.path = [] := by
        by_cases hx : ∃ k w, site k = some (n, w)
        · obtain ⟨k, w, hk⟩ := hx
          exfalso
          have e1 := (tells_slice X (hsub _ _ hM) hk).2
          have e2 := (tells_slice X (hsub _ _ hM') hk).2
          have := hs' k
          split at e1
          · rw [if_pos (by omega)] at e2; omega
          · omega
        · have hm : (M' n.id).len = (Prune.mems base plan σ'' n.id).len ∧ (M n.id).len = (Prune.mems base plan σ' n.id).len := by
            have one : ∀ {σ : Nat → Nat} {M : Mem α}, Tells t (Prune.mems base plan) site σ M → (M n.id).len = (Prune.mems base plan σ n.id).len := by
              rintro σ M ⟨ext, g, g1, g2⟩
              rw [g1 q n hn]
              rcases g2 n.id with ⟨e, _⟩ | ⟨l, A, w, g3, g4, _⟩
              · rw [e]; simp
              · obtain ⟨_, _, _, a, hA, _⟩ := X.sited.new l A w g3
                obtain ⟨_, rfl⟩ := Prod.mk.inj (X.ok.id_inj hA hn g4)
                exact absurd ⟨l, w, g3⟩ hx
            exact ⟨one (hsub _ _ hM'), one (hsub _ _ hM)⟩
          cases hp : n.path with
          | nil => rfl
          | cons a z =>
            refine absurd (hm.1.symm.trans h1) (hF (by rw [hp]; simp) (fun hk => ?_) σ'')
            have := (Prune.mems_shows (plan := plan) X.lays hn).len σ'
            rw [hk] at this
            have := hm.2
            simp only [List.length_nil] at *
            omega
      rw [if_pos h1, hpath]
      exact ⟨trivial, (hstk σ'' (hs.trans hs')).mono (Nat.le_add_left _ _)⟩
    · rw [if_neg h1, List.drop_left]
      have hb := tells_bound X hn (hsub _ _ hM')
      exact ⟨trivial, (comes_loop (fun s hs3 => hstk s ((hs.trans hs').trans hs3))
        (fun s M3 k hs3 hM3 hk => hread σ'' M' s M3 k hM' hk hs3 hM3) _ 0 (Nat.zero_add _) σ'' (.refl _)).mono
          (Nat.le_trans ((hB Nu).choose_spec _ hb) (Nat.le_add_right _ _))⟩

/-- The whole search. -/
theorem down_safe (X : Setting v t as base plan site B) (hsub : ∀ σ M, R σ M → Tells t (Prune.mems base plan) site σ M) (hquit : ∀ r, Quits p d r → Q r)
    {n : Node α} {w : Str} {par : Option (Node α)} {r : MR α} (h : Node.PM d n w par r) (u : Str)
    (hmatch : ∀ m, r.matched = true → r.child = some m → ∀ pc, Ends m.id pc → Q pc)
    (hin : ∀ q m, (q, m) ∈ n.nodes u → (q, m) ∈ t.root.nodes [])
    (hF : ∀ q m, (q, m) ∈ n.nodes u → q <+: u ++ w → q.length < (u ++ w).length → Prune.Firm (Prune.mems base plan) m)
    (hno : ∀ k A wl a, site k = some (A, wl) → (a, A) ∈ t.root.nodes [] → u ++ w ≠ a ++ wl ∧ a ++ wl ≠ u ++ w ++ [d]) :
    ∃ F, ∀ σ, Down p d R Q F σ w n.id := by
  have here : ∀ {n : Node α} {u : Str}, (u ++ n.path, n) ∈ n.nodes u := fun {n u} => (Node.mem_nodes u n _).mpr (.inl rfl)
  have below : ∀ {n e : Node α} {u q : Str} {m : Node α}, e ∈ n.kids → (q, m) ∈ e.nodes (u ++ n.path) → (q, m) ∈ n.nodes u :=
    fun {n e u q m} he hm => (Node.mem_nodes u n _).mpr (.inr ⟨e, he, hm⟩)
  have hpath : ∀ {q : Str} {m : Node α}, (q, m) ∈ t.root.nodes [] → ∀ σ M, R σ M → (M m.id).path = m.path := fun hm =>
    ((like_looks (plan := plan) (X := Joined site none) X.lays hm).fewer fun s M h => tells_like (hsub s M h)).path
  have hrest : ∀ {n : Node α} {u : Str} {b : Char} {y : Str}, (u ++ n.path, n) ∈ t.root.nodes [] →
      (∀ k A wl a, site k = some (A, wl) → (a, A) ∈ t.root.nodes [] → u ++ (n.path ++ b :: y) ≠ a ++ wl ∧ a ++ wl ≠ u ++ (n.path ++ b :: y) ++ [d]) →
      ∀ k w, site k = some (n, w) → b :: y ≠ w ∧ w ≠ b :: y ++ [d] := by
    intro n u b y hn hno k w hk
    obtain ⟨h1, h2⟩ := hno k n w _ hk hn
    exact ⟨fun e => h1 (by rw [← e]; simp), fun e => h2 (by rw [e]; simp)⟩
  induction h generalizing u with
  | @exact n par hne =>
    refine ⟨fun _ => 0 + 1 + 1 + n.path.length + 1, fun σ Nu par' stk hstk => (comes_exact hne (hpath (hin _ _ here))).weak fun r hr => ?_⟩
    exact hmatch n rfl rfl _ ⟨_, _, hr⟩
  | @delim n w par hwne hp =>
    refine ⟨fun _ => 0 + 1 + 1 + w.length + 1, fun σ Nu par' stk hstk => (comes_delim hwne hp (hpath (hin _ _ here))).weak fun r hr => ?_⟩
    exact hmatch n rfl rfl _ ⟨_, _, hr⟩
  | @part n w x y par hwne hp hx =>
    refine ⟨fun _ => 0 + 1 + 1 + w.length + 1, fun σ Nu par' stk hstk => (comes_part hwne hp hx (hpath (hin _ _ here))).weak fun r hr => ?_⟩
    rw [hr]; exact hquit _ (quits_part _ _ _)
  | @diff n s a b x y par hp hab =>
    refine ⟨fun Nu => 0 + 1 + s.length + 1 + Nu, fun σ Nu par' stk hstk => (comes_diff hp hab (hpath (hin _ _ here))).trans fun σ' r hs hr => ?_⟩
    rw [hr]; exact hstk σ' hs
  | @dead n b y par hk hne =>
    exact down_into (F := id) X hsub hquit (hin _ _ here) (fun _ h => absurd hk h) (fun e he => by rw [hk] at he; cases he) (hrest (hin _ _ here) hno)
  | @deadRoot n b y par hk hne =>
    obtain ⟨F, hD⟩ := down_into (F := id) (b := b) (y := y) X hsub hquit (hin _ _ here) (fun _ h => absurd hk h) (fun e he => by rw [hk] at he; cases he)
      (hrest (hin _ _ here) (by rw [hne]; exact hno))
    rw [hne] at hD
    exact ⟨F, hD⟩
  | @noKid n b y par hk hh =>
    have hwn := (Node.wf_iff n).mp (Node.wf_of_mem X.ok.wf (hin _ _ here))
    exact down_into (F := fun m => 2 + m) X hsub hquit (hin _ _ here) (hF _ n here (by simp) (by simp)) (fun e he σ =>
      down_other (fun m => Nat.le_refl _) (hwn.2 e he).1 (hh e he) fun σ' M _ hM => hpath (hin _ _ (below he here)) σ' M hM) (hrest (hin _ _ here) hno)
  | @kid n ch b y par r hcm hh hr ih =>
    have hwn := (Node.wf_iff n).mp (Node.wf_of_mem X.ok.wf (hin _ _ here))
    obtain ⟨F, hD⟩ := ih (u ++ n.path) hmatch (fun q m hm => hin q m (below hcm hm))
      (fun q m hm h1 h2 => hF q m (below hcm hm) (by simpa using h1) (by simpa using h2)) (by simpa using hno)
    refine down_into (F := fun m => 2 + m + F m) X hsub hquit (hin _ _ here) (hF _ n here (by simp) (by simp)) (fun e he σ => ?_) (hrest (hin _ _ here) hno)
    by_cases heb : e.path.head? = some b
    · have : e = ch := Node.heads_inj hwn.1 he hcm (heb.trans hh.symm)
      subst this
      exact fun Nu par stk hstk => (hD σ Nu par stk hstk).mono (Nat.le_add_left _ _)
    · exact down_other (fun m => Nat.le_add_right _ _) (hwn.2 e he).1 heb fun σ' M _ hM => hpath (hin _ _ (below he here)) σ' M hM
end

end Parts
end Verif

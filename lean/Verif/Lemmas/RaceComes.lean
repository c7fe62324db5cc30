import Verif.Lemmas.RaceMix
/-
Searches while children are removed and leaves are added.
-/
namespace Verif
namespace Parts
variable {α : Type} [Inhabited α]
open Prune (Cell Mem Pc Call Up Shows Sure Task Loop)
open Race (Job)

/-- Whatever the others do meanwhile to the memory, as far as `R` allows it: within `n` steps of its own the goroutine comes to a
state with `Q`, and changes nothing until then. -/
def Comes {β : Type} (f : Mem α → β → Mem α × β) (R : (Nat → Nat) → Mem α → Prop) (Q : β → Prop) : Nat → (Nat → Nat) → β → Prop
  | 0, _, r => Q r
  | n + 1, s, r => Q r ∨ ∀ s' M, Up s s' → R s' M → (f M r).1 = M ∧ Comes f R Q n s' (f M r).2

section
variable {β : Type} {f : Mem α → β → Mem α × β} {R : (Nat → Nat) → Mem α → Prop} {Q Q' : β → Prop}

omit [Inhabited α] in
theorem Comes.now {s : Nat → Nat} {r : β} (h : Q r) : ∀ n, Comes f R Q n s r
  | 0 => h
  | _ + 1 => .inl h

omit [Inhabited α] in
theorem Comes.at {s : Nat → Nat} {r : β} (n : Nat) : Comes f R (fun r' => r' = r) n s r := .now (Q := fun r' => r' = r) rfl n

omit [Inhabited α] in
theorem Comes.up {s s' : Nat → Nat} (hs : Up s s') {r : β} : ∀ {n}, Comes f R Q n s r → Comes f R Q n s' r
  | 0, h => h
  | _ + 1, h => h.imp id fun h t M ht => h t M (hs.trans ht)

omit [Inhabited α] in
theorem Comes.mono {n m : Nat} (hnm : n ≤ m) {s : Nat → Nat} {r : β} (h : Comes f R Q n s r) : Comes f R Q m s r := by
  induction n generalizing m s r with
  | zero => exact .now h m
  | succ n ih =>
    cases m with
    | zero => omega
    | succ m =>
      rcases h with h | h
      · exact .inl h
      · exact .inr fun s' M hs hM => ⟨(h s' M hs hM).1, ih (by omega) (h s' M hs hM).2⟩

omit [Inhabited α] in
theorem Comes.trans {n m : Nat} {s : Nat → Nat} {r : β} (h : Comes f R Q n s r)
    (h' : ∀ s' r, Up s s' → Q r → Comes f R Q' m s' r) : Comes f R Q' (n + m) s r := by
  induction n generalizing s r with
  | zero => exact (h' s r (.refl s) h).mono (by omega)
  | succ n ih =>
    rcases h with h | h
    · exact (h' s r (.refl s) h).mono (by omega)
    · rw [Nat.add_right_comm]
      exact .inr fun s' M hs hM => ⟨(h s' M hs hM).1, ih (h s' M hs hM).2 fun s'' r hs' => h' s'' r (hs.trans hs')⟩

omit [Inhabited α] in
theorem Comes.weak {n : Nat} {s : Nat → Nat} {r : β} (h : Comes f R Q n s r) (h' : ∀ r, Q r → Q' r) :
    Comes f R Q' n s r := (h.trans (m := 0) fun _ r _ hr => h' r hr)

omit [Inhabited α] in
/-- One step with a known outcome. -/
theorem Comes.to {s : Nat → Nat} {r : β} (r' : β) {n : Nat} (e : ∀ s' M, Up s s' → R s' M → f M r = (M, r'))
    (h : Comes f R Q n s r') : Comes f R Q (n + 1) s r := .inr fun s' M hs hM => by
  rw [e s' M hs hM]
  exact ⟨rfl, h.up hs⟩

omit [Inhabited α] in
/-- A state that is never left is the one that is come to. -/
theorem Comes.fixed {r : β} (hf : ∀ M, f M r = (M, r)) (hR : ∀ s : Nat → Nat, ∃ M, R s M) : ∀ {n : Nat} {s : Nat → Nat}, Comes f R Q n s r → Q r
  | 0, _, h => h
  | n + 1, s, h => by
    rcases h with h | h
    · exact h
    · obtain ⟨M, hM⟩ := hR s
      have := (h s M (.refl s) hM).2
      rw [hf] at this
      exact Comes.fixed hf hR this
end

/-- What all memories that are allowed have in common with `ms` at a node: the path, and the elements. -/
structure Looks (R : (Nat → Nat) → Mem α → Prop) (ms : (Nat → Nat) → Mem α) (m : Node α) : Prop where
  path : ∀ s M, R s M → (M m.id).path = m.path
  arr : ∀ s M k, R s M → k < (ms s m.id).arr.length → (M m.id).arr.getD k 0 = (ms s m.id).arr.getD k 0
  grown : ∀ s M, R s M → (ms s m.id).arr.length ≤ (M m.id).arr.length
  len : ∀ s M, R s M → (ms s m.id).len ≤ (M m.id).len
  fits : ∀ s, (ms s m.id).len ≤ (ms s m.id).arr.length
  same : ∀ s s', (ms s m.id).arr.length = (ms s' m.id).arr.length

section
variable {c : Call} {d : Char} {R : (Nat → Nat) → Mem α → Prop} {ms : (Nat → Nat) → Mem α}

theorem comes_cmp {Q : Pc α → Prop} {w s x y : Str} {i : Nat} {par : Option Nat} (hw : w = s ++ y)
    (hG : ∀ σ M, R σ M → (M i).path = s ++ x) (stk : List Loop) {N : Nat} {σ : Nat → Nat} : ∀ j k, j + k = s.length →
      Comes (Prune.step c d) R Q N σ (.cmp w i par (s ++ x).length s.length stk) →
      Comes (Prune.step c d) R Q (N + j) σ (.cmp w i par (s ++ x).length k stk) := by
  intro j
  induction j with
  | zero => intro k hk h; rw [Nat.zero_add] at hk; rw [hk]; exact h
  | succ j ih =>
    intro k hk h
    refine .to (.cmp w i par (s ++ x).length (k + 1) stk) (fun σ' M _ hM => ?_) (ih (k + 1) (by omega) h)
    have hk' : k < s.length := by omega
    simp only [Prune.step]
    rw [if_pos (by rw [hw]; simp; omega), hG σ' M hM, List.getElem?_append_left hk', List.getElem?_eq_getElem hk']
    simp only
    rw [hw, List.getElem?_append_left hk', List.getElem?_eq_getElem hk', if_pos rfl]

theorem comes_other {e : Node α} {b : Char} {y : Str} {par : Option Nat} (hne : e.path ≠ []) (hb : e.path.head? ≠ some b)
    (hG : ∀ σ M, R σ M → (M e.id).path = e.path) (stk : List Loop) (σ : Nat → Nat) :
    Comes (Prune.step c d) R (fun r => r = .ret false false none none stk) 2 σ (.enter (b :: y) e.id par stk) := by
  obtain ⟨a, p, hp⟩ := List.exists_cons_of_ne_nil hne
  have hab : a ≠ b := fun e' => hb (by rw [hp, e']; rfl)
  refine .to (.cmp (b :: y) e.id par (a :: p).length 0 stk) (fun σ' M _ hM => ?_)
    (.to (.ret false false none none stk) (fun σ' M _ hM => ?_) (.at 0))
  · simp only [Prune.step]
    rw [if_neg (by simp), hG σ' M hM, hp]
  · simp only [Prune.step]
    rw [if_pos (by simp), hG σ' M hM, hp]
    simp only [List.getElem?_cons_zero]
    rw [if_neg (by simp; exact fun h => hab h.symm)]

section steps
variable {n : Node α} {w : Str} {Q : Pc α → Prop} {stk : List Loop} {par : Option Nat} {N : Nat} {σ : Nat → Nat}

theorem comes_begin {s x y : Str} (hw : w ≠ []) (h1 : n.path = s ++ x) (h2 : w = s ++ y) (hS : ∀ σ M, R σ M → (M n.id).path = n.path)
    (h : Comes (Prune.step c d) R Q N σ (.cmp w n.id par n.path.length s.length stk)) :
    Comes (Prune.step c d) R Q (N + s.length + 1) σ (.enter w n.id par stk) := by
  refine .to (.cmp w n.id par n.path.length 0 stk) (fun σ' M _ hM => ?_) ?_
  · simp only [Prune.step]
    rw [if_neg hw, hS σ' M hM]
  · rw [h1] at h ⊢
    exact comes_cmp h2 (fun σ' M hM => by rw [← h1]; exact hS σ' M hM) stk _ 0 (by omega) h

theorem comes_through {y : Str} (hw : w ≠ []) (hy : y ≠ []) (h2 : w = n.path ++ y) (hS : ∀ σ M, R σ M → (M n.id).path = n.path)
    (h : Comes (Prune.step c d) R Q N σ (.kids w n.id par n.path.length stk)) :
    Comes (Prune.step c d) R Q (N + 1 + 1 + n.path.length + 1) σ (.enter w n.id par stk) := by
  have hyl := List.length_pos_iff.mpr hy
  refine comes_begin (x := []) hw (by simp) h2 hS (.to (.tail w n.id par n.path.length stk) (fun σ' M _ _ => ?_)
    (.to (.kids w n.id par n.path.length stk) (fun σ' M _ _ => ?_) h))
  · simp only [Prune.step]
    rw [if_neg (by rw [h2]; simp)]
  · have : w.length = n.path.length + y.length := by rw [h2]; simp
    simp only [Prune.step]
    rw [if_neg (by omega), if_neg (by omega), if_pos (by omega)]

theorem comes_exact (hne : n.path ≠ []) (hS : ∀ σ M, R σ M → (M n.id).path = n.path) :
    Comes (Prune.step c d) R (fun r => r = .ret true false (some n.id) par stk) (0 + 1 + 1 + n.path.length + 1) σ (.enter n.path n.id par stk) := by
  refine comes_begin (x := []) (y := []) hne (by simp) (by simp) hS
    (.to (.tail n.path n.id par n.path.length stk) (fun σ' M _ _ => ?_)
      (.to (.ret true false (some n.id) par stk) (fun σ' M _ _ => ?_) (.at _)))
  · simp only [Prune.step]
    rw [if_neg (by simp)]
  · simp only [Prune.step]
    rw [if_neg (by omega), if_neg (by omega), if_neg (by omega)]

theorem comes_delim (hwne : w ≠ []) (hp : n.path = w ++ [d]) (hS : ∀ σ M, R σ M → (M n.id).path = n.path) :
    Comes (Prune.step c d) R (fun r => r = .ret true false (some n.id) par stk) (0 + 1 + 1 + w.length + 1) σ (.enter w n.id par stk) := by
  refine comes_begin (y := []) hwne hp (by simp) hS
    (.to (.tail w n.id par n.path.length stk) (fun σ' M _ _ => ?_)
      (.to (.ret true false (some n.id) par stk) (fun σ' M _ hM => ?_) (.at _)))
  · simp only [Prune.step]
    rw [if_neg (by omega)]
  · simp only [Prune.step]
    rw [if_pos (by rw [hp]; simp), hS σ' M hM, hp, Race.getElem?_mid]
    simp only [if_true]
end steps

/-- The loop over the children, if it is sure to come to `ch`. -/
theorem comes_sure {Q : Pc α → Prop} {n ch : Node α} {b : Char} {y : Str} {stk : List Loop} {N h k' : Nat} (hw : n.WF)
    (hch : ch ∈ n.kids) (hb : ch.path.head? = some b) (hK : ∀ e ∈ n.kids, ∀ σ M, R σ M → (M e.id).path = e.path)
    (hin : ∀ σ' stk', Comes (Prune.step c d) R Q N σ' (.enter (b :: y) ch.id (some n.id) stk')) :
    ∀ j k, j + k = k' → k' < h → ∀ σ, (∀ σ' M, Up σ σ' → R σ' M → ∀ k, k < k' → ∃ e ∈ n.kids, (M n.id).arr.getD k 0 = e.id) →
      (∀ σ' M, Up σ σ' → R σ' M → (M n.id).arr.getD k' 0 = ch.id) →
      Comes (Prune.step c d) R Q (N + 3 * j + 1) σ (.ret false false none none (⟨n.id, h, k, b :: y⟩ :: stk)) := by
  have hwn := (Node.wf_iff n).mp hw
  intro j
  induction j with
  | zero =>
    intro k hk hh σ hel hat
    rw [Nat.zero_add] at hk
    subst hk
    refine .inr fun σ' M hs hM => ?_
    simp only [Prune.step, Bool.or_self, Bool.false_eq_true, if_false]
    rw [if_pos hh, hat σ' M hs hM]
    exact ⟨trivial, hin σ' _⟩
  | succ j ih =>
    intro k hk hh σ hel hat
    refine .inr fun σ' M hs hM => ?_
    simp only [Prune.step, Bool.or_self, Bool.false_eq_true, if_false]
    rw [if_pos (by omega)]
    obtain ⟨e, he, hee⟩ := hel σ' M hs hM k (by omega)
    rw [hee]
    refine ⟨trivial, ?_⟩
    by_cases heb : e.path.head? = some b
    · have : e = ch := Node.heads_inj hwn.1 he hch (heb.trans hb.symm)
      subst this
      exact (hin σ' _).mono (by omega)
    · have h1 := comes_other (c := c) (d := d) (b := b) (y := y) (par := some n.id) (hwn.2 e he).1 heb (hK e he)
        (⟨n.id, h, k + 1, b :: y⟩ :: stk) σ'
      refine Comes.mono (n := 2 + (N + 3 * j + 1)) (by omega) (h1.trans fun s r hs' hr => ?_)
      subst hr
      exact ih (k + 1) (by omega) hh s (fun σ'' M hs'' => hel σ'' M ((hs.trans hs').trans hs''))
        fun σ'' M hs'' => hat σ'' M ((hs.trans hs').trans hs'')

omit [Inhabited α] in
/-- The elements that a loop reads until it comes to a child that it is sure to come to. -/
theorem Looks.reads {n ch : Node α} (hL : Looks R ms n) (hS : Shows ms n) (hsure : Sure ms n ch) (σ : Nat → Nat) (M0 : Mem α) (h0 : R σ M0) :
    ∃ k, k < (M0 n.id).len ∧ k < n.kids.length ∧ (∀ σ' M, Up σ σ' → R σ' M → (M n.id).arr.getD k 0 = ch.id) ∧
      ∀ σ' M, Up σ σ' → R σ' M → ∀ j, j < k → ∃ e ∈ n.kids, (M n.id).arr.getD j 0 = e.id := by
  obtain ⟨k, hk, hat⟩ := hsure σ
  have h1 := hL.len σ M0 h0
  have h2 := hS.len σ
  have h3 := hL.fits σ
  refine ⟨k, by omega, by omega, fun σ' M hs hM => ?_, fun σ' M hs hM j hj => ?_⟩
  · rw [hL.arr σ' M k hM (by rw [hL.same σ' σ]; omega)]
    exact hat σ' hs
  · obtain ⟨e, he, hee⟩ := hS.elts σ σ' j hs (by omega)
    exact ⟨e, he, by rw [hL.arr σ' M j hM (by rw [hL.same σ' σ]; omega)]; exact hee⟩

/-- A search that comes to a node and is not disturbed finds it. -/
theorem comes_kept {n : Node α} {w : Str} {par : Option (Node α)} {r : MR α} (h : Node.PM d n w par r) (hm : r.matched = true)
    (hw : n.WF) (u : Str) (hS : ∀ q m, (q, m) ∈ n.nodes u → Shows ms m) (hL : ∀ q m, (q, m) ∈ n.nodes u → Looks R ms m) :
    ∃ K m, r.child = some m ∧ (K, m) ∈ n.nodes u ∧
      ((∀ q m ch, (q, m) ∈ n.nodes u → ch ∈ m.kids → q ++ ch.path <+: K → Sure ms m ch) →
        ∃ N, ∀ σ stk, Comes (Prune.step c d) R (Prune.Hit r) N σ (.enter w n.id (par.map Node.id) stk)) := by
  have here : ∀ {n : Node α} {u : Str}, (u ++ n.path, n) ∈ n.nodes u := fun {n u} => (Node.mem_nodes u n _).mpr (.inl rfl)
  have below : ∀ {n e : Node α} {u q : Str} {m : Node α}, e ∈ n.kids → (q, m) ∈ e.nodes (u ++ n.path) → (q, m) ∈ n.nodes u :=
    fun {n e u q m} he hm => (Node.mem_nodes u n _).mpr (.inr ⟨e, he, hm⟩)
  induction h generalizing u with
  | @exact n par hne =>
    exact ⟨_, n, rfl, here, fun _ => ⟨_, fun σ stk => (comes_exact hne (hL _ n here).path).weak fun r hr => by rw [hr]; exact ⟨stk, rfl⟩⟩⟩
  | @delim n w par hwne hp =>
    exact ⟨_, n, rfl, here, fun _ => ⟨_, fun σ stk => (comes_delim hwne hp (hL _ n here).path).weak fun r hr => by rw [hr]; exact ⟨stk, rfl⟩⟩⟩
  | @kid n ch b y par r hcm hh hr ih =>
    have hwn := (Node.wf_iff n).mp hw
    obtain ⟨K, m, h1, h2, h3⟩ := ih hm (hwn.2 ch hcm).2 (u ++ n.path) (fun q m hm => hS q m (below hcm hm)) (fun q m hm => hL q m (below hcm hm))
    refine ⟨K, m, h1, below hcm h2, fun hK => ?_⟩
    obtain ⟨N, hN⟩ := h3 fun q m ch' hm h1 h2 => hK q m ch' (below hcm hm) h1 h2
    have hsure := hK _ n ch here hcm (Node.prefix_of_mem_nodes h2)
    have hSn := hS _ n here
    have hLn := hL _ n here
    refine ⟨(N + 3 * n.kids.length + 1) + 1 + 1 + 1 + 1 + n.path.length + 1, fun σ stk =>
      comes_through (by simp) (by simp) rfl hLn.path (.inr fun σ' M hs hM => ?_)⟩
    simp only [Prune.step]
    obtain ⟨k0, hk0, _⟩ := hLn.reads hSn hsure σ' M hM
    rw [if_neg (by omega)]
    refine ⟨trivial, .inr fun σ'' M hs' hM => ?_⟩
    simp only [Prune.step]
    obtain ⟨k, hk, hk2, hat, hel⟩ := hLn.reads hSn hsure σ'' M hM
    rw [if_neg (by omega), List.drop_left]
    exact ⟨trivial, Comes.mono (by omega) (comes_sure hw hcm hh (fun e he => (hL _ e (below he here)).path) hN k 0 (by omega) hk σ''
      hel hat)⟩
  | _ => exact absurd hm (by simp)

/-- A search for a key that is stored, if it is not disturbed. -/
theorem comes_found {t : Tree α} (c : Call) (h : t.OK) {w : Str} (hp : t.ClearAt d w) (hw : w ≠ [])
    (hS : ∀ q m, (q, m) ∈ t.root.nodes [] → Shows ms m) (hL : ∀ q m, (q, m) ∈ t.root.nodes [] → Looks R ms m)
    {q : Str} {m : Node α} (hr : resolve d t.nodeAt w = some (q, m))
    (hK : ∀ u P ch, (u, P) ∈ t.root.nodes [] → ch ∈ P.kids → u ++ ch.path <+: q → Sure ms P ch) :
    ∃ P u, (u, P) ∈ t.root.nodes [] ∧ m ∈ P.kids ∧ ∃ N, ∀ σ,
      Comes (Prune.step c d) R (fun r => ∃ stk, r = .ret true false (some m.id) (some P.id) stk) N σ (.enter w t.root.id none []) := by
  obtain ⟨r, h2, h3⟩ := Prune.search_outcome h hp hw
  rcases h3 with ⟨q', m', P, u, rfl, h4, h5, h6, h7⟩ | ⟨_, h4⟩
  · rw [hr] at h4
    obtain ⟨rfl, rfl⟩ := Prod.mk.inj (Option.some.inj h4)
    obtain ⟨K, m', e, hm', hL⟩ := comes_kept (c := c) h2 rfl h.wf [] hS hL
    cases e
    have : K = q := congrArg Prod.fst (h.id_inj hm' h5 rfl)
    subst this
    obtain ⟨N, hN⟩ := hL hK
    exact ⟨P, u, h6, h7, N, fun σ => hN σ []⟩
  · rw [hr] at h4; cases h4

/-! ### `Set` -/

variable {J : Job α}

theorem comes_scan {Q : SetPc → Prop} {n ch : Node α} {w : Str} {N h k' : Nat} (hw : n.WF) (hch : ch ∈ n.kids) (hb : ch.path.head? = w.head?)
    (hK : ∀ e ∈ n.kids, ∀ σ M, R σ M → (M e.id).path = e.path) (hin : ∀ σ, Comes (insStep J) R Q N σ (.enter w ch.id)) :
    ∀ j k, j + k = k' → k' < h → ∀ σ, (∀ σ' M, Up σ σ' → R σ' M → ∀ k, k < k' → ∃ e ∈ n.kids, (M n.id).arr.getD k 0 = e.id) →
      (∀ σ' M, Up σ σ' → R σ' M → (M n.id).arr.getD k' 0 = ch.id) → Comes (insStep J) R Q (N + j + 1) σ (.scan w n.id h k) := by
  have hwn := (Node.wf_iff n).mp hw
  intro j
  induction j with
  | zero =>
    intro k hk hh σ hel hat
    rw [Nat.zero_add] at hk
    subst hk
    refine .inr fun σ' M hs hM => ⟨rfl, ?_⟩
    simp only [insStep]
    rw [if_pos hh, hat σ' M hs hM, hK ch hch σ' M hM, if_pos hb]
    exact hin σ'
  | succ j ih =>
    intro k hk hh σ hel hat
    refine .inr fun σ' M hs hM => ⟨rfl, ?_⟩
    obtain ⟨e, he, hee⟩ := hel σ' M hs hM k (by omega)
    simp only [insStep]
    rw [if_pos (by omega), hee, hK e he σ' M hM]
    by_cases hd : e.path.head? = w.head?
    · rw [if_pos hd]
      have : e = ch := Node.heads_inj hwn.1 he hch (hd.trans hb.symm)
      subst this
      exact (hin σ').mono (by omega)
    · rw [if_neg hd]
      exact ih (k + 1) (by omega) hh σ' (fun σ'' M hs'' => hel σ'' M (hs.trans hs'')) fun σ'' M hs'' => hat σ'' M (hs.trans hs'')

/-- The way of `Set` to a node, on which or below which its key is. -/
theorem comes_node {q : Str} {m : Node α} {z : Str} (n : Node α) : ∀ (u w : Str), n.WF → (∀ a A, (a, A) ∈ n.nodes u → Shows ms A) →
    (∀ a A, (a, A) ∈ n.nodes u → Looks R ms A) →
    (∀ a A ch, (a, A) ∈ n.nodes u → ch ∈ A.kids → a ++ ch.path <+: q → Sure ms A ch) → (q, m) ∈ n.nodes u → q ++ z = u ++ w →
    ∃ N, ∀ σ, Comes (insStep J) R (fun r => r = .enter (m.path ++ z) m.id) N σ (.enter w n.id) := by
  induction n using Node.ind with
  | h i p c k ih =>
    intro u w hw hS hL hK hm hq
    have hwn := (Node.wf_iff _).mp hw
    have hSn := hS _ _ ((Node.mem_nodes u _ _).mpr (.inl rfl))
    have hLn := hL _ _ ((Node.mem_nodes u _ _).mpr (.inl rfl))
    rcases (Node.mem_nodes u _ _).mp hm with e | ⟨e, he, hm'⟩
    · cases e
      simp only [Node.path_mk] at hq
      rw [List.append_assoc] at hq
      have hwp : w = p ++ z := (List.append_cancel_left hq).symm
      exact ⟨0, fun σ => by rw [hwp]; exact rfl⟩
    · simp only [Node.kids_mk, Node.path_mk] at he hm'
      have hpre := Node.prefix_of_mem_nodes hm'
      obtain ⟨y, hy⟩ := hpre
      have hwe : w = p ++ (e.path ++ (y ++ z)) := by
        have : u ++ w = u ++ (p ++ (e.path ++ (y ++ z))) := by rw [← hq, ← hy]; simp
        exact List.append_cancel_left this
      have hne := (hwn.2 e he).1
      have hepos := List.length_pos_iff.mpr hne
      have hhead : e.path.head? = (e.path ++ (y ++ z)).head? := by
        obtain ⟨a, b, hab⟩ := List.exists_cons_of_ne_nil hne
        rw [hab]; rfl
      obtain ⟨N, hN⟩ := ih e he (u ++ p) (e.path ++ (y ++ z)) (hwn.2 e he).2
        (fun a A hA => hS a A ((Node.mem_nodes u _ _).mpr (.inr ⟨e, he, hA⟩)))
        (fun a A hA => hL a A ((Node.mem_nodes u _ _).mpr (.inr ⟨e, he, hA⟩)))
        (fun a A ch hA => hK a A ch ((Node.mem_nodes u _ _).mpr (.inr ⟨e, he, hA⟩))) hm'
        (by rw [← hy]; simp)
      have hsure := hK _ _ e ((Node.mem_nodes u _ _).mpr (.inl rfl)) he (by simp only [Node.path_mk]; exact ⟨y, hy⟩)
      refine ⟨(N + k.length + 1) + 1 + 1, fun σ => .inr fun σ' M hs hM => ?_⟩
      have e1 : (M i).path = p := hLn.path σ' M hM
      have hc : Race.cplOf w p = p.length := by
        rw [Race.cplOf_eq]; exact Race.cpl_prefix (by rw [hwe]; exact List.prefix_append _ _)
      have hlw : p.length < w.length := by rw [hwe]; simp only [List.length_append]; omega
      have hk0 : (kids (M i)).length ≠ 0 := by
        obtain ⟨k0, hk0, _⟩ := hsure σ'
        have a1 := hLn.len σ' M hM
        have a2 := hLn.grown σ' M hM
        have a3 := hLn.fits σ'
        simp only [Node.id_mk] at hk0 a1 a2 a3
        show ((M i).arr.take (M i).len).length ≠ 0
        rw [List.length_take]; omega
      simp only [Node.id_mk, insStep, e1]
      rw [if_neg (fun h => hk0 h.2.2), hc, if_neg (by omega), if_pos hlw]
      refine ⟨rfl, .inr fun σ'' M hs' hM => ⟨rfl, ?_⟩⟩
      simp only [insStep]
      have hd : w.drop p.length = e.path ++ (y ++ z) := by rw [hwe, List.drop_left]
      rw [hd]
      obtain ⟨k0, hk0, hk2, hat, hel⟩ := hLn.reads hSn hsure σ'' M hM
      simp only [Node.kids_mk] at hk2
      exact Comes.mono (by omega) (comes_scan hw he hhead
        (fun e' he' => (hL _ e' ((Node.mem_nodes u _ _).mpr (.inr ⟨e', he', (Node.mem_nodes _ _ _).mpr (.inl rfl)⟩))).path) hN k0 0
        (by omega) hk0 σ'' hel hat)

/-- At the node of its key. -/
theorem comes_mark {m : Node α} (hL : Looks R ms m) (σ : Nat → Nat) : Comes (insStep J) R (fun r => r = .mark m.id) 1 σ (.enter m.path m.id) := by
  refine .inr fun σ' M _ hM => ?_
  have e1 := hL.path σ' M hM
  have hc : Race.cplOf m.path m.path = m.path.length := by
    rw [Race.cplOf_eq]; exact Race.cpl_prefix (List.prefix_refl _)
  simp only [insStep, e1]
  rw [if_neg (by rintro ⟨h1, h2, _⟩; omega), hc, if_neg (by omega), if_neg (by omega)]
  exact ⟨rfl, rfl⟩

/-- At the node to which it is to add a leaf. -/
theorem comes_leaf {m : Node α} {z : Str} (hz : z ≠ []) (hL : Looks R ms m) (hK : ∀ e ∈ m.kids, ∀ σ M, R σ M → (M e.id).path = e.path)
    (hkids : ∀ e ∈ m.kids, e.path.head? ≠ z.head?) (hat : ∀ σ M, R σ M → (M m.id).arr = m.kids.map Node.id ∧ (M m.id).len = m.kids.length)
    (σ : Nat → Nat) :
    Comes (insStep J) R (fun r => r = .leaf z m.id) (m.kids.length + 1 + 1 + 1) σ (.enter (m.path ++ z) m.id) := by
  have hzl := List.length_pos_iff.mpr hz
  have scan : ∀ j k, j + k = m.kids.length → ∀ σ, Comes (insStep J) R (fun r => r = .leaf z m.id) (j + 1) σ (.scan z m.id m.kids.length k) := by
    intro j
    induction j with
    | zero =>
      intro k hk σ
      refine .to (.leaf z m.id) (fun σ' M _ hM => ?_) (.at 0)
      simp only [insStep]
      rw [if_neg (by omega)]
    | succ j ih =>
      intro k hk σ
      refine .to (.scan z m.id m.kids.length (k + 1)) (fun σ' M _ hM => ?_) (ih (k + 1) (by omega) σ)
      have hlt : k < m.kids.length := by omega
      simp only [insStep]
      rw [if_pos hlt, (hat σ' M hM).1, Prune.ids_getD hlt, hK _ (List.getElem_mem hlt) σ' M hM, if_neg (hkids _ (List.getElem_mem hlt))]
  refine .inr fun σ' M _ hM => ?_
  have e1 := hL.path σ' M hM
  have hc : Race.cplOf (m.path ++ z) m.path = m.path.length := by
    rw [Race.cplOf_eq]; exact Race.cpl_prefix (List.prefix_append _ _)
  simp only [insStep, e1]
  by_cases h0 : m.path.length = 0 ∧ (m.path ++ z).length > 0 ∧ (kids (M m.id)).length = 0
  · rw [if_pos h0, List.eq_nil_of_length_eq_zero h0.1]
    exact ⟨rfl, Comes.at (r := SetPc.leaf z m.id) _⟩
  · rw [if_neg h0, hc, if_neg (by omega), if_pos (by rw [List.length_append]; omega), List.drop_left]
    refine ⟨rfl, .to (.scan z m.id m.kids.length 0) (fun σ' M _ hM => ?_) (scan _ 0 (by omega) _)⟩
    simp only [insStep]
    rw [(hat σ' M hM).2]
end

end Parts
end Verif

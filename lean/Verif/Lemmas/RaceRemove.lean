import Verif.Model.RaceRemove
import Verif.Lemmas.RaceRead
/-
A search with a program counter while children are removed.
-/
namespace Verif
namespace Prune
variable {α : Type} [Inhabited α]

/-- How far the goroutines have come: it only grows. -/
def Up (s s' : Nat → Nat) : Prop := ∀ k, s k ≤ s' k

theorem Up.refl (s : Nat → Nat) : Up s s := fun _ => Nat.le_refl _
theorem Up.trans {s s' s'' : Nat → Nat} (h : Up s s') (h' : Up s' s'') : Up s s'' := fun k => Nat.le_trans (h k) (h' k)

/-- Whatever the others do meanwhile: within `n` steps of its own the goroutine comes to a state with `Q`. -/
def Leads (c : Call) (d : Char) (ms : (Nat → Nat) → Mem α) (Q : Pc α → Prop) : Nat → (Nat → Nat) → Pc α → Prop
  | 0, _, r => Q r
  | n + 1, s, r => Q r ∨ ∀ s', Up s s' → Leads c d ms Q n s' (step c d (ms s') r).2

section
variable {c : Call} {d : Char} {ms : (Nat → Nat) → Mem α} {Q Q' : Pc α → Prop}

theorem Leads.now {s : Nat → Nat} {r : Pc α} (h : Q r) : ∀ n, Leads c d ms Q n s r
  | 0 => h
  | _ + 1 => .inl h

theorem Leads.at {s : Nat → Nat} {r : Pc α} (n : Nat) : Leads c d ms (fun r' => r' = r) n s r := .now (Q := fun r' => r' = r) rfl n

theorem Leads.up {s s' : Nat → Nat} (hs : Up s s') {r : Pc α} : ∀ {n}, Leads c d ms Q n s r → Leads c d ms Q n s' r
  | 0, h => h
  | _ + 1, h => h.imp id fun h t ht => h t (hs.trans ht)

theorem Leads.mono {n m : Nat} (hnm : n ≤ m) {s : Nat → Nat} {r : Pc α} (h : Leads c d ms Q n s r) : Leads c d ms Q m s r := by
  induction n generalizing m s r with
  | zero => exact .now h m
  | succ n ih =>
    cases m with
    | zero => omega
    | succ m =>
      rcases h with h | h
      · exact .inl h
      · exact .inr fun s' hs => ih (by omega) (h s' hs)

theorem Leads.trans {n m : Nat} {s : Nat → Nat} {r : Pc α} (h : Leads c d ms Q n s r)
    (h' : ∀ s' r, Up s s' → Q r → Leads c d ms Q' m s' r) : Leads c d ms Q' (n + m) s r := by
  induction n generalizing s r with
  | zero => exact (h' s r (.refl s) h).mono (by omega)
  | succ n ih =>
    rcases h with h | h
    · exact (h' s r (.refl s) h).mono (by omega)
    · rw [Nat.add_right_comm]
      exact .inr fun s' hs => ih (h s' hs) fun s'' r hs' => h' s'' r (hs.trans hs')

theorem Leads.weak {n : Nat} {s : Nat → Nat} {r : Pc α} (h : Leads c d ms Q n s r) (h' : ∀ r, Q r → Q' r) :
    Leads c d ms Q' n s r := (h.trans (m := 0) fun _ r _ hr => h' r hr)

/-- One step with a known outcome. -/
theorem Leads.to {s : Nat → Nat} {r : Pc α} (r' : Pc α) {n : Nat} (e : ∀ s', Up s s' → (step c d (ms s') r).2 = r')
    (h : Leads c d ms Q n s r') : Leads c d ms Q (n + 1) s r := .inr fun s' hs => by rw [e s' hs]; exact h.up hs
end

/-- What the memories have in common with the tree at a node: the path, and that every element a loop may read is a
child. -/
structure Shows (ms : (Nat → Nat) → Mem α) (m : Node α) : Prop where
  path : ∀ s, (ms s m.id).path = m.path
  core : ∀ s, (ms s m.id).core = m.core
  len : ∀ s, (ms s m.id).len ≤ m.kids.length
  elts : ∀ s s' k, Up s s' → k < (ms s m.id).len → ∃ c ∈ m.kids, (ms s' m.id).arr.getD k 0 = c.id

/-- A node with children never loses all of them (at the root it does not matter). -/
def Firm (ms : (Nat → Nat) → Mem α) (m : Node α) : Prop := m.path ≠ [] → m.kids ≠ [] → ∀ s, (ms s m.id).len ≠ 0

/-- A loop over the children of `m` comes to `c`, whenever it begins. -/
def Sure (ms : (Nat → Nat) → Mem α) (m c : Node α) : Prop :=
  ∀ s, ∃ k, k < (ms s m.id).len ∧ ∀ s', Up s s' → (ms s' m.id).arr.getD k 0 = c.id

omit [Inhabited α] in
theorem Shows.nil {ms : (Nat → Nat) → Mem α} {m : Node α} (h : Shows ms m) (hk : m.kids = []) (s) : (ms s m.id).len = 0 := by
  rcases Nat.eq_zero_or_pos (ms s m.id).len with h0 | h0
  · exact h0
  · obtain ⟨c, hc, _⟩ := h.elts s s 0 (.refl s) h0
    rw [hk] at hc; cases hc

/-- The outcomes of a search that comes to `r` in the tree: it may also find nothing. -/
def Good (r : MR α) (stk : List Loop) (pc : Pc α) : Prop :=
  (r.matched = true ∧ r.part = false ∧ ∃ stk', pc = .ret true false (r.child.map Node.id) (r.parent.map Node.id) stk') ∨
  (∃ ch par stk', pc = .ret false true ch par stk') ∨ pc = .ret false false none none stk

/-- The only outcome of a search that is not disturbed. -/
def Hit (r : MR α) (pc : Pc α) : Prop :=
  ∃ stk', pc = .ret true false (r.child.map Node.id) (r.parent.map Node.id) stk'

section
variable {c : Call} {d : Char} {ms : (Nat → Nat) → Mem α}

/-- The comparing loop goes through what the path and the word have in common. -/
theorem leads_cmp {Q : Pc α → Prop} {w s x y : Str} {i : Nat} {par : Option Nat} (hw : w = s ++ y)
    (hG : ∀ σ, (ms σ i).path = s ++ x) (stk : List Loop) {N : Nat} {σ : Nat → Nat} : ∀ j k, j + k = s.length →
      Leads c d ms Q N σ (.cmp w i par (s ++ x).length s.length stk) →
      Leads c d ms Q (N + j) σ (.cmp w i par (s ++ x).length k stk) := by
  intro j
  induction j with
  | zero => intro k hk h; rw [Nat.zero_add] at hk; rw [hk]; exact h
  | succ j ih =>
    intro k hk h
    refine .to (.cmp w i par (s ++ x).length (k + 1) stk) (fun σ' _ => ?_) (ih (k + 1) (by omega) h)
    have hk' : k < s.length := by omega
    simp only [step]
    rw [if_pos (by rw [hw]; simp; omega), hG σ', List.getElem?_append_left hk', List.getElem?_eq_getElem hk']
    simp only
    rw [hw, List.getElem?_append_left hk', List.getElem?_eq_getElem hk', if_pos rfl]

/-- A node with another first rune is left at once. -/
theorem leads_miss {b : Char} {y : Str} {i : Nat} {par : Option Nat} {a : Char} {p : Str} (hab : a ≠ b)
    (hG : ∀ σ, (ms σ i).path = a :: p) (stk : List Loop) (σ : Nat → Nat) :
    Leads c d ms (fun r => r = .ret false false none none stk) 2 σ (.enter (b :: y) i par stk) := by
  refine .to (.cmp (b :: y) i par (a :: p).length 0 stk) (fun σ' _ => ?_)
    (.to (.ret false false none none stk) (fun σ' _ => ?_) (.at 0))
  · simp only [step]
    rw [if_neg (by simp), hG]
  · simp only [step]
    rw [if_pos (by simp), hG]
    simp only [List.getElem?_cons_zero]
    rw [if_neg (by simp; exact fun h => hab h.symm)]

section steps
variable {n : Node α} {w : Str} {Q : Pc α → Prop} {stk : List Loop} {par : Option Nat} {N : Nat} {σ : Nat → Nat}

theorem leads_begin {s x y : Str} (hw : w ≠ []) (h1 : n.path = s ++ x) (h2 : w = s ++ y) (hS : Shows ms n)
    (h : Leads c d ms Q N σ (.cmp w n.id par n.path.length s.length stk)) :
    Leads c d ms Q (N + s.length + 1) σ (.enter w n.id par stk) := by
  refine .to (.cmp w n.id par n.path.length 0 stk) (fun σ' _ => ?_) ?_
  · simp only [step]
    rw [if_neg hw, hS.path]
  · rw [h1] at h ⊢
    exact leads_cmp h2 (fun σ' => by rw [← h1]; exact hS.path σ') stk _ 0 (by omega) h

theorem leads_through {y : Str} (hw : w ≠ []) (hy : y ≠ []) (h2 : w = n.path ++ y) (hS : Shows ms n)
    (h : Leads c d ms Q N σ (.kids w n.id par n.path.length stk)) :
    Leads c d ms Q (N + 1 + 1 + n.path.length + 1) σ (.enter w n.id par stk) := by
  have hyl := List.length_pos_iff.mpr hy
  refine leads_begin (x := []) hw (by simp) h2 hS (.to (.tail w n.id par n.path.length stk) (fun σ' _ => ?_)
    (.to (.kids w n.id par n.path.length stk) (fun σ' _ => ?_) h))
  · simp only [step]
    rw [if_neg (by rw [h2]; simp)]
  · have : w.length = n.path.length + y.length := by rw [h2]; simp
    simp only [step]
    rw [if_neg (by omega), if_neg (by omega), if_pos (by omega)]

theorem leads_exact (hne : n.path ≠ []) (hS : Shows ms n) :
    Leads c d ms (fun r => r = .ret true false (some n.id) par stk) (0 + 1 + 1 + n.path.length + 1) σ (.enter n.path n.id par stk) := by
  refine leads_begin (x := []) (y := []) hne (by simp) (by simp) hS
    (.to (.tail n.path n.id par n.path.length stk) (fun σ' _ => ?_)
      (.to (.ret true false (some n.id) par stk) (fun σ' _ => ?_) (.at _)))
  · simp only [step]
    rw [if_neg (by simp)]
  · simp only [step]
    rw [if_neg (by omega), if_neg (by omega), if_neg (by omega)]

theorem leads_delim (hwne : w ≠ []) (hp : n.path = w ++ [d]) (hS : Shows ms n) :
    Leads c d ms (fun r => r = .ret true false (some n.id) par stk) (0 + 1 + 1 + w.length + 1) σ (.enter w n.id par stk) := by
  refine leads_begin (y := []) hwne hp (by simp) hS
    (.to (.tail w n.id par n.path.length stk) (fun σ' _ => ?_)
      (.to (.ret true false (some n.id) par stk) (fun σ' _ => ?_) (.at _)))
  · simp only [step]
    rw [if_neg (by omega)]
  · simp only [step]
    rw [if_pos (by rw [hp]; simp), hS.path, hp, Race.getElem?_mid]
    simp only [if_true]

theorem leads_part {x : Char} {y : Str} (hwne : w ≠ []) (hp : n.path = w ++ x :: y) (hx : x :: y ≠ [d]) (hS : Shows ms n) :
    Leads c d ms (fun r => r = .ret false true (some n.id) par stk) (0 + 1 + 1 + w.length + 1) σ (.enter w n.id par stk) := by
  refine leads_begin (y := []) hwne hp (by simp) hS
    (.to (.tail w n.id par n.path.length stk) (fun σ' _ => ?_)
      (.to (.ret false true (some n.id) par stk) (fun σ' _ => ?_) (.at _)))
  · simp only [step]
    rw [if_neg (by omega)]
  · simp only [step]
    by_cases hl : w.length + 1 = n.path.length
    · rw [if_pos hl, hS.path, hp, Race.getElem?_mid]
      simp only
      have hy : y = [] := by
        have := congrArg List.length hp
        rw [List.length_append, List.length_cons] at this
        exact List.eq_nil_of_length_eq_zero (by omega)
      rw [if_neg]
      intro e
      exact hx (by rw [e, hy])
    · rw [if_neg hl, if_pos (by rw [hp]; simp)]

theorem leads_diff {s : Str} {a b : Char} {x y : Str} (hp : n.path = s ++ a :: x) (hab : a ≠ b) (hS : Shows ms n) :
    Leads c d ms (fun r => r = .ret false false none none stk) (0 + 1 + s.length + 1) σ (.enter (s ++ b :: y) n.id par stk) := by
  refine leads_begin (by simp) hp rfl hS
    (.to (.ret false false none none stk) (fun σ' _ => ?_) (.at _))
  simp only [step]
  rw [if_pos (by rw [hp]; simp), hS.path, hp, Race.getElem?_mid]
  simp only
  rw [Race.getElem?_mid, if_neg (fun e => hab (by simpa using e.symm))]

theorem leads_dead {b : Char} {y : Str} (hk : n.kids = []) (hS : Shows ms n) :
    ∃ ch pr, Leads c d ms (fun r => r = .ret false true ch pr stk) (0 + 1 + 1 + 1 + n.path.length + 1) σ
      (.enter (n.path ++ b :: y) n.id par stk) := by
  refine ⟨_, _, leads_through (by simp) (by simp) rfl hS (.to
    (.ret false true (if n.path.length > 0 then some n.id else none) (if n.path.length > 0 then par else none) stk)
    (fun σ' _ => ?_) (.at 0))⟩
  simp only [step]
  rw [if_pos (hS.nil hk σ')]

end steps
theorem leads_other {e : Node α} {b : Char} {y : Str} {par : Option Nat} (hne : e.path ≠ []) (hb : e.path.head? ≠ some b)
    (hS : Shows ms e) (stk : List Loop) (σ : Nat → Nat) :
    Leads c d ms (fun r => r = .ret false false none none stk) 2 σ (.enter (b :: y) e.id par stk) := by
  obtain ⟨a, p, hp⟩ := List.exists_cons_of_ne_nil hne
  refine leads_miss (a := a) (p := p) (fun e' => hb (by rw [hp, e']; rfl)) (fun σ' => by rw [hS.path, hp]) stk σ

/-- The loop over the children, if it is sure to come to `ch`. -/
theorem leads_sure {Q : Pc α → Prop} {n ch : Node α} {b : Char} {y : Str} {stk : List Loop} {N h k' : Nat} (hw : n.WF)
    (hch : ch ∈ n.kids) (hb : ch.path.head? = some b) (hK : ∀ e ∈ n.kids, Shows ms e)
    (hin : ∀ σ' stk', Leads c d ms Q N σ' (.enter (b :: y) ch.id (some n.id) stk')) :
    ∀ j k, j + k = k' → k' < h → ∀ σ, (∀ σ', Up σ σ' → ∀ k, k < h → ∃ e ∈ n.kids, (ms σ' n.id).arr.getD k 0 = e.id) →
      (∀ σ', Up σ σ' → (ms σ' n.id).arr.getD k' 0 = ch.id) →
      Leads c d ms Q (N + 3 * j + 1) σ (.ret false false none none (⟨n.id, h, k, b :: y⟩ :: stk)) := by
  have hwn := (Node.wf_iff n).mp hw
  intro j
  induction j with
  | zero =>
    intro k hk hh σ hel hat
    rw [Nat.zero_add] at hk
    subst hk
    refine .inr fun σ' hs => ?_
    simp only [step, Bool.or_self, Bool.false_eq_true, if_false]
    rw [if_pos hh, hat σ' hs]
    exact hin σ' _
  | succ j ih =>
    intro k hk hh σ hel hat
    refine .inr fun σ' hs => ?_
    simp only [step, Bool.or_self, Bool.false_eq_true, if_false]
    rw [if_pos (by omega)]
    obtain ⟨e, he, hee⟩ := hel σ' hs k (by omega)
    rw [hee]
    by_cases heb : e.path.head? = some b
    · have : e = ch := Node.heads_inj hwn.1 he hch (heb.trans hb.symm)
      subst this
      exact (hin σ' _).mono (by omega)
    · have h1 := leads_other (c := c) (d := d) (b := b) (y := y) (par := some n.id) (hwn.2 e he).1 heb (hK e he)
        (⟨n.id, h, k + 1, b :: y⟩ :: stk) σ'
      refine Leads.mono (n := 2 + (N + 3 * j + 1)) (by omega) (h1.trans fun s r hs' hr => ?_)
      subst hr
      exact ih (k + 1) (by omega) hh s (fun σ'' hs'' => hel σ'' ((hs.trans hs').trans hs''))
        fun σ'' hs'' => hat σ'' ((hs.trans hs').trans hs'')

/-- The loop over the children in general. -/
theorem leads_loop {n : Node α} {r : MR α} {b : Char} {y : Str} {stk : List Loop} {N h : Nat}
    (hin : ∀ e ∈ n.kids, ∀ σ' stk', Leads c d ms (Good r stk') N σ' (.enter (b :: y) e.id (some n.id) stk')) :
    ∀ j k, j + k = h → ∀ σ, (∀ σ', Up σ σ' → ∀ k, k < h → ∃ e ∈ n.kids, (ms σ' n.id).arr.getD k 0 = e.id) →
      Leads c d ms (Good r stk) (1 + (N + 1) * j) σ (.ret false false none none (⟨n.id, h, k, b :: y⟩ :: stk)) := by
  intro j
  induction j with
  | zero =>
    intro k hk σ hel
    refine .to (.ret false false none none stk) (fun σ' _ => ?_) (.now (.inr (.inr rfl)) _)
    simp only [step, Bool.or_self, Bool.false_eq_true, if_false]
    rw [if_neg (by omega)]
  | succ j ih =>
    intro k hk σ hel
    have hN : 1 + (N + 1) * (j + 1) = N + (1 + (N + 1) * j) + 1 := by rw [Nat.mul_succ]; omega
    rw [hN]
    refine .inr fun σ' hs => ?_
    simp only [step, Bool.or_self, Bool.false_eq_true, if_false]
    rw [if_pos (by omega)]
    obtain ⟨e, he, hee⟩ := hel σ' hs k (by omega)
    rw [hee]
    refine (hin e he σ' _).trans fun s r' hs' hr => ?_
    rcases hr with ⟨h1, h2, stk', rfl⟩ | ⟨a1, a2, stk', rfl⟩ | rfl
    · exact .now (.inl ⟨h1, h2, stk', rfl⟩) _
    · exact .now (.inr (.inl ⟨a1, a2, stk', rfl⟩)) _
    · exact ih (k + 1) (by omega) s fun σ'' hs'' => hel σ'' ((hs.trans hs').trans hs'')

/-- A search while children are removed: it finds what it finds in the tree, or nothing. -/
theorem leads_safe {n : Node α} {w : Str} {par : Option (Node α)} {r : MR α} (h : Node.PM d n w par r) (hw : n.WF) (u : Str)
    (hS : ∀ q m, (q, m) ∈ n.nodes u → Shows ms m)
    (hF : ∀ q m, (q, m) ∈ n.nodes u → q <+: u ++ w → q.length < (u ++ w).length → Firm ms m) :
    ∃ N, ∀ σ stk, Leads c d ms (Good r stk) N σ (.enter w n.id (par.map Node.id) stk) := by
  have here : ∀ {n : Node α} {u : Str}, (u ++ n.path, n) ∈ n.nodes u := fun {n u} => (Node.mem_nodes u n _).mpr (.inl rfl)
  have below : ∀ {n e : Node α} {u q : Str} {m : Node α}, e ∈ n.kids → (q, m) ∈ e.nodes (u ++ n.path) → (q, m) ∈ n.nodes u :=
    fun {n e u q m} he hm => (Node.mem_nodes u n _).mpr (.inr ⟨e, he, hm⟩)
  have into : ∀ {n : Node α} {b : Char} {y : Str} {par : Option Nat} {r : MR α} {N : Nat}, Shows ms n → Firm ms n → n.kids ≠ [] →
      (∀ e ∈ n.kids, ∀ σ' stk', Leads c d ms (Good r stk') N σ' (.enter (b :: y) e.id (some n.id) stk')) →
      ∃ N, ∀ σ stk, Leads c d ms (Good r stk) N σ (.enter (n.path ++ b :: y) n.id par stk) := by
    intro n b y par r N hSn hF hk hin
    refine ⟨(1 + (N + 1) * n.kids.length) + 1 + 1 + 1 + 1 + n.path.length + 1, fun σ stk =>
      leads_through (by simp) (by simp) rfl hSn (.inr fun σ' hs => ?_)⟩
    simp only [step]
    by_cases h0 : (ms σ' n.id).len = 0
    · rw [if_pos h0]; exact .now (.inr (.inl ⟨_, _, _, rfl⟩)) _
    rw [if_neg h0]
    refine .inr fun σ'' hs' => ?_
    simp only [step]
    by_cases h1 : (ms σ'' n.id).len = 0
    · rw [if_pos h1]
      have hp : n.path = [] := by
        cases hp : n.path with
        | nil => rfl
        | cons a p => exact absurd h1 (hF (by rw [hp]; simp) hk σ'')
      rw [hp]
      exact .now (.inr (.inr (by simp))) _
    · rw [if_neg h1, List.drop_left]
      refine Leads.mono ?_ (leads_loop hin (ms σ'' n.id).len 0 (by omega) σ'' fun τ hτ k hk => hSn.elts σ'' τ k hτ hk)
      have := Nat.mul_le_mul_left (N + 1) (hSn.len σ'')
      omega
  induction h generalizing u with
  | @exact n par hne =>
    exact ⟨_, fun σ stk => (leads_exact hne (hS _ n here)).weak fun r hr => by rw [hr]; exact .inl ⟨rfl, rfl, stk, rfl⟩⟩
  | @delim n w par hwne hp =>
    exact ⟨_, fun σ stk => (leads_delim hwne hp (hS _ n here)).weak fun r hr => by rw [hr]; exact .inl ⟨rfl, rfl, stk, rfl⟩⟩
  | @part n w x y par hwne hp hx =>
    exact ⟨_, fun σ stk => (leads_part hwne hp hx (hS _ n here)).weak fun r hr => by rw [hr]; exact .inr (.inl ⟨_, _, _, rfl⟩)⟩
  | @diff n s a b x y par hp hab =>
    exact ⟨_, fun σ stk => (leads_diff hp hab (hS _ n here)).weak fun r hr => by rw [hr]; exact .inr (.inr rfl)⟩
  | @dead n b y par hk hne =>
    refine ⟨0 + 1 + 1 + 1 + n.path.length + 1, fun σ stk => ?_⟩
    obtain ⟨ch, pr, hL⟩ := leads_dead (c := c) (d := d) (stk := stk) (par := par.map Node.id) (σ := σ) (b := b) (y := y) hk (hS _ n here)
    exact hL.weak fun r hr => by rw [hr]; exact .inr (.inl ⟨_, _, _, rfl⟩)
  | @deadRoot n b y par hk hne =>
    refine ⟨0 + 1 + 1 + 1 + n.path.length + 1, fun σ stk => ?_⟩
    obtain ⟨ch, pr, hL⟩ := leads_dead (c := c) (d := d) (stk := stk) (par := par.map Node.id) (σ := σ) (b := b) (y := y) hk (hS _ n here)
    rw [show b :: y = n.path ++ b :: y from by rw [hne]; rfl]
    exact hL.weak fun r hr => by rw [hr]; exact .inr (.inl ⟨_, _, _, rfl⟩)
  | @noKid n b y par hk hh =>
    have hwn := (Node.wf_iff n).mp hw
    exact into (hS _ n here) (hF _ n here (by simp) (by simp)) hk fun e he σ' stk' =>
      (leads_other (hwn.2 e he).1 (hh e he) (hS _ e (below he here)) stk' σ').weak fun r hr => by rw [hr]; exact .inr (.inr rfl)
  | @kid n ch b y par r hcm hh hr ih =>
    have hwn := (Node.wf_iff n).mp hw
    obtain ⟨N, hN⟩ := ih (hwn.2 ch hcm).2 (u ++ n.path) (fun q m hm => hS q m (below hcm hm))
      (fun q m hm h1 h2 => hF q m (below hcm hm) (by simpa using h1) (by simpa using h2))
    refine into (N := N + 2) (hS _ n here) (hF _ n here (by simp) (by simp)) (List.ne_nil_of_mem hcm) fun e he σ' stk' => ?_
    by_cases heb : e.path.head? = some b
    · have : e = ch := Node.heads_inj hwn.1 he hcm (heb.trans hh.symm)
      subst this
      exact (hN σ' stk').mono (by omega)
    · exact ((leads_other (hwn.2 e he).1 heb (hS _ e (below he here)) stk' σ').weak fun r hr => by
        rw [hr]; exact .inr (.inr rfl)).mono (by omega)

/-- A search that comes to a node and is not disturbed finds it. -/
theorem leads_kept {n : Node α} {w : Str} {par : Option (Node α)} {r : MR α} (h : Node.PM d n w par r) (hm : r.matched = true)
    (hw : n.WF) (u : Str) (hS : ∀ q m, (q, m) ∈ n.nodes u → Shows ms m) :
    ∃ K m, r.child = some m ∧ (K, m) ∈ n.nodes u ∧
      ((∀ q m ch, (q, m) ∈ n.nodes u → ch ∈ m.kids → q ++ ch.path <+: K → Sure ms m ch) →
        ∃ N, ∀ σ stk, Leads c d ms (Hit r) N σ (.enter w n.id (par.map Node.id) stk)) := by
  have here : ∀ {n : Node α} {u : Str}, (u ++ n.path, n) ∈ n.nodes u := fun {n u} => (Node.mem_nodes u n _).mpr (.inl rfl)
  have below : ∀ {n e : Node α} {u q : Str} {m : Node α}, e ∈ n.kids → (q, m) ∈ e.nodes (u ++ n.path) → (q, m) ∈ n.nodes u :=
    fun {n e u q m} he hm => (Node.mem_nodes u n _).mpr (.inr ⟨e, he, hm⟩)
  induction h generalizing u with
  | @exact n par hne =>
    exact ⟨_, n, rfl, here, fun _ => ⟨_, fun σ stk => (leads_exact hne (hS _ n here)).weak fun r hr => by rw [hr]; exact ⟨stk, rfl⟩⟩⟩
  | @delim n w par hwne hp =>
    exact ⟨_, n, rfl, here, fun _ => ⟨_, fun σ stk => (leads_delim hwne hp (hS _ n here)).weak fun r hr => by rw [hr]; exact ⟨stk, rfl⟩⟩⟩
  | @kid n ch b y par r hcm hh hr ih =>
    have hwn := (Node.wf_iff n).mp hw
    obtain ⟨K, m, h1, h2, h3⟩ := ih hm (hwn.2 ch hcm).2 (u ++ n.path) (fun q m hm => hS q m (below hcm hm))
    refine ⟨K, m, h1, below hcm h2, fun hK => ?_⟩
    obtain ⟨N, hN⟩ := h3 fun q m ch' hm h1 h2 => hK q m ch' (below hcm hm) h1 h2
    have hsure := hK _ n ch here hcm (Node.prefix_of_mem_nodes h2)
    have hSn := hS _ n here
    refine ⟨(N + 3 * n.kids.length + 1) + 1 + 1 + 1 + 1 + n.path.length + 1, fun σ stk =>
      leads_through (by simp) (by simp) rfl hSn (.inr fun σ' hs => ?_)⟩
    simp only [step]
    obtain ⟨k0, hk0, _⟩ := hsure σ'
    rw [if_neg (by omega)]
    refine .inr fun σ'' hs' => ?_
    simp only [step]
    obtain ⟨k, hk, hat⟩ := hsure σ''
    rw [if_neg (by omega), List.drop_left]
    have := hSn.len σ''
    exact Leads.mono (by omega) (leads_sure hw hcm hh (fun e he => hS _ e (below he here)) hN k 0 (by omega) hk σ''
      (fun τ hτ k hk => hSn.elts σ'' τ k hτ hk) hat)
  | _ => exact absurd hm (by simp)

/-- The reads at the node that was found. -/
theorem leads_answer {t : Tree α} (h : t.OK) {q : Str} {m : Node α} (hm : (q, m) ∈ t.root.nodes []) (hS : Shows ms m)
    (p : Str) (par : Option Nat) (stk : List Loop) (σ : Nat → Nat) :
    Leads (.get p) d ms (fun r => r = .done (ansOf d q m.core)) 5 σ (.ret true false (some m.id) par stk) := by
  have he := endsWith_of_mem h hm d
  have last : ∀ σ br, br = !m.core.leaf → ∀ found, found = (m.core.leaf || endsW d q) →
      Leads (.get p) d ms (fun r => r = .done (ansOf d q m.core)) 2 σ (.has m.id br found) := by
    intro σ br hbr found hfo
    by_cases hd : m.core.hasData = true
    · refine .to (.data m.id br found) (fun σ' _ => by simp only [step]; rw [hS.core, if_pos hd])
        (.to _ (fun σ' _ => ?_) (.at 0))
      simp only [step, ansOf]
      rw [hS.core, if_pos hd, hbr, hfo]
    · refine .to (.done (ansOf d q m.core)) (fun σ' _ => ?_) (.at 1)
      simp only [step, ansOf]
      rw [hS.core, if_neg hd, if_neg hd, hbr, hfo]
  refine .to (.branch m.id) (fun _ _ => rfl) ?_
  cases hl : m.core.leaf with
  | true =>
    refine .to (.has m.id false true) (fun σ' _ => ?_) ((last σ false (by rw [hl]; rfl) true (by rw [hl]; rfl)).mono (by omega))
    have hb : m.core.isBranch = false := by rw [Core.isBranch, hl]; rfl
    simp only [step]
    rw [hS.core, hb]; rfl
  | false =>
    refine .to (.ends m.id) (fun σ' _ => ?_) (.to (.has m.id true (endsW d q)) (fun σ' _ => ?_)
      (last σ true (by rw [hl]; rfl) _ (by rw [hl]; rfl)))
    · have hb : m.core.isBranch = true := by rw [Core.isBranch, hl]; rfl
      simp only [step]
      rw [hS.core, hb]; rfl
    · simp only [step]
      rw [hS.path, ← he, Node.endsWith]
      cases m.path.getLast? with
      | none => rfl
      | some c => simp [Option.some_beq_some]

end

section
variable {d : Char} {ms : (Nat → Nat) → Mem α} {t : Tree α}

omit [Inhabited α] in
/-- The search for a key in a tree. -/
theorem search_outcome (h : t.OK) {w : Str} (hp : t.ClearAt d w) (hw : w ≠ []) :
    ∃ r, Node.PM d t.root w none r ∧
      ((∃ q m P u, r = ⟨true, false, some m, some P⟩ ∧ resolve d t.nodeAt w = some (q, m) ∧ (q, m) ∈ t.root.nodes [] ∧
        (u, P) ∈ t.root.nodes [] ∧ m ∈ P.kids) ∨
      (r.matched = false ∧ resolve d t.nodeAt w = none)) := by
  obtain ⟨r, h1, h2⟩ := Node.matchR_clear d t.root h.wf [] w false none [] hw (by simp [endsW]) (hp.keys h)
  refine ⟨r, h2, ?_⟩
  rcases matchR_root_at h w hp [] with ⟨q, m, par, h3, h4, h5⟩ | ⟨_, h3, r', h4, h5, h6, _⟩
  · rw [h1] at h4
    have hr : r = ⟨true, false, some m, par⟩ := (Prod.mk.inj (Except.ok.inj h4)).1
    rcases h5 with ⟨e, _⟩ | ⟨u, P, rfl, h6, h7⟩
    · exact absurd e hw
    · exact .inl ⟨q, m, P, u, hr, h3, (Tree.nodeAt_some h).mp (resolve_some h3), h6, h7⟩
  · rw [h1] at h4
    have hr : r = r' := (Prod.mk.inj (Except.ok.inj h4)).1
    exact .inr ⟨by rw [hr]; exact h5, h3⟩

/-- A lookup while children are removed. -/
theorem leads_get (h : t.OK) {w : Str} (hp : t.ClearAt d w) (p : Str) (hS : ∀ q m, (q, m) ∈ t.root.nodes [] → Shows ms m)
    (hF : ∀ q m, (q, m) ∈ t.root.nodes [] → q <+: w → q.length < w.length → Firm ms m) :
    ∃ N, ∀ σ, Leads (.get p) d ms (fun r => ∃ a, r = .done a ∧
      (a = ansNone ∨ ∃ q m, resolve d t.nodeAt w = some (q, m) ∧ a = ansOf d q m.core)) N σ (.enter w t.root.id none []) := by
  by_cases hw : w = []
  · subst hw
    have hr : resolve d t.nodeAt [] = some ([], t.root) := by simp [resolve, (Tree.nodeAt_some h).mpr h.root_mem]
    refine ⟨5 + 1, fun σ => .to (.ret true false (some t.root.id) none []) (fun _ _ => rfl)
      ((leads_answer h h.root_mem (hS _ _ h.root_mem) p none [] σ).weak fun r hr' => ⟨_, hr', .inr ⟨_, _, hr, rfl⟩⟩)⟩
  · obtain ⟨r, h2, h3⟩ := search_outcome h hp hw
    obtain ⟨N, hN⟩ := leads_safe (c := .get p) h2 h.wf [] hS hF
    refine ⟨N + 5, fun σ => (hN σ []).trans fun s pc hs hg => ?_⟩
    rcases hg with ⟨g1, g2, stk', rfl⟩ | ⟨a1, a2, stk', rfl⟩ | rfl
    · rcases h3 with ⟨q, m, P, u, rfl, h4, h5, h6, h7⟩ | ⟨h4, _⟩
      · exact (leads_answer h h5 (hS _ _ h5) p _ stk' s).weak fun r hr' => ⟨_, hr', .inr ⟨_, _, h4, rfl⟩⟩
      · rw [g1] at h4; cases h4
    · refine Leads.mono (n := 0 + 1) (by omega) (.to (.done ansNone) (fun σ' _ => ?_) (.now ⟨_, rfl, .inl rfl⟩ 0))
      cases a1 <;> rfl
    · exact Leads.mono (n := 0 + 1) (by omega) (.to (.done ansNone) (fun σ' _ => rfl) (.now ⟨_, rfl, .inl rfl⟩ 0))

/-- A search for a key that is stored, if it is not disturbed. -/
theorem leads_found (c : Call) (h : t.OK) {w : Str} (hp : t.ClearAt d w) (hw : w ≠ [])
    (hS : ∀ q m, (q, m) ∈ t.root.nodes [] → Shows ms m) {q : Str} {m : Node α} (hr : resolve d t.nodeAt w = some (q, m))
    (hK : ∀ u P ch, (u, P) ∈ t.root.nodes [] → ch ∈ P.kids → u ++ ch.path <+: q → Sure ms P ch) :
    ∃ P u, (u, P) ∈ t.root.nodes [] ∧ m ∈ P.kids ∧ ∃ N, ∀ σ,
      Leads c d ms (fun r => ∃ stk, r = .ret true false (some m.id) (some P.id) stk) N σ (.enter w t.root.id none []) := by
  obtain ⟨r, h2, h3⟩ := search_outcome h hp hw
  rcases h3 with ⟨q', m', P, u, rfl, h4, h5, h6, h7⟩ | ⟨_, h4⟩
  · rw [hr] at h4
    obtain ⟨rfl, rfl⟩ := Prod.mk.inj (Option.some.inj h4)
    obtain ⟨K, m', e, hm', hL⟩ := leads_kept (c := c) h2 rfl h.wf [] hS
    cases e
    have : K = q := congrArg Prod.fst (h.id_inj hm' h5 rfl)
    subst this
    obtain ⟨N, hN⟩ := hL hK
    exact ⟨P, u, h6, h7, N, fun σ => hN σ []⟩
  · rw [hr] at h4; cases h4

end

end Prune
end Verif

import Verif.Lemmas.Reach
/-
Histories consisting of `Set` calls only: the tree denotes the last-write map.
-/
namespace Verif
variable {α : Type}

theorem snocInd {β : Type} {P : List β → Prop} (h0 : P []) (h1 : ∀ l a, P l → P (l ++ [a])) : ∀ l, P l := by
  intro l
  have : ∀ r : List β, P r.reverse := by
    intro r
    induction r with
    | nil => exact h0
    | cons a as ih => rw [List.reverse_cons]; exact h1 _ _ ih
  have := this l.reverse
  rwa [List.reverse_reverse] at this

theorem lastWrite_append (h1 h2 : List (Str × α)) (q : Str) :
    lastWrite (h1 ++ h2) q = (lastWrite h2 q).or (lastWrite h1 q) := by
  induction h1 with
  | nil => simp [lastWrite]
  | cons a as ih =>
    obtain ⟨k, v⟩ := a
    simp only [List.cons_append, lastWrite, ih]
    cases lastWrite h2 q <;> cases lastWrite as q <;> simp

theorem lastWrite_snoc (h : List (Str × α)) (k : Str) (x : α) (q : Str) :
    lastWrite (h ++ [(k, x)]) q = if k = q then some x else lastWrite h q := by
  rw [lastWrite_append]
  by_cases e : k = q <;> simp [lastWrite, e]

theorem lastWrite_isSome (h : List (Str × α)) (q : Str) :
    (lastWrite h q).isSome ↔ ∃ x, (q, x) ∈ h := by
  induction h with
  | nil => simp [lastWrite]
  | cons a as ih =>
    obtain ⟨k, v⟩ := a
    simp only [lastWrite, List.mem_cons, Prod.mk.injEq]
    cases hl : lastWrite as q with
    | some x =>
      rw [hl] at ih
      simp only [Option.isSome_some, true_iff] at ih ⊢
      obtain ⟨y, hy⟩ := ih; exact ⟨y, .inr hy⟩
    | none =>
      rw [hl] at ih
      simp only [Option.isSome_none, Bool.false_eq_true, false_iff, not_exists] at ih
      by_cases e : k = q
      · simp only [e, if_true, Option.isSome_some, true_iff]; exact ⟨v, .inl ⟨trivial, rfl⟩⟩
      · simp only [e, if_false, Option.isSome_none, Bool.false_eq_true, false_iff, not_exists]
        rintro x (⟨h, _⟩ | h)
        · exact e h.symm
        · exact ih x h

theorem lastWrite_none (h : List (Str × α)) (q : Str) : lastWrite h q = none ↔ ∀ x, (q, x) ∉ h := by
  have := lastWrite_isSome h q
  cases hl : lastWrite h q with
  | none => rw [hl] at this; simpa using this
  | some x => rw [hl] at this; simpa using this

theorem lcp_comm (a b : Str) : lcp a b = lcp b a := by
  induction a generalizing b with
  | nil => cases b <;> simp [lcp]
  | cons a1 as ih =>
    cases b with
    | nil => simp [lcp]
    | cons b1 bs =>
      simp only [lcp]
      by_cases h : a1 = b1
      · subst h; simp [ih]
      · have : ¬ b1 = a1 := fun e => h e.symm
        simp [h, this]

theorem lcp_self (a : Str) : lcp a a = a := by
  induction a with
  | nil => simp [lcp]
  | cons a as ih => simp [lcp, ih]

theorem lcp_of_prefix {a b : Str} (h : a <+: b) : lcp a b = a := by
  obtain ⟨z, rfl⟩ := h
  induction a with
  | nil => simp [lcp]
  | cons a as ih => simp [lcp, ih]

theorem lcp_append_left (u a b : Str) : lcp (u ++ a) (u ++ b) = u ++ lcp a b := by
  induction u with
  | nil => simp
  | cons c cs ih => simp [lcp, ih]

/-- If `k0` is a proper extension of `lcp k0 k`, extending `k0` does not change the common prefix unless
`k` itself is that prefix. -/
theorem lcp_extend {k0 k a : Str} (hne : lcp k0 k ≠ k0) (hp : k0 <+: a) : lcp a k = lcp k0 k := by
  induction k0 generalizing k a with
  | nil => exact absurd (by simp [lcp]) hne
  | cons c cs ih =>
    cases a with
    | nil => simp at hp
    | cons a1 as =>
      rw [List.cons_prefix_cons] at hp
      obtain ⟨rfl, hp⟩ := hp
      cases k with
      | nil => simp [lcp]
      | cons k1 ks =>
        simp only [lcp] at hne ⊢
        by_cases e : c = k1
        · simp only [e, if_true, List.cons.injEq, true_and] at hne ⊢
          exact ih (fun h => hne (by rw [h])) hp
        · simp [e]

/-- Longest common prefixes of paths in a radix tree are paths in it. -/
theorem Node.lcp_closed {n : Node α} (hw : n.WF) {u q1 q2 : Str} {m1 m2} (h1 : (q1, m1) ∈ n.nodes u)
    (h2 : (q2, m2) ∈ n.nodes u) : ∃ m, (lcp q1 q2, m) ∈ n.nodes u := by
  induction n using Node.ind generalizing u with
  | h i p c k ih =>
    have hwn := (Node.wf_mk ..).mp hw
    have hself : (u ++ p, mk i p c k) ∈ (mk i p c k).nodes u := by rw [Node.mem_nodes]; simp
    have p1 := Node.prefix_of_mem_nodes h1
    have p2 := Node.prefix_of_mem_nodes h2
    simp only [Node.path_mk] at p1 p2
    rw [Node.mem_nodes] at h1 h2
    rcases h1 with h1 | ⟨c1, hc1, h1⟩
    · simp at h1
      rw [h1.1, lcp_of_prefix p2]; exact ⟨_, hself⟩
    · rcases h2 with h2 | ⟨c2, hc2, h2⟩
      · simp at h2
        rw [h2.1, lcp_comm, lcp_of_prefix p1]; exact ⟨_, hself⟩
      · by_cases e : c1 = c2
        · subst e
          obtain ⟨m, hm⟩ := ih c1 hc1 (hwn.2 c1 hc1).2 h1 h2
          exact ⟨m, by rw [Node.mem_nodes]; exact .inr ⟨c1, hc1, hm⟩⟩
        · have hne : c1.path.head? ≠ c2.path.head? := fun h => e (Node.heads_inj hwn.1 hc1 hc2 h)
          obtain ⟨z1, hz1⟩ := Node.prefix_of_mem_nodes h1
          obtain ⟨z2, hz2⟩ := Node.prefix_of_mem_nodes h2
          simp only [Node.path_mk] at hz1 hz2
          cases e1 : c1.path with
          | nil => exact absurd e1 (hwn.2 c1 hc1).1
          | cons a as =>
            cases e2 : c2.path with
            | nil => exact absurd e2 (hwn.2 c2 hc2).1
            | cons b bs =>
              rw [e1, e2] at hne
              have hab : a ≠ b := fun h => hne (by simp [h])
              have : lcp q1 q2 = u ++ p := by
                rw [← hz1, ← hz2, e1, e2]
                simp only [List.append_assoc, List.cons_append]
                rw [← List.append_assoc, ← List.append_assoc, lcp_append hab]
              rw [this]; exact ⟨_, hself⟩

theorem Tree.lcp_closed {t : Tree α} (h : t.OK) {q1 q2 : Str} {c1 c2} (h1 : t.contents q1 = some c1)
    (h2 : t.contents q2 = some c2) : ∃ c, t.contents (lcp q1 q2) = some c := by
  obtain ⟨m1, h1, _⟩ := (Tree.contents_node h).mp h1
  obtain ⟨m2, h2, _⟩ := (Tree.contents_node h).mp h2
  obtain ⟨m, hm⟩ := Node.lcp_closed h.wf h1 h2
  exact ⟨m.core, (Tree.contents_node h).mpr ⟨m, hm, rfl⟩⟩

section
variable [Inhabited α]

/-- A sequence of `Set` calls, each through a view of the trie. -/
def sets (h : List (View × Str × α)) (t : Tree α) : Tree α :=
  h.foldl (fun t a => (a.1.set t a.2.1 a.2.2).1) t

/-- The full path a `Set` call stores at: prefix and path joined, spaces replaced by dashes. -/
def keyOf (v : View) (p : Str) : Str := (v.full p).map (fun c => if c = ' ' then '-' else c)

/-- The assignments made by a history. -/
def assigns (h : List (View × Str × α)) : List (Str × α) := h.map (fun a => (keyOf a.1 a.2.1, a.2.2))

theorem sets_snoc (h : List (View × Str × α)) (a : View × Str × α) (t : Tree α) :
    sets (h ++ [a]) t = (View.insertAt (sets h t) (keyOf a.1 a.2.1) a.2.2).1 := by
  simp [sets, List.foldl_append, View.set, keyOf, View.dash]

/-- Set keys, common prefixes of set keys, and the empty path. -/
def Dom (m : Str → Option α) (q : Str) : Prop :=
  q = [] ∨ ∃ k1 k2, (m k1).isSome ∧ (m k2).isSome ∧ q = lcp k1 k2

/-- The tree after a history of `Set` calls: what is stored where. -/
structure Denotes (m : Str → Option α) (t : Tree α) : Prop where
  ok : t.OK
  dom : ∀ q, (t.contents q).isSome ↔ Dom m q
  val : ∀ q c x, t.contents q = some c → m q = some x → c.hasData = true ∧ c.data = x
  noval : ∀ q c, t.contents q = some c → m q = none → c.hasData = false ∧ c.data = default ∧ c.leaf = false
  meta_ : ∀ q c, t.contents q = some c → c.desc = [] ∧ c.comment = [] ∧ c.tag = none ∧ c.modified = false

theorem Denotes.new : Denotes (fun _ => none) (Tree.new : Tree α) := by
  refine ⟨Tree.OK.new, ?_, by simp, ?_, ?_⟩
  · intro q
    rw [Tree.contents_new]
    simp only [Dom, Option.isSome_none, Bool.false_eq_true, false_and, exists_false, or_false]
    by_cases h : q = [] <;> simp [h]
  all_goals
    intro q c hc
    rw [Tree.contents_new] at hc
    split at hc
    · simp at hc; subst hc; simp [Core.zero]
    · simp at hc

/-- Point update of the assignment. -/
def upd (m : Str → Option α) (k : Str) (x : α) : Str → Option α := fun q => if k = q then some x else m q

omit [Inhabited α] in
theorem upd_same (m : Str → Option α) (k : Str) (x : α) : upd m k x k = some x := by simp [upd]
omit [Inhabited α] in
theorem upd_ne (m : Str → Option α) {k q : Str} (x : α) (h : q ≠ k) : upd m k x q = m q := by
  have : ¬ k = q := fun e => h e.symm
  simp [upd, this]

omit [Inhabited α] in
theorem Dom.upd {m : Str → Option α} {q : Str} (h : Dom m q) (k : Str) (x : α) : Dom (upd m k x) q := by
  rcases h with h | ⟨k1, k2, h1, h2, h3⟩
  · exact .inl h
  · refine .inr ⟨k1, k2, ?_, ?_, h3⟩ <;> simp only [Verif.upd] <;> split <;> simp_all

omit [Inhabited α] in
theorem Dom.self {m : Str → Option α} {q : Str} (h : (m q).isSome) : Dom m q :=
  .inr ⟨q, q, h, h, (lcp_self q).symm⟩

theorem Denotes.put {m : Str → Option α} {t : Tree α} (H : Denotes m t) (k : Str) (x : α) :
    Denotes (upd m k x) (View.insertAt t k x).1 := by
  have hs := View.insertAt_spec H.ok k x
  have hok := View.insertAt_ok H.ok k x
  generalize (View.insertAt t k x).1 = t' at *
  obtain ⟨ck, hck, hput⟩ := hs.atKey
  have dmono : ∀ q, (t.contents q).isSome → (t'.contents q).isSome := by
    intro q hq
    by_cases e : q = k
    · rw [e, hck]; rfl
    · obtain ⟨c, hc⟩ := Option.isSome_iff_exists.mp hq
      rw [hs.keep q c e hc]; rfl
  have hkS : (upd m k x k).isSome := by rw [upd_same]; rfl
  -- a set key has an entry
  have hset : ∀ q, (upd m k x q).isSome → (t'.contents q).isSome := by
    intro q hq
    by_cases e : q = k
    · rw [e, hck]; rfl
    · rw [upd_ne _ _ e] at hq
      exact dmono q ((H.dom q).mpr (Dom.self hq))
  refine ⟨hok, ?_, ?_, ?_, ?_⟩
  · intro q
    constructor
    · intro hq
      by_cases e : q = k
      · rw [e]; exact Dom.self hkS
      · cases h0 : t.contents q with
        | some c => exact Dom.upd ((H.dom q).mp (by rw [h0]; rfl)) k x
        | none =>
          obtain ⟨c, hc⟩ := Option.isSome_iff_exists.mp hq
          obtain ⟨k0, c0, h1, h2, h3, _⟩ := hs.new q c e h0 hc
          rcases (H.dom k0).mp (by rw [h1]; rfl) with h4 | ⟨a, b, ha, hb, h4⟩
          · subst h4
            exact absurd (by rw [h2]; simp [lcp]) h3
          · refine .inr ⟨a, k, ?_, hkS, ?_⟩
            · simp only [upd]; split
              · rfl
              · exact ha
            · rw [h2]; symm
              exact lcp_extend (h2 ▸ h3) (h4 ▸ lcp_prefix_left a b)
    · rintro (hq | ⟨k1, k2, h1, h2, hq⟩)
      · subst hq; rw [Tree.contents_root hok]; rfl
      · obtain ⟨c1, h1⟩ := Option.isSome_iff_exists.mp (hset k1 h1)
        obtain ⟨c2, h2⟩ := Option.isSome_iff_exists.mp (hset k2 h2)
        obtain ⟨c, hc⟩ := Tree.lcp_closed hok h1 h2
        rw [hq, hc]; rfl
  · intro q c y hc hy
    by_cases e : q = k
    · subst e
      rw [upd_same] at hy
      obtain rfl := Option.some.inj hy
      rw [hck] at hc
      obtain rfl := Option.some.inj hc
      simp only [putCore] at hput
      split at hput
      · subst hput; exact ⟨rfl, rfl⟩
      · rcases hput with ⟨rfl, _⟩ | ⟨_, _, _, _, _, rfl⟩ <;> exact ⟨rfl, rfl⟩
    · rw [upd_ne _ _ e] at hy
      obtain ⟨c0, hc0⟩ := Option.isSome_iff_exists.mp ((H.dom q).mpr (Dom.self (by rw [hy]; rfl)))
      have := hs.keep q c0 e hc0
      rw [hc] at this
      obtain rfl := Option.some.inj this
      exact H.val q c y hc0 hy
  · intro q c hc hn
    by_cases e : q = k
    · subst e; rw [upd_same] at hn; simp at hn
    · rw [upd_ne _ _ e] at hn
      cases h0 : t.contents q with
      | some c0 =>
        have := hs.keep q c0 e h0
        rw [hc] at this
        obtain rfl := Option.some.inj this
        exact H.noval q c h0 hn
      | none =>
        obtain ⟨k0, c0, _, _, _, h4⟩ := hs.new q c e h0 hc
        subst h4; exact ⟨rfl, rfl, rfl⟩
  · intro q c hc
    by_cases e : q = k
    · subst e
      rw [hck] at hc
      obtain rfl := Option.some.inj hc
      simp only [putCore] at hput
      split at hput
      · rename_i c0 h0
        subst hput; exact H.meta_ q c0 h0
      · rcases hput with ⟨rfl, _⟩ | ⟨_, _, _, _, _, rfl⟩ <;> exact ⟨rfl, rfl, rfl, rfl⟩
    · cases h0 : t.contents q with
      | some c0 =>
        have := hs.keep q c0 e h0
        rw [hc] at this
        obtain rfl := Option.some.inj this
        exact H.meta_ q c h0
      | none =>
        obtain ⟨k0, c0, _, _, _, h4⟩ := hs.new q c e h0 hc
        subst h4; exact ⟨rfl, rfl, rfl, rfl⟩

theorem sets_denotes (h : List (View × Str × α)) : Denotes (lastWrite (assigns h)) (sets h Tree.new) := by
  induction h using snocInd with
  | h0 => exact Denotes.new
  | h1 l a ih =>
    rw [sets_snoc]
    have := ih.put (keyOf a.1 a.2.1) a.2.2
    have e : lastWrite (assigns (l ++ [a])) = upd (lastWrite (assigns l)) (keyOf a.1 a.2.1) a.2.2 := by
      funext q
      simp only [assigns, List.map_append, List.map_cons, List.map_nil, lastWrite_snoc, upd]
    rw [e]; exact this

theorem Reach.sets {P : Str → Prop} {t : Tree α} (h0 : Reach P t) (h : List (View × Str × α))
    (hP : ∀ a ∈ h, P (keyOf a.1 a.2.1)) : Reach P (sets h t) := by
  induction h using snocInd with
  | h0 => exact h0
  | h1 l a ih =>
    rw [sets_snoc]
    refine .step (.set a.1 a.2.1 a.2.2) (ih (fun b hb => hP b (by simp [hb]))) ?_ rfl
    intro k hk
    simp only [Op.key, Option.some.injEq] at hk
    rw [← hk]
    exact hP a (by simp)

end
end Verif

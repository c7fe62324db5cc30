import Verif.Spec.RaceParts
import Verif.Lemmas.RaceTidy
/-
A goroutine that keeps below one node touches nothing that the goroutines in other parts of the trie change.
-/
namespace Verif
namespace Parts
variable {α : Type} [Inhabited α]
open Prune (Cell Mem Pc Loop Call cellOf ids_getD)
open Race (Job)

/-! ### The way to the node -/

omit [Inhabited α] in
theorem on_way (n : Node α) : ∀ (v : Str), n.WF → ∀ {a u : Str} {A N : Node α}, (a, A) ∈ n.nodes v → (u, N) ∈ n.nodes v → a <+: u → a ≠ u →
    ∃ c ∈ A.kids, (u, N) ∈ c.nodes a := by
  induction n using Node.ind with
  | h i p c k ih =>
    intro v hw a u A N hA hN hp hne
    have hwk := (Node.wf_iff _).mp hw
    rw [Node.mem_nodes] at hA hN
    rcases hA with e | ⟨e, he, hA⟩
    · cases e
      rcases hN with e' | ⟨e', he', hN⟩
      · cases e'; exact absurd rfl hne
      · exact ⟨e', he', hN⟩
    · have h1 := Node.prefix_of_mem_nodes hA
      have hene := (hwk.2 e he).1
      rcases hN with e' | ⟨e', he', hN⟩
      · cases e'
        exfalso
        have := (h1.trans hp).length_le
        have := List.length_pos_iff.mpr hene
        simp only [Node.path_mk, List.length_append] at *
        omega
      · have h2 := Node.prefix_of_mem_nodes hN
        have h3 := h1.trans hp
        have : e = e' := by
          refine Node.heads_inj hwk.1 he he' ?_
          obtain ⟨x, xs, hx⟩ := List.exists_cons_of_ne_nil hene
          obtain ⟨y, ys, hy⟩ := List.exists_cons_of_ne_nil (hwk.2 e' he').1
          obtain ⟨r1, hr1⟩ := h3
          obtain ⟨r2, hr2⟩ := h2
          rw [hx] at hr1
          rw [hy] at hr2
          have := hr1.trans hr2.symm
          simp only [List.append_assoc, List.append_cancel_left_eq, List.cons_append] at this
          injection this with this _
          rw [hx, hy, this]; rfl
        subst this
        exact ih e he (v ++ p) (hwk.2 e he).2 hA hN hp hne

/-- The part of the trie below the node `N` with the path `u`, in which one goroutine works: `Z` are the nodes below
`N`, those in the trie and those that the goroutine makes. -/
structure Part (t : Tree α) (u : Str) (N : Node α) (Z : Nat → Prop) : Prop where
  ok : t.OK
  mem : (u, N) ∈ t.root.nodes []
  zone : ∀ q m, (q, m) ∈ t.root.nodes [] → (Z m.id ↔ u <+: q ∧ q ≠ u)

/-- The memory is as at the beginning on the way to `N`, and what lies below `N` is closed. -/
structure Fit (t : Tree α) (u : Str) (N : Node α) (Z : Nat → Prop) (M : Mem α) : Prop where
  way : ∀ q m, (q, m) ∈ t.root.nodes [] → q <+: u → q ≠ u → M m.id = cellOf m
  top : (M N.id).path = N.path
  kin : ∀ a A m, (a, A) ∈ t.root.nodes [] → a <+: u → a ≠ u → m ∈ A.kids → (M m.id).path = m.path
  elts : ∀ i, Z i ∨ i = N.id → ∀ j ∈ (M i).arr, Z j
  len : ∀ i, Z i ∨ i = N.id → (M i).len ≤ (M i).arr.length

/-- Two memories agree on the part. -/
def Same (N : Node α) (Z : Nat → Prop) (M P : Mem α) : Prop := ∀ i, Z i ∨ i = N.id → M i = P i

/-- A memory in which only the part has changed. -/
def Outside (N : Node α) (Z : Nat → Prop) (M M' : Mem α) : Prop := ∀ i, ¬ (Z i ∨ i = N.id) → M' i = M i

section
variable {t : Tree α} {u : Str} {N : Node α} {Z : Nat → Prop} {w : Str}

/-- A node on the way from the root to `N`, `N` itself too, to which the search comes with the word `w'`. -/
def OnWay (t : Tree α) (u w : Str) (i : Nat) (w' : Str) (m : Node α) : Prop :=
  ∃ a, (a ++ m.path, m) ∈ t.root.nodes [] ∧ m.id = i ∧ w' = w.drop a.length ∧ a ++ m.path <+: u

/-- A node beside the way. -/
def OffWay (t : Tree α) (u w : Str) (i : Nat) (w' : Str) (m : Node α) : Prop :=
  m.id = i ∧ (∃ a A, (a, A) ∈ t.root.nodes [] ∧ a <+: u ∧ a ≠ u ∧ m ∈ A.kids ∧ w' = w.drop a.length) ∧
    ∃ x xs y ys, m.path = x :: xs ∧ w' = y :: ys ∧ x ≠ y

omit [Inhabited α] in
theorem Part.child (_ : Part t u N Z) {a : Str} {A m : Node α} (hA : (a, A) ∈ t.root.nodes []) (hm : m ∈ A.kids) :
    (a ++ m.path, m) ∈ t.root.nodes [] :=
  Node.nodes_trans hA ((Node.mem_nodesL _ _ _).mpr ⟨m, hm, (Node.mem_nodes _ _ _).mpr (.inl rfl)⟩)

omit [Inhabited α] in
/-- The child on the way. -/
theorem Part.next (H : Part t u N Z) {a : Str} {A : Node α} (hA : (a, A) ∈ t.root.nodes []) (hp : a <+: u) (hne : a ≠ u) :
    ∃ c ∈ A.kids, a ++ c.path <+: u := by
  obtain ⟨c, hc, hm⟩ := on_way t.root [] H.ok.wf hA H.mem hp hne
  exact ⟨c, hc, Node.prefix_of_mem_nodes hm⟩

omit [Inhabited α] in
theorem Part.kids_wf (H : Part t u N Z) {a : Str} {A : Node α} (hA : (a, A) ∈ t.root.nodes []) :
    (A.kids.map (fun c => c.path.head?)).Nodup ∧ ∀ m ∈ A.kids, m.path ≠ [] ∧ m.WF := (Node.wf_iff A).mp (Node.wf_of_mem H.ok.wf hA)

omit [Inhabited α] in
/-- A child of a node on the way is on the way, or its path begins with another rune. -/
theorem Part.child_cases (H : Part t u N Z) (hw : u <+: w) {a : Str} {A m : Node α} (hA : (a, A) ∈ t.root.nodes [])
    (hp : a <+: u) (hne : a ≠ u) (hm : m ∈ A.kids) :
    (a ++ m.path <+: u ∧ m.path.head? = (w.drop a.length).head?) ∨
    ∃ x xs y ys, m.path = x :: xs ∧ w.drop a.length = y :: ys ∧ x ≠ y := by
  obtain ⟨c, hc, hcu⟩ := H.next hA hp hne
  have hwf := H.kids_wf hA
  obtain ⟨y, ys, hy⟩ := List.exists_cons_of_ne_nil (hwf.2 c hc).1
  obtain ⟨x, xs, hx⟩ := List.exists_cons_of_ne_nil (hwf.2 m hm).1
  obtain ⟨r, hr⟩ := hcu.trans hw
  have hd : w.drop a.length = y :: (ys ++ r) := by
    rw [← hr, hy, List.append_assoc, List.drop_left]; rfl
  by_cases e : x = y
  · left
    have : m = c := Node.heads_inj hwf.1 hm hc (by rw [hx, hy, e]; rfl)
    exact ⟨this ▸ hcu, by rw [hx, hd, e]; rfl⟩
  · exact .inr ⟨x, xs, y, _, hx, hd, e⟩

omit [Inhabited α] in
theorem OnWay.path {m : Node α} {i : Nat} {w' : Str} (h : OnWay t u w i w' m) (hw : u <+: w) (hne : u ≠ w) :
    m.path <+: w' ∧ m.path.length < w'.length := by
  obtain ⟨a, h1, h2, rfl, h3⟩ := h
  obtain ⟨r, rfl⟩ := h3
  obtain ⟨r', rfl⟩ := hw
  simp only [List.append_assoc, List.drop_left]
  refine ⟨⟨r ++ r', rfl⟩, ?_⟩
  cases r' with
  | nil => exact absurd (by simp) hne
  | cons x xs => simp; omega

omit [Inhabited α] in
/-- What the memory has at a node on the way. -/
theorem Fit.on (H : Part t u N Z) {M : Mem α} (F : Fit t u N Z M) {m : Node α} {i : Nat} {w' : Str} (h : OnWay t u w i w' m) :
    (M i).path = m.path ∧ ((M i = cellOf m ∧ m.kids ≠ []) ∨ i = N.id) := by
  obtain ⟨a, h1, rfl, _, h3⟩ := h
  by_cases e : a ++ m.path = u
  · have : m = N := by
      have := (Tree.nodeAt_some H.ok).mpr h1
      rw [e, (Tree.nodeAt_some H.ok).mpr H.mem] at this
      exact (Option.some.inj this).symm
    subst this
    exact ⟨F.top, .inr rfl⟩
  · have := F.way _ _ h1 h3 e
    obtain ⟨c, hc, _⟩ := H.next h1 h3 e
    exact ⟨by rw [this]; rfl, .inl ⟨this, List.ne_nil_of_mem hc⟩⟩

omit [Inhabited α] in
theorem Fit.off {M : Mem α} (F : Fit t u N Z M) {m : Node α} {i : Nat} {w' : Str} (h : OffWay t u w i w' m) :
    (M i).path = m.path := by
  obtain ⟨rfl, ⟨a, A, h1, h2, h3, h4, _⟩, _⟩ := h
  exact F.kin a A m h1 h2 h3 h4

omit [Inhabited α] in
theorem Part.root (H : Part t u N Z) : OnWay t u w t.root.id w t.root := by
  have h := H.ok.root_mem
  have e := H.ok.nil
  exact ⟨[], by rw [e]; exact h, rfl, rfl, by rw [e]; exact List.nil_prefix⟩

omit [Inhabited α] in
/-- A child of a node on the way is not in the part. -/
theorem Part.kin_out (H : Part t u N Z) {a : Str} {A m : Node α} (hA : (a, A) ∈ t.root.nodes []) (hp : a <+: u) (hne : a ≠ u)
    (hm : m ∈ A.kids) : ¬ Z m.id := by
  intro hz
  obtain ⟨h1, h2⟩ := (H.zone _ _ (H.child hA hm)).mp hz
  rcases H.child_cases (List.prefix_refl u) hA hp hne hm with ⟨h, _⟩ | ⟨x, xs, y, ys, e1, e2, e3⟩
  · exact h2 (h.eq_of_length_le h1.length_le)
  · obtain ⟨r, hr⟩ := hp
    rw [← hr, List.drop_left] at e2
    rw [← hr, e1, e2] at h1
    have := (List.prefix_append_right_inj a).mp h1
    exact e3 (List.cons_prefix_cons.mp this).1.symm

omit [Inhabited α] in
theorem Part.way_out (H : Part t u N Z) {q : Str} {m : Node α} (hm : (q, m) ∈ t.root.nodes []) (hp : q <+: u) (hne : q ≠ u) :
    ¬ (Z m.id ∨ m.id = N.id) := by
  rintro (g | g)
  · have := ((H.zone q m hm).mp g)
    exact hne (hp.eq_of_length_le this.1.length_le)
  · exact hne (congrArg Prod.fst (H.ok.id_inj hm H.mem g))

omit [Inhabited α] in
theorem Fit.write (H : Part t u N Z) {M P : Mem α} (F : Fit t u N Z P) (S : Same N Z M P) {i : Nat} {s : Cell α} (hi : Z i ∨ i = N.id)
    (h1 : i = N.id → s.path = N.path) (h2 : ∀ x ∈ s.arr, Z x) (h3 : s.len ≤ s.arr.length) :
    Fit t u N Z (P.set i s) ∧ Same N Z (M.set i s) (P.set i s) ∧ Outside N Z M (M.set i s) ∧ Outside N Z P (P.set i s) := by
  refine ⟨⟨fun q m hm hq hne => ?_, ?_, fun a A m hA hq hne hm => ?_, fun j hj x hx => ?_, fun j hj => ?_⟩, ?_, ?_, ?_⟩
  · have : m.id ≠ i := by
      rintro rfl
      exact H.way_out hm hq hne hi
    rw [Prune.Mem.set, if_neg this]
    exact F.way q m hm hq hne
  · rw [Prune.Mem.set]
    split
    · next e => exact h1 e.symm
    · exact F.top
  · rw [Prune.Mem.set]
    split
    · next e =>
      rcases hi with hi | hi
      · exact absurd (e ▸ hi) (H.kin_out hA hq hne hm)
      · have := H.ok.id_inj (H.child hA hm) H.mem (e.trans hi)
        rw [h1 hi, (Prod.mk.inj this).2]
    · exact F.kin a A m hA hq hne hm
  · rw [Prune.Mem.set] at hx
    split at hx
    · exact h2 x hx
    · exact F.elts j hj x hx
  · rw [Prune.Mem.set]
    split
    · exact h3
    · exact F.len j hj
  · intro j hj
    simp only [Prune.Mem.set]
    split
    · rfl
    · exact S j hj
  · intro j hj
    rw [Prune.Mem.set, if_neg]
    rintro rfl; exact hj hi
  · intro j hj
    rw [Prune.Mem.set, if_neg]
    rintro rfl; exact hj hi

omit [Inhabited α] in
/-- The shared memory after a step in the part. -/
theorem Fit.own (H : Part t u N Z) {M M' P' : Mem α} (FM : Fit t u N Z M) (F : Fit t u N Z P') (S : Same N Z M' P')
    (O : Outside N Z M M') : Fit t u N Z M' := by
  refine ⟨fun q m hm hq hne => ?_, ?_, fun a A m hA hq hne hm => ?_, fun i hi => ?_, fun i hi => ?_⟩
  · rw [O _ (H.way_out hm hq hne)]; exact FM.way q m hm hq hne
  · rw [S _ (.inr rfl)]; exact F.top
  · by_cases e : m.id = N.id
    · rw [S _ (.inr e)]; exact F.kin a A m hA hq hne hm
    · rw [O]
      · exact FM.kin a A m hA hq hne hm
      · rintro (h | h)
        · exact H.kin_out hA hq hne hm h
        · exact e h
  · rw [S i hi]; exact F.elts i hi
  · rw [S i hi]; exact F.len i hi

omit [Inhabited α] in
/-- The shared memory after a step in another part. -/
theorem Fit.other {u₂ : Str} {N₂ : Node α} {Z₂ : Nat → Prop} (H : Part t u N Z) (H₂ : Part t u₂ N₂ Z₂) (ha : ¬ u₂ <+: u)
    (hz : ∀ i, Z i ∨ i = N.id → ¬ (Z₂ i ∨ i = N₂.id)) {M M' : Mem α} (FM : Fit t u N Z M) (O : Outside N₂ Z₂ M M')
    (hp : (M' N₂.id).path = (M N₂.id).path) : Fit t u N Z M' := by
  have h1 : ∀ {q m}, (q, m) ∈ t.root.nodes [] → q <+: u → ¬ (Z₂ m.id ∨ m.id = N₂.id) := by
    rintro q m hm hq (h | h)
    · exact ha (((H₂.zone q m hm).mp h).1.trans hq)
    · have := H₂.ok.id_inj hm H₂.mem h
      rw [(Prod.mk.inj this).1] at hq
      exact ha hq
  refine ⟨fun q m hm hq hne => ?_, ?_, fun a A m hA hq hne hm => ?_, fun i hi => ?_, fun i hi => ?_⟩
  · rw [O _ (h1 hm hq)]; exact FM.way q m hm hq hne
  · rw [O _ (hz _ (.inr rfl))]; exact FM.top
  · by_cases e : m.id = N₂.id
    · rw [e, hp, ← e]; exact FM.kin a A m hA hq hne hm
    · rw [O]
      · exact FM.kin a A m hA hq hne hm
      · rintro (h | h)
        · have hc := H.child hA hm
          obtain ⟨k1, k2⟩ := (H₂.zone _ _ hc).mp h
          rcases List.prefix_or_prefix_of_prefix k1 (List.prefix_append a m.path) with k | k
          · exact ha (k.trans hq)
          · by_cases hne₂ : a = u₂
            · exact ha (hne₂ ▸ hq)
            · obtain ⟨r, hr⟩ := k1
              exact H₂.kin_out hA k hne₂ hm h
        · exact e h
  · rw [O _ (hz i hi)]; exact FM.elts i hi
  · rw [O _ (hz i hi)]; exact FM.len i hi

/-! ### Looking keys up and removing them -/

/-- The loops over children: those on the way, and those in the part. -/
def LoopOk (t : Tree α) (u w : Str) (N : Node α) (Z : Nat → Prop) (M : Mem α) (L : Loop) : Prop :=
  (∃ a A, (a, A) ∈ t.root.nodes [] ∧ a <+: u ∧ a ≠ u ∧ L.node = A.id ∧ L.len = A.kids.length ∧ L.word = w.drop a.length) ∨
  ((Z L.node ∨ L.node = N.id) ∧ L.len ≤ (M L.node).arr.length)

/-- The parent is in the part. -/
def ParOk (N : Node α) (Z : Nat → Prop) (par : Option Nat) : Prop := ∃ j, par = some j ∧ (Z j ∨ j = N.id)

/-- Where a goroutine stands that looks the path `w` up. -/
def Good (t : Tree α) (u w : Str) (N : Node α) (Z : Nat → Prop) (M : Mem α) : Pc α → Prop
  | .enter w' i par stk => ((∃ m, OnWay t u w i w' m ∨ OffWay t u w i w' m) ∨ Z i ∧ ParOk N Z par) ∧ ∀ L ∈ stk, LoopOk t u w N Z M L
  | .cmp w' i par l k stk =>
    ((∃ m, l = m.path.length ∧ (OnWay t u w i w' m ∨ k = 0 ∧ OffWay t u w i w' m)) ∨ Z i ∧ ParOk N Z par) ∧
      ∀ L ∈ stk, LoopOk t u w N Z M L
  | .tail w' i par l stk => ((∃ m, l = m.path.length ∧ OnWay t u w i w' m) ∨ Z i ∧ ParOk N Z par) ∧ ∀ L ∈ stk, LoopOk t u w N Z M L
  | .kids w' i par l stk => ((∃ m, l = m.path.length ∧ OnWay t u w i w' m) ∨ Z i ∧ ParOk N Z par) ∧ ∀ L ∈ stk, LoopOk t u w N Z M L
  | .range w' i par l stk => (M i).len ≠ 0 ∧
    ((∃ m, l = m.path.length ∧ OnWay t u w i w' m) ∨ Z i ∧ ParOk N Z par) ∧ ∀ L ∈ stk, LoopOk t u w N Z M L
  | .ret m p child par stk => (m = true → p = false ∧ ∃ i, child = some i ∧ Z i ∧ ParOk N Z par) ∧ ∀ L ∈ stk, LoopOk t u w N Z M L
  | .branch i | .ends i | .has i _ _ | .data i _ _ => Z i
  | .pick par _ | .scan par _ _ _ | .cut par _ => Z par ∨ par = N.id
  | .move par k n _ => (Z par ∨ par = N.id) ∧ k + 1 + n ≤ (M par).arr.length
  | .done _ | .gone _ | .crash => True

/-- What one step does. -/
structure Does (t : Tree α) (u w : Str) (N : Node α) (Z : Nat → Prop) (M P M' P' : Mem α) (pcM pcP : Pc α) : Prop where
  pc : pcM = pcP
  good : Good t u w N Z P' pcP
  fit : Fit t u N Z P'
  same : Same N Z M' P'
  outM : Outside N Z M M'
  outP : Outside N Z P P'

omit [Inhabited α] in
/-- A step that only reads. -/
theorem Does.reads {M P : Mem α} {pcM pcP : Pc α} (F : Fit t u N Z P) (S : Same N Z M P) (e : pcM = pcP) (g : Good t u w N Z P pcP) :
    Does t u w N Z M P M P pcM pcP := ⟨e, g, F, S, fun _ _ => rfl, fun _ _ => rfl⟩

omit [Inhabited α] in
theorem found_good {M : Mem α} (c : Call) (p : Bool) (child par : Option Nat)
    (h : p = true ∨ child = none ∨ ∃ i, child = some i ∧ Z i ∧ ParOk N Z par) [Inhabited α] :
    Good t u w N Z M (Prune.found c p child par) := by
  rcases h with rfl | rfl | ⟨i, rfl, hz, j, rfl, hj⟩
  · cases c <;> cases child <;> cases par <;> exact trivial
  · cases c <;> cases p <;> cases par <;> exact trivial
  · cases c <;> cases p
    · exact hz
    · exact trivial
    · exact hj
    · exact trivial

theorem step_good (H : Part t u N Z) (hw : u <+: w) (hne : u ≠ w) {M P : Mem α} (FM : Fit t u N Z M) (F : Fit t u N Z P)
    (S : Same N Z M P) (c : Call) (d : Char) (pc : Pc α) (g : Good t u w N Z P pc) :
    Does t u w N Z M P (Prune.step c d M pc).1 (Prune.step c d P pc).1 (Prune.step c d M pc).2 (Prune.step c d P pc).2 := by
  have hpath : ∀ {i : Nat} {w' : Str} {m : Node α}, OnWay t u w i w' m → (M i).path = m.path ∧ (P i).path = m.path :=
    fun h => ⟨(FM.on H h).1, (F.on H h).1⟩
  have hlen : ∀ {i : Nat} {w' : Str} {m : Node α}, OnWay t u w i w' m → (M i).len = (P i).len := by
    intro i w' m h
    rcases (FM.on H h).2 with ⟨h1, _⟩ | h1
    · rcases (F.on H h).2 with ⟨h2, _⟩ | h2
      · rw [h1, h2]
      · rw [S i (.inr h2)]
    · rw [S i (.inr h1)]
  cases pc with
  | enter w' i par stk =>
    obtain ⟨g, gs⟩ := g
    rcases g with ⟨m, g | g⟩ | ⟨hz, hp⟩
    · obtain ⟨e1, e2⟩ := hpath g
      have hne' : w' ≠ [] := by
        intro e; have := (g.path hw hne).2; rw [e] at this; simp at this
      refine .reads F S ?_ ?_
      · simp only [Prune.step, e1, e2]
      · simp only [Prune.step, if_neg hne', e2]
        exact ⟨.inl ⟨m, rfl, .inl g⟩, gs⟩
    · have e1 := FM.off g
      have e2 := F.off g
      have hne' : w' ≠ [] := by
        obtain ⟨_, _, x, xs, y, ys, _, e, _⟩ := g
        rw [e]; simp
      refine .reads F S ?_ ?_
      · simp only [Prune.step, e1, e2]
      · simp only [Prune.step, if_neg hne', e2]
        exact ⟨.inl ⟨m, rfl, .inr ⟨rfl, g⟩⟩, gs⟩
    · refine .reads F S ?_ ?_
      · simp only [Prune.step, S i (.inl hz)]
      · simp only [Prune.step]
        split
        · exact ⟨fun _ => ⟨rfl, i, rfl, hz, hp⟩, gs⟩
        · exact ⟨.inr ⟨hz, hp⟩, gs⟩
  | cmp w' i par l k stk =>
    obtain ⟨g, gs⟩ := g
    rcases g with ⟨m, rfl, g | ⟨rfl, g⟩⟩ | ⟨hz, hp⟩
    · obtain ⟨e1, e2⟩ := hpath g
      obtain ⟨hpre, hlt⟩ := g.path hw hne
      refine .reads F S ?_ ?_
      · simp only [Prune.step, e1, e2]
      · simp only [Prune.step, e2]
        split
        · next hk =>
          have hk' : k < m.path.length := by omega
          obtain ⟨r, hr⟩ := hpre
          have : w'[k]? = some m.path[k] := by
            rw [← hr, List.getElem?_append_left hk', List.getElem?_eq_getElem hk']
          rw [List.getElem?_eq_getElem hk']
          simp only [this, if_true]
          exact ⟨.inl ⟨m, rfl, .inl g⟩, gs⟩
        · exact ⟨.inl ⟨m, rfl, g⟩, gs⟩
    · have e1 := FM.off g
      have e2 := F.off g
      obtain ⟨_, _, x, xs, y, ys, h1, h2, h3⟩ := g
      refine .reads F S ?_ ?_
      · simp only [Prune.step, e1, e2]
      · simp only [Prune.step, e2, h1, h2]
        rw [if_pos (by simp)]
        simp only [List.getElem?_cons_zero, Option.some.injEq, if_neg (Ne.symm h3)]
        exact ⟨fun h => (by cases h), gs⟩
    · refine .reads F S ?_ ?_
      · simp only [Prune.step, S i (.inl hz)]
      · simp only [Prune.step]
        split
        · split
          · exact trivial
          · split
            · exact ⟨.inr ⟨hz, hp⟩, gs⟩
            · exact ⟨fun h => (by cases h), gs⟩
        · exact ⟨.inr ⟨hz, hp⟩, gs⟩
  | tail w' i par l stk =>
    obtain ⟨g, gs⟩ := g
    rcases g with ⟨m, rfl, g⟩ | ⟨hz, hp⟩
    · obtain ⟨hpre, hlt⟩ := g.path hw hne
      have e : ∀ Q : Mem α, (Prune.step c d Q (.tail w' i par m.path.length stk)) = (Q, .kids w' i par m.path.length stk) := by
        intro Q
        simp only [Prune.step]
        rw [if_neg (by omega), if_neg (by omega), if_pos hlt]
      rw [e, e]
      exact .reads F S rfl ⟨.inl ⟨m, rfl, g⟩, gs⟩
    · refine .reads F S ?_ ?_
      · simp only [Prune.step, S i (.inl hz)]
      · simp only [Prune.step]
        have good : ∀ p, Good t u w N Z P (.ret (!p) p (some i) par stk) := by
          intro p
          exact ⟨fun h => ⟨by simpa using h, i, rfl, hz, hp⟩, gs⟩
        split
        · split
          · exact trivial
          · split
            · exact good false
            · exact good true
        · split
          · exact good true
          · split
            · exact ⟨.inr ⟨hz, hp⟩, gs⟩
            · exact good false
  | kids w' i par l stk =>
    obtain ⟨g, gs⟩ := g
    have e : (M i).len = (P i).len := by
      rcases g with ⟨m, rfl, g⟩ | ⟨hz, hp⟩
      · exact hlen g
      · rw [S i (.inl hz)]
    refine .reads F S ?_ ?_
    · simp only [Prune.step, e]
    · simp only [Prune.step]
      split
      · exact ⟨fun h => (by cases h), gs⟩
      · next h => exact ⟨h, g, gs⟩
  | range w' i par l stk =>
    obtain ⟨g0, g, gs⟩ := g
    have e : (M i).len = (P i).len := by
      rcases g with ⟨m, rfl, g⟩ | ⟨hz, hp⟩
      · exact hlen g
      · rw [S i (.inl hz)]
    refine .reads F S ?_ ?_
    · simp only [Prune.step, e]
    · simp only [Prune.step, if_neg g0]
      refine ⟨fun h => (by cases h), fun L hL => ?_⟩
      rcases List.mem_cons.mp hL with rfl | hL
      · rcases g with ⟨m, rfl, g⟩ | ⟨hz, hp⟩
        · rcases (F.on H g).2 with ⟨h1, _⟩ | h1
          · obtain ⟨a, k1, k2, k3, k4⟩ := g
            by_cases hu : a ++ m.path = u
            · right
              have hid : i = N.id := by
                have := (Tree.nodeAt_some H.ok).mpr k1
                rw [hu, (Tree.nodeAt_some H.ok).mpr H.mem] at this
                rw [← k2, Option.some.inj this]
              exact ⟨.inr hid, F.len i (.inr hid)⟩
            · left
              exact ⟨_, m, k1, k4, hu, k2.symm, by show (P i).len = _; rw [h1]; rfl,
                by show w'.drop _ = _; rw [k3, List.drop_drop, List.length_append]⟩
          · exact .inr ⟨.inr h1, F.len i (.inr h1)⟩
        · exact .inr ⟨.inl hz, F.len i (.inl hz)⟩
      · exact gs L hL
  | ret m p child par stk =>
    obtain ⟨g, gs⟩ := g
    by_cases hmp : (m || p) = true
    · have e : ∀ Q : Mem α, Prune.step c d Q (.ret m p child par stk) = (Q, Prune.found c p child par) := by
        intro Q; simp only [Prune.step, hmp, if_true]
      rw [e, e]
      refine .reads F S rfl (found_good c p child par ?_)
      cases m with
      | false => left; simpa using hmp
      | true => exact .inr (.inr (g rfl).2)
    · cases stk with
      | nil =>
        have e : ∀ Q : Mem α, Prune.step c d Q (.ret m p child par []) = (Q, Prune.found c p none none) := by
          intro Q; simp only [Prune.step, if_neg hmp]
        rw [e, e]
        exact .reads F S rfl (found_good c p none none (.inr (.inl rfl)))
      | cons L stk =>
        have e : ∀ Q : Mem α, Prune.step c d Q (.ret m p child par (L :: stk)) = (Q, if L.next < L.len then
            .enter L.word ((Q L.node).arr.getD L.next 0) (some L.node) ({ L with next := L.next + 1 } :: stk)
            else .ret false false none none stk) := by
          intro Q; simp only [Prune.step, if_neg hmp]
        rw [e, e]
        have gL := gs L (by simp)
        have gs' : ∀ L' ∈ stk, LoopOk t u w N Z P L' := fun L' h => gs L' (by simp [h])
        by_cases hn : L.next < L.len
        · simp only [if_pos hn]
          have gstk : ∀ L' ∈ { L with next := L.next + 1 } :: stk, LoopOk t u w N Z P L' := by
            intro L' h
            rcases List.mem_cons.mp h with rfl | h
            · exact gL
            · exact gs' L' h
          rcases gL with ⟨a, A, h1, h2, h3, h4, h5, h6⟩ | ⟨h1, h2⟩
          · have hk : L.next < A.kids.length := h5 ▸ hn
            have eM : ((M L.node).arr.getD L.next 0) = A.kids[L.next].id := by
              rw [h4, FM.way _ _ h1 h2 h3]; exact ids_getD hk
            have eP : ((P L.node).arr.getD L.next 0) = A.kids[L.next].id := by
              rw [h4, F.way _ _ h1 h2 h3]; exact ids_getD hk
            rw [eM, eP]
            refine .reads F S rfl ⟨.inl ⟨A.kids[L.next], ?_⟩, gstk⟩
            have hm := List.getElem_mem hk
            rcases H.child_cases hw h1 h2 h3 hm with ⟨k1, k2⟩ | k1
            · exact .inl ⟨a, H.child h1 hm, rfl, h6, k1⟩
            · exact .inr ⟨rfl, ⟨a, A, h1, h2, h3, hm, h6⟩, by rw [h6]; exact k1⟩
          · rw [S L.node h1]
            refine .reads F S rfl ⟨.inr ⟨?_, L.node, rfl, h1⟩, gstk⟩
            have hk : L.next < (P L.node).arr.length := by omega
            rw [List.getD_eq_getElem?_getD, List.getElem?_eq_getElem hk]
            exact F.elts L.node h1 _ (List.getElem_mem hk)
        · simp only [if_neg hn]
          exact .reads F S rfl ⟨fun h => (by cases h), gs'⟩
  | branch i =>
    refine .reads F S ?_ ?_
    · simp only [Prune.step, S i (.inl g)]
    · simp only [Prune.step]; split <;> exact g
  | ends i =>
    refine .reads F S ?_ ?_
    · simp only [Prune.step, S i (.inl g)]
    · exact g
  | has i br f =>
    refine .reads F S ?_ ?_
    · simp only [Prune.step, S i (.inl g)]
    · simp only [Prune.step]
      split
      · exact g
      · exact trivial
  | data i br f =>
    refine .reads F S ?_ trivial
    simp only [Prune.step, S i (.inl g)]
  | done a => exact .reads F S rfl trivial
  | pick par item =>
    refine .reads F S ?_ g
    simp only [Prune.step, S par g]
  | scan par item n k =>
    refine .reads F S ?_ ?_
    · simp only [Prune.step, S par g]
    · simp only [Prune.step]
      split
      · split <;> exact g
      · exact trivial
  | cut par k =>
    refine .reads F S ?_ ?_
    · simp only [Prune.step, S par g]
    · simp only [Prune.step]
      split
      · next h =>
        have := F.len par g
        exact ⟨g, by omega⟩
      · exact trivial
  | move par k n j =>
    obtain ⟨g, gl⟩ := g
    simp only [Prune.step, S par g]
    by_cases hj : j < n
    · simp only [if_pos hj]
      obtain ⟨w1, w2, w3, w4⟩ := F.write H S g (s := { P par with arr := (P par).arr.set (k + j) ((P par).arr.getD (k + 1 + j) 0) })
        (fun e => e ▸ F.top) (fun x hx => by
          rcases List.mem_or_eq_of_mem_set hx with hx | rfl
          · exact F.elts par g x hx
          · have hk : k + 1 + j < (P par).arr.length := by omega
            rw [List.getD_eq_getElem?_getD, List.getElem?_eq_getElem hk]
            exact F.elts par g _ (List.getElem_mem hk))
        (by simpa using F.len par g)
      refine ⟨rfl, ⟨g, ?_⟩, w1, w2, w3, w4⟩
      simpa [Prune.Mem.set] using gl
    · simp only [if_neg hj]
      obtain ⟨w1, w2, w3, w4⟩ := F.write H S g (s := { P par with len := k + n }) (fun e => e ▸ F.top) (fun x hx => F.elts par g x hx)
        (by show k + n ≤ (P par).arr.length; omega)
      exact ⟨rfl, trivial, w1, w2, w3, w4⟩
  | gone b => exact .reads F S rfl trivial
  | crash => exact .reads F S rfl trivial

/-! ### Setting keys -/

/-- Where a goroutine stands that sets the path `w`. -/
def GoodI (t : Tree α) (u w : Str) (N : Node α) (Z : Nat → Prop) (M : Mem α) : SetPc → Prop
  | .enter w' i => (∃ m, OnWay t u w i w' m) ∨ Z i
  | .halve _ i _ | .cut _ i _ _ _ | .mark i | .store i => Z i
  | .look w' i => (∃ a A, (a, A) ∈ t.root.nodes [] ∧ a <+: u ∧ A.id = i ∧ w' = w.drop a.length) ∨ Z i
  | .scan w' i n k => (∃ a A c l, (a, A) ∈ t.root.nodes [] ∧ a <+: u ∧ a ≠ u ∧ A.id = i ∧ w' = w.drop a.length ∧
      c ∈ A.kids ∧ a ++ c.path <+: u ∧ n = A.kids.length ∧ k ≤ l ∧ A.kids[l]? = some c) ∨
      ((Z i ∨ i = N.id) ∧ n ≤ (M i).arr.length)
  | .leaf _ i => Z i ∨ i = N.id
  | .link i ks => (Z i ∨ i = N.id) ∧ ∀ j ∈ ks, Z j
  | .done | .crash => True

structure DoesI (t : Tree α) (u w : Str) (N : Node α) (Z : Nat → Prop) (M P M' P' : Mem α) (pcM pcP : SetPc) : Prop where
  pc : pcM = pcP
  good : GoodI t u w N Z P' pcP
  fit : Fit t u N Z P'
  same : Same N Z M' P'
  outM : Outside N Z M M'
  outP : Outside N Z P P'

omit [Inhabited α] in
theorem DoesI.reads {M P : Mem α} {pcM pcP : SetPc} (F : Fit t u N Z P) (S : Same N Z M P) (e : pcM = pcP) (g : GoodI t u w N Z P pcP) :
    DoesI t u w N Z M P M P pcM pcP := ⟨e, g, F, S, fun _ _ => rfl, fun _ _ => rfl⟩

omit [Inhabited α] in
theorem DoesI.write (H : Part t u N Z) {M P : Mem α} (F : Fit t u N Z P) (S : Same N Z M P) {i : Nat} {s : Cell α} {pc : SetPc}
    (hi : Z i ∨ i = N.id) (h1 : i = N.id → s.path = N.path) (h2 : ∀ x ∈ s.arr, Z x) (h3 : s.len ≤ s.arr.length)
    (g : GoodI t u w N Z (P.set i s) pc) : DoesI t u w N Z M P (M.set i s) (P.set i s) pc pc := by
  obtain ⟨w1, w2, w3, w4⟩ := F.write H S hi h1 h2 h3
  exact ⟨rfl, g, w1, w2, w3, w4⟩

omit [Inhabited α] in
theorem Part.top_out (H : Part t u N Z) : ¬ Z N.id := fun h => ((H.zone _ _ H.mem).mp h).2 rfl

omit [Inhabited α] in
theorem mem_kids {s : Cell α} {j : Nat} (h : j ∈ kids s) : j ∈ s.arr := List.mem_of_mem_take h

omit [Inhabited α] in
theorem kids_cellOf (m : Node α) : kids (cellOf m) = m.kids.map Node.id := by
  show (m.kids.map Node.id).take m.kids.length = _
  exact List.take_of_length_le (by simp)

theorem insStep_good (H : Part t u N Z) (hw : u <+: w) (hne : u ≠ w) {M P : Mem α} (FM : Fit t u N Z M) (F : Fit t u N Z P)
    (S : Same N Z M P) (J : Job α) (hf : Z J.fresh) (hf' : Z (J.fresh + 1)) (pc : SetPc) (g : GoodI t u w N Z P pc) :
    DoesI t u w N Z M P (insStep J M pc).1 (insStep J P pc).1 (insStep J M pc).2 (insStep J P pc).2 := by
  cases pc with
  | enter w' i =>
    rcases g with ⟨m, g⟩ | hz
    · obtain ⟨e1, k1⟩ := FM.on H g
      obtain ⟨e2, k2⟩ := F.on H g
      have ek : kids (M i) = kids (P i) := by
        rcases k1 with ⟨h1, _⟩ | h1
        · rcases k2 with ⟨h2, _⟩ | h2
          · rw [h1, h2]
          · rw [S i (.inr h2)]
        · rw [S i (.inr h1)]
      obtain ⟨hpre, hlt⟩ := g.path hw hne
      have hcpl : Race.cplOf w' m.path = m.path.length := by
        rw [Race.cplOf_eq]; exact Race.cpl_prefix hpre
      have e : ∀ Q : Mem α, (Q i).path = m.path → kids (Q i) = kids (P i) → insStep J Q (.enter w' i) = (Q,
          if m.path.length = 0 ∧ w'.length > 0 ∧ (kids (P i)).length = 0 then .leaf w' i else .look (w'.drop m.path.length) i) := by
        intro Q h1 h2
        simp only [insStep, h1, h2, hcpl]
        split
        · rfl
        · simp only [Nat.lt_irrefl, if_false]
      rw [e M e1 ek, e P e2 rfl]
      refine .reads F S rfl ?_
      split
      · next h =>
        rcases k2 with ⟨h2, h3⟩ | h2
        · rw [h2, kids_cellOf] at h
          exact absurd (List.length_eq_zero_iff.mp (by simpa using h.2.2)) h3
        · exact .inr h2
      · obtain ⟨a, h1, h2, h3, h4⟩ := g
        exact .inl ⟨_, m, h1, h4, h2, by rw [h3, List.drop_drop, List.length_append]⟩
    · have e : ∀ Q : Mem α, (insStep J Q (.enter w' i)).1 = Q := by
        intro Q; simp only [insStep]; repeat' split
        all_goals rfl
      have e2 : (insStep J M (.enter w' i)).2 = (insStep J P (.enter w' i)).2 := by
        simp only [insStep, S i (.inl hz)]
        repeat' split
        all_goals rfl
      rw [e, e, e2]
      refine .reads F S rfl ?_
      simp only [insStep]
      repeat' split
      · exact .inl hz
      · exact hz
      · exact .inr hz
      · exact hz
  | halve w' i pos =>
    have hz : Z i := g
    simp only [insStep, S i (.inl hz)]
    split
    · refine .write H F S (.inl hf) (fun e => absurd (e ▸ hf) H.top_out) ?_ ?_ hz
      · exact fun x hx => F.elts i (.inl hz) x hx
      · exact F.len i (.inl hz)
    · exact .reads F S rfl trivial
  | cut w' i pos d k =>
    have hz : Z i := g
    simp only [insStep, S i (.inl hz)]
    refine .write H F S (.inl hz) (fun e => absurd (e ▸ hz) H.top_out) ?_ ?_ ?_
    · have := F.elts i (.inl hz)
      unfold assign
      split <;> first | exact this | (intro x hx; rw [List.mem_singleton.mp hx]; exact hf)
    · have := F.len i (.inl hz)
      unfold assign
      split <;> first | exact this | exact Nat.le_refl 1
    · split
      · exact hz
      · split
        · exact .inr hz
        · exact hz
  | look w' i =>
    rcases g with ⟨a, A, h1, h2, h3, h4⟩ | hz
    · by_cases e : a = u
      · have hid : i = N.id := by
          have := (Tree.nodeAt_some H.ok).mpr h1
          rw [e, (Tree.nodeAt_some H.ok).mpr H.mem] at this
          rw [← h3, Option.some.inj this]
        simp only [insStep, S i (.inr hid)]
        exact .reads F S rfl (.inr ⟨.inr hid, F.len i (.inr hid)⟩)
      · have eM := FM.way _ _ h1 h2 e
        have eP := F.way _ _ h1 h2 e
        rw [h3] at eM eP
        obtain ⟨c, hc, hcu⟩ := H.next h1 h2 e
        simp only [insStep, eM, eP]
        obtain ⟨l, hl, hlc⟩ := List.mem_iff_getElem.mp hc
        exact .reads F S rfl (.inl ⟨a, A, c, l, h1, h2, e, h3, h4, hc, hcu, rfl, Nat.zero_le _,
          by rw [List.getElem?_eq_getElem hl, hlc]⟩)
    · simp only [insStep, S i (.inl hz)]
      exact .reads F S rfl (.inr ⟨.inl hz, F.len i (.inl hz)⟩)
  | scan w' i n k =>
    rcases g with ⟨a, A, c, l, h1, h2, h3, h4, h5, h6, h7, rfl, h8, h9⟩ | ⟨h1, h2⟩
    · have hl : l < A.kids.length := (List.getElem?_eq_some_iff.mp h9).1
      have hk : k < A.kids.length := by omega
      have hm : A.kids[k] ∈ A.kids := List.getElem_mem hk
      have eM := FM.kin a A _ h1 h2 h3 hm
      have eP := F.kin a A _ h1 h2 h3 hm
      have e : ∀ Q : Mem α, Q i = cellOf A → (Q A.kids[k].id).path = A.kids[k].path → insStep J Q (.scan w' i A.kids.length k) =
          (Q, if A.kids[k].path.head? = w'.head? then .enter w' A.kids[k].id else .scan w' i A.kids.length (k + 1)) := by
        intro Q h0 h
        simp only [insStep]
        rw [if_pos hk, h0]
        have : (cellOf A).arr.getD k 0 = A.kids[k].id := Prune.ids_getD hk
        rw [this, h]
      have wM := FM.way _ _ h1 h2 h3
      have wP := F.way _ _ h1 h2 h3
      rw [h4] at wM wP
      rw [e M wM eM, e P wP eP]
      refine .reads F S rfl ?_
      have hcc := H.child_cases hw h1 h2 h3 h6
      have hch : c.path.head? = w'.head? := by
        rcases hcc with ⟨_, k⟩ | ⟨x, xs, y, ys, k1, k2, k3⟩
        · rw [h5, k]
        · exfalso
          obtain ⟨r, hr⟩ := h7.trans hw
          rw [← hr, List.append_assoc, List.drop_left, k1] at k2
          simp only [List.cons_append] at k2
          injection k2 with k2 _
          exact k3 k2
      split
      · next hh =>
        have : A.kids[k] = c := Node.heads_inj (H.kids_wf h1).1 hm h6 (hh.trans hch.symm)
        rw [this]
        exact .inl ⟨c, a, H.child h1 h6, rfl, h5, h7⟩
      · next hh =>
        refine .inl ⟨a, A, c, l, h1, h2, h3, h4, h5, h6, h7, rfl, ?_, h9⟩
        rcases Nat.lt_or_eq_of_le h8 with h | rfl
        · exact h
        · rw [List.getElem?_eq_getElem hk] at h9
          rw [Option.some.inj h9] at hh
          exact absurd hch hh
    · by_cases hk : k < n
      · have hj : Z ((P i).arr.getD k 0) := by
          have hk' : k < (P i).arr.length := by omega
          rw [List.getD_eq_getElem?_getD, List.getElem?_eq_getElem hk']
          exact F.elts i h1 _ (List.getElem_mem hk')
        simp only [insStep, S i h1, S _ (.inl hj)]
        refine .reads F S rfl ?_
        rw [if_pos hk]
        split
        · exact .inr hj
        · exact .inr ⟨h1, h2⟩
      · simp only [insStep, if_neg hk]
        exact .reads F S rfl h1
  | leaf w' i =>
    simp only [insStep, S i g]
    refine .write H F S (.inl hf') (fun e => absurd (e ▸ hf') H.top_out) (fun x hx => by cases hx) (Nat.le_refl 0) ?_
    exact ⟨g, fun j hj => F.elts i g j (mem_kids hj)⟩
  | link i ks =>
    obtain ⟨g, gk⟩ := g
    simp only [insStep, S i g]
    refine .write H F S g (fun e => e ▸ F.top) (fun x hx => ?_) (by simp) trivial
    rcases List.mem_append.mp hx with hx | hx
    · exact gk x hx
    · rw [List.mem_singleton.mp hx]; exact hf'
  | mark i =>
    have hz : Z i := g
    simp only [insStep, S i (.inl hz)]
    exact .write H F S (.inl hz) (fun e => absurd (e ▸ hz) H.top_out) (F.elts i (.inl hz)) (F.len i (.inl hz)) hz
  | store i =>
    have hz : Z i := g
    simp only [insStep, S i (.inl hz)]
    exact .write H F S (.inl hz) (fun e => absurd (e ▸ hz) H.top_out) (F.elts i (.inl hz)) (F.len i (.inl hz)) trivial
  | done => exact .reads F S rfl trivial
  | crash => exact .reads F S rfl trivial

/-! ### A goroutine -/

/-- A goroutine that keeps to its part. -/
structure GoodG (t : Tree α) (u : Str) (N : Node α) (Z : Nat → Prop) (gap : Nat) (M : Mem α) (g : Gor α) : Prop where
  todo : ∀ a ∈ g.todo, u <+: a.key g.view ∧ u ≠ a.key g.view
  fresh : ∀ n, Z (g.fresh + gap * n) ∧ Z (g.fresh + gap * n + 1)
  doing : match g.doing with
    | .idle => True
    | .asks _ pc => ∃ w, u <+: w ∧ u ≠ w ∧ Good t u w N Z M pc
    | .sets J pc => Z J.fresh ∧ Z (J.fresh + 1) ∧ ∃ w, u <+: w ∧ u ≠ w ∧ GoodI t u w N Z M pc

structure DoesG (t : Tree α) (u : Str) (N : Node α) (Z : Nat → Prop) (gap : Nat) (M P : Mem α) (rM rP : Mem α × Gor α) : Prop where
  eq : rM.2 = rP.2
  good : GoodG t u N Z gap rP.1 rP.2
  fit : Fit t u N Z rP.1
  same : Same N Z rM.1 rP.1
  outM : Outside N Z M rM.1
  outP : Outside N Z P rP.1

theorem gor_step (H : Part t u N Z) {gap : Nat} {M P : Mem α} (FM : Fit t u N Z M) (F : Fit t u N Z P)
    (S : Same N Z M P) (g : Gor α) (G : GoodG t u N Z gap P g) :
    DoesG t u N Z gap M P (g.step t.root.id gap M) (g.step t.root.id gap P) := by
  obtain ⟨v, todo, doing, outs, fresh⟩ := g
  obtain ⟨g1, g2, g3⟩ := G
  have reads : ∀ g' : Gor α, GoodG t u N Z gap P g' → DoesG t u N Z gap M P (M, g') (P, g') :=
    fun g' h => ⟨rfl, h, F, S, fun _ _ => rfl, fun _ _ => rfl⟩
  cases doing with
  | idle =>
    cases todo with
    | nil => exact reads _ ⟨g1, g2, trivial⟩
    | cons a r =>
      obtain ⟨hk, hk'⟩ := g1 a (by simp)
      have g1' : ∀ a ∈ r, u <+: a.key v ∧ u ≠ a.key v := fun a h => g1 a (by simp [h])
      cases a with
      | get p => exact reads _ ⟨g1', g2, _, hk, hk', .inl ⟨t.root, .inl H.root⟩, by simp⟩
      | remove p => exact reads _ ⟨g1', g2, _, hk, hk', .inl ⟨t.root, .inl H.root⟩, by simp⟩
      | set p x =>
        refine reads _ ⟨g1', fun n => ?_, ?_, ?_, _, hk, hk', .inl ⟨t.root, H.root⟩⟩
        · have := g2 (n + 1)
          rw [Nat.mul_add, Nat.mul_one, Nat.add_comm (gap * n), ← Nat.add_assoc] at this
          exact this
        · exact (g2 0).1
        · exact (g2 0).2
  | asks c pc =>
    obtain ⟨w, hw, hne, g⟩ := g3
    by_cases hd : (∃ a, pc = .done a) ∨ ∃ b, pc = .gone b
    · rcases hd with ⟨a, rfl⟩ | ⟨b, rfl⟩
      · exact reads _ ⟨g1, g2, trivial⟩
      · exact reads _ ⟨g1, g2, trivial⟩
    · have e : ∀ Q : Mem α, Gor.step t.root.id gap Q ⟨v, todo, .asks c pc, outs, fresh⟩ =
          ((Prune.step c v.delim Q pc).1, ⟨v, todo, .asks c (Prune.step c v.delim Q pc).2, outs, fresh⟩) := by
        intro Q
        unfold Gor.step
        cases pc <;> first | rfl | (exfalso; exact hd (.inl ⟨_, rfl⟩)) | (exfalso; exact hd (.inr ⟨_, rfl⟩))
      rw [e, e]
      have D := step_good H hw hne FM F S c v.delim pc g
      exact ⟨by simp only [D.pc], ⟨g1, g2, w, hw, hne, D.good⟩, D.fit, D.same, D.outM, D.outP⟩
  | sets J pc =>
    obtain ⟨hf, hf', w, hw, hne, g⟩ := g3
    by_cases hd : pc = .done
    · subst hd
      exact reads _ ⟨g1, g2, trivial⟩
    · have e : ∀ Q : Mem α, Gor.step t.root.id gap Q ⟨v, todo, .sets J pc, outs, fresh⟩ =
          ((insStep J Q pc).1, ⟨v, todo, .sets J (insStep J Q pc).2, outs, fresh⟩) := by
        intro Q
        unfold Gor.step
        cases pc <;> first | rfl | (exfalso; exact hd rfl)
      rw [e, e]
      have D := insStep_good H hw hne FM F S J hf hf' pc g
      exact ⟨by simp only [D.pc], ⟨g1, g2, hf, hf', w, hw, hne, D.good⟩, D.fit, D.same, D.outM, D.outP⟩

end

/-! ### All goroutines -/

/-- What a goroutine does that is alone with a memory. -/
def solo (root gap : Nat) : Nat → Mem α × Gor α → Mem α × Gor α
  | 0, r => r
  | n + 1, r => (solo root gap n r).2.step root gap (solo root gap n r).1

variable {t : Tree α} {ps : List (View × List (Act α))} {us : Nat → Str}

/-- The part of a goroutine: the nodes below its own, and the nodes that it makes. -/
def zone (t : Tree α) (ps : List (View × List (Act α))) (us : Nat → Str) (k i : Nat) : Prop :=
  (∃ q m, (q, m) ∈ t.root.nodes [] ∧ m.id = i ∧ us k <+: q ∧ q ≠ us k) ∨
  ∃ n, i = t.next + 2 * k + 2 * ps.length * n ∨ i = t.next + 2 * k + 2 * ps.length * n + 1

omit [Inhabited α] in
theorem zone_part (ok : t.OK) {k : Nat} {N : Node α} (h : (us k, N) ∈ t.root.nodes []) : Part t (us k) N (zone t ps us k) := by
  refine ⟨ok, h, fun q m hm => ⟨?_, fun hq => .inl ⟨q, m, hm, rfl, hq.1, hq.2⟩⟩⟩
  rintro (⟨q', m', hm', e, h1, h2⟩ | ⟨n, e⟩)
  · have := ok.id_inj hm' hm e
    rw [(Prod.mk.inj this).1] at h1 h2
    exact ⟨h1, h2⟩
  · have := ok.lt _ hm
    simp only at this
    omega

omit [Inhabited α] in
theorem residue {L i j n m : Nat} (hi : i < L) (hj : j < L) (h : i + L * n = j + L * m) : i = j := by
  have := congrArg (· % L) h
  simpa [Nat.add_mul_mod_self_left, Nat.mod_eq_of_lt hi, Nat.mod_eq_of_lt hj] using this

omit [Inhabited α] in
theorem zone_apart (ok : t.OK) (ha : Apart t ps us) {i j : Nat} (hi : i < ps.length) (hj : j < ps.length) (hne : i ≠ j) {N₁ N₂ : Node α}
    (h₁ : (us i, N₁) ∈ t.root.nodes []) (h₂ : (us j, N₂) ∈ t.root.nodes []) (x : Nat) (hx : zone t ps us i x ∨ x = N₁.id) :
    ¬ (zone t ps us j x ∨ x = N₂.id) := by
  intro hy
  have key : ∀ {k : Nat} {N : Node α}, (us k, N) ∈ t.root.nodes [] → zone t ps us k x ∨ x = N.id →
      (∃ q m, (q, m) ∈ t.root.nodes [] ∧ m.id = x ∧ us k <+: q) ∨
      (t.next ≤ x ∧ ∃ n, x = t.next + 2 * k + 2 * ps.length * n ∨ x = t.next + 2 * k + 2 * ps.length * n + 1) := by
    rintro k N hN ((⟨q, m, h1, h2, h3, _⟩ | h) | h)
    · exact .inl ⟨q, m, h1, h2, h3⟩
    · refine .inr ⟨?_, h⟩
      obtain ⟨n, h⟩ := h
      omega
    · exact .inl ⟨_, N, hN, h.symm, List.prefix_refl _⟩
  rcases key h₁ hx with ⟨q, m, h1, h2, h3⟩ | ⟨hl, n, hn⟩
  · rcases key h₂ hy with ⟨q', m', h1', h2', h3'⟩ | ⟨hl', _⟩
    · have := ok.id_inj h1 h1' (h2.trans h2'.symm)
      rw [(Prod.mk.inj this).1] at h3
      rcases List.prefix_or_prefix_of_prefix h3 h3' with h | h
      · exact ha.apart i j hi hj hne h
      · exact ha.apart j i hj hi (Ne.symm hne) h
    · have := ok.lt _ h1
      simp only at this
      omega
  · rcases key h₂ hy with ⟨q', m', h1', h2', h3'⟩ | ⟨hl', n', hn'⟩
    · have := ok.lt _ h1'
      simp only at this
      omega
    · refine hne (residue hi hj (n := n) (m := n') ?_)
      rw [Nat.mul_assoc] at hn hn'
      omega

/-- The invariant. -/
structure Inv (t : Tree α) (ps : List (View × List (Act α))) (us : Nat → Str) (Ns : Nat → Node α) (W : World α) (cnt : Nat → Nat) : Prop where
  idle : ∀ k, ps.length ≤ k → (W.gs k).todo = [] ∧ (W.gs k).doing = .idle
  gor : ∀ k, k < ps.length → W.gs k = (solo t.root.id (2 * ps.length) (cnt k) ((start t ps).mem, (start t ps).gs k)).2
  fitM : ∀ k, k < ps.length → Fit t (us k) (Ns k) (zone t ps us k) W.mem
  fit : ∀ k, k < ps.length → Fit t (us k) (Ns k) (zone t ps us k)
    (solo t.root.id (2 * ps.length) (cnt k) ((start t ps).mem, (start t ps).gs k)).1
  same : ∀ k, k < ps.length → Same (Ns k) (zone t ps us k) W.mem
    (solo t.root.id (2 * ps.length) (cnt k) ((start t ps).mem, (start t ps).gs k)).1
  good : ∀ k, k < ps.length → GoodG t (us k) (Ns k) (zone t ps us k) (2 * ps.length)
    (solo t.root.id (2 * ps.length) (cnt k) ((start t ps).mem, (start t ps).gs k)).1
    (solo t.root.id (2 * ps.length) (cnt k) ((start t ps).mem, (start t ps).gs k)).2

theorem inv_start (ok : t.OK) (ha : Apart t ps us) {Ns : Nat → Node α} (hN : ∀ k, k < ps.length → (us k, Ns k) ∈ t.root.nodes []) :
    Inv t ps us Ns (start t ps) (fun _ => 0) := by
  have cell : ∀ q m, (q, m) ∈ t.root.nodes [] → (start t ps).mem m.id = cellOf m := fun q m hm => Prune.lay_nodes _ _ ok.ids_nodup [] q m hm
  have none : ∀ i, t.next ≤ i → (start t ps).mem i = ⟨[], Core.zero, [], 0⟩ := by
    intro i hi
    refine Prune.lay_out _ _ _ fun hmem => ?_
    rw [← Node.ids_eq []] at hmem
    obtain ⟨x, hx, e⟩ := List.mem_map.mp hmem
    have := ok.lt x hx
    omega
  have fit : ∀ k, k < ps.length → Fit t (us k) (Ns k) (zone t ps us k) (start t ps).mem := by
    intro k hk
    have H := zone_part (ps := ps) ok (hN k hk)
    have cases : ∀ i, zone t ps us k i ∨ i = (Ns k).id → (∃ q m, (q, m) ∈ t.root.nodes [] ∧ m.id = i ∧ us k <+: q) ∨ t.next ≤ i := by
      rintro i ((⟨q, m, h1, h2, h3, _⟩ | ⟨n, h⟩) | h)
      · exact .inl ⟨q, m, h1, h2, h3⟩
      · exact .inr (by omega)
      · exact .inl ⟨_, Ns k, hN k hk, h.symm, List.prefix_refl _⟩
    refine ⟨fun q m hm _ _ => cell q m hm, by rw [cell _ _ (hN k hk)]; rfl, fun a A m hA _ _ hm => ?_, fun i hi j hj => ?_, fun i hi => ?_⟩
    · rw [cell _ _ (H.child hA hm)]; rfl
    · rcases cases i hi with ⟨q, m, h1, rfl, h3⟩ | h
      · rw [cell _ _ h1] at hj
        obtain ⟨c, hc, rfl⟩ := List.mem_map.mp hj
        refine (H.zone _ _ (H.child h1 hc)).mpr ⟨h3.trans (List.prefix_append _ _), ?_⟩
        intro e
        have h4 := h3.length_le
        have := List.length_pos_iff.mpr ((H.kids_wf h1).2 c hc).1
        rw [← e, List.length_append] at h4
        omega
      · rw [none i h] at hj
        cases hj
    · rcases cases i hi with ⟨q, m, h1, rfl, h3⟩ | h
      · rw [cell _ _ h1]; simp [cellOf]
      · show ((start t ps).mem i).len ≤ _
        rw [none i h]; exact Nat.le_refl 0
  refine ⟨fun k hk => ?_, fun k _ => rfl, fit, fit, fun k _ i _ => rfl, fun k hk => ⟨fun a h => ?_, fun n => ⟨?_, ?_⟩, trivial⟩⟩
  · show (ps[k]?.getD _).2 = [] ∧ _
    rw [List.getElem?_eq_none hk]; exact ⟨rfl, rfl⟩
  · have hk' : ps[k]? = some ps[k] := List.getElem?_eq_getElem hk
    change a ∈ (ps[k]?.getD _).2 at h
    show us k <+: a.key (ps[k]?.getD _).1 ∧ us k ≠ a.key (ps[k]?.getD _).1
    rw [hk'] at h ⊢
    exact ha.below k ps[k].1 ps[k].2 a hk' h
  · exact .inr ⟨n, .inl rfl⟩
  · exact .inr ⟨n, .inr rfl⟩

theorem inv_tick (ok : t.OK) (ha : Apart t ps us) {Ns : Nat → Node α} (hN : ∀ k, k < ps.length → (us k, Ns k) ∈ t.root.nodes [])
    {W : World α} {cnt : Nat → Nat} (I : Inv t ps us Ns W cnt) (k : Nat) :
    Inv t ps us Ns (W.tick t.root.id (2 * ps.length) k) (fun l => if l = k then cnt l + 1 else cnt l) := by
  by_cases hk : k < ps.length
  · have H := zone_part (ps := ps) ok (hN k hk)
    have D := gor_step H (I.fitM k hk) (I.fit k hk) (I.same k hk) _ (I.good k hk)
    rw [← I.gor k hk] at D
    have FM' := (I.fitM k hk).own H D.fit D.same D.outM
    have hn : ∀ l, l ≠ k → (if l = k then cnt l + 1 else cnt l) = cnt l := fun l h => if_neg h
    have he : (if k = k then cnt k + 1 else cnt k) = cnt k + 1 := if_pos rfl
    have so : (solo t.root.id (2 * ps.length) (cnt k + 1) ((start t ps).mem, (start t ps).gs k)) =
        (W.gs k).step t.root.id (2 * ps.length) (solo t.root.id (2 * ps.length) (cnt k) ((start t ps).mem, (start t ps).gs k)).1 := by
      rw [solo, ← I.gor k hk]
    have gl : ∀ l, l ≠ k → (W.tick t.root.id (2 * ps.length) k).gs l = W.gs l := fun l h => if_neg h
    have gk : (W.tick t.root.id (2 * ps.length) k).gs k = ((W.gs k).step t.root.id (2 * ps.length) W.mem).2 := if_pos rfl
    refine ⟨fun l hl => ?_, fun l hl => ?_, fun l hl => ?_, fun l hl => ?_, fun l hl => ?_, fun l hl => ?_⟩
    · rw [gl l (by omega)]; exact I.idle l hl
    all_goals by_cases e : l = k
    · subst e; simp only [if_true]; rw [gk, so]; exact D.eq
    · simp only [if_neg e]; rw [gl l e]; exact I.gor l hl
    · subst e; exact FM'
    · have Hl := zone_part (ps := ps) ok (hN l hl)
      refine (I.fitM l hl).other Hl H (ha.apart k l hk hl (Ne.symm e)) (zone_apart ok ha hl hk e (hN l hl) (hN k hk)) D.outM ?_
      exact FM'.top.trans (I.fitM k hk).top.symm
    · subst e; simp only [if_true]; rw [so]; exact D.fit
    · simp only [if_neg e]; exact I.fit l hl
    · subst e; simp only [if_true]; rw [so]; exact D.same
    · simp only [if_neg e]
      intro i hi
      rw [← I.same l hl i hi]
      exact D.outM i (zone_apart ok ha hl hk e (hN l hl) (hN k hk) i hi)
    · subst e; simp only [if_true]; rw [so]; exact D.good
    · simp only [if_neg e]; exact I.good l hl
  · obtain ⟨h1, h2⟩ := I.idle k (by omega)
    have hs : (W.gs k).step t.root.id (2 * ps.length) W.mem = (W.mem, W.gs k) := by
      unfold Gor.step; simp only [h1, h2]
    have hW : W.tick t.root.id (2 * ps.length) k = W := by
      unfold World.tick
      simp only [hs]
      have : (fun l => if l = k then W.gs k else W.gs l) = W.gs := by
        funext l; split
        · next e => rw [e]
        · rfl
      rw [this]
    rw [hW]
    have hc : ∀ l, l < ps.length → (if l = k then cnt l + 1 else cnt l) = cnt l := fun l hl => if_neg (by omega)
    refine ⟨I.idle, fun l hl => ?_, I.fitM, fun l hl => ?_, fun l hl => ?_, fun l hl => ?_⟩
    · simp only [hc l hl]; exact I.gor l hl
    · simp only [hc l hl]; exact I.fit l hl
    · simp only [hc l hl]; exact I.same l hl
    · simp only [hc l hl]; exact I.good l hl

theorem inv_run (ok : t.OK) (ha : Apart t ps us) {Ns : Nat → Node α} (hN : ∀ k, k < ps.length → (us k, Ns k) ∈ t.root.nodes []) (S : List Nat) :
    ∀ {W : World α} {cnt : Nat → Nat}, Inv t ps us Ns W cnt →
      Inv t ps us Ns (W.run t.root.id (2 * ps.length) S) (fun l => cnt l + S.count l) := by
  induction S with
  | nil => intro W cnt I; simpa [World.run] using I
  | cons k S ih =>
    intro W cnt I
    have := ih (inv_tick ok ha hN I k)
    have e : (fun l => (if l = k then cnt l + 1 else cnt l) + S.count l) = fun l => cnt l + (k :: S).count l := by
      funext l
      rw [List.count_cons]
      by_cases h : l = k
      · subst h; simp; omega
      · have : (k == l) = false := by simpa using fun e => h e.symm
        simp [h, this]
    rw [e] at this
    exact this

/-- Every goroutine does what it would do alone. -/
theorem runs_solo (ok : t.OK) (ha : Apart t ps us) (S : List Nat) {k : Nat} (hk : k < ps.length) :
    (runs t ps S).gs k = (solo t.root.id (2 * ps.length) (S.count k) ((start t ps).mem, (start t ps).gs k)).2 := by
  have : ∀ k, ∃ N : Node α, k < ps.length → (us k, N) ∈ t.root.nodes [] := by
    intro k
    by_cases h : k < ps.length
    · obtain ⟨N, hN⟩ := ha.node k h
      exact ⟨N, fun _ => hN⟩
    · exact ⟨t.root, fun h' => absurd h' h⟩
  have hN : ∀ k, k < ps.length → (us k, (this k).choose) ∈ t.root.nodes [] := fun k h => (this k).choose_spec h
  have := (inv_run ok ha hN S (inv_start ok ha hN)).gor k hk
  simpa [runs] using this


end Parts
end Verif

import Verif.Model.RaceExport
import Verif.Lemmas.RaceBeside
/-
The walk of a goroutine through nodes that others write to.
-/
namespace Verif
namespace Race
variable {α : Type}

/-- However late each of its next steps comes, the exporting goroutine gets to `Q` within `N` of them; `Ms` is the
memory at each moment. -/
def Gets (d : Char) (Ms : Nat → Mem α) (Q : Nat → Ex × List (Str × α) → Prop) : Nat → Nat → Ex × List (Str × α) → Prop
  | 0, τ, s => Q τ s
  | N + 1, τ, s => Q τ s ∨ ∀ τ', τ ≤ τ' → Gets d Ms Q N τ' (estep d (Ms τ') s)

section
variable {d : Char} {Ms : Nat → Mem α} {Q Q' : Nat → Ex × List (Str × α) → Prop}

theorem Gets.now {τ : Nat} {s : Ex × List (Str × α)} (h : Q τ s) : ∀ N, Gets d Ms Q N τ s
  | 0 => h
  | _ + 1 => .inl h

theorem Gets.mono : ∀ {N : Nat} {τ : Nat} {s : Ex × List (Str × α)}, Gets d Ms Q N τ s → ∀ {N'}, N ≤ N' → Gets d Ms Q N' τ s
  | 0, _, _, h, N', _ => Gets.now h N'
  | N + 1, τ, s, h, N', hN => by
    obtain ⟨r, rfl⟩ : ∃ r, N' = r + 1 := ⟨N' - 1, by omega⟩
    rcases h with h | h
    · exact .inl h
    · exact .inr fun τ' ht => (h τ' ht).mono (by omega)

theorem Gets.trans {K : Nat} : ∀ {N : Nat} {τ : Nat} {s : Ex × List (Str × α)}, Gets d Ms Q N τ s →
    (∀ τ' s', τ ≤ τ' → Q τ' s' → Gets d Ms Q' K τ' s') → Gets d Ms Q' (N + K) τ s
  | 0, τ, s, h, h' => by rw [Nat.zero_add]; exact h' τ s (Nat.le_refl _) h
  | N + 1, τ, s, h, h' => by
    rcases h with h | h
    · exact (h' τ s (Nat.le_refl _) h).mono (by omega)
    · rw [Nat.add_right_comm]
      exact .inr fun τ' ht => (h τ' ht).trans fun τ'' s' ht' hq => h' τ'' s' (Nat.le_trans ht ht') hq

theorem Gets.to {N : Nat} {τ : Nat} {s : Ex × List (Str × α)} (h : Gets d Ms Q N τ s)
    (h' : ∀ τ' s', τ ≤ τ' → Q τ' s' → Q' τ' s') : Gets d Ms Q' N τ s :=
  h.trans (K := 0) fun τ' s' ht hq => h' τ' s' ht hq

theorem Gets.late (hQ : ∀ τ τ' s, τ ≤ τ' → Q τ s → Q τ' s) : ∀ {N : Nat} {τ : Nat} {s : Ex × List (Str × α)},
    Gets d Ms Q N τ s → ∀ {τ'}, τ ≤ τ' → Gets d Ms Q N τ' s
  | 0, τ, s, h, τ', ht => hQ τ τ' s ht h
  | N + 1, τ, s, h, τ', ht => by
    rcases h with h | h
    · exact .inl (hQ τ τ' s ht h)
    · exact .inr fun τ'' ht' => h τ'' (Nat.le_trans ht ht')

theorem Gets.done {out : List (Str × α)} : ∀ {N τ : Nat}, Gets d Ms Q N τ (.done, out) → Q τ (.done, out)
  | 0, _, h => h
  | N + 1, τ, h => by
    rcases h with h | h
    · exact h
    · exact (h τ (Nat.le_refl _)).done

end

/-- The memory at the moments of a schedule. -/
def during [Inhabited α] (Js : Nat → Job α) (W : World α) (S : List (Option Nat)) (τ : Nat) : Mem α :=
  (W.run Js (writers (S.take τ))).mem

theorem writers_append (A B : List (Option Nat)) : writers (A ++ B) = writers A ++ writers B := List.filterMap_append ..

theorem collect_gets [Inhabited α] {d : Char} (Js : Nat → Job α) (W : World α) {Q : Nat → Ex × List (Str × α) → Prop}
    (hQ : ∀ τ τ' s, τ ≤ τ' → Q τ s → Q τ' s) (hQ' : ∀ τ s, Q τ s → s.1 = .done) (S : List (Option Nat)) (B : List (Option Nat)) :
    ∀ (A : List (Option Nat)) (e : Ex × List (Str × α)) (N : Nat), S = A ++ B → Gets d (during Js W S) Q N A.length e →
    Gets d (during Js W S) Q (N - B.count none) S.length (collect d Js (W.run Js (writers A), e) B).2 := by
  induction B with
  | nil =>
    intro A e N hS h
    rw [List.append_nil] at hS
    subst hS
    exact h
  | cons b B ih =>
    intro A e N hS h
    have hS' : S = (A ++ [b]) ++ B := by rw [hS]; simp
    have hl : A.length ≤ (A ++ [b]).length := by simp
    cases b with
    | some k =>
      have := ih (A ++ [some k]) e N hS' (h.late hQ hl)
      rw [writers_append, run_append] at this
      rw [show (some k :: B).count none = B.count none from by simp]
      exact this
    | none =>
      have hM : during Js W S A.length = (W.run Js (writers A)).mem := by
        rw [during, hS, List.take_left]
      have hstep : Gets d (during Js W S) Q (N - 1) A.length (estep d (W.run Js (writers A)).mem e) := by
        cases N with
        | zero =>
          have hd := hQ' _ _ h
          obtain ⟨e1, e2⟩ := e
          simp only at hd
          subst hd
          exact h
        | succ N =>
          rcases h with h | h
          · have hd := hQ' _ _ h
            obtain ⟨e1, e2⟩ := e
            simp only at hd
            subst hd
            exact Gets.now h _
          · have := h A.length (Nat.le_refl _)
            rw [hM] at this
            exact this
      have := ih (A ++ [none]) _ (N - 1) hS' (hstep.late hQ hl)
      rw [writers_append] at this
      simp only [writers, List.filterMap_cons, List.filterMap_nil, id, List.append_nil] at this
      rw [List.count_cons_self, Nat.add_comm, ← Nat.sub_sub]
      exact this

/-! ### The keys -/

/-- The entry goes into the map. -/
def shown (d : Char) (c : Core α) : Bool := (c.pathS = [] || !simpleEndsWith c.pathS d) && !c.isBranch

def shownKey (d : Char) (c : Core α) : List Str := if shown d c then [runes c.pathS] else []

mutual
/-- The keys in the order of the walk, when the node `i` has the further children `f i`. -/
def spread (d : Char) (cores : Nat → Core α) (f : Nat → List Nat) : Node α → List Str
  | .mk i _ c k => shownKey d c ++ (spreadL d cores f k ++ (f i).flatMap fun j => shownKey d (cores j))
def spreadL (d : Char) (cores : Nat → Core α) (f : Nat → List Nat) : List (Node α) → List Str
  | [] => []
  | n :: ns => spread d cores f n ++ spreadL d cores f ns
end

/-- What is put into the map from `τ` to `τ'`, with the moments at which it is. -/
structure Puts (Good : Nat → Str → α → Prop) (τ τ' : Nat) (L : List (Nat × Str × α)) : Prop where
  sorted : (L.map (·.1)).Pairwise (· ≤ ·)
  inside : ∀ e ∈ L, τ ≤ e.1 ∧ e.1 ≤ τ'
  good : ∀ e ∈ L, Good e.1 e.2.1 e.2.2

theorem Puts.nil (Good : Nat → Str → α → Prop) (τ τ' : Nat) : Puts Good τ τ' [] :=
  ⟨by simp, by simp, by simp⟩

theorem Puts.append {Good : Nat → Str → α → Prop} {τ τ' τ'' : Nat} {L L' : List (Nat × Str × α)} (h : Puts Good τ τ' L)
    (h' : Puts Good τ' τ'' L') (h1 : τ ≤ τ') (h2 : τ' ≤ τ'') : Puts Good τ τ'' (L ++ L') := by
  refine ⟨?_, ?_, ?_⟩
  · rw [List.map_append, List.pairwise_append]
    refine ⟨h.sorted, h'.sorted, ?_⟩
    intro a ha b hb
    obtain ⟨e, he, rfl⟩ := List.mem_map.mp ha
    obtain ⟨e', he', rfl⟩ := List.mem_map.mp hb
    exact Nat.le_trans (h.inside e he).2 (h'.inside e' he').1
  · intro e he
    rcases List.mem_append.mp he with he | he
    · exact ⟨(h.inside e he).1, Nat.le_trans (h.inside e he).2 h2⟩
    · exact ⟨Nat.le_trans h1 (h'.inside e he).1, (h'.inside e he).2⟩
  · intro e he
    rcases List.mem_append.mp he with he | he
    · exact h.good e he
    · exact h'.good e he

theorem Puts.wide {Good : Nat → Str → α → Prop} {τ τ' a b : Nat} {L : List (Nat × Str × α)} (h : Puts Good τ τ' L)
    (h1 : a ≤ τ) (h2 : τ' ≤ b) : Puts Good a b L :=
  ⟨h.sorted, fun e he => ⟨Nat.le_trans h1 (h.inside e he).1, Nat.le_trans (h.inside e he).2 h2⟩, h.good⟩

theorem Puts.one {Good : Nat → Str → α → Prop} {τ : Nat} {k : Str} {x : α} (h : Good τ k x) : Puts Good τ τ [(τ, k, x)] :=
  ⟨by simp, by simp, by simpa using h⟩

/-- What others do to the tree meanwhile: the nodes keep their paths, types and children, but for further children
without children of their own. -/
structure Mild (d : Char) (Ms : Nat → Mem α) (root : Node α) (Good : Nat → Str → α → Prop) (cores : Nat → Core α)
    (nid : Nat → Nat) (add : Nat → Nat → List Nat) (ext : Nat → List Nat) : Prop where
  old : ∀ q m, (q, m) ∈ root.nodes [] → ∀ τ, (Ms τ m.id).core.pathS = m.core.pathS ∧ (Ms τ m.id).core.leaf = m.core.leaf ∧
    (Ms τ m.id).kids = m.kids.map Node.id ++ (add τ m.id).map nid
  new : ∀ τ i k, k ∈ add τ i → ∀ τ', τ ≤ τ' → (Ms τ' (nid k)).core = cores k ∧ (Ms τ' (nid k)).kids = []
  grow : ∀ τ i, (add 0 i).Sublist (add τ i)
  most : ∀ τ i, (add τ i).Sublist (ext i)
  goodOld : ∀ q m, (q, m) ∈ root.nodes [] → shown d m.core = true → ∀ τ, Good τ (runes m.core.pathS) (Ms τ m.id).core.data
  goodNew : ∀ τ i k, k ∈ add τ i → ∀ τ', τ ≤ τ' → shown d (cores k) = true → Good τ' (runes (cores k).pathS) (cores k).data

/-- A part of the walk. -/
def Part (Good : Nat → Str → α → Prop) (lo hi : List Str) (τ0 : Nat) (pc : Ex) (out : List (Str × α)) (τ : Nat)
    (s : Ex × List (Str × α)) : Prop :=
  τ0 ≤ τ ∧ ∃ L, s = (pc, out ++ L.map (·.2)) ∧ Puts Good τ0 τ L ∧ lo.Sublist (L.map (·.2.1)) ∧ (L.map (·.2.1)).Sublist hi

section
variable {d : Char} {Ms : Nat → Mem α} {Good : Nat → Str → α → Prop}

theorem Part.append {lo hi lo' hi' : List Str} {τ0 τ1 τ2 : Nat} {pc' : Ex} {out : List (Str × α)}
    {L : List (Nat × Str × α)} {s : Ex × List (Str × α)} (h0 : τ0 ≤ τ1) (h1 : Puts Good τ0 τ1 L) (h2 : lo.Sublist (L.map (·.2.1)))
    (h3 : (L.map (·.2.1)).Sublist hi) (h : Part Good lo' hi' τ1 pc' (out ++ L.map (·.2)) τ2 s) :
    Part Good (lo ++ lo') (hi ++ hi') τ0 pc' out τ2 s := by
  obtain ⟨ht, L', e, p1, p2, p3⟩ := h
  refine ⟨Nat.le_trans h0 ht, L ++ L', ?_, h1.append p1 h0 ht, ?_, ?_⟩
  · rw [e, List.append_assoc, List.map_append]
  · rw [List.map_append]; exact h2.append p2
  · rw [List.map_append]; exact h3.append p3

theorem Gets.part {lo hi lo' hi' : List Str} {τ0 : Nat} {pc pc' : Ex} {out : List (Str × α)} {N K : Nat} {s : Ex × List (Str × α)}
    (h : Gets d Ms (Part Good lo hi τ0 pc out) N τ0 s)
    (h' : ∀ τ out', τ0 ≤ τ → Gets d Ms (Part Good lo' hi' τ pc' out') K τ (pc, out')) :
    Gets d Ms (Part Good (lo ++ lo') (hi ++ hi') τ0 pc' out) (N + K) τ0 s := by
  refine h.trans fun τ s' ht ⟨h0, L, e, p1, p2, p3⟩ => ?_
  subst e
  exact (h' τ (out ++ L.map (·.2)) ht).to fun τ' s'' _ hp => hp.append h0 p1 p2 p3

/-- The callback for one node. -/
theorem visit_gets {i : Nat} {c : Core α} {τ0 : Nat} (hc : ∀ τ, τ0 ≤ τ → (Ms τ i).core.pathS = c.pathS ∧ (Ms τ i).core.leaf = c.leaf)
    (hg : ∀ τ, τ0 ≤ τ → shown d c = true → Good τ (runes c.pathS) (Ms τ i).core.data) (stk : List (List Nat)) (out : List (Str × α)) :
    Gets d Ms (Part Good (shownKey d c) (shownKey d c) τ0 (.kids i stk) out) 3 τ0 (.visit i stk, out) := by
  refine .inr fun τ1 h1 => .inr fun τ2 h2 => ?_
  have hb : ((((Ms τ1 i).core.pathS = [] : Bool) || !simpleEndsWith (Ms τ1 i).core.pathS d) && !(Ms τ2 i).core.isBranch) = shown d c := by
    rw [(hc τ1 h1).1, shown, Core.isBranch, Core.isBranch, (hc τ2 (by omega)).2]
  show Gets d Ms _ 1 τ2 (if _ then _ else _)
  rw [hb]
  by_cases hs : shown d c = true
  · rw [if_pos hs]
    refine .inr fun τ3 h3 => ⟨by omega, [(τ3, runes c.pathS, (Ms τ3 i).core.data)], ?_, ?_, ?_, ?_⟩
    · simp [estep, (hc τ1 h1).1]
    · exact (Puts.one (hg τ3 (by omega) hs)).wide (by omega) (Nat.le_refl _)
    · simp [shownKey, hs]
    · simp [shownKey, hs]
  · rw [if_neg hs]
    exact .inl ⟨by omega, [], by simp, Puts.nil .., by simp [shownKey, hs], by simp⟩

/-- A node without children. -/
theorem leaf_gets {i : Nat} {c : Core α} {τ0 : Nat} (hc : ∀ τ, τ0 ≤ τ → (Ms τ i).core = c ∧ (Ms τ i).kids = [])
    (hg : ∀ τ, τ0 ≤ τ → shown d c = true → Good τ (runes c.pathS) c.data) (stk : List (List Nat)) (out : List (Str × α)) :
    Gets d Ms (Part Good (shownKey d c) (shownKey d c) τ0 (.next stk) out) 5 τ0 (.visit i stk, out) := by
  have h := visit_gets (d := d) (Ms := Ms) (Good := Good) (i := i) (c := c) (τ0 := τ0)
    (fun τ h => by rw [(hc τ h).1]; exact ⟨rfl, rfl⟩) (fun τ h hs => by rw [(hc τ h).1]; exact hg τ h hs) stk out
  have := h.part (K := 2) (lo' := []) (hi' := []) (pc' := .next stk) fun τ out' ht => by
    refine .inr fun τ1 h1 => .inr fun τ2 h2 => ⟨by omega, [], ?_, Puts.nil .., by simp, by simp⟩
    simp only [estep, (hc τ1 (by omega)).2, List.map_nil, List.append_nil]
  simpa using this

variable {root : Node α} {cores : Nat → Core α} {nid : Nat → Nat} {add : Nat → Nat → List Nat} {ext : Nat → List Nat}

/-- The further children of a node. -/
theorem added_gets (H : Mild d Ms root Good cores nid add ext) (stk : List (List Nat)) : ∀ (ks : List Nat) (τ0 : Nat) (out : List (Str × α)),
    (∀ k ∈ ks, ∃ τ i, τ ≤ τ0 ∧ k ∈ add τ i) →
    Gets d Ms (Part Good (ks.flatMap fun j => shownKey d (cores j)) (ks.flatMap fun j => shownKey d (cores j)) τ0 (.next stk) out)
      (ks.length * 6 + 1) τ0 (.next (ks.map nid :: stk), out) := by
  intro ks
  induction ks with
  | nil =>
    intro τ0 out _
    exact .inr fun τ1 h1 => ⟨h1, [], by simp [estep], Puts.nil .., by simp, by simp⟩
  | cons k ks ih =>
    intro τ0 out hk
    obtain ⟨τ, i, h1, h2⟩ := hk k (by simp)
    have hl : ∀ τ1, τ0 ≤ τ1 → Gets d Ms (Part Good (shownKey d (cores k)) (shownKey d (cores k)) τ1 (.next (ks.map nid :: stk)) out) 5 τ1
        (.visit (nid k) (ks.map nid :: stk), out) := fun τ1 ht =>
      leaf_gets (fun τ' h' => H.new τ i k h2 τ' (by omega)) (fun τ' h' hs => H.goodNew τ i k h2 τ' (by omega) hs) _ _
    have h5 : Gets d Ms (Part Good (shownKey d (cores k)) (shownKey d (cores k)) τ0 (.next (ks.map nid :: stk)) out) 6 τ0
        (.next ((k :: ks).map nid :: stk), out) :=
      .inr fun τ1 ht => (hl τ1 ht).to fun τ' s' _ ⟨p0, L, p1, p2, p3⟩ =>
        ⟨by omega, L, p1, p2.wide ht (Nat.le_refl _), p3⟩
    have := h5.part (K := ks.length * 6 + 1) fun τ' out' ht => ih τ' out' fun k' hk' => by
      obtain ⟨a, b, c1, c2⟩ := hk k' (by simp [hk'])
      exact ⟨a, b, by omega, c2⟩
    rw [List.flatMap_cons]
    exact this.mono (by simp; omega)

theorem flatMap_sublist {β γ : Type} (f : β → List γ) {l l' : List β} (h : l.Sublist l') : (l.flatMap f).Sublist (l'.flatMap f) := by
  induction h with
  | slnil => simp
  | cons a h ih => rw [List.flatMap_cons]; exact ih.trans (List.sublist_append_right _ _)
  | cons_cons a h ih => rw [List.flatMap_cons, List.flatMap_cons]; exact ih.append_left _

/-- The walk of a node. The number of steps does not depend on what the others do. -/
theorem walk_gets (d : Char) (root : Node α) (cores : Nat → Core α) (nid : Nat → Nat) (ext : Nat → List Nat) (n : Node α) :
    ∃ N, ∀ {Ms : Nat → Mem α} {Good : Nat → Str → α → Prop} {add : Nat → Nat → List Nat}, Mild d Ms root Good cores nid add ext →
    ∀ q, (q, n) ∈ root.nodes [] → ∀ (stk : List (List Nat)) (out : List (Str × α)) (τ0 : Nat),
    Gets d Ms (Part Good (spread d cores (add 0) n) (spread d cores ext n) τ0 (.next stk) out) N τ0 (.visit n.id stk, out) := by
  induction n using Node.ind with
  | h i p c k ih =>
    -- the children
    have hkids : ∀ k', (∀ e ∈ k', e ∈ k) → ∃ N, ∀ {Ms : Nat → Mem α} {Good : Nat → Str → α → Prop} {add : Nat → Nat → List Nat},
        Mild d Ms root Good cores nid add ext → ∀ q, (q, Node.mk i p c k) ∈ root.nodes [] → ∀ (js : List Nat) (stk : List (List Nat))
        (out : List (Str × α)) (τ0 : Nat),
        Gets d Ms (Part Good (spreadL d cores (add 0) k') (spreadL d cores ext k') τ0 (.next (js :: stk)) out) N τ0
          (.next ((k'.map Node.id ++ js) :: stk), out) := by
      intro k'
      induction k' with
      | nil =>
        intro _
        refine ⟨0, fun _ q hq js stk out τ0 => ?_⟩
        exact ⟨Nat.le_refl _, [], by simp, Puts.nil .., by simp [spreadL], by simp⟩
      | cons e k' ihk =>
        intro hk'
        obtain ⟨N1, h1⟩ := ih e (hk' e (by simp))
        obtain ⟨N2, h2⟩ := ihk fun e' he' => hk' e' (by simp [he'])
        refine ⟨N1 + 1 + N2, fun {Ms Good add} H q hq js stk out τ0 => ?_⟩
        have hm : (q ++ e.path, e) ∈ root.nodes [] := kid_nodes _ hq (hk' e (by simp))
        have h3 : Gets d Ms (Part Good (spread d cores (add 0) e) (spread d cores ext e) τ0 (.next ((k'.map Node.id ++ js) :: stk)) out)
            (N1 + 1) τ0 (.next (((e :: k').map Node.id ++ js) :: stk), out) :=
          .inr fun τ1 ht => (h1 H _ hm _ _ τ1).to fun τ' s' _ ⟨p0, L, p1, p2, p3⟩ =>
            ⟨by omega, L, p1, p2.wide ht (Nat.le_refl _), p3⟩
        exact h3.part (K := N2) fun τ' out' _ => h2 H q hq js stk out' τ'
    obtain ⟨N, hN⟩ := hkids k fun _ h => h
    refine ⟨3 + (1 + N + ((ext i).length * 6 + 1)), fun {Ms Good add} H q hq stk out τ0 => ?_⟩
    have hold := H.old q _ hq
    have h1 := visit_gets (d := d) (Ms := Ms) (Good := Good) (i := i) (c := c) (τ0 := τ0)
      (fun τ _ => ⟨(hold τ).1, (hold τ).2.1⟩) (fun τ _ hs => H.goodOld q _ hq hs τ) stk out
    rw [spread, spread]
    refine h1.part fun τ1 out1 _ => ?_
    have h2 : Gets d Ms (Part Good (spreadL d cores (add 0) k ++ (add 0 i).flatMap fun j => shownKey d (cores j))
        (spreadL d cores ext k ++ (ext i).flatMap fun j => shownKey d (cores j)) τ1 (.next stk) out1)
        (N + ((ext i).length * 6 + 1) + 1) τ1 (.kids i stk, out1) := by
      refine .inr fun τ2 h2 => ?_
      have hk2 : (Ms τ2 i).kids = k.map Node.id ++ (add τ2 i).map nid := (hold τ2).2.2
      simp only [estep, hk2]
      have := (hN H q hq ((add τ2 i).map nid) stk out1 τ2).part (K := (ext i).length * 6 + 1) (pc' := .next stk)
        (lo' := (add 0 i).flatMap fun j => shownKey d (cores j)) (hi' := (ext i).flatMap fun j => shownKey d (cores j))
        fun τ3 out3 h3 => by
          refine ((added_gets H stk (add τ2 i) τ3 out3 fun k hk => ⟨τ2, i, h3, hk⟩).mono
            (by have := (H.most τ2 i).length_le; omega)).to fun τ' s' _ ⟨p0, L, p1, p2, p3, p4⟩ => ?_
          exact ⟨p0, L, p1, p2, (flatMap_sublist _ (H.grow τ2 i)).trans p3, p4.trans (flatMap_sublist _ (H.most τ2 i))⟩
      exact this.to fun τ' s' _ ⟨p0, L, p1, p2, p3⟩ => ⟨by omega, L, p1, p2.wide h2 (Nat.le_refl _), p3⟩
    exact h2.mono (by omega)

/-- The whole export. -/
theorem collect_mild [Inhabited α] (d : Char) (root : Node α) (cores : Nat → Core α) (nid : Nat → Nat) (ext : Nat → List Nat) :
    ∃ N, ∀ (Js : Nat → Job α) (W : World α) (S : List (Option Nat)) (Good : Nat → Str → α → Prop) (add : Nat → Nat → List Nat),
      Mild d (during Js W S) root Good cores nid add ext →
      let s := (collect d Js (W, .visit root.id [], []) S).2
      (N ≤ S.count none → s.1 = .done) ∧
      (s.1 = .done → ∃ L, s.2 = L.map (·.2) ∧ Puts Good 0 S.length L ∧ (spread d cores (add 0) root).Sublist (L.map (·.2.1)) ∧
        (L.map (·.2.1)).Sublist (spread d cores ext root)) := by
  obtain ⟨N, hN⟩ := walk_gets d root cores nid ext root
  refine ⟨N + 1, fun Js W S Good add H => ?_⟩
  have h1 := hN H _ (by rw [Node.nodes_eq]; exact List.mem_cons_self) [] [] 0
  have h2 := h1.part (K := 1) (lo' := []) (hi' := []) (pc' := .done) fun τ out _ =>
    .inr fun τ1 h1 => ⟨h1, [], by simp [estep], Puts.nil .., by simp, by simp⟩
  have mono : ∀ τ τ' s, τ ≤ τ' → Part Good (spread d cores (add 0) root ++ []) (spread d cores ext root ++ []) 0 .done [] τ s →
      Part Good (spread d cores (add 0) root ++ []) (spread d cores ext root ++ []) 0 .done [] τ' s :=
    fun τ τ' s ht ⟨p0, L, p1, p2, p3⟩ => ⟨by omega, L, p1, p2.wide (Nat.le_refl _) ht, p3⟩
  have fin : ∀ τ s, Part Good (spread d cores (add 0) root ++ []) (spread d cores ext root ++ []) 0 .done [] τ s → s.1 = .done :=
    fun τ s ⟨p0, L, p1, _⟩ => by rw [p1]
  have h3 := collect_gets Js W mono fin S S [] (.visit root.id [], []) (N + 1) rfl h2
  intro s
  have h4 : Gets d (during Js W S) _ (N + 1 - S.count none) S.length s := h3
  refine ⟨fun hc => ?_, fun hd => ?_⟩
  · rw [Nat.sub_eq_zero_of_le hc] at h4
    exact fin _ _ h4
  · obtain ⟨s1, s2⟩ := s
    simp only at hd
    subst hd
    obtain ⟨p0, L, p1, p2, p3, p4⟩ := h4.done
    refine ⟨L, ?_, p2, ?_, ?_⟩
    · exact (Prod.mk.inj p1).2
    · rwa [List.append_nil] at p3
    · rwa [List.append_nil] at p4

end
end Race
end Verif

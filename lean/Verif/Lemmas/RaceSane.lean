import Verif.Lemmas.RaceSweep
/-
What holds of the memory whatever goroutines remove.
-/
namespace Verif
namespace Prune
variable {α : Type} [Inhabited α]

section
variable {t : Tree α}

/-- A pointer to a node of the tree. -/
def In (t : Tree α) (i : Nat) : Prop := ∃ q m, (q, m) ∈ t.root.nodes [] ∧ m.id = i

def InO (t : Tree α) (o : Option Nat) : Prop := ∀ i, o = some i → In t i

def InL (t : Tree α) (L : Loop) : Prop := ∃ q m, (q, m) ∈ t.root.nodes [] ∧ m.id = L.node ∧ L.len ≤ m.kids.length

/-- The nodes of the tree have their data, and nothing but children of theirs in their arrays. -/
def Sane (t : Tree α) (M : Mem α) : Prop := ∀ q m, (q, m) ∈ t.root.nodes [] →
  (M m.id).core = m.core ∧ (M m.id).arr.length = m.kids.length ∧ (M m.id).len ≤ m.kids.length ∧
    ∀ k, k < m.kids.length → ∃ c ∈ m.kids, (M m.id).arr.getD k 0 = c.id

def SanePc (t : Tree α) : Pc α → Prop
  | .enter _ i par stk | .cmp _ i par _ _ stk | .tail _ i par _ stk | .kids _ i par _ stk | .range _ i par _ stk =>
    In t i ∧ InO t par ∧ ∀ L ∈ stk, InL t L
  | .ret _ _ child par stk => InO t child ∧ InO t par ∧ ∀ L ∈ stk, InL t L
  | .pick par i | .scan par i _ _ => In t par ∧ In t i
  | .cut par _ => In t par
  | .move par k n _ => ∃ q m, (q, m) ∈ t.root.nodes [] ∧ m.id = par ∧ k + 1 + n ≤ m.kids.length
  | _ => True

theorem Sane.set (h : t.OK) {M : Mem α} (hM : Sane t M) {q : Str} {m : Node α} (hm : (q, m) ∈ t.root.nodes []) {c : Cell α}
    (h1 : c.core = m.core) (h2 : c.arr.length = m.kids.length) (h3 : c.len ≤ m.kids.length)
    (h4 : ∀ k, k < m.kids.length → ∃ e ∈ m.kids, c.arr.getD k 0 = e.id) : Sane t (M.set m.id c) := by
  intro q' m' hm'
  simp only [Mem.set]
  by_cases e : m'.id = m.id
  · obtain ⟨rfl, rfl⟩ := Prod.mk.inj (h.id_inj hm' hm e)
    rw [if_pos e]
    exact ⟨h1, h2, h3, h4⟩
  · rw [if_neg e]
    exact hM q' m' hm'

theorem sane_found {c : Call} {p : Bool} {ch par : Option Nat} (h1 : InO t ch) (h2 : InO t par) : SanePc t (found c p ch par) := by
  cases c <;> cases p <;> cases ch <;> cases par <;> first | trivial | exact ⟨h2 _ rfl, h1 _ rfl⟩

theorem inO_none : InO t none := nofun

theorem inO_if {b : Prop} [Decidable b] {o : Option Nat} (h : InO t o) : InO t (if b then o else none) := by
  split
  · exact h
  · exact nofun

theorem inO_some {i : Nat} (h : In t i) : InO t (some i) := fun j e => by cases e; exact h

/-- Every step keeps it. -/
theorem sane_step (h : t.OK) {c : Call} {d : Char} {M : Mem α} {pc : Pc α} (hM : Sane t M) (hpc : SanePc t pc) :
    Sane t (step c d M pc).1 ∧ SanePc t (step c d M pc).2 := by
  cases pc with
  | enter word i par stk =>
    refine ⟨hM, ?_⟩
    simp only [step]
    split
    · exact ⟨inO_some hpc.1, hpc.2.1, hpc.2.2⟩
    · exact hpc
  | cmp word i par l k stk =>
    refine ⟨hM, ?_⟩
    simp only [step]
    split
    · split
      · trivial
      · split
        · exact hpc
        · exact ⟨inO_none, inO_none, hpc.2.2⟩
    · exact hpc
  | tail word i par l stk =>
    refine ⟨hM, ?_⟩
    simp only [step]
    split
    · split
      · trivial
      · split <;> exact ⟨inO_some hpc.1, hpc.2.1, hpc.2.2⟩
    · split
      · exact ⟨inO_some hpc.1, hpc.2.1, hpc.2.2⟩
      · split
        · exact hpc
        · exact ⟨inO_some hpc.1, hpc.2.1, hpc.2.2⟩
  | kids word i par l stk =>
    refine ⟨hM, ?_⟩
    simp only [step]
    split
    · exact ⟨inO_if (inO_some hpc.1), inO_if hpc.2.1, hpc.2.2⟩
    · exact hpc
  | range word i par l stk =>
    refine ⟨hM, ?_⟩
    simp only [step]
    split
    · exact ⟨inO_if (inO_some hpc.1), inO_if hpc.2.1, hpc.2.2⟩
    · refine ⟨inO_none, inO_none, fun L hL => ?_⟩
      rcases List.mem_cons.mp hL with rfl | hL
      · obtain ⟨q, m, hm, rfl⟩ := hpc.1
        exact ⟨q, m, hm, rfl, (hM q m hm).2.2.1⟩
      · exact hpc.2.2 L hL
  | ret m p child par stk =>
    refine ⟨hM, ?_⟩
    simp only [step]
    split
    · exact sane_found hpc.1 hpc.2.1
    · cases stk with
      | nil => exact sane_found inO_none inO_none
      | cons L stk =>
        have hL := hpc.2.2 L (by simp)
        simp only
        split
        · next hlt =>
          obtain ⟨q, m, hm, e, hl⟩ := hL
          obtain ⟨ch, hch, e'⟩ := (hM q m hm).2.2.2 L.next (by omega)
          refine ⟨?_, inO_some ⟨q, m, hm, e⟩, fun L' hL' => ?_⟩
          · rw [← e, e']
            exact ⟨q ++ ch.path, ch, Node.nodes_trans hm (by rw [Node.mem_nodesL]; exact ⟨ch, hch, by rw [Node.mem_nodes]; simp⟩), rfl⟩
          · rcases List.mem_cons.mp hL' with rfl | hL'
            · exact ⟨q, m, hm, e, hl⟩
            · exact hpc.2.2 L' (by simp [hL'])
        · exact ⟨inO_none, inO_none, fun L' hL' => hpc.2.2 L' (by simp [hL'])⟩
  | pick par item => exact ⟨hM, hpc⟩
  | scan par item len k =>
    refine ⟨hM, ?_⟩
    simp only [step]
    split
    · split
      · exact hpc.1
      · exact hpc
    · trivial
  | cut par k =>
    refine ⟨hM, ?_⟩
    simp only [step]
    split
    · obtain ⟨q, m, hm, rfl⟩ := hpc
      have := (hM q m hm).2.2.1
      exact ⟨q, m, hm, rfl, by omega⟩
    · trivial
  | move par k n j =>
    obtain ⟨q, m, hm, rfl, hn⟩ := hpc
    obtain ⟨s1, s2, s3, s4⟩ := hM q m hm
    simp only [step]
    split
    · next hj =>
      refine ⟨hM.set h hm s1 (by simpa using s2) s3 fun i hi => ?_, q, m, hm, rfl, hn⟩
      simp only
      rw [List.getD_eq_getElem?_getD, List.getElem?_set]
      split
      · rw [if_pos (by omega)]
        exact s4 (k + 1 + j) (by omega)
      · rw [← List.getD_eq_getElem?_getD]
        exact s4 i hi
    · exact ⟨hM.set h hm s1 s2 (by simp only; omega) s4, trivial⟩
  | branch i => refine ⟨hM, ?_⟩; simp only [step]; split <;> trivial
  | ends i => exact ⟨hM, trivial⟩
  | has i br f => refine ⟨hM, ?_⟩; simp only [step]; split <;> trivial
  | data i br f => exact ⟨hM, trivial⟩
  | done a => exact ⟨hM, trivial⟩
  | gone b => exact ⟨hM, trivial⟩
  | crash => exact ⟨hM, trivial⟩

def SaneW (t : Tree α) (W : World α) : Prop := Sane t W.mem ∧ ∀ k, SanePc t (W.pcs k)

theorem SaneW.tick (h : t.OK) {d : Char} {cs : List Call} {W : World α} (hW : SaneW t W) (k : Nat) : SaneW t (W.tick d cs k) := by
  obtain ⟨h1, h2⟩ := sane_step (c := cs[k]?.getD (.get [])) (d := d) h hW.1 (hW.2 k)
  refine ⟨h1, fun l => ?_⟩
  simp only [World.tick]
  split
  · exact h2
  · exact hW.2 l

theorem SaneW.run (h : t.OK) {d : Char} {cs : List Call} (S : List Nat) : ∀ {W : World α}, SaneW t W → SaneW t (W.run d cs S) := by
  induction S with
  | nil => intro W hW; exact hW
  | cons k S ih => intro W hW; exact ih (hW.tick h k)

theorem sane_start {v : View} (h : t.OK) (cs : List Call) : SaneW t (start v t cs) := by
  refine ⟨fun q m hm => ?_, fun k => ?_⟩
  · rw [start_lays h cs q m hm]
    exact ⟨rfl, by simp [cellOf], Nat.le_refl _, fun k hk => ⟨_, List.getElem_mem hk, ids_getD hk⟩⟩
  · simp only [start]
    split
    · exact ⟨⟨[], t.root, h.root_mem, rfl⟩, nofun, nofun⟩
    · trivial

theorem Sane.shows {m : Node α} {q : Str} (hm : (q, m) ∈ t.root.nodes []) :
    EShows (fun _ _ => True) (fun M : {M : Mem α // Sane t M} => M.1) m :=
  ⟨fun M => (M.2 q m hm).1, fun M => (M.2 q m hm).2.2.1, fun M M' k _ hk => (M'.2 q m hm).2.2.2 k (by
    have := (M.2 q m hm).2.2.1; exact Nat.lt_of_lt_of_le hk this)⟩

end

/-- The export of a tree from the root on. -/
theorem eleads_all {σ : Type} {R : σ → σ → Prop} {ms : σ → Mem α} {d : Char} (hr : ∀ a, R a a) (hR : ∀ a b c, R a b → R b c → R a c)
    {n : Node α} (hn : n.ids.Nodup) (u : Str) (hS : ∀ q m, (q, m) ∈ n.nodes u → EShows R ms m) :
    ∃ N, ∀ s, ELeads d R ms (fun r => r.1 = .done ∧ Adds d R ms n u r.2) N s (.visit n.id [], []) := by
  obtain ⟨N, hN⟩ := eleads_walk (d := d) hr hR n u hn hS
  refine ⟨N + 1, fun s => (hN s [] []).trans hr hR ?_⟩
  rintro s' r _ ⟨new, rfl, h⟩
  exact .to hR (.done, [] ++ new) (fun _ _ => rfl) (.now ⟨rfl, by simpa using h⟩ _)

end Prune
end Verif

import Verif.Model.RaceTold
import Verif.Lemmas.RaceAfter
import Verif.Lemmas.RaceSane
/-
What the handlers are told when goroutines remove keys.
-/
namespace Verif
namespace Prune
variable {α : Type} [Inhabited α]

section
variable {d : Char} {cs : List Call}

theorem tick_gone {W : World α} {k : Nat} {b : Bool} (h : W.pcs k = .gone b) : W.tick d cs k = W := by
  obtain ⟨M, pcs⟩ := W
  have h : pcs k = .gone b := h
  simp only [World.tick, h, step]
  congr 1
  funext l
  split
  · next e => rw [e, h]
  · rfl

theorem Hub.run_append (s : Hub α) (A B : List Nat) : s.run d cs (A ++ B) = (s.run d cs A).run d cs B := by
  induction A generalizing s with
  | nil => rfl
  | cons k A ih => exact ih _

theorem step_core {c : Call} (M : Mem α) (pc : Pc α) (i : Nat) : ((step c d M pc).1 i).core = (M i).core := by
  cases pc <;> simp only [step]
  split <;> (simp only [Mem.set]; split <;> first | rfl | (rename_i e; rw [e]))

theorem run_core (S : List Nat) : ∀ (W : World α) (i : Nat), ((W.run d cs S).mem i).core = (W.mem i).core := by
  induction S with
  | nil => exact fun _ _ => rfl
  | cons k S ih => intro W i; exact (ih _ i).trans (step_core ..)

end

/-- Where a goroutine can stand; `G i` holds for the nodes that its search may find, `D` is the data of the nodes. -/
def Fine (G : Nat → Prop) (D : Nat → α) (pc : Pc α) : Ph α → Prop
  | .run it => match pc with
    | .pick _ i => G i
    | .scan _ i _ _ => it = some i ∧ G i
    | .cut .. | .move .. => ∃ i, it = some i ∧ G i
    | .gone _ => False
    | _ => True
  | .data it => pc = .gone true ∧ ∃ i, it = some i ∧ G i
  | .tell a => pc = .gone true ∧ ∃ i, a = D i ∧ G i
  | .back b => pc = .gone b

theorem Fine.gone {G : Nat → Prop} {D : Nat → α} {pc : Pc α} {ph : Ph α} (h : Fine G D pc ph) (hr : ∀ it, ph ≠ .run it) :
    ∃ b, pc = .gone b := by
  cases ph with
  | run it => exact absurd rfl (hr it)
  | data it => exact ⟨_, h.1⟩
  | tell a => exact ⟨_, h.1⟩
  | back b => exact ⟨_, h⟩

/-- The step of the search: what follows is a state of the search, or `pick`, or the end without success. -/
theorem reads_next {c : Call} {d : Char} {M : Mem α} {pc : Pc α} (h : pc.reads = true) :
    ((step c d M pc).2).reads = true ∨ (∃ par i, (step c d M pc).2 = .pick par i) ∨ (step c d M pc).2 = .gone false := by
  have hf : ∀ (p : Bool) (ch par : Option Nat), (found (α := α) c p ch par).reads = true ∨
      (∃ r i, found (α := α) c p ch par = .pick r i) ∨ found (α := α) c p ch par = .gone false := by
    intro p ch par
    cases c <;> cases p <;> cases ch <;> cases par <;> first | exact .inl rfl | exact .inr (.inl ⟨_, _, rfl⟩) | exact .inr (.inr rfl)
  cases pc <;> simp only [step] <;> (try cases h) <;> (repeat' split) <;> first | exact .inl rfl | exact hf _ _ _

theorem fine_reads {G : Nat → Prop} {D : Nat → α} {pc : Pc α} (h : pc.reads = true) (it : Option Nat) : Fine G D pc (.run it) := by
  cases pc <;> first | trivial | cases h

theorem next_reads {it : Option Nat} {old new : Pc α} (h : new.reads = true) : ∃ it', Ph.next it old new = .run it' := by
  cases new <;> first | exact ⟨_, rfl⟩ | cases h

theorem next_ne {it : Option Nat} {old new : Pc α} : Ph.next it old new ≠ .back true := by
  intro e
  cases new with
  | gone b => cases b <;> cases e
  | _ => cases e

/-- A step of `RemoveEx`. -/
theorem fine_step {G : Nat → Prop} {D : Nat → α} {c : Call} {d : Char} {M : Mem α} {pc : Pc α} {it : Option Nat}
    (h : Fine G D pc (.run it)) (hG : ∀ par i, (step c d M pc).2 = .pick par i → G i) :
    Fine G D (step c d M pc).2 (.next it pc (step c d M pc).2) := by
  by_cases hr : pc.reads = true
  · rcases reads_next (c := c) (d := d) (M := M) hr with h1 | ⟨par, i, h1⟩ | h1
    · obtain ⟨it', e⟩ := next_reads (it := it) (old := pc) h1
      rw [e]
      exact fine_reads h1 it'
    · rw [h1]
      exact hG par i h1
    · rw [h1]; rfl
  · cases pc with
    | pick par i => exact ⟨rfl, h⟩
    | scan par i len k =>
      obtain ⟨e, hi⟩ := h
      simp only [step]
      split
      · split
        · exact ⟨i, e, hi⟩
        · exact ⟨e, hi⟩
      · rfl
    | cut par k =>
      simp only [step]
      split
      · exact h
      · trivial
    | move par k n j =>
      simp only [step]
      split
      · exact h
      · exact ⟨rfl, h⟩
    | gone b => exact h.elim
    | _ => exact absurd rfl hr

/-- What holds of the goroutines and of the handlers. -/
structure Heard (v : View) (t : Tree α) (cs : List Call) (G : Nat → Nat → Prop) (S : List Nat) (s : Hub α) : Prop where
  base : s.base = (start v t cs).run v.delim cs S
  fine : ∀ k, Fine (G k) (fun i => ((start v t cs).mem i).core.data) (s.base.pcs k) (s.phase k)
  nodup : (s.log.map (·.1)).Nodup
  who : ∀ k, k ∈ s.log.map (·.1) ↔ s.phase k = .back true
  what : ∀ e ∈ s.log, e.2.1 = (callOf cs e.1).path
  val : ∀ e ∈ s.log, ∃ i, e.2.2 = ((start v t cs).mem i).core.data ∧ G e.1 i

variable {v : View} {t : Tree α} {cs : List Call} {G : Nat → Nat → Prop}

theorem run_snoc (W : World α) (d : Char) (S : List Nat) (k : Nat) : W.run d cs (S ++ [k]) = (W.run d cs S).tick d cs k := by
  rw [Prune.run_append]; rfl

theorem Heard.tick (hG : ∀ S k par i, ((start v t cs).run v.delim cs S).pcs k = .pick par i → G k i) {S : List Nat} {s : Hub α}
    (H : Heard v t cs G S s) (k : Nat) : Heard v t cs G (S ++ [k]) (s.tick v.delim cs k) := by
  have hb := H.base
  have hf := H.fine k
  have stay : (∀ it, s.phase k ≠ .run it) → s.base = (start v t cs).run v.delim cs (S ++ [k]) := by
    intro hr
    obtain ⟨b, e⟩ := hf.gone hr
    rw [run_snoc, ← hb, tick_gone e]
  cases hp : s.phase k with
  | run it =>
    have hs : s.tick v.delim cs k = { s with base := s.base.tick v.delim cs k, phase := fun l =>
        if l = k then (Ph.next it (s.base.pcs k) ((s.base.tick v.delim cs k).pcs k)) else s.phase l } := by
      rw [Hub.tick, hp]
    rw [hp] at hf
    have hnew : (s.base.tick v.delim cs k).pcs k = (step (cs[k]?.getD (.get [])) v.delim s.base.mem (s.base.pcs k)).2 := if_pos rfl
    have hbase : s.base.tick v.delim cs k = (start v t cs).run v.delim cs (S ++ [k]) := by rw [run_snoc, ← hb]
    have hfine := fine_step (c := cs[k]?.getD (.get [])) (d := v.delim) (M := s.base.mem) hf (fun par i e => hG (S ++ [k]) k par i (by
      rw [← hbase, hnew, e]))
    rw [← hnew] at hfine
    have hnt : Ph.next it (s.base.pcs k) ((s.base.tick v.delim cs k).pcs k) ≠ .back true := next_ne
    rw [hs]
    refine ⟨hbase, fun l => ?_, H.nodup, fun l => ?_, H.what, H.val⟩
    · simp only
      by_cases e : l = k
      · rw [if_pos e, e]; exact hfine
      · rw [if_neg e]
        have : (s.base.tick v.delim cs k).pcs l = s.base.pcs l := if_neg e
        rw [this]
        exact H.fine l
    · simp only
      by_cases e : l = k
      · rw [if_pos e, H.who l, e, hp]
        exact ⟨nofun, fun e => absurd e hnt⟩
      · rw [if_neg e]; exact H.who l
  | data it =>
    have hs : s.tick v.delim cs k = { s with phase := fun l =>
        if l = k then (Ph.tell (it.elim default fun i => (s.base.mem i).core.data)) else s.phase l } := by
      rw [Hub.tick, hp]
    have hbase := stay (by rw [hp]; nofun)
    rw [hp] at hf
    obtain ⟨hg, i, rfl, hi⟩ := hf
    rw [hs]
    refine ⟨hbase, fun l => ?_, H.nodup, fun l => ?_, H.what, H.val⟩
    · simp only
      by_cases e : l = k
      · rw [if_pos e, e]
        refine ⟨hg, i, ?_, hi⟩
        show (s.base.mem i).core.data = _
        rw [hb, run_core]
      · rw [if_neg e]; exact H.fine l
    · simp only
      by_cases e : l = k
      · rw [if_pos e, H.who l, e, hp]
        exact ⟨nofun, nofun⟩
      · rw [if_neg e]; exact H.who l
  | tell a =>
    have hs : s.tick v.delim cs k = { s with
        phase := fun l => if l = k then .back true else s.phase l,
        log := s.log ++ [(k, (cs[k]?.getD (.get [])).path, a)] } := by
      rw [Hub.tick, hp]
    have hbase := stay (by rw [hp]; nofun)
    rw [hp] at hf
    obtain ⟨hg, i, ha, hi⟩ := hf
    rw [hs]
    refine ⟨hbase, fun l => ?_, ?_, fun l => ?_, fun e he => ?_, fun e he => ?_⟩
    · simp only
      by_cases e : l = k
      · rw [if_pos e, e]; exact hg
      · rw [if_neg e]; exact H.fine l
    · simp only [List.map_append, List.map_cons, List.map_nil]
      rw [List.nodup_append]
      refine ⟨H.nodup, by simp, fun x hx y hy e => ?_⟩
      obtain rfl : y = k := by simpa using hy
      rw [e, H.who, hp] at hx
      cases hx
    · simp only [List.map_append, List.map_cons, List.map_nil, List.mem_append, List.mem_singleton]
      rw [H.who l]
      by_cases e : l = k
      · rw [if_pos e]; simp [e]
      · rw [if_neg e]; simp [e]
    · rcases List.mem_append.mp he with he | he
      · exact H.what e he
      · obtain rfl := List.mem_singleton.mp he; rfl
    · rcases List.mem_append.mp he with he | he
      · exact H.val e he
      · obtain rfl := List.mem_singleton.mp he
        exact ⟨i, ha, hi⟩
  | back b =>
    have hs : s.tick v.delim cs k = s := by rw [Hub.tick, hp]
    rw [hs]
    exact ⟨stay (by rw [hp]; nofun), H.fine, H.nodup, H.who, H.what, H.val⟩

theorem Heard.run (hG : ∀ S k par i, ((start v t cs).run v.delim cs S).pcs k = .pick par i → G k i) (S' : List Nat) : ∀ {S : List Nat} {s : Hub α},
    Heard v t cs G S s → Heard v t cs G (S ++ S') (s.run v.delim cs S') := by
  induction S' with
  | nil => intro S s H; rw [List.append_nil]; exact H
  | cons k S' ih =>
    intro S s H
    have := ih (H.tick hG k)
    rwa [List.append_assoc] at this

theorem heard_start : Heard v t cs G [] (hub v t cs) := by
  refine ⟨rfl, fun k => ?_, List.nodup_nil, fun k => ?_, nofun, nofun⟩
  · refine fine_reads ?_ none
    show ((start v t cs).pcs k).reads = true
    simp only [start]
    split <;> rfl
  · exact ⟨nofun, nofun⟩

theorem heard (hG : ∀ S k par i, ((start v t cs).run v.delim cs S).pcs k = .pick par i → G k i) (S : List Nat) :
    Heard v t cs G S ((hub v t cs).run v.delim cs S) := by
  have := heard_start.run hG S
  rwa [List.nil_append] at this

/-- Two more steps after `RemoveEx` has returned, and `Remove` has returned. -/
theorem back_soon {d : Char} {k : Nat} (B : List Nat) : ∀ (s : Hub α),
    ((∃ it, s.phase k = .data it) → 2 ≤ B.count k → (s.run d cs B).phase k = .back true) ∧
    ((∃ a, s.phase k = .tell a) → 1 ≤ B.count k → (s.run d cs B).phase k = .back true) ∧
    (s.phase k = .back true → (s.run d cs B).phase k = .back true) := by
  induction B with
  | nil => exact fun s => ⟨fun _ h => by simp at h, fun _ h => by simp at h, id⟩
  | cons l B ih =>
    intro s
    obtain ⟨i1, i2, i3⟩ := ih (s.tick d cs l)
    have other : l ≠ k → (s.tick d cs l).phase k = s.phase k := by
      intro hl
      rw [Hub.tick]
      have hl' : ¬ k = l := fun e => hl e.symm
      split <;> first | exact if_neg hl' | rfl
    by_cases e : l = k
    · subst e
      rw [List.count_cons_self]
      refine ⟨fun ⟨it, h⟩ hc => ?_, fun ⟨a, h⟩ hc => ?_, fun h => ?_⟩
      · refine i2 ⟨it.elim default fun i => (s.base.mem i).core.data, ?_⟩ (by omega)
        rw [Hub.tick, h]; exact if_pos rfl
      · refine i3 ?_
        rw [Hub.tick, h]; exact if_pos rfl
      · refine i3 ?_
        rw [Hub.tick, h]; exact h
    · rw [List.count_cons_of_ne e]
      rw [other e] at i1 i2 i3
      exact ⟨i1, i2, i3⟩

theorem count_split {k : Nat} (n : Nat) : ∀ (S : List Nat), n ≤ S.count k → ∃ A B, S = A ++ B ∧ A.count k = n := by
  intro S
  induction S generalizing n with
  | nil => intro h; exact ⟨[], [], rfl, by simp at h ⊢; omega⟩
  | cons l S ih =>
    intro h
    by_cases hn : n = 0
    · exact ⟨[], l :: S, rfl, by simp [hn]⟩
    · by_cases e : l = k
      · subst e
        rw [List.count_cons_self] at h
        obtain ⟨A, B, e, hA⟩ := ih (n - 1) (by omega)
        exact ⟨l :: A, B, by rw [e]; rfl, by rw [List.count_cons_self]; omega⟩
      · rw [List.count_cons_of_ne e] at h
        obtain ⟨A, B, e', hA⟩ := ih n h
        exact ⟨l :: A, B, by rw [e']; rfl, by rw [List.count_cons_of_ne e]; exact hA⟩

/-- When `RemoveEx` has returned true, two more steps tell the handlers. -/
theorem back_after (hG : ∀ S k par i, ((start v t cs).run v.delim cs S).pcs k = .pick par i → G k i) {k : Nat} {A B : List Nat}
    (hA : ((start v t cs).run v.delim cs A).pcs k = .gone true) (hB : 2 ≤ B.count k) :
    ((hub v t cs).run v.delim cs (A ++ B)).phase k = .back true := by
  have H := heard hG A
  have hf := H.fine k
  rw [H.base, hA] at hf
  rw [Hub.run_append]
  obtain ⟨i1, i2, i3⟩ := back_soon (d := v.delim) (cs := cs) (k := k) B ((hub v t cs).run v.delim cs A)
  cases hp : ((hub v t cs).run v.delim cs A).phase k with
  | run it => rw [hp] at hf; exact hf.elim
  | data it => exact i1 ⟨it, hp⟩ hB
  | tell a => exact i2 ⟨a, hp⟩ (by omega)
  | back b =>
    rw [hp] at hf
    obtain rfl : true = b := Pc.gone.inj hf
    exact i3 hp

end Prune
end Verif

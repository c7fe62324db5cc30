import Verif.Lemmas.RaceRemove
/-
Goroutines that remove children of different nodes: the memory at every moment.
-/
namespace Verif
namespace Prune
variable {α : Type} [Inhabited α]

/-- The array after `s` elements behind `ix` have been moved. -/
def slide (L : List Nat) (ix s : Nat) : List Nat :=
  (List.range L.length).map fun k => L.getD (if ix ≤ k ∧ k < ix + s ∧ k + 1 < L.length then k + 1 else k) 0

/-- The node after `s` steps of the removal of its child `ix`. -/
def slid (c : Cell α) (ix s : Nat) : Cell α :=
  { c with arr := slide c.arr ix s, len := if c.arr.length ≤ ix + s then c.len - 1 else c.len }

theorem slide_length (L : List Nat) (ix s : Nat) : (slide L ix s).length = L.length := by simp [slide]

theorem slide_getD {L : List Nat} {ix s k : Nat} (hk : k < L.length) :
    (slide L ix s).getD k 0 = L.getD (if ix ≤ k ∧ k < ix + s ∧ k + 1 < L.length then k + 1 else k) 0 := by
  rw [slide, List.getD_eq_getElem?_getD, List.getElem?_map, List.getElem?_range hk]
  rfl

theorem list_ext_getD {L L' : List Nat} (hl : L.length = L'.length) (h : ∀ k, k < L.length → L.getD k 0 = L'.getD k 0) : L = L' := by
  refine List.ext_getElem hl fun k h1 h2 => ?_
  have := h k h1
  rwa [List.getD_eq_getElem?_getD, List.getD_eq_getElem?_getD, List.getElem?_eq_getElem h1, List.getElem?_eq_getElem h2] at this

theorem slide_zero (L : List Nat) (ix : Nat) : slide L ix 0 = L := by
  refine list_ext_getD (slide_length ..) fun k hk => ?_
  rw [slide_length] at hk
  rw [slide_getD hk, if_neg (by omega)]

theorem slide_succ {L : List Nat} {ix s : Nat} (h : ix + s + 1 < L.length) :
    (slide L ix s).set (ix + s) ((slide L ix s).getD (ix + 1 + s) 0) = slide L ix (s + 1) := by
  refine list_ext_getD (by simp [slide_length]) fun k hk => ?_
  rw [List.length_set, slide_length] at hk
  rw [slide_getD hk, slide_getD (by omega), if_neg (by omega)]
  rw [List.getD_eq_getElem?_getD, List.getElem?_set]
  by_cases e : ix + s = k
  · subst e
    rw [if_pos rfl, if_pos (by rw [slide_length]; omega), if_pos (by omega)]
    rw [Option.getD_some]; congr 1; omega
  · rw [if_neg e, ← List.getD_eq_getElem?_getD, slide_getD hk]
    congr 1
    by_cases h1 : ix ≤ k ∧ k < ix + s ∧ k + 1 < L.length
    · rw [if_pos h1, if_pos (by omega)]
    · rw [if_neg h1, if_neg (by omega)]

theorem slide_last {L : List Nat} {ix : Nat} (h : ix < L.length) : slide L ix (L.length - 1 - ix) = slide L ix (L.length - ix) := by
  refine list_ext_getD (by simp [slide_length]) fun k hk => ?_
  rw [slide_length] at hk
  rw [slide_getD hk, slide_getD hk]
  congr 1
  by_cases h1 : ix ≤ k ∧ k < ix + (L.length - 1 - ix) ∧ k + 1 < L.length
  · rw [if_pos h1, if_pos (by omega)]
  · rw [if_neg h1, if_neg (by omega)]

/-- The removal of the child `item`, the `ix`-th of the `n` children of `par`. -/
structure Task where
  par : Nat
  item : Nat
  ix : Nat
  n : Nat

/-- How far a removal has come. -/
def stage (T : Task) : Pc α → Nat
  | .move _ _ _ j => j
  | .gone true => T.n - T.ix
  | _ => 0

def stages (plan : Nat → Option Task) (pcs : Nat → Pc α) (k : Nat) : Nat :=
  match plan k with
  | none => 0
  | some T => stage T (pcs k)

open Classical in
/-- Who removes a child of `i`, and which. -/
noncomputable def who (plan : Nat → Option Task) (i : Nat) : Option (Nat × Task) :=
  if h : ∃ x : Nat × Task, plan x.1 = some x.2 ∧ x.2.par = i then some h.choose else none

/-- The memory when the goroutines have come as far as `s` says. -/
noncomputable def mems (base : Mem α) (plan : Nat → Option Task) (s : Nat → Nat) : Mem α := fun i =>
  match who plan i with
  | none => base i
  | some (k, T) => slid (base i) T.ix (s k)

/-- The plan fits the memory: the children are where it says, and no two goroutines remove children of one node. -/
structure Fits (base : Mem α) (plan : Nat → Option Task) : Prop where
  arr : ∀ k T, plan k = some T → (base T.par).arr.length = T.n
  len : ∀ k T, plan k = some T → (base T.par).len = T.n
  lt : ∀ k T, plan k = some T → T.ix < T.n
  item : ∀ k T, plan k = some T → (base T.par).arr.getD T.ix 0 = T.item
  first : ∀ k T, plan k = some T → ∀ j, j < T.ix → (base T.par).arr.getD j 0 ≠ T.item
  apart : ∀ k k' T T', plan k = some T → plan k' = some T' → T.par = T'.par → k = k'

section
variable {base : Mem α} {plan : Nat → Option Task}

theorem Fits.who (F : Fits base plan) {k : Nat} {T : Task} (h : plan k = some T) : Prune.who plan T.par = some (k, T) := by
  have hex : ∃ x : Nat × Task, plan x.1 = some x.2 ∧ x.2.par = T.par := ⟨(k, T), h, rfl⟩
  have h1 := hex.choose_spec
  rw [Prune.who, dif_pos hex]
  generalize hex.choose = x at h1
  obtain ⟨k', T'⟩ := x
  obtain rfl : k' = k := F.apart _ _ _ _ h1.1 h h1.2
  have h2 := h1.1
  simp only [h, Option.some.injEq] at h2
  rw [h2]

theorem who_none {i : Nat} (h : ∀ k T, plan k = some T → T.par ≠ i) : who plan i = none := by
  rw [who, dif_neg]
  rintro ⟨⟨k, T⟩, h1, h2⟩
  exact h k T h1 h2

theorem who_some {i k : Nat} {T : Task} (h : who plan i = some (k, T)) : plan k = some T ∧ T.par = i := by
  rw [who] at h
  split at h
  · next hex =>
    have h1 := hex.choose_spec
    rw [Option.some.inj h] at h1
    exact h1
  · cases h

theorem Fits.at (F : Fits base plan) {k : Nat} {T : Task} (h : plan k = some T) (s : Nat → Nat) :
    mems base plan s T.par = slid (base T.par) T.ix (s k) := by
  rw [mems, F.who h]

theorem slid_zero {c : Cell α} {ix : Nat} (h : ix < c.arr.length) : slid c ix 0 = c := by
  rw [slid, slide_zero, if_neg (by omega)]

theorem mems_path (s : Nat → Nat) (i : Nat) : (mems base plan s i).path = (base i).path := by
  rw [mems]; cases who plan i <;> rfl

theorem mems_core (s : Nat → Nat) (i : Nat) : (mems base plan s i).core = (base i).core := by
  rw [mems]; cases who plan i <;> rfl

/-- Nobody has begun. -/
theorem Fits.zero (F : Fits base plan) (s : Nat → Nat) (hs : ∀ k, s k = 0) : mems base plan s = base := by
  funext i
  rw [mems]
  cases h : Prune.who plan i with
  | none => rfl
  | some x =>
    obtain ⟨k, T⟩ := x
    obtain ⟨h1, rfl⟩ := who_some h
    show slid _ _ (s k) = _
    rw [hs, slid_zero (by rw [F.arr k T h1]; exact F.lt k T h1)]

/-- One goroutine goes on. -/
theorem Fits.move (F : Fits base plan) {k : Nat} {T : Task} (h : plan k = some T) {s s' : Nat → Nat} (hs : ∀ l, l ≠ k → s' l = s l)
    {c : Cell α} (hc : c = slid (base T.par) T.ix (s' k)) : (mems base plan s).set T.par c = mems base plan s' := by
  funext i
  rw [Mem.set]
  by_cases hi : i = T.par
  · subst hi
    rw [if_pos rfl, F.at h, hc]
  · rw [if_neg hi, mems, mems]
    cases hw : Prune.who plan i with
    | none => rfl
    | some x =>
      obtain ⟨l, T'⟩ := x
      obtain ⟨h1, h2⟩ := who_some hw
      show slid _ _ (s l) = slid _ _ (s' l)
      rw [hs l]
      rintro rfl
      rw [h] at h1
      exact hi (by rw [← h2, Option.some.inj h1])
end

/-- The plan without goroutine `k`. -/
def but (plan : Nat → Option Task) (k l : Nat) : Option Task := if l = k then none else plan l

/-- As long as goroutine `k` has not begun to remove, the others need not know of it. -/
theorem Fits.but {base : Mem α} {plan : Nat → Option Task} (F : Fits base plan) {k : Nat} {s : Nat → Nat} (hs : s k = 0) :
    mems base plan s = mems base (Prune.but plan k) s := by
  have hb : ∀ l T, Prune.but plan k l = some T → l ≠ k ∧ plan l = some T := by
    intro l T h
    rw [Prune.but] at h
    split at h
    · cases h
    · next hl => exact ⟨hl, h⟩
  have F' : Fits base (Prune.but plan k) :=
    ⟨fun l T h => F.arr l T (hb l T h).2, fun l T h => F.len l T (hb l T h).2, fun l T h => F.lt l T (hb l T h).2,
      fun l T h => F.item l T (hb l T h).2, fun l T h => F.first l T (hb l T h).2,
      fun l l' T T' h h' => F.apart l l' T T' (hb l T h).2 (hb l' T' h').2⟩
  funext i
  cases hw : Prune.who plan i with
  | none =>
    have : Prune.who (Prune.but plan k) i = none := by
      refine who_none fun l T h e => ?_
      have := F.who (hb l T h).2
      rw [e, hw] at this
      cases this
    simp only [mems, hw, this]
  | some x =>
    obtain ⟨l, T⟩ := x
    obtain ⟨h1, rfl⟩ := who_some hw
    rw [F.at h1]
    by_cases e : l = k
    · subst e
      have : Prune.who (Prune.but plan l) T.par = none := by
        refine who_none fun l' T' h e => ?_
        exact (hb l' T' h).1 (F.apart _ _ _ _ (hb l' T' h).2 h1 e)
      simp only [mems, this]
      rw [hs, slid_zero (by rw [F.arr l T h1]; exact F.lt l T h1)]
    · rw [F'.at (k := l) (by rw [Prune.but, if_neg e]; exact h1)]

/-- The states of a search and of a lookup. -/
def Pc.reads : Pc α → Bool
  | .pick .. | .scan .. | .cut .. | .move .. | .gone _ => false
  | _ => true

theorem reads_mem {c : Call} {d : Char} {M : Mem α} {pc : Pc α} (h : pc.reads = true) : (step c d M pc).1 = M := by
  cases pc <;> first | rfl | cases h

theorem get_reads {p : Str} {d : Char} {M : Mem α} {pc : Pc α} (h : pc.reads = true) : (step (.get p) d M pc).2.reads = true := by
  cases pc <;> simp only [step] <;> (try cases h) <;> (repeat' split) <;> (try rfl) <;>
    (rename_i p ch par _ _; cases p <;> cases ch <;> rfl)

/-- What a search for `remove` may come to. -/
theorem remove_reads {p : Str} {d : Char} {M : Mem α} {pc : Pc α} (h : pc.reads = true) :
    (step (.remove p) d M pc).2.reads = true ∨ (∃ P x, (step (.remove p) d M pc).2 = .pick P x) ∨
    (step (.remove p) d M pc).2 = .gone false := by
  cases pc <;> simp only [step] <;> (try cases h) <;> (repeat' split) <;> (try exact .inl rfl) <;>
    first
    | exact .inr (.inr rfl)
    | (rename_i p ch par _ _; cases p <;> cases ch <;> cases par <;> first | exact .inr (.inr rfl) | exact .inr (.inl ⟨_, _, rfl⟩))

theorem leads_fixed {c : Call} {d : Char} {ms : (Nat → Nat) → Mem α} {Q : Pc α → Prop} {pc : Pc α}
    (hf : ∀ M, (step c d M pc).2 = pc) : ∀ {n : Nat} {s : Nat → Nat}, Leads c d ms Q n s pc → Q pc
  | 0, _, h => h
  | n + 1, s, h => by
    rcases h with h | h
    · exact h
    · have := h s (.refl s)
      rw [hf] at this
      exact leads_fixed hf this

/-- The states of a removal after the search. -/
def Pc.late : Pc α → Bool
  | .scan .. | .cut .. | .move .. | .gone _ | .crash => true
  | _ => false

theorem late_step {c : Call} {d : Char} {M : Mem α} {pc : Pc α} (h : pc.late = true) : (step c d M pc).2.late = true := by
  cases pc <;> simp only [step] <;> (try cases h) <;> (repeat' split) <;> rfl

theorem leads_late {c : Call} {d : Char} {ms : (Nat → Nat) → Mem α} {P x : Nat} : ∀ {n : Nat} {s : Nat → Nat} {pc : Pc α},
    Leads c d ms (fun r => r = .pick P x) n s pc → pc.late = true → False
  | 0, _, _, h, hl => by rw [h] at hl; cases hl
  | n + 1, s, pc, h, hl => by
    rcases h with h | h
    · rw [h] at hl; cases hl
    · exact leads_late (h s (.refl s)) (late_step hl)

/-- What is left to do for a removal after the search, and where it stands. -/
inductive Doing (T : Task) : Nat → Pc α → Prop
  | pick (b) (hb : 2 * T.n + 5 ≤ b) : Doing T b (.pick T.par T.item)
  | scan (j b) (hj : j ≤ T.ix) (hb : (T.ix - j) + T.n + 3 ≤ b) : Doing T b (.scan T.par T.item T.n j)
  | cut (b) (hb : T.n + 2 ≤ b) : Doing T b (.cut T.par T.ix)
  | move (j b) (hj : j ≤ T.n - 1 - T.ix) (hb : T.n - 1 - T.ix - j + 1 ≤ b) : Doing T b (.move T.par T.ix (T.n - (T.ix + 1)) j)
  | gone (b) : Doing T b (.gone true)

variable {d : Char} {cs : List Call} {base : Mem α} {plan : Nat → Option Task} {Tr : Nat → Prop} {Q : Nat → Pc α → Prop}

/-- The call of goroutine `k`. -/
def callOf (cs : List Call) (k : Nat) : Call := cs[k]?.getD (.get [])

/-- All that holds while the goroutines run; goroutine `k` (a removal, or a lookup with `Tr`) is done after `B k` steps. -/
structure Inv (d : Char) (cs : List Call) (base : Mem α) (plan : Nat → Option Task) (Tr : Nat → Prop) (Q : Nat → Pc α → Prop)
    (W : World α) (B : Nat → Nat) : Prop where
  mem : W.mem = mems base plan (stages plan W.pcs)
  get : ∀ k, plan k = none → (W.pcs k).reads = true ∧ (∃ p, callOf cs k = .get p) ∧
    (Tr k → Leads (callOf cs k) d (mems base plan) (Q k) (B k) (stages plan W.pcs) (W.pcs k))
  rem : ∀ k T, plan k = some T → (∃ p, callOf cs k = .remove p) ∧
    (((W.pcs k).reads = true ∧ ∃ b, B k = b + (2 * T.n + 5) ∧ Leads (callOf cs k) d (mems base (but plan k))
      (fun r => r = .pick T.par T.item) b (stages plan W.pcs) (W.pcs k)) ∨ Doing T (B k) (W.pcs k))

theorem stage_reads {T : Task} {pc : Pc α} (h : pc.reads = true) : stage T pc = 0 := by
  cases pc <;> first | rfl | cases h

/-- The step of a removal after the search. -/
theorem doing_step (F : Fits base plan) {k : Nat} {T : Task} (hk : plan k = some T) {p : Str} {s : Nat → Nat} {b : Nat} {pc : Pc α}
    (h : Doing T b pc) (hs : s k = stage T pc) :
    Doing T (b - 1) (step (.remove p) d (mems base plan s) pc).2 ∧
      stage T pc ≤ stage T (step (.remove p) d (mems base plan s) pc).2 ∧
      ∀ s' : Nat → Nat, (∀ l, l ≠ k → s' l = s l) → s' k = stage T (step (.remove p) d (mems base plan s) pc).2 →
        (step (.remove p) d (mems base plan s) pc).1 = mems base plan s' := by
  have hat := F.at hk s
  have harr := F.arr k T hk
  have hlen := F.len k T hk
  have hlt := F.lt k T hk
  have keep : ∀ s' : Nat → Nat, (∀ l, l ≠ k → s' l = s l) → s' k = s k → mems base plan s = mems base plan s' := by
    intro s' h1 h2
    congr 1
    funext l
    by_cases e : l = k
    · rw [e, h2]
    · rw [h1 l e]
  cases h with
  | pick b hb =>
    rw [show stage T (.pick T.par T.item : Pc α) = 0 from rfl] at hs
    rw [hs, slid_zero (by omega)] at hat
    simp only [step, hat, hlen]
    exact ⟨.scan 0 _ (by omega) (by omega), Nat.le_refl _, fun s' h1 h2 => keep s' h1 (by rw [h2, hs]; rfl)⟩
  | scan j b hj hb =>
    rw [show stage T (.scan T.par T.item T.n j : Pc α) = 0 from rfl] at hs
    rw [hs, slid_zero (by omega)] at hat
    simp only [step, hat]
    rw [if_pos (by omega)]
    by_cases e : j = T.ix
    · subst e
      rw [if_pos (F.item k T hk)]
      exact ⟨.cut _ (by omega), Nat.le_refl _, fun s' h1 h2 => keep s' h1 (by rw [h2, hs]; rfl)⟩
    · rw [if_neg (F.first k T hk j (by omega))]
      exact ⟨.scan _ _ (by omega) (by omega), Nat.le_refl _, fun s' h1 h2 => keep s' h1 (by rw [h2, hs]; rfl)⟩
  | cut b hb =>
    rw [show stage T (.cut T.par T.ix : Pc α) = 0 from rfl] at hs
    rw [hs, slid_zero (by omega)] at hat
    simp only [step, hat, hlen]
    rw [if_pos (by omega)]
    exact ⟨.move 0 _ (by omega) (by omega), Nat.le_refl _, fun s' h1 h2 => keep s' h1 (by rw [h2, hs]; rfl)⟩
  | move j b hj hb =>
    rw [show stage T (.move T.par T.ix (T.n - (T.ix + 1)) j : Pc α) = j from rfl] at hs ⊢
    simp only [step]
    by_cases e : j < T.n - (T.ix + 1)
    · rw [if_pos e]
      refine ⟨.move _ _ (by omega) (by omega), Nat.le_succ _, fun s' h1 h2 => F.move hk h1 ?_⟩
      have h2' : s' k = j + 1 := h2
      rw [h2', hat, hs]
      simp only [slid]
      rw [slide_succ (by omega), if_neg (by omega), if_neg (by omega)]
    · rw [if_neg e]
      refine ⟨.gone _, ?_, fun s' h1 h2 => F.move hk h1 ?_⟩
      · simp only [stage]; omega
      · have h2' : s' k = T.n - T.ix := h2
        rw [h2', hat, hs]
        simp only [slid]
        rw [if_pos (by omega), hlen]
        congr 1
        · rw [show j = (base T.par).arr.length - 1 - T.ix from by omega, slide_last (by omega), harr]
        · omega
  | gone b =>
    exact ⟨.gone _, Nat.le_refl _, fun s' h1 h2 => keep s' h1 (by rw [h2, hs]; rfl)⟩

theorem stages_tick (plan : Nat → Option Task) (W : World α) (k l : Nat) (h : l ≠ k) :
    stages plan (W.tick d cs k).pcs l = stages plan W.pcs l := by
  simp only [stages, World.tick, if_neg h]

/-- One step of one goroutine. -/
theorem Inv.tick_up (F : Fits base plan) (hQ : ∀ k pc, Q k pc → ∀ M, step (callOf cs k) d M pc = (M, pc))
    {W : World α} {B : Nat → Nat} (I : Inv d cs base plan Tr Q W B) (k : Nat) :
    Inv d cs base plan Tr Q (W.tick d cs k) (fun l => if l = k then B l - 1 else B l) ∧
      Up (stages plan W.pcs) (stages plan (W.tick d cs k).pcs) := by
  have hself : (W.tick d cs k).pcs k = (step (callOf cs k) d W.mem (W.pcs k)).2 := by simp [World.tick, callOf]
  have hother : ∀ l, l ≠ k → (W.tick d cs k).pcs l = W.pcs l := fun l h => by simp [World.tick, if_neg h]
  have hmem : (W.tick d cs k).mem = (step (callOf cs k) d W.mem (W.pcs k)).1 := rfl
  -- enough: the memory and how far `k` has come
  suffices main : (W.tick d cs k).mem = mems base plan (stages plan (W.tick d cs k).pcs) ∧
      stages plan W.pcs k ≤ stages plan (W.tick d cs k).pcs k ∧
      (Up (stages plan W.pcs) (stages plan (W.tick d cs k).pcs) →
        (plan k = none → ((W.tick d cs k).pcs k).reads = true ∧
          (Tr k → Leads (callOf cs k) d (mems base plan) (Q k) (B k - 1) (stages plan (W.tick d cs k).pcs) ((W.tick d cs k).pcs k))) ∧
        (∀ T, plan k = some T → ((((W.tick d cs k).pcs k).reads = true ∧ ∃ b, B k - 1 = b + (2 * T.n + 5) ∧
            Leads (callOf cs k) d (mems base (but plan k)) (fun r => r = .pick T.par T.item) b (stages plan (W.tick d cs k).pcs)
              ((W.tick d cs k).pcs k)) ∨ Doing T (B k - 1) ((W.tick d cs k).pcs k)))) by
    obtain ⟨m1, m2, m3⟩ := main
    have hup : Up (stages plan W.pcs) (stages plan (W.tick d cs k).pcs) := by
      intro l
      by_cases e : l = k
      · rw [e]; exact m2
      · rw [stages_tick plan W k l e]; exact Nat.le_refl _
    obtain ⟨m4, m5⟩ := m3 hup
    refine ⟨⟨m1, fun l hl => ?_, fun l T hl => ?_⟩, hup⟩
    · by_cases e : l = k
      · subst e
        rw [if_pos rfl]
        exact ⟨(m4 hl).1, (I.get l hl).2.1, (m4 hl).2⟩
      · rw [if_neg e, hother l e]
        obtain ⟨g1, g2, g3⟩ := I.get l hl
        exact ⟨g1, g2, fun ht => (g3 ht).up hup⟩
    · by_cases e : l = k
      · subst e
        rw [if_pos rfl]
        exact ⟨(I.rem l T hl).1, m5 T hl⟩
      · rw [if_neg e, hother l e]
        obtain ⟨g1, g2⟩ := I.rem l T hl
        exact ⟨g1, g2.imp (fun ⟨g3, b, g4, g5⟩ => ⟨g3, b, g4, g5.up hup⟩) id⟩
  cases hk : plan k with
  | none =>
    obtain ⟨g1, ⟨p, g2⟩, g3⟩ := I.get k hk
    have hst : stages plan (W.tick d cs k).pcs = stages plan W.pcs := by
      funext l
      by_cases e : l = k
      · simp only [stages, e, hk]
      · exact stages_tick plan W k l e
    refine ⟨?_, by rw [hst]; exact Nat.le_refl _, fun _ => ⟨fun _ => ⟨?_, ?_⟩, fun T e => by cases e⟩⟩
    · rw [hst, hmem, reads_mem g1, I.mem]
    · rw [hself, g2]; exact get_reads g1
    · intro ht
      replace g3 := g3 ht
      rw [hst, hself, I.mem]
      cases hb : B k with
      | zero =>
        rw [hb] at g3
        rw [hQ k _ g3]
        exact g3
      | succ b =>
        rw [hb] at g3
        rcases g3 with g3 | g3
        · rw [hQ k _ g3]; exact .now g3 _
        · exact g3 _ (.refl _)
  | some T =>
    obtain ⟨⟨p, g2⟩, g⟩ := I.rem k T hk
    rcases g with ⟨g1, b, g3, g4⟩ | g
    · have r := remove_reads (p := p) (d := d) (M := W.mem) g1
      rw [← g2, ← hself] at r
      have hb : ∃ b', b = b' + 1 := by
        cases b with
        | zero =>
          have : W.pcs k = .pick T.par T.item := g4
          rw [this] at g1; cases g1
        | succ b' => exact ⟨b', rfl⟩
      obtain ⟨b', rfl⟩ := hb
      have hz : stages plan W.pcs k = 0 := by simp only [stages, hk]; exact stage_reads g1
      have g5 : Leads (callOf cs k) d (mems base (but plan k)) (fun r => r = .pick T.par T.item) b' (stages plan W.pcs) ((W.tick d cs k).pcs k) := by
        rcases g4 with e | g4
        · rw [e] at g1; cases g1
        · rw [hself, I.mem, F.but hz]; exact g4 _ (.refl _)
      have hgone : (W.tick d cs k).pcs k ≠ .gone false := by
        intro e
        rw [e] at g5
        have := leads_fixed (c := callOf cs k) (d := d) (fun M => rfl) g5
        cases this
      have hpick : ∀ P x, (W.tick d cs k).pcs k = .pick P x → P = T.par ∧ x = T.item := by
        intro P x e
        have : ∀ n s, Leads (callOf cs k) d (mems base (but plan k)) (fun r => r = .pick T.par T.item) n s (.pick P x) →
            P = T.par ∧ x = T.item := by
          intro n s h
          cases n with
          | zero => cases h; exact ⟨rfl, rfl⟩
          | succ n =>
            rcases h with h | h
            · cases h; exact ⟨rfl, rfl⟩
            · exact (leads_late (h s (.refl s)) rfl).elim
        rw [e] at g5
        exact this _ _ g5
      have hst : stages plan (W.tick d cs k).pcs k = stages plan W.pcs k := by
        simp only [stages, hk]
        rw [stage_reads g1]
        rcases r with r | ⟨P, x, r⟩ | r
        · exact stage_reads r
        · rw [r]; rfl
        · exact absurd r hgone
      have hst' : stages plan (W.tick d cs k).pcs = stages plan W.pcs := by
        funext l
        by_cases e : l = k
        · rw [e]; exact hst
        · exact stages_tick plan W k l e
      refine ⟨by rw [hst', hmem, reads_mem g1, I.mem], by rw [hst]; exact Nat.le_refl _, fun _ => ⟨fun e => (by cases e), fun T' e => ?_⟩⟩
      cases e
      rcases r with r | ⟨P, x, r⟩ | r
      · exact .inl ⟨r, b', by omega, by rw [hst']; exact g5⟩
      · obtain ⟨rfl, rfl⟩ := hpick P x r
        refine .inr ?_
        rw [r]
        exact .pick _ (by omega)
      · exact absurd r hgone
    · have hs : stages plan W.pcs k = stage T (W.pcs k) := by simp only [stages, hk]
      have hs' : stages plan (W.tick d cs k).pcs k = stage T ((W.tick d cs k).pcs k) := by simp only [stages, hk]
      obtain ⟨s1, s2, s3⟩ := doing_step (d := d) (p := p) F hk g hs
      rw [← g2, ← I.mem, ← hself] at s1 s2 s3
      rw [← hmem] at s3
      exact ⟨s3 _ (fun l hl => stages_tick plan W k l hl) hs', by rw [hs, hs']; exact s2, fun _ => ⟨fun e => (by cases e), fun T' e => (by cases e; exact .inr s1)⟩⟩

theorem Inv.tick (F : Fits base plan) (hQ : ∀ k pc, Q k pc → ∀ M, step (callOf cs k) d M pc = (M, pc))
    {W : World α} {B : Nat → Nat} (I : Inv d cs base plan Tr Q W B) (k : Nat) :
    Inv d cs base plan Tr Q (W.tick d cs k) (fun l => if l = k then B l - 1 else B l) := (I.tick_up F hQ k).1

theorem Inv.run (F : Fits base plan) (hQ : ∀ k pc, Q k pc → ∀ M, step (callOf cs k) d M pc = (M, pc)) (S : List Nat) :
    ∀ {W : World α} {B : Nat → Nat}, Inv d cs base plan Tr Q W B →
      Inv d cs base plan Tr Q (W.run d cs S) (fun k => B k - S.count k) := by
  induction S with
  | nil => intro W B I; exact I
  | cons k S ih =>
    intro W B I
    have := ih (I.tick F hQ k)
    rw [World.run]
    have hB : (fun l => (if l = k then B l - 1 else B l) - S.count l) = fun l => B l - (k :: S).count l := by
      funext l
      by_cases e : l = k
      · subst e; rw [if_pos rfl, List.count_cons_self]; omega
      · rw [if_neg e, List.count_cons_of_ne (Ne.symm e)]
    rw [hB] at this
    exact this

theorem run_append (W : World α) (A B : List Nat) : W.run d cs (A ++ B) = (W.run d cs A).run d cs B := by
  induction A generalizing W with
  | nil => rfl
  | cons k ks ih => exact ih (W.tick d cs k)

end Prune
end Verif

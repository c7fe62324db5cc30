import Verif.Props.RaceMix
/-
Lookups beside `Set` and `Remove`.
-/
namespace Verif
namespace Parts
variable {α : Type} [Inhabited α]
open Prune (Cell Mem Pc Call Leads Up Shows Sure Task)
open Race (Job)

/-- The states of a search. -/
def hunts : Pc α → Bool
  | .enter .. | .cmp .. | .tail .. | .kids .. | .range .. | .ret .. => true
  | _ => false

theorem hunts_step {c : Call} {d : Char} {M : Mem α} {pc : Pc α} (h : hunts pc = false) : hunts (Prune.step c d M pc).2 = false := by
  cases pc <;> first | cases h | skip
  all_goals simp only [Prune.step]
  all_goals first | rfl | skip
  all_goals (repeat' split) <;> rfl

/-- Who leads to a state of the search is in one. -/
theorem leads_hunts {c : Call} {d : Char} {ms : (Nat → Nat) → Mem α} {Q : Pc α → Prop} (hQ : ∀ r, Q r → hunts r = true) :
    ∀ (b : Nat) (s : Nat → Nat) (pc : Pc α), Leads c d ms Q b s pc → hunts pc = true
  | 0, _, pc, h => hQ pc h
  | b + 1, s, pc, h => by
    rcases h with h | h
    · exact hQ pc h
    · have := leads_hunts hQ b s _ (h s (.refl s))
      cases e : hunts pc with
      | true => rfl
      | false => rw [hunts_step e] at this; cases this

/-- A search does not read the values. -/
theorem hunts_over {c : Call} {d : Char} (g : Nat → Core α → Core α) {M : Mem α} {pc : Pc α} (h : hunts pc = true) :
    Prune.step c d (over g M) pc = (over g M, (Prune.step c d M pc).2) := by
  cases pc with
  | enter | cmp | tail | kids | range | ret => rfl
  | _ => cases h

/-- The end of the search. -/
def Ends (i : Nat) (r : Pc α) : Prop := ∃ par stk, r = .ret true false (some i) par stk

theorem Ends.hunts {i : Nat} (r : Pc α) (h : Ends i r) : hunts r = true := by
  obtain ⟨_, _, rfl⟩ := h; rfl

/-- The search ends, and nothing has been found. -/
def Quits (p : Str) (d : Char) (r : Pc α) : Prop := hunts r = true ∧ ∀ M, (Prune.step (.get p) d M r).2 = .done ansNone

/-- Where the search may end: at the node `i`, or, if `E`, without a node. -/
def Stops (p : Str) (d : Char) (i : Nat) (E : Prop) (r : Pc α) : Prop := Ends i r ∨ (E ∧ Quits p d r)

theorem Stops.hunts {p : Str} {d : Char} {i : Nat} {E : Prop} (r : Pc α) (h : Stops p d i E r) : hunts r = true :=
  h.elim (Ends.hunts r) fun h => h.2.1

/-- A goroutine with a lookup that finds the node `m` with the key `q` or, if `E`, nothing, after `n` steps. -/
inductive LookSt (v : View) (p : Str) (ms : (Nat → Nat) → Mem α) (q : Str) (m : Node α) (E : Prop) (B n : Nat) (s : Nat → Nat)
    (Good : View.Ans α → Prop) : Gor α → Prop
  | idle (f) (hn : n = 0) : LookSt v p ms q m E B n s Good ⟨v, [.get p], .idle, [], f⟩
  | finds (f b pc) (hf : Leads (.get p) v.delim ms (Stops p v.delim m.id E) b s pc) (hn : n + b ≤ B + 1) (h0 : 0 < n) :
      LookSt v p ms q m E B n s Good ⟨v, [], .asks (.get p) pc, [], f⟩
  | branch (f) (hn : n ≤ B + 2) (h0 : 0 < n) : LookSt v p ms q m E B n s Good ⟨v, [], .asks (.get p) (.branch m.id), [], f⟩
  | ends (f) (hl : m.core.leaf = false) (hn : n ≤ B + 3) (h0 : 0 < n) :
      LookSt v p ms q m E B n s Good ⟨v, [], .asks (.get p) (.ends m.id), [], f⟩
  | has (f) (hn : n ≤ B + 4) (h0 : 0 < n) :
      LookSt v p ms q m E B n s Good ⟨v, [], .asks (.get p) (.has m.id (!m.core.leaf) (m.core.leaf || endsW v.delim q)), [], f⟩
  | data (f) (hn : n ≤ B + 5) (h0 : 0 < n) :
      LookSt v p ms q m E B n s Good ⟨v, [], .asks (.get p) (.data m.id (!m.core.leaf) (m.core.leaf || endsW v.delim q)), [], f⟩
  | fin (f a) (ha : Good a) (hn : n ≤ B + 6) : LookSt v p ms q m E B n s Good ⟨v, [], .asks (.get p) (.done a), [], f⟩
  | done (f a) (ha : Good a) : LookSt v p ms q m E B n s Good ⟨v, [], .idle, [.got a], f⟩

theorem LookSt.up {v : View} {p : Str} {ms : (Nat → Nat) → Mem α} {q : Str} {m : Node α} {E : Prop} {B n : Nat} {s s' : Nat → Nat}
    {Good Good' : View.Ans α → Prop} {G : Gor α} (hs : Up s s') (hG : ∀ a, Good a → Good' a)
    (h : LookSt v p ms q m E B n s Good G) : LookSt v p ms q m E B n s' Good' G := by
  cases h with
  | idle f hn => exact .idle f hn
  | finds f b pc hf hn h0 => exact .finds f b pc (hf.up hs) hn h0
  | branch f hn h0 => exact .branch f hn h0
  | ends f hl hn h0 => exact .ends f hl hn h0
  | has f hn h0 => exact .has f hn h0
  | data f hn h0 => exact .data f hn h0
  | fin f a ha hn => exact .fin f a (hG a ha) hn
  | done f a ha => exact .done f a (hG a ha)

/-- One step of the lookup. -/
theorem LookSt.step {v : View} {t : Tree α} {p : Str} {ms : (Nat → Nat) → Mem α} {q : Str} {m : Node α} {E : Prop} {B n : Nat} {s : Nat → Nat}
    {Good Good' : View.Ans α → Prop} {G : Gor α} (h : t.OK) (hm : (q, m) ∈ t.root.nodes []) (hS : Shows ms m)
    (hB : ∀ σ, Leads (.get p) v.delim ms (Stops p v.delim m.id E) B σ (.enter (v.full p) t.root.id none []))
    {g : Nat → Core α → Core α} (hleaf : (g m.id m.core).leaf = m.core.leaf) (hdata : m.core.hasData = true → (g m.id m.core).hasData = true)
    (hG : ∀ a, Good a → Good' a)
    (hE : E → Good' ansNone) (hnone : 0 < n → (g m.id m.core).hasData = false → Good' (ansOf v.delim q m.core))
    (hread : 0 < n → Good' { ansOf v.delim q m.core with data := (g m.id m.core).data })
    (gap : Nat) (hL : LookSt v p ms q m E B n s Good G) :
    LookSt v p ms q m E B (n + 1) s Good' (Gor.step t.root.id gap (over g (ms s)) G).2 := by
  have hcore : (over g (ms s) m.id).core = g m.id m.core := by
    show g m.id (ms s m.id).core = _
    rw [hS.core]
  have hpath : (over g (ms s) m.id).path = m.path := hS.path s
  cases hL with
  | idle f hn => exact .finds f B _ (hB s) (by omega) (by omega)
  | finds f b pc hf hn h0 =>
    have hh := leads_hunts Stops.hunts b s pc hf
    have e : (Gor.step t.root.id gap (over g (ms s)) ⟨v, [], .asks (.get p) pc, [], f⟩).2 =
        ⟨v, [], .asks (.get p) (Prune.step (.get p) v.delim (over g (ms s)) pc).2, [], f⟩ := by
      cases pc with
      | enter | cmp | tail | kids | range | ret => rfl
      | _ => cases hh
    by_cases hS' : Stops p v.delim m.id E pc
    · rcases hS' with ⟨par, stk, rfl⟩ | ⟨h1, _, h2⟩
      · exact .branch f (by omega) (by omega)
      · rw [e, h2]
        exact .fin f _ (hE h1) (by omega)
    · cases b with
      | zero => exact absurd hf hS'
      | succ b =>
        rcases hf with hf | hf
        · exact absurd hf hS'
        rw [e, hunts_over g hh]
        exact .finds f b _ (hf s (.refl s)) (by omega) (by omega)
  | branch f hn h0 =>
    have e : (Gor.step t.root.id gap (over g (ms s)) ⟨v, [], .asks (.get p) (.branch m.id), [], f⟩).2 =
        ⟨v, [], .asks (.get p) (if (over g (ms s) m.id).core.isBranch then .ends m.id else .has m.id false true), [], f⟩ := rfl
    rw [e, hcore, Core.isBranch, hleaf]
    cases hl : m.core.leaf with
    | true => have := LookSt.has (v := v) (p := p) (ms := ms) (q := q) (m := m) (E := E) (B := B) (n := n + 1) (s := s) (Good := Good') f (by omega) (by omega)
              rw [hl] at this
              exact this
    | false => exact .ends f hl (by omega) (by omega)
  | ends f hl hn h0 =>
    have e : (Gor.step t.root.id gap (over g (ms s)) ⟨v, [], .asks (.get p) (.ends m.id), [], f⟩).2 =
        ⟨v, [], .asks (.get p) (.has m.id true ((over g (ms s) m.id).path.getLast? == some v.delim)), [], f⟩ := rfl
    have he : (m.path.getLast? == some v.delim) = endsW v.delim q := by
      rw [← endsWith_of_mem h hm v.delim, Node.endsWith]
      cases m.path.getLast? with
      | none => rfl
      | some c => simp [Option.some_beq_some]
    rw [e, hpath, he]
    have := LookSt.has (v := v) (p := p) (ms := ms) (q := q) (m := m) (E := E) (B := B) (n := n + 1) (s := s) (Good := Good') f (by omega) (by omega)
    rw [hl] at this
    exact this
  | has f hn h0 =>
    have e : ∀ br fo, (Gor.step t.root.id gap (over g (ms s)) ⟨v, [], .asks (.get p) (.has m.id br fo), [], f⟩).2 =
        ⟨v, [], .asks (.get p) (if (over g (ms s) m.id).core.hasData then .data m.id br fo else .done ⟨default, br, fo, !fo⟩), [], f⟩ :=
      fun _ _ => rfl
    rw [e, hcore]
    cases hd : (g m.id m.core).hasData with
    | true => exact .data f (by omega) (by omega)
    | false =>
      have hc : m.core.hasData = false := by
        cases hc : m.core.hasData with
        | false => rfl
        | true => rw [hdata hc] at hd; cases hd
      have := hnone h0 hd
      simp only [ansOf, hc] at this
      exact .fin f _ this (by omega)
  | data f hn h0 =>
    have e : ∀ br fo, (Gor.step t.root.id gap (over g (ms s)) ⟨v, [], .asks (.get p) (.data m.id br fo), [], f⟩).2 =
        ⟨v, [], .asks (.get p) (.done ⟨(over g (ms s) m.id).core.data, br, fo, !fo⟩), [], f⟩ := fun _ _ => rfl
    rw [e, hcore]
    exact .fin f _ (hread h0) (by omega)
  | fin f a ha hn => exact .done f a (hG a ha)
  | done f a ha => exact .done f a (hG a ha)

/-- A goroutine with a lookup that finds nothing, after `n` steps. -/
inductive MissSt (v : View) (p : Str) (ms : (Nat → Nat) → Mem α) (B n : Nat) (s : Nat → Nat) : Gor α → Prop
  | idle (f) (hn : n = 0) : MissSt v p ms B n s ⟨v, [.get p], .idle, [], f⟩
  | finds (f b pc) (hf : Leads (.get p) v.delim ms (Quits p v.delim) b s pc) (hn : n + b ≤ B + 1) :
      MissSt v p ms B n s ⟨v, [], .asks (.get p) pc, [], f⟩
  | fin (f) (hn : n ≤ B + 2) : MissSt v p ms B n s ⟨v, [], .asks (.get p) (.done ansNone), [], f⟩
  | done (f) : MissSt v p ms B n s ⟨v, [], .idle, [.got ansNone], f⟩

theorem MissSt.up {v : View} {p : Str} {ms : (Nat → Nat) → Mem α} {B n : Nat} {s s' : Nat → Nat} {G : Gor α} (hs : Up s s')
    (h : MissSt v p ms B n s G) : MissSt v p ms B n s' G := by
  cases h with
  | idle f hn => exact .idle f hn
  | finds f b pc hf hn => exact .finds f b pc (hf.up hs) hn
  | fin f hn => exact .fin f hn
  | done f => exact .done f

theorem MissSt.step {v : View} {root : Nat} {p : Str} {ms : (Nat → Nat) → Mem α} {B n : Nat} {s : Nat → Nat} {G : Gor α}
    (hB : ∀ σ, Leads (.get p) v.delim ms (Quits p v.delim) B σ (.enter (v.full p) root none []))
    (g : Nat → Core α → Core α) (gap : Nat) (hL : MissSt v p ms B n s G) :
    MissSt v p ms B (n + 1) s (Gor.step root gap (over g (ms s)) G).2 := by
  cases hL with
  | idle f hn => exact .finds f B _ (hB s) (by omega)
  | finds f b pc hf hn =>
    have hh := leads_hunts (fun r h => h.1) b s pc hf
    have e : (Gor.step root gap (over g (ms s)) ⟨v, [], .asks (.get p) pc, [], f⟩).2 =
        ⟨v, [], .asks (.get p) (Prune.step (.get p) v.delim (over g (ms s)) pc).2, [], f⟩ := by
      cases pc with
      | enter | cmp | tail | kids | range | ret => rfl
      | _ => cases hh
    by_cases hQ : Quits p v.delim pc
    · rw [e, hQ.2]
      exact .fin f (by omega)
    · cases b with
      | zero => exact absurd hf hQ
      | succ b =>
        rcases hf with hf | hf
        · exact absurd hf hQ
        rw [e, hunts_over g hh]
        exact .finds f b _ (hf s (.refl s)) (by omega)
  | fin f hn => exact .done f
  | done f => exact .done f

section
variable {v : View} {t : Tree α} {as : List (Act α)} {B : Nat → Nat} {S S' : List Nat} {g : Nat → Core α → Core α} {W : World α}

/-- What the calls of `Set` have made of a node. -/
theorem Mixed.core (I : Mixed v t as B S S' g W) (h : t.OK) (hs : Spared v t as) {q : Str} {m : Node α} (hm : (q, m) ∈ t.root.nodes []) :
    (g m.id m.core).leaf = m.core.leaf ∧ (m.core.hasData = true → (g m.id m.core).hasData = true) ∧
    ((g m.id m.core).hasData = false → ∀ (j : Nat) (p : Str) (x : α), as[j]? = some (.set p x) → View.dash (v.full p) = q → (W.gs j).outs = []) ∧
    ((g m.id m.core).data = m.core.data ∧
        (∀ (j : Nat) (p : Str) (x : α), as[j]? = some (.set p x) → View.dash (v.full p) = q → (W.gs j).outs = []) ∨
      ∃ (j : Nat) (p : Str) (x : α), as[j]? = some (.set p x) ∧ View.dash (v.full p) = q ∧ (g m.id m.core).data = x ∧ (W.gs j).todo = []) := by
  by_cases hex : ∃ (j : Nat) (p : Str) (x : α), as[j]? = some (.set p x) ∧ View.dash (v.full p) = q
  · obtain ⟨j, p, x, ha, hq⟩ := hex
    have r := I.set j p x ha
    have one : (W.gs j).outs = [] → ∀ (j' : Nat) (p' : Str) (x' : α), as[j']? = some (.set p' x') → View.dash (v.full p') = q → (W.gs j').outs = [] := by
      intro h1 j' p' x' ha' hq'
      rw [hs.apart j' j p' x' p x ha' ha (hq'.trans hq.symm)]
      exact h1
    rw [hq, idAt_mem h hm] at r
    generalize hG : W.gs j = G at r
    rw [hG] at one
    cases r with
    | idle hn hg =>
      rw [hg]
      exact ⟨rfl, id, fun _ => one rfl, .inl ⟨rfl, one rfl⟩⟩
    | finds f b pc hf hn hg =>
      rw [hg]
      exact ⟨rfl, id, fun _ => one rfl, .inl ⟨rfl, one rfl⟩⟩
    | store f hn hg =>
      rw [hg]
      exact ⟨rfl, fun _ => rfl, (fun e => by cases e), .inl ⟨rfl, one rfl⟩⟩
    | fin f hn hg =>
      rw [hg]
      exact ⟨rfl, fun _ => rfl, (fun e => by cases e), .inr ⟨j, p, x, ha, hq, rfl, by rw [hG]⟩⟩
    | done f hg =>
      rw [hg]
      exact ⟨rfl, fun _ => rfl, (fun e => by cases e), .inr ⟨j, p, x, ha, hq, rfl, by rw [hG]⟩⟩
  · have hg : g m.id = fun c => c := by
      refine I.frame _ fun p x hx e => ?_
      obtain ⟨m', hm'⟩ := stored_node h (hs.stored p x hx)
      rw [idAt_mem h hm'] at e
      obtain ⟨j, hj⟩ := List.mem_iff_getElem?.mp hx
      exact hex ⟨j, p, x, hj, (Prod.mk.inj (h.id_inj hm' hm e)).1⟩
    rw [hg]
    exact ⟨rfl, id, fun _ j p x ha hq => absurd ⟨j, p, x, ha, hq⟩ hex, .inl ⟨rfl, fun j p x ha hq => absurd ⟨j, p, x, ha, hq⟩ hex⟩⟩
end

end Parts
end Verif

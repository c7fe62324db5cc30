import Verif.Model.NodeLock
/-
C72: the lock of an entry with a timer.
-/
namespace Verif
namespace NodeLock

/-- Two goroutines are at the field at the same time, and one of them writes. -/
def State.Conflict (s : State) : Prop :=
  ∃ (i j : Nat) (c : Call) (b : Bool) (c' : Call) (b' : Bool), i ≠ j ∧ s.threads[i]? = some (.inside c b) ∧ s.threads[j]? = some (.inside c' b') ∧ (c.writes || c'.writes) = true

/-- The program is aborted. -/
def State.Fatal (s : State) : Prop := PC.fatal ∈ s.threads

def rd : PC → Bool
  | .inside .data true => true
  | _ => false

def wr : PC → Bool
  | .inside .data true => false
  | .inside _ true => true
  | _ => false

/-- What a goroutine can be doing once the lock `m` exists and nobody bypasses it. -/
def PC.Ok (m : Nat) : PC → Prop
  | .start c => c ≠ .set
  | .checked c => c ≠ .set ∧ c ≠ .add
  | .wait c k => c ≠ .set ∧ c ≠ .add ∧ k = m
  | .inside c b => c ≠ .set ∧ c ≠ .add ∧ b = true
  | .assign => False
  | .done => True
  | .fatal => False

structure Inv (m : Nat) (s : State) : Prop where
  rw : s.rw = some m
  ok : ∀ p ∈ s.threads, p.Ok m
  lock : ∃ w : Bool, s.mutexes[m]? = some ⟨s.threads.countP rd, w⟩ ∧ s.threads.countP wr = w.toNat ∧ (w = true → s.threads.countP rd = 0)

theorem mem_set_ok {m : Nat} {l : List PC} {i : Nat} {p : PC} (h : ∀ p ∈ l, p.Ok m) (hp : p.Ok m) : ∀ q ∈ l.set i p, q.Ok m := by
  intro q hq
  rcases List.mem_or_eq_of_mem_set hq with h1 | rfl
  · exact h q h1
  · exact hp

theorem countP_move {f : PC → Bool} {l : List PC} {i : Nat} {p q : PC} (h : l[i]? = some p) :
    (l.set i q).countP f + (f p).toNat = l.countP f + (f q).toNat := by
  induction l generalizing i with
  | nil => simp at h
  | cons a as ih =>
    cases i with
    | zero =>
      simp at h; subst h
      simp only [List.set_cons_zero, List.countP_cons]
      cases f a <;> cases f q <;> simp
    | succ i =>
      simp only [List.getElem?_cons_succ] at h
      have := ih h
      simp only [List.set_cons_succ, List.countP_cons]
      omega

theorem Inv.step {m : Nat} {s s' : State} (h : Inv m s) {i : Nat} (e : s.go i = some s') : Inv m s' := by
  obtain ⟨rw0, mx, th⟩ := s
  obtain ⟨hrw, hok, w, hl, hw, hx⟩ := h
  simp only at hrw hok hl hw hx
  subst hrw
  have hlt : m < mx.length := by
    rcases Nat.lt_or_ge m mx.length with h1 | h1
    · exact h1
    · rw [List.getElem?_eq_none h1] at hl; cases hl
  cases hi : th[i]? with
  | none => simp [State.go, hi] at e
  | some p =>
    have hp := hok p (List.mem_of_getElem? hi)
    have quiet : ∀ q, rd p = false → wr p = false → rd q = false → wr q = false → q.Ok m →
        Inv m ⟨some m, mx, th.set i q⟩ := by
      intro q a1 a2 a3 a4 a5
      have c1 := countP_move (f := rd) (q := q) hi
      have c2 := countP_move (f := wr) (q := q) hi
      rw [a1, a3] at c1; rw [a2, a4] at c2
      simp only [Bool.toNat_false, Nat.add_zero] at c1 c2
      exact ⟨rfl, mem_set_ok hok a5, w, by rw [c1]; exact hl, by rw [c2]; exact hw, by rw [c1]; exact hx⟩
    cases p with
    | done => simp [State.go, hi] at e
    | fatal => exact hp.elim
    | assign => exact hp.elim
    | start c =>
      cases c <;> simp only [State.go, hi, Option.some.injEq] at e <;> subst e
      all_goals first
        | exact absurd rfl hp
        | (refine quiet _ ?_ ?_ ?_ ?_ ?_ <;> simp [rd, wr, PC.Ok])
    | checked c =>
      simp only [State.go, hi, Option.some.injEq] at e
      subst e
      exact quiet _ rfl rfl rfl rfl ⟨hp.1, hp.2, rfl⟩
    | wait c k =>
      obtain ⟨h1, h2, rfl⟩ := hp
      simp only [State.go, hi, hl] at e
      cases hc : Mutex.lock c ⟨th.countP rd, w⟩ with
      | none => rw [hc] at e; cases e
      | some y =>
        rw [hc] at e
        simp only [Option.some.injEq] at e
        subst e
        have c1 := countP_move (f := rd) (q := .inside c true) hi
        have c2 := countP_move (f := wr) (q := .inside c true) hi
        refine ⟨rfl, mem_set_ok hok ⟨h1, h2, rfl⟩, y.writer, ?_⟩
        rw [show rd (.wait c k) = false from rfl, Bool.toNat_false, Nat.add_zero] at c1
        rw [show wr (.wait c k) = false from rfl, Bool.toNat_false, Nat.add_zero] at c2
        rw [List.getElem?_set_self hlt]
        by_cases hd : c = .data
        · subst hd
          cases w with
          | true => simp [Mutex.lock] at hc
          | false =>
            simp only [Mutex.lock, Bool.false_eq_true, if_false, if_true, Option.some.injEq] at hc
            subst hc
            simp only [rd, wr, Bool.toNat_true, Bool.toNat_false, Nat.add_zero] at c1 c2
            simp [c1, c2, hw]
        · have e1 : rd (.inside c true) = false := by cases c <;> first | rfl | exact absurd rfl hd
          have e2 : wr (.inside c true) = true := by cases c <;> first | rfl | exact absurd rfl hd
          cases w with
          | true => simp [Mutex.lock, hd] at hc
          | false =>
            simp only [Mutex.lock, hd, if_false, Bool.false_or, bne_iff_ne, ne_eq, ite_not] at hc
            split at hc
            · rename_i h0
              cases hc
              rw [e1] at c1; rw [e2] at c2
              simp only [Bool.toNat_true, Bool.toNat_false, Nat.add_zero] at c1 c2
              simp [c1, c2, hw, h0]
            · cases hc
    | inside c b =>
      obtain ⟨h1, h2, rfl⟩ := hp
      have c1 := countP_move (f := rd) (q := .done) hi
      have c2 := countP_move (f := wr) (q := .done) hi
      simp only [State.go, hi, hl] at e
      by_cases hd : c = .data
      · subst hd
        simp only [rd, wr, Bool.toNat_true, Bool.toNat_false, Nat.add_zero] at c1 c2
        have hpos : th.countP rd ≠ 0 := by omega
        simp only [Mutex.unlock, if_true, hpos, if_false, Option.some.injEq] at e
        subst e
        refine ⟨rfl, mem_set_ok hok trivial, w, ?_, ?_, ?_⟩
        · rw [List.getElem?_set_self hlt]
          simp only [Option.some.injEq, Mutex.mk.injEq, and_true]
          omega
        · rw [c2]; exact hw
        · intro hwt; exact absurd (hx hwt) hpos
      · have e1 : rd (.inside c true) = false := by cases c <;> first | rfl | exact absurd rfl hd
        have e2 : wr (.inside c true) = true := by cases c <;> first | rfl | exact absurd rfl hd
        rw [e1] at c1; rw [e2] at c2
        simp only [rd, wr, Bool.toNat_true, Bool.toNat_false, Nat.add_zero] at c1 c2
        cases w with
        | false => simp only [Bool.toNat_false] at hw; omega
        | true =>
          simp only [Mutex.unlock, hd, if_false, if_true, Option.some.injEq] at e
          subst e
          refine ⟨rfl, mem_set_ok hok trivial, false, ?_, ?_, by simp⟩
          · rw [List.getElem?_set_self hlt, c1]
          · simp only [Bool.toNat_true] at hw
            simp only [Bool.toNat_false]; omega

theorem Inv.run {m : Nat} {as : List Act} (hn : ∀ a ∈ as, a ≠ .call .set) {s s' : State} (h : Inv m s) (e : s.run as = some s') : Inv m s' := by
  induction as generalizing s with
  | nil => simp only [State.run, Option.some.injEq] at e; exact e ▸ h
  | cons a as ih =>
    rw [State.run] at e
    cases ha : s.act a with
    | none => rw [ha] at e; cases e
    | some s1 =>
      rw [ha] at e
      refine ih (fun b hb => hn b (by simp [hb])) ?_ e
      cases a with
      | go i => exact h.step ha
      | call c =>
        simp only [State.act, Option.some.injEq] at ha
        subst ha
        obtain ⟨hrw, hok, w, hl, hw, hx⟩ := h
        have hc : c ≠ .set := fun e => hn (.call c) (by simp) (by rw [e])
        refine ⟨hrw, ?_, w, ?_⟩
        · intro p hp
          simp only [List.mem_append, List.mem_singleton] at hp
          rcases hp with hp | rfl
          · exact hok p hp
          · exact hc
        · simp only [List.countP_append, List.countP_cons, List.countP_nil, rd, wr, Bool.false_eq_true, if_false, Nat.add_zero]
          exact ⟨hl, hw, hx⟩

/-- The state of a node for which some `SetTTL` has returned and no call is under way. -/
def State.Ready (s : State) : Prop :=
  (∃ m, s.rw = some m ∧ s.mutexes[m]? = some ⟨0, false⟩) ∧ ∀ p ∈ s.threads, p = .done

theorem State.Ready.inv {s : State} (h : s.Ready) : ∃ m, Inv m s := by
  obtain ⟨⟨m, h1, h2⟩, h3⟩ := h
  have c1 : s.threads.countP rd = 0 := List.countP_eq_zero.mpr fun p hp => by rw [h3 p hp]; simp [rd]
  have c2 : s.threads.countP wr = 0 := List.countP_eq_zero.mpr fun p hp => by rw [h3 p hp]; simp [wr]
  exact ⟨m, h1, fun p hp => by rw [h3 p hp]; trivial, false, by rw [c1]; exact h2, by simpa using c2, by simp⟩

theorem two_countP {f : PC → Bool} {l : List PC} {i j : Nat} {p q : PC} (hij : i ≠ j) (hi : l[i]? = some p) (hj : l[j]? = some q)
    (hp : f p = true) (hq : f q = true) (h : f .done = false) : 2 ≤ l.countP f := by
  have h1 := countP_move (f := f) (q := .done) hi
  have hj' : (l.set i .done)[j]? = some q := by rw [List.getElem?_set_ne hij]; exact hj
  have h2 := countP_move (f := f) (q := .done) hj'
  simp only [hp, hq, h, Bool.toNat_true, Bool.toNat_false] at h1 h2
  omega

theorem one_countP {f : PC → Bool} {l : List PC} {i : Nat} {p : PC} (hi : l[i]? = some p) (hp : f p = true) : 1 ≤ l.countP f :=
  List.countP_pos_iff.mpr ⟨p, List.mem_of_getElem? hi, hp⟩

/-- **C72** Once a `SetTTL` on an entry has returned, any number of goroutines may read it (`Data`, `Query`, `Get`), write it with `SetData`, set further
timers on it, and let them ring (`SetEmpty`), in any interleaving: the program is not aborted, and no two of them are at the value at the same time when one
of them writes. Missing for the full claim: overwriting with `Set` (`C72_set_fails`), and the first `SetTTL` itself (`C72_first_fails`, `C72_abort_fails`). -/
theorem C72_exclusive_partial {s s' : State} (h : s.Ready) {as : List Act} (hn : ∀ a ∈ as, a ≠ .call .set) (e : s.run as = some s') :
    ¬ s'.Conflict ∧ ¬ s'.Fatal := by
  obtain ⟨m, h⟩ := h.inv
  obtain ⟨hrw, hok, w, hl, hw, hx⟩ := h.run hn e
  refine ⟨?_, fun hf => hok _ hf⟩
  rintro ⟨i, j, c, b, c', b', hij, hi, hj, hwr⟩
  obtain ⟨h1, h2, rfl⟩ := hok _ (List.mem_of_getElem? hi)
  obtain ⟨h3, h4, rfl⟩ := hok _ (List.mem_of_getElem? hj)
  have hc1 : w.toNat ≤ 1 := by cases w <;> simp
  have key : ∀ c, c ≠ .data → wr (.inside c true) = true := by
    intro c hd; cases c <;> first | rfl | exact absurd rfl hd
  by_cases d1 : c = .data
  · by_cases d2 : c' = .data
    · subst d1 d2; simp [Call.writes] at hwr
    · subst d1
      have a1 := one_countP (f := rd) hi rfl
      have a2 := one_countP (f := wr) hj (key _ d2)
      cases w with
      | false => simp only [Bool.toNat_false] at hw; omega
      | true => have := hx rfl; omega
  · by_cases d2 : c' = .data
    · subst d2
      have a1 := one_countP (f := rd) hj rfl
      have a2 := one_countP (f := wr) hi (key _ d1)
      cases w with
      | false => simp only [Bool.toNat_false] at hw; omega
      | true => have := hx rfl; omega
    · have := two_countP hij hi hj (key _ d1) (key _ d2) rfl
      omega

/-- **C72** And there is no deadlock: as long as a call is under way, some goroutine can go on. -/
theorem C72_progress_partial {s s' : State} (h : s.Ready) {as : List Act} (hn : ∀ a ∈ as, a ≠ .call .set) (e : s.run as = some s')
    (hp : ∃ p ∈ s'.threads, p ≠ .done) : ∃ i s'', s'.go i = some s'' := by
  obtain ⟨m, h⟩ := h.inv
  obtain ⟨hrw, hok, w, hl, hw, hx⟩ := h.run hn e
  -- a goroutine inside can leave
  by_cases hin : ∃ c, PC.inside c true ∈ s'.threads
  · obtain ⟨c, hc⟩ := hin
    obtain ⟨i, hi⟩ := List.getElem?_of_mem hc
    refine ⟨i, ?_⟩
    simp only [State.go, hi, hrw, hl]
    cases Mutex.unlock c ⟨s'.threads.countP rd, w⟩ <;> simp
  · obtain ⟨p, hp, hd⟩ := hp
    obtain ⟨i, hi⟩ := List.getElem?_of_mem hp
    have hpo := hok p hp
    have r0 : s'.threads.countP rd = 0 := by
      refine List.countP_eq_zero.mpr fun q hq => ?_
      cases q with
      | inside c b => obtain ⟨_, _, rfl⟩ := hok _ hq; exact absurd ⟨c, hq⟩ hin
      | _ => simp [rd]
    have w0 : w = false := by
      cases w with
      | false => rfl
      | true =>
        simp only [Bool.toNat_true] at hw
        obtain ⟨q, hq, hq'⟩ := List.countP_pos_iff.mp (by rw [hw]; exact Nat.one_pos)
        cases q with
        | inside c b => obtain ⟨_, _, rfl⟩ := hok _ hq; exact absurd ⟨c, hq⟩ hin
        | _ => simp [wr] at hq'
    refine ⟨i, ?_⟩
    cases p with
    | done => exact absurd rfl hd
    | fatal => exact hpo.elim
    | assign => exact hpo.elim
    | start c => cases c <;> simp [State.go, hi, hrw]
    | checked c => simp [State.go, hi, hrw]
    | wait c k =>
      obtain ⟨_, _, rfl⟩ := hpo
      simp only [State.go, hi, hl, r0, w0]
      by_cases hc : c = .data <;> simp [Mutex.lock, hc]
    | inside c b => obtain ⟨_, _, rfl⟩ := hpo; exact absurd ⟨c, hp⟩ hin

/-- **C72** `Set` on a key that exists does not take the lock: it writes while a reader holds it. -/
theorem C72_set_fails : ∃ s as s', State.Ready s ∧ s.run as = some s' ∧ s'.Conflict ∧ ∀ a ∈ as, a ≠ .call .add :=
  ⟨⟨some 0, [⟨0, false⟩], []⟩, [.call .data, .call .set, .go 0, .go 0, .go 0, .go 1], ⟨some 0, [⟨1, false⟩], [.inside .data true, .inside .set false]⟩,
    ⟨⟨0, rfl, rfl⟩, by simp⟩, by decide +kernel, ⟨0, 1, .data, true, .set, false, by decide, rfl, rfl, rfl⟩, by decide⟩

/-- **C72** A reader that came before the first `SetTTL` reads without the lock, also while the timer clears the value. -/
theorem C72_first_fails : ∃ as s', State.new.run as = some s' ∧ s'.Conflict ∧ ∀ a ∈ as, a ≠ .call .set :=
  ⟨[.call .query, .go 0, .call .add, .go 1, .go 1, .call .setEmpty, .go 2, .go 2, .go 2],
    ⟨some 0, [⟨0, true⟩], [.inside .query false, .done, .inside .setEmpty true]⟩,
    by decide +kernel, ⟨0, 2, .query, false, .setEmpty, true, by decide, rfl, rfl, rfl⟩, by decide⟩

/-- **C72** When two goroutines set the first timer of an entry, both may make a lock; a reader that took one of them unlocks the other, which aborts the
program. -/
theorem C72_abort_fails : ∃ as s', State.new.run as = some s' ∧ s'.Fatal ∧ ∀ a ∈ as, a = .call .add ∨ a = .call .data ∨ ∃ i, a = .go i :=
  ⟨[.call .add, .call .add, .call .data, .go 0, .go 1, .go 0, .go 2, .go 2, .go 2, .go 1, .go 2],
    ⟨some 1, [⟨1, false⟩, ⟨0, false⟩], [.done, .done, .fatal]⟩, by decide +kernel, by simp [State.Fatal],
    by simp⟩

/-- One `SetTTL` alone makes the entry ready; afterwards a timer, a reader, a writer and another `SetTTL` overlap. -/
example : ∃ s s', State.new.run [.call .add, .go 0, .go 0] = some s ∧ s.Ready ∧
    s.run [.call .data, .call .setEmpty, .call .setData, .call .add, .go 1, .go 1, .go 2, .go 3, .go 1, .go 2, .go 3, .go 1, .go 2, .go 3, .go 4] = none ∧
    s.run [.call .data, .call .setEmpty, .call .add, .go 1, .go 1, .go 2, .go 2, .go 1, .go 3, .go 1, .go 2, .go 2] = some s' ∧
    s'.threads = [.done, .done, .done, .done] := by
  refine ⟨⟨some 0, [⟨0, false⟩], [.done]⟩, ⟨some 0, [⟨0, false⟩], [.done, .done, .done, .done]⟩, by decide +kernel, ⟨⟨0, rfl, rfl⟩, by simp⟩,
    by decide +kernel, by decide +kernel, rfl⟩

end NodeLock
end Verif

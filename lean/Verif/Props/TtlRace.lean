import Verif.Model.TtlRace
/-
C73: setting timers and closing from several goroutines.
-/
namespace Verif
namespace TtlRace

/-- No call is under way. -/
def State.Idle (s : State) : Prop := ∀ p ∈ s.threads, p = .done

/-- Some call has panicked. -/
def State.Panic (s : State) : Prop := PC.panic ∈ s.threads

/-- Goroutine `i` is in a call and will never get on. -/
def State.Stuck (s : State) (i : Nat) : Prop :=
  ∃ p, p ≠ .done ∧ ∀ as s', s.run as = some s' → s'.threads[i]? = some p

/-- Executions in which calls do not overlap; the goroutines of the TTL objects run freely. -/
inductive Serial : State → Prop
  | new : Serial .new
  | call {s : State} (h : Serial s) (hi : s.Idle) (c : Call) : Serial { s with threads := s.threads ++ [.start c] }
  | go {s s' : State} {i : Nat} (h : Serial s) (e : s.go i = some s') : Serial s'
  | exit {s s' : State} {τ : Nat} (h : Serial s) (e : s.exit τ = some s') : Serial s'

/-- All objects are closed, except for the one in `cur`, which is open. -/
structure Only (cur : Option Nat) (s : State) : Prop where
  closed : ∀ (τ : Nat) (o : Obj), s.objs[τ]? = some o → cur ≠ some τ → o.closed = true
  exited : ∀ (τ : Nat) (o : Obj), s.objs[τ]? = some o → o.exited = true → o.closed = true
  cur : ∀ τ, cur = some τ → s.ttls = some τ ∧ ∃ o : Obj, s.objs[τ]? = some o ∧ o.closed = false
  ttls : ∀ τ, s.ttls = some τ → τ < s.objs.length

/-- What holds while a goroutine is at `p` in a serial execution. -/
def At (s : State) : PC → Prop
  | .start _ | .done => (s.present = true → ∃ τ, Only (some τ) s) ∧ (s.present = false → Only none s)
  | .make => s.present = true ∧ Only none s
  | .load => s.present = true ∧ ∃ τ, Only (some τ) s
  | .send τ => s.present = true ∧ Only (some τ) s
  | .check | .stop => s.present = false ∧ ∃ τ, Only (some τ) s
  | .panic => False

def SerInv (s : State) : Prop :=
  (s.Idle ∧ At s .done) ∨ ∃ l p, s.threads = l ++ [p] ∧ p ≠ .done ∧ (∀ q ∈ l, q = .done) ∧ At s p

theorem Only.congr {cur : Option Nat} {s s' : State} (h : Only cur s) (h1 : s'.ttls = s.ttls) (h2 : s'.objs = s.objs) : Only cur s' := by
  obtain ⟨a, b, c, d⟩ := h
  exact ⟨by rw [h2]; exact a, by rw [h2]; exact b, by rw [h1, h2]; exact c, by rw [h1, h2]; exact d⟩

theorem At.congr {s s' : State} {p : PC} (h : At s p) (h0 : s'.present = s.present) (h1 : s'.ttls = s.ttls) (h2 : s'.objs = s.objs) : At s' p := by
  cases p <;> simp only [At, h0] at h ⊢
  · exact ⟨fun e => (h.1 e).imp fun _ x => x.congr h1 h2, fun e => (h.2 e).congr h1 h2⟩
  · exact ⟨h.1, h.2.congr h1 h2⟩
  · exact ⟨h.1, h.2.imp fun _ x => x.congr h1 h2⟩
  · exact ⟨h.1, h.2.congr h1 h2⟩
  · exact ⟨h.1, h.2.imp fun _ x => x.congr h1 h2⟩
  · exact ⟨h.1, h.2.imp fun _ x => x.congr h1 h2⟩
  · exact ⟨fun e => (h.1 e).imp fun _ x => x.congr h1 h2, fun e => (h.2 e).congr h1 h2⟩

/-- Changing an object without opening it or closing an open one. -/
theorem Only.set {cur : Option Nat} {s : State} (h : Only cur s) {τ : Nat} {o o' : Obj} (ho : s.objs[τ]? = some o) (h1 : o'.closed = o.closed)
    (h2 : o'.exited = true → o.closed = true) (th : List PC) : Only cur { s with objs := s.objs.set τ o', threads := th } := by
  obtain ⟨a, b, c, d⟩ := h
  have hlt : τ < s.objs.length := (List.getElem?_eq_some_iff.mp ho).1
  have look : ∀ σ x, (s.objs.set τ o')[σ]? = some x → (σ = τ ∧ x = o') ∨ (σ ≠ τ ∧ s.objs[σ]? = some x) := by
    intro σ x hx
    by_cases e : τ = σ
    · subst e; rw [List.getElem?_set_self hlt] at hx; simp at hx; exact .inl ⟨rfl, hx.symm⟩
    · rw [List.getElem?_set_ne e] at hx; exact .inr ⟨fun h => e h.symm, hx⟩
  refine ⟨?_, ?_, ?_, ?_⟩
  · intro σ x hx hc
    rcases look σ x hx with ⟨rfl, rfl⟩ | ⟨_, hx⟩
    · rw [h1]; exact a _ o ho hc
    · exact a σ x hx hc
  · intro σ x hx hc
    rcases look σ x hx with ⟨rfl, rfl⟩ | ⟨_, hx⟩
    · rw [h1]; exact h2 hc
    · exact b σ x hx hc
  · intro σ hσ
    obtain ⟨h3, x, h4, h5⟩ := c σ hσ
    refine ⟨h3, ?_⟩
    by_cases e : τ = σ
    · subst e
      rw [ho] at h4; cases h4
      exact ⟨o', List.getElem?_set_self hlt, by rw [h1]; exact h5⟩
    · exact ⟨x, by simp only [List.getElem?_set_ne e]; exact h4, h5⟩
  · intro σ hσ
    simpa using d σ hσ

theorem At.set {s : State} {p : PC} (h : At s p) {τ : Nat} {o o' : Obj} (ho : s.objs[τ]? = some o) (h1 : o'.closed = o.closed)
    (h2 : o'.exited = true → o.closed = true) (th : List PC) : At { s with objs := s.objs.set τ o', threads := th } p := by
  cases p <;> simp only [At] at h ⊢
  · exact ⟨fun e => (h.1 e).imp fun _ x => x.set ho h1 h2 th, fun e => (h.2 e).set ho h1 h2 th⟩
  · exact ⟨h.1, h.2.set ho h1 h2 th⟩
  · exact ⟨h.1, h.2.imp fun _ x => x.set ho h1 h2 th⟩
  · exact ⟨h.1, h.2.set ho h1 h2 th⟩
  · exact ⟨h.1, h.2.imp fun _ x => x.set ho h1 h2 th⟩
  · exact ⟨h.1, h.2.imp fun _ x => x.set ho h1 h2 th⟩
  · exact ⟨fun e => (h.1 e).imp fun _ x => x.set ho h1 h2 th, fun e => (h.2 e).set ho h1 h2 th⟩

/-- The goroutine in its call can take a step, which keeps the invariant. -/
theorem At.step {s : State} {p : PC} (h : At s p) {i : Nat} (hi : s.threads[i]? = some p) (hd : p ≠ .done) :
    ∃ s' q, s.go i = some s' ∧ s'.threads = s.threads.set i q ∧ At s' q := by
  cases p with
  | done => exact absurd rfl hd
  | panic => exact h.elim
  | start c =>
    cases c with
    | setTTL =>
      cases hp : s.present with
      | true =>
        obtain ⟨τ, ho⟩ := h.1 hp
        exact ⟨{ s with threads := s.threads.set i .load }, .load, by simp only [State.go, hi]; exact if_pos hp, rfl, hp, τ, ho.congr rfl rfl⟩
      | false =>
        exact ⟨{ s with present := true, threads := s.threads.set i .make }, .make, by simp only [State.go, hi]; exact if_neg (by simp [hp]), rfl, rfl, (h.2 hp).congr rfl rfl⟩
    | close =>
      cases hp : s.present with
      | true =>
        obtain ⟨τ, ho⟩ := h.1 hp
        exact ⟨{ s with present := false, threads := s.threads.set i .check }, .check, by simp only [State.go, hi]; exact if_pos hp, rfl, rfl, τ, ho.congr rfl rfl⟩
      | false =>
        exact ⟨{ s with threads := s.threads.set i .done }, .done, by simp only [State.go, hi]; exact if_neg (by simp [hp]), rfl,
          fun e => absurd (hp.symm.trans e) (by simp), fun _ => (h.2 hp).congr rfl rfl⟩
  | make =>
    obtain ⟨hp, a, b, c, d⟩ := h
    refine ⟨{ s with ttls := some s.objs.length, objs := s.objs ++ [⟨false, false, 0⟩], threads := s.threads.set i .load }, .load,
      by simp only [State.go, hi], rfl, hp, s.objs.length, ?_, ?_, ?_, ?_⟩
    · intro τ o ho hc
      simp only at ho
      rw [List.getElem?_append] at ho
      split at ho
      · exact a τ o ho (by simp)
      · rename_i h1
        rcases Nat.lt_or_ge 0 (τ - s.objs.length) with h2 | h2
        · rw [List.getElem?_eq_none (by simp; omega)] at ho; cases ho
        · exact absurd (by simp; omega) hc
    · intro τ o ho hc
      simp only at ho
      rw [List.getElem?_append] at ho
      split at ho
      · exact b τ o ho hc
      · have := List.mem_of_getElem? ho
        simp at this; subst this; cases hc
    · intro τ hτ
      simp only [Option.some.injEq] at hτ; subst hτ
      exact ⟨rfl, ⟨false, false, 0⟩, by simp, rfl⟩
    · intro τ hτ
      simp only [Option.some.injEq] at hτ; subst hτ
      simp
  | load =>
    obtain ⟨hp, τ, ho⟩ := h
    exact ⟨{ s with threads := s.threads.set i (.send τ) }, .send τ, by simp only [State.go, hi]; rw [(ho.cur τ rfl).1], rfl, hp, ho.congr rfl rfl⟩
  | send τ =>
    obtain ⟨hp, ho⟩ := h
    obtain ⟨h1, o, h2, h3⟩ := ho.cur τ rfl
    have hx : o.exited = false := by
      cases hx : o.exited with
      | false => rfl
      | true => rw [ho.exited τ o h2 hx] at h3; cases h3
    refine ⟨{ s with objs := s.objs.set τ { o with accepted := o.accepted + 1 }, threads := s.threads.set i .done }, .done,
      by simp only [State.go, hi, h2]; exact if_neg (by simp [hx]), rfl, fun _ => ⟨τ, ?_⟩,
      fun e => absurd (hp.symm.trans e) (by simp)⟩
    exact ho.set (o' := { o with accepted := o.accepted + 1 }) h2 rfl (by simp [hx]) _
  | check =>
    obtain ⟨hp, τ, ho⟩ := h
    exact ⟨{ s with threads := s.threads.set i .stop }, .stop, by simp only [State.go, hi]; rw [(ho.cur τ rfl).1], rfl, hp, τ, ho.congr rfl rfl⟩
  | stop =>
    obtain ⟨hp, τ, ho⟩ := h
    obtain ⟨h1, o, h2, h3⟩ := ho.cur τ rfl
    have hlt : τ < s.objs.length := (List.getElem?_eq_some_iff.mp h2).1
    have look : ∀ o' σ x, (s.objs.set τ o')[σ]? = some x → (σ = τ ∧ x = o') ∨ (σ ≠ τ ∧ s.objs[σ]? = some x) := by
      intro o' σ x hx
      by_cases e : τ = σ
      · subst e; rw [List.getElem?_set_self hlt] at hx; simp at hx; exact .inl ⟨rfl, hx.symm⟩
      · rw [List.getElem?_set_ne e] at hx; exact .inr ⟨fun h => e h.symm, hx⟩
    refine ⟨{ s with objs := s.objs.set τ { o with closed := true }, threads := s.threads.set i .done }, .done,
      by simp only [State.go, hi]; rw [h1]; simp only [h2], rfl, fun e => absurd (hp.symm.trans e) (by simp), fun _ => ⟨?_, ?_, by simp, ?_⟩⟩
    · intro σ x hx _
      rcases look _ σ x hx with ⟨rfl, rfl⟩ | ⟨hne, hx⟩
      · rfl
      · exact ho.closed σ x hx (by simpa using fun e => hne e.symm)
    · intro σ x hx hc
      rcases look _ σ x hx with ⟨rfl, rfl⟩ | ⟨hne, hx⟩
      · rfl
      · exact ho.exited σ x hx hc
    · intro σ hσ
      simpa using ho.ttls σ hσ

theorem last_get {l : List PC} {p q : PC} {i : Nat} (h : (l ++ [p])[i]? = some q) (hl : ∀ q ∈ l, q = .done) (hq : q ≠ .done) :
    i = l.length ∧ q = p := by
  rw [List.getElem?_append] at h
  split at h
  · exact absurd (hl q (List.mem_of_getElem? h)) hq
  · rename_i h1
    rcases Nat.lt_or_ge 0 (i - l.length) with h2 | h2
    · rw [List.getElem?_eq_none (by simp; omega)] at h; cases h
    · have e : i = l.length := by omega
      subst e
      simp at h
      exact ⟨rfl, h.symm⟩

theorem go_done {s s' : State} {i : Nat} (e : s.go i = some s') : ∃ p, s.threads[i]? = some p ∧ p ≠ .done := by
  cases h : s.threads[i]? with
  | none => simp [State.go, h] at e
  | some p => exact ⟨p, rfl, by rintro rfl; simp [State.go, h] at e⟩

theorem Serial.inv {s : State} (h : Serial s) : SerInv s := by
  induction h with
  | new =>
    refine .inl ⟨by simp [State.Idle, State.new], by simp [State.new], fun _ => ⟨?_, ?_, ?_, ?_⟩⟩ <;> simp [State.new]
  | @call s h hi c ih =>
    rcases ih with ⟨_, ih⟩ | ⟨l, p, e1, e2, e3, e4⟩
    · exact .inr ⟨s.threads, .start c, rfl, by simp, hi, ih.congr rfl rfl rfl⟩
    · exact absurd (hi p (by rw [e1]; simp)) e2
  | @go s s' i h e ih =>
    obtain ⟨p, hp, hd⟩ := go_done e
    rcases ih with ⟨hi, _⟩ | ⟨l, p', e1, e2, e3, e4⟩
    · exact absurd (hi p (List.mem_of_getElem? hp)) hd
    · have h1 := hp
      rw [e1] at h1
      obtain ⟨rfl, rfl⟩ := last_get h1 e3 hd
      obtain ⟨s1, q, h2, h3, h4⟩ := e4.step hp hd
      rw [e] at h2; cases h2
      have ht : s'.threads = l ++ [q] := by
        rw [h3, e1]; simp
      by_cases hq : q = .done
      · subst hq
        refine .inl ⟨?_, h4⟩
        intro x hx
        rw [ht] at hx
        simp at hx
        rcases hx with hx | hx
        · exact e3 x hx
        · exact hx
      · exact .inr ⟨l, q, ht, hq, e3, h4⟩
  | @exit s s' τ h e ih =>
    rw [State.exit] at e
    cases ho : s.objs[τ]? with
    | none => rw [ho] at e; cases e
    | some o =>
      rw [ho] at e
      simp only at e
      split at e
      · rename_i hc
        simp only [Bool.and_eq_true] at hc
        cases e
        rcases ih with ⟨h1, h2⟩ | ⟨l, p, h1, h2, h3, h4⟩
        · exact .inl ⟨h1, h2.set (o' := { o with exited := true }) ho rfl (fun _ => hc.1) _⟩
        · exact .inr ⟨l, p, h1, h2, h3, h4.set (o' := { o with exited := true }) ho rfl (fun _ => hc.1) _⟩
      · cases e

/-- **C73** When calls of `SetTTL` and `Close` do not overlap: no call panics, a call that is under way can always go on, and between the calls every TTL
object is closed but for the one in use, if there is one - after a `Close` none is left. Missing for the full claim: overlapping calls
(`C73_panic_fails`, `C73_block_fails`, `C73_leak_fails`). -/
theorem C73_serial_partial {s : State} (h : Serial s) :
    ¬ s.Panic ∧ (∀ (i : Nat) (p : PC), s.threads[i]? = some p → p ≠ .done → ∃ s', s.go i = some s') ∧
    (s.Idle → ∀ (τ : Nat) (o : Obj), s.objs[τ]? = some o → o.closed = false → s.present = true ∧ s.ttls = some τ) := by
  rcases h.inv with ⟨hi, ha⟩ | ⟨l, p, e1, e2, e3, e4⟩
  · refine ⟨fun hp => PC.noConfusion (hi _ hp), fun i p hp hd => absurd (hi p (List.mem_of_getElem? hp)) hd, fun _ τ o ho hc => ?_⟩
    cases hp : s.present with
    | false => exact absurd ((ha.2 hp).closed τ o ho (by simp)) (by simp [hc])
    | true =>
      obtain ⟨σ, h1⟩ := ha.1 hp
      by_cases e : σ = τ
      · subst e; exact ⟨rfl, (h1.cur _ rfl).1⟩
      · exact absurd (h1.closed τ o ho (by simpa using e)) (by simp [hc])
  · refine ⟨?_, ?_, fun hi => absurd (hi p (by rw [e1]; simp)) e2⟩
    · intro hp
      rw [State.Panic, e1] at hp
      simp only [List.mem_append, List.mem_singleton] at hp
      rcases hp with hp | rfl
      · cases e3 _ hp
      · exact e4
    · intro i q hq hd
      have h1 := hq
      rw [e1] at h1
      obtain ⟨rfl, rfl⟩ := last_get h1 e3 hd
      obtain ⟨s', _, h2, _⟩ := e4.step hq hd
      exact ⟨s', h2⟩

/-- **C73** After `Close` alone: not present, so nothing is left open. -/
theorem C73_close_partial {s : State} (h : Serial s) (hi : s.Idle) (hp : s.present = false) : ∀ o ∈ s.objs, o.closed = true := by
  intro o ho
  obtain ⟨τ, hτ⟩ := List.getElem?_of_mem ho
  cases hc : o.closed with
  | true => rfl
  | false => exact absurd ((C73_serial_partial h).2.2 hi τ o hτ hc).1 (by simp [hp])

/-- How many steps of its own a call has left at most. -/
def PC.left : PC → Nat
  | .start _ => 4
  | .make | .check => 3
  | .load | .stop => 2
  | .send _ => 1
  | .done | .panic => 0

/-- **C73** A call takes at most four steps of its own; nobody else moves it. -/
theorem C73_steps {s s' : State} {i : Nat} (e : s.go i = some s') :
    (∃ p q, s.threads[i]? = some p ∧ s'.threads = s.threads.set i q ∧ q.left < p.left) := by
  obtain ⟨p, hp, hd⟩ := go_done e
  cases p with
  | done => exact absurd rfl hd
  | panic => simp [State.go, hp] at e
  | start c =>
    cases c <;> simp only [State.go, hp] at e <;> split at e <;> cases e <;> exact ⟨_, _, hp, rfl, by decide⟩
  | make => simp only [State.go, hp, Option.some.injEq] at e; subst e; exact ⟨_, _, hp, rfl, by decide⟩
  | load => simp only [State.go, hp] at e; split at e <;> cases e <;> exact ⟨_, _, hp, rfl, by simp [PC.left]⟩
  | check => simp only [State.go, hp] at e; split at e <;> cases e <;> exact ⟨_, _, hp, rfl, by decide⟩
  | send τ =>
    simp only [State.go, hp] at e
    split at e
    · cases e
    · split at e
      · cases e
      · cases e; exact ⟨_, _, hp, rfl, by simp [PC.left]⟩
  | stop =>
    simp only [State.go, hp] at e
    split at e
    · cases e; exact ⟨_, _, hp, rfl, by decide⟩
    · split at e
      · cases e
      · cases e; exact ⟨_, _, hp, rfl, by decide⟩

/-- A trie on which some `SetTTL` has returned, with no call under way. -/
def State.Armed (s : State) (τ : Nat) : Prop :=
  s.Idle ∧ s.present = true ∧ s.ttls = some τ ∧ ∃ o, s.objs[τ]? = some o ∧ o.closed = false ∧ o.exited = false

def fin : PC → Bool
  | .done => true
  | _ => false

/-- **C73** Once a `SetTTL` has returned, any number of further ones may overlap as long as nobody calls `Close`: none panics, each can always go on, and
they all use the same TTL object, which accepts one job per call. -/
theorem C73_many_partial {s : State} {τ : Nat} (h : s.Armed τ) {as : List Act} (hn : ∀ a ∈ as, a ≠ .call .close) {s' : State} (e : s.run as = some s') :
    ¬ s'.Panic ∧ (∀ (i : Nat) (p : PC), s'.threads[i]? = some p → p ≠ .done → ∃ s'', s'.go i = some s'') ∧
    s'.present = true ∧ s'.ttls = some τ ∧ s'.objs.length = s.objs.length ∧
    ∃ o o', s.objs[τ]? = some o ∧ s'.objs[τ]? = some o' ∧ o'.closed = false ∧ o'.exited = false ∧
      o'.accepted + s.threads.countP fin = o.accepted + s'.threads.countP fin := by
  obtain ⟨hidle, hpr, htt, o, ho, hc, hx⟩ := h
  let I : State → Prop := fun s' => s'.present = true ∧ s'.ttls = some τ ∧ s'.objs.length = s.objs.length ∧
    (∀ p ∈ s'.threads, p = .done ∨ p = .start .setTTL ∨ p = .load ∨ p = .send τ) ∧
    ∃ o', s'.objs[τ]? = some o' ∧ o'.closed = false ∧ o'.exited = false ∧
      o'.accepted + s.threads.countP fin = o.accepted + s'.threads.countP fin
  have inv : ∀ (as : List Act), (∀ a ∈ as, a ≠ .call .close) → ∀ s1, I s1 → ∀ s2, s1.run as = some s2 → I s2 := by
    intro as
    induction as with
    | nil => intro _ s1 h1 s2 e; simp only [State.run, Option.some.injEq] at e; exact e ▸ h1
    | cons a as ih =>
      intro hn s1 h1 s2 e
      rw [State.run] at e
      cases ha : s1.act a with
      | none => rw [ha] at e; cases e
      | some s3 =>
        rw [ha] at e
        refine ih (fun b hb => hn b (by simp [hb])) s3 ?_ s2 e
        obtain ⟨i1, i2, i3, i4, o', i5, i6, i7, i8⟩ := h1
        have hlt : τ < s1.objs.length := (List.getElem?_eq_some_iff.mp i5).1
        cases a with
        | call c =>
          simp only [State.act, Option.some.injEq] at ha
          subst ha
          cases c with
          | close => exact absurd rfl (hn _ (by simp))
          | setTTL =>
            refine ⟨i1, i2, i3, ?_, o', i5, i6, i7, ?_⟩
            · intro p hp
              simp only [List.mem_append, List.mem_singleton] at hp
              rcases hp with hp | rfl
              · exact i4 p hp
              · exact .inr (.inl rfl)
            · simpa [List.countP_append, fin] using i8
        | exit σ =>
          rw [State.act, State.exit] at ha
          cases hσ : s1.objs[σ]? with
          | none => rw [hσ] at ha; cases ha
          | some x =>
            rw [hσ] at ha
            simp only at ha
            split at ha
            · rename_i hcx
              cases ha
              have hne : σ ≠ τ := by
                rintro rfl
                rw [i5] at hσ; cases hσ
                simp [i6] at hcx
              exact ⟨i1, i2, by simpa using i3, i4, o', by simp only [List.getElem?_set_ne hne]; exact i5, i6, i7, i8⟩
            · cases ha
        | go i =>
          obtain ⟨p, hp, hd⟩ := go_done ha
          have hcount : ∀ q, (s1.threads.set i q).countP fin = s1.threads.countP fin + (fin q).toNat := by
            intro q
            obtain ⟨hlt, hget⟩ := List.getElem?_eq_some_iff.mp hp
            have hf : fin p = false := by cases p <;> first | rfl | exact absurd rfl hd
            rw [List.countP_set hlt, hget, hf]
            cases fin q <;> simp
          have hmem : ∀ q, (q = .done ∨ q = .start .setTTL ∨ q = .load ∨ q = .send τ) →
              ∀ p ∈ s1.threads.set i q, p = .done ∨ p = .start .setTTL ∨ p = .load ∨ p = .send τ := by
            intro q hq p hp
            rcases List.mem_or_eq_of_mem_set hp with h1 | rfl
            · exact i4 p h1
            · exact hq
          rw [State.act] at ha
          rcases i4 p (List.mem_of_getElem? hp) with rfl | rfl | rfl | rfl
          · exact absurd rfl hd
          · simp only [State.go, hp, i1, if_true, Option.some.injEq] at ha
            subst ha
            exact ⟨rfl, i2, i3, hmem _ (by simp), o', i5, i6, i7, by rw [hcount]; simpa [fin] using i8⟩
          · simp only [State.go, hp, i2, Option.some.injEq] at ha
            subst ha
            exact ⟨i1, rfl, i3, hmem _ (by simp), o', i5, i6, i7, by rw [hcount]; simpa [fin] using i8⟩
          · simp only [State.go, hp, i5, i7, Bool.false_eq_true, if_false, Option.some.injEq] at ha
            subst ha
            refine ⟨i1, i2, by simpa using i3, hmem _ (by simp), ⟨o'.closed, false, o'.accepted + 1⟩, ?_, i6, rfl, ?_⟩
            · simp [List.getElem?_set_self hlt]
            · rw [hcount]; simp only [fin, Bool.toNat_true]; omega
  obtain ⟨i1, i2, i3, i4, o', i5, i6, i7, i8⟩ := inv as hn s
    ⟨hpr, htt, rfl, fun p hp => .inl (hidle p hp), o, ho, hc, hx, rfl⟩ s' e
  refine ⟨?_, ?_, i1, i2, i3, o, o', ho, i5, i6, i7, i8⟩
  · intro hp
    rcases i4 _ hp with h | h | h | h <;> cases h
  · intro i p hp hd
    rcases i4 p (List.mem_of_getElem? hp) with rfl | rfl | rfl | rfl
    · exact absurd rfl hd
    · simp [State.go, hp, i1]
    · simp [State.go, hp, i2]
    · simp [State.go, hp, i5, i7]

/-- A goroutine that sends to an object whose `run` has returned waits for ever. -/
theorem stuck {s : State} {i τ : Nat} {o : Obj} (hi : s.threads[i]? = some (.send τ)) (ho : s.objs[τ]? = some o) (hx : o.exited = true) :
    s.Stuck i := by
  refine ⟨.send τ, by simp, ?_⟩
  intro as
  induction as generalizing s o with
  | nil => intro s' e; simp only [State.run, Option.some.injEq] at e; exact e ▸ hi
  | cons a as ih =>
    intro s' e
    rw [State.run] at e
    cases ha : s.act a with
    | none => rw [ha] at e; cases e
    | some s1 =>
      rw [ha] at e
      have key : s1.threads[i]? = some (.send τ) ∧ ∃ o1, s1.objs[τ]? = some o1 ∧ o1.exited = true := by
        have hset : ∀ σ (x x' : Obj), s.objs[σ]? = some x → (x.exited = true → x'.exited = true) →
            ∃ o1, (s.objs.set σ x')[τ]? = some o1 ∧ o1.exited = true := by
          intro σ x x' h1 h2
          have hlt : σ < s.objs.length := (List.getElem?_eq_some_iff.mp h1).1
          by_cases e : σ = τ
          · subst e
            rw [ho] at h1; cases h1
            exact ⟨x', List.getElem?_set_self hlt, h2 hx⟩
          · exact ⟨o, by rw [List.getElem?_set_ne e]; exact ho, hx⟩
        cases a with
        | call c =>
          simp only [State.act, Option.some.injEq] at ha
          subst ha
          exact ⟨by simp only [List.getElem?_append, (List.getElem?_eq_some_iff.mp hi).1, if_true]; exact hi, o, ho, hx⟩
        | exit σ =>
          rw [State.act, State.exit] at ha
          cases hσ : s.objs[σ]? with
          | none => rw [hσ] at ha; cases ha
          | some x =>
            rw [hσ] at ha
            simp only at ha
            split at ha
            · cases ha; exact ⟨hi, hset σ x _ hσ (fun _ => rfl)⟩
            · cases ha
        | go j =>
          rw [State.act] at ha
          have hij : j ≠ i := by
            rintro rfl
            simp [State.go, hi, ho, hx] at ha
          obtain ⟨p, q, hp, hth, -⟩ := C73_steps ha
          refine ⟨by rw [hth, List.getElem?_set_ne hij]; exact hi, ?_⟩
          cases p with
          | done => simp [State.go, hp] at ha
          | panic => simp [State.go, hp] at ha
          | start c =>
            cases c <;> simp only [State.go, hp] at ha <;> split at ha <;> cases ha <;> exact ⟨o, ho, hx⟩
          | make =>
            simp only [State.go, hp, Option.some.injEq] at ha; subst ha
            exact ⟨o, by simp only [List.getElem?_append, (List.getElem?_eq_some_iff.mp ho).1, if_true]; exact ho, hx⟩
          | load => simp only [State.go, hp] at ha; split at ha <;> cases ha <;> exact ⟨o, ho, hx⟩
          | check => simp only [State.go, hp] at ha; split at ha <;> cases ha <;> exact ⟨o, ho, hx⟩
          | send σ =>
            simp only [State.go, hp] at ha
            split at ha
            · cases ha
            · rename_i x hσ
              split at ha
              · cases ha
              · cases ha; exact hset σ x _ hσ (fun h => h)
          | stop =>
            simp only [State.go, hp] at ha
            split at ha
            · cases ha; exact ⟨o, ho, hx⟩
            · split at ha
              · cases ha
              · rename_i x hσ
                cases ha; exact hset _ x _ hσ (fun h => h)
      obtain ⟨h1, o1, h2, h3⟩ := key
      exact ih h1 h2 h3 s' e

/-- **C73** Two overlapping calls of `SetTTL` on a fresh trie: the second finds `ttlpresent` set but `ttls` still nil, and panics. -/
theorem C73_panic_fails : ∃ as s', State.new.run as = some s' ∧ s'.Panic ∧ ∀ a ∈ as, a ≠ .call .close :=
  ⟨[.call .setTTL, .call .setTTL, .go 0, .go 1, .go 1], ⟨true, none, [], [.make, .panic]⟩, by decide +kernel, by simp [State.Panic], by decide⟩

/-- **C73** A `Close` that comes while a `SetTTL` is about to hand over its job leaves it waiting for ever. -/
theorem C73_block_fails : ∃ (s : State) (as : List Act) (s' : State), s.Armed 0 ∧ s.run as = some s' ∧ s'.Stuck 1 ∧ s'.present = false :=
  ⟨⟨true, some 0, [⟨false, false, 1⟩], [.done]⟩, [.call .setTTL, .go 1, .go 1, .call .close, .go 2, .go 2, .go 2, .exit 0],
    ⟨false, some 0, [⟨true, true, 1⟩], [.done, .send 0, .done]⟩,
    ⟨by simp [State.Idle], rfl, rfl, _, rfl, rfl, rfl⟩, by decide +kernel, stuck rfl rfl rfl, rfl⟩

/-- **C73** Also without any call overlapping `Close`: of two overlapping calls of `SetTTL` after a `Close`, one may hand its job to the closed object. -/
theorem C73_reopen_fails : ∃ (s : State) (as : List Act) (s' : State), Serial s ∧ s.Idle ∧ s.run as = some s' ∧ s'.Stuck 3 ∧ ∀ a ∈ as, a ≠ .call .close := by
  refine ⟨⟨false, some 0, [⟨true, true, 1⟩], [.done, .done]⟩, [.call .setTTL, .call .setTTL, .go 2, .go 3, .go 3, .go 2, .go 2, .go 2],
    ⟨true, some 1, [⟨true, true, 1⟩, ⟨false, false, 1⟩], [.done, .done, .done, .send 0]⟩, ?_, by simp [State.Idle], by decide +kernel,
    stuck rfl rfl rfl, by decide⟩
  have h1 : Serial ⟨true, some 0, [⟨false, false, 1⟩], [.done]⟩ := by
    have a := Serial.new.call (by simp [State.Idle, State.new]) .setTTL
    have b := a.go (i := 0) (s' := ⟨true, none, [], [.make]⟩) rfl
    have c := b.go (i := 0) (s' := ⟨true, some 0, [⟨false, false, 0⟩], [.load]⟩) rfl
    have d := c.go (i := 0) (s' := ⟨true, some 0, [⟨false, false, 0⟩], [.send 0]⟩) rfl
    exact d.go (i := 0) rfl
  have a := h1.call (by simp [State.Idle]) .close
  have b := a.go (i := 1) (s' := ⟨false, some 0, [⟨false, false, 1⟩], [.done, .check]⟩) rfl
  have c := b.go (i := 1) (s' := ⟨false, some 0, [⟨false, false, 1⟩], [.done, .stop]⟩) rfl
  have d := c.go (i := 1) (s' := ⟨false, some 0, [⟨true, false, 1⟩], [.done, .done]⟩) rfl
  exact d.exit (τ := 0) rfl

/-- **C73** A `Close` that comes between the two writes of `SetTTL` closes nothing, and neither does a later one when all is quiet: the goroutine and the
timer stay. -/
theorem C73_leak_fails : ∃ as s1 s2, State.new.run as = some s1 ∧ s1.Idle ∧ s1.run [.call .close, .go 2] = some s2 ∧ s2.Idle ∧
    s2.present = false ∧ s2.objs = [⟨false, false, 1⟩] :=
  ⟨[.call .setTTL, .go 0, .call .close, .go 1, .go 1, .go 0, .go 0, .go 0],
    ⟨false, some 0, [⟨false, false, 1⟩], [.done, .done]⟩, ⟨false, some 0, [⟨false, false, 1⟩], [.done, .done, .done]⟩,
    by decide +kernel, by simp [State.Idle], by decide +kernel, by simp [State.Idle], rfl, rfl⟩

/-- Three overlapping calls of `SetTTL` on an armed trie. -/
example : ∃ s s' : State, s.Armed 0 ∧ s.run [.call .setTTL, .call .setTTL, .call .setTTL, .go 1, .go 2, .go 3, .go 3, .go 2, .go 1, .go 2, .go 1, .go 3] = some s' ∧
    s'.objs = [⟨false, false, 4⟩] :=
  ⟨⟨true, some 0, [⟨false, false, 1⟩], [.done]⟩, ⟨true, some 0, [⟨false, false, 4⟩], [.done, .done, .done, .done]⟩,
    ⟨by simp [State.Idle], rfl, rfl, _, rfl, rfl, rfl⟩, by decide +kernel, rfl⟩

end TtlRace
end Verif

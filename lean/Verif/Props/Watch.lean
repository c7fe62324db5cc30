import Verif.Model.Watch
import Mathlib.Data.List.Count
/-
C54: watching a file, and closing the store.
-/
namespace Verif.Watch

/-- Goroutines in the loop. -/
def Runner.active : Runner → Bool
  | .check | .select => true
  | _ => false

def Act.isClose : Act → Bool
  | .close => true
  | _ => false

/-- Loads of provider `p`. -/
def Act.loads (p : Nat) : Act → Bool
  | .load q _ => q = p
  | _ => false

theorem Sys.run_append (s : Sys) (a b : List Act) : s.run (a ++ b) = (s.run a).bind (fun s' => s'.run b) := by
  induction a generalizing s with
  | nil => rfl
  | cons x a ih =>
    simp only [List.cons_append, Sys.run]
    cases s.step x with
    | none => rfl
    | some s' => exact ih s'

theorem countP_set {l : List Runner} {i : Nat} {r r' : Runner} (h : l[i]? = some r) (f : Runner → Bool) :
    (l.set i r').countP f + (if f r then 1 else 0) = l.countP f + (if f r' then 1 else 0) := by
  induction l generalizing i with
  | nil => simp at h
  | cons a l ih =>
    cases i with
    | zero =>
      simp at h; subst h
      simp only [List.set_cons_zero, List.countP_cons]; omega
    | succ i =>
      simp at h
      have := ih h
      simp only [List.set_cons_succ, List.countP_cons]; omega

/-- What a step does to one provider. -/
inductive PStep (p : Nat) (q : Prov) : Act → Prov → Prop
  | same (a) : Act.loads p a = false → PStep p q a q
  | spawn (b) : PStep p q (.load p b) q.spawn
  | start (i q') : q.start i = some q' → PStep p q (.start p i) q'
  | check (i q') : q.check i = some q' → PStep p q (.check p i) q'
  | event (i e q') : q.event i e = some q' → PStep p q (.event p i e) q'
  | close : PStep p q .close q.close

theorem upd_cases {s s' : Sys} {p' : Nat} {f : Prov → Option Prov} (h : s.upd p' f = some s') (p : Nat) :
    s'.closers = s.closers ∧ s'.provs.length = s.provs.length ∧
    ((p' ≠ p ∧ s'.provs[p]? = s.provs[p]?) ∨ (p' = p ∧ ∃ q q', s.provs[p]? = some q ∧ f q = some q' ∧ s'.provs[p]? = some q')) := by
  simp only [Sys.upd] at h
  cases hq : s.provs[p']? with
  | none => simp [hq] at h
  | some q =>
    rw [hq] at h
    simp only [Option.map_eq_some_iff] at h
    obtain ⟨q', hf, rfl⟩ := h
    refine ⟨rfl, by simp, ?_⟩
    by_cases e : p' = p
    · subst e
      have := (List.getElem?_eq_some_iff.mp hq).1
      exact .inr ⟨rfl, q, q', hq, hf, by simp [this]⟩
    · exact .inl ⟨e, by simp [e]⟩

theorem step_prov {s s' : Sys} {a : Act} (h : s.step a = some s') {p : Nat} {q : Prov} (hq : s.provs[p]? = some q) :
    ∃ q', s'.provs[p]? = some q' ∧ PStep p q a q' ∧ (a = .close → p ∈ s.closers → q' = q.close) ∧ (a = .close → p ∉ s.closers → q' = q) := by
  have fin : ∀ {p' f} (_ : s.upd p' f = some s') (_ : a ≠ .close) (_ : Act.loads p a = true → p' = p)
      (_ : p' = p → ∀ q', f q = some q' → PStep p q a q'),
      ∃ q', s'.provs[p]? = some q' ∧ PStep p q a q' ∧ (a = .close → p ∈ s.closers → q' = q.close) ∧ (a = .close → p ∉ s.closers → q' = q) := by
    intro p' f hu hc hl hs
    obtain ⟨-, -, ⟨e, h1⟩ | ⟨e, q1, q', h1, h2, h3⟩⟩ := upd_cases hu p
    · refine ⟨q, h1.trans hq, .same _ ?_, fun h => absurd h hc, fun h => absurd h hc⟩
      cases hl' : Act.loads p a with
      | false => rfl
      | true => exact absurd (hl hl') e
    · rw [hq] at h1; cases h1
      exact ⟨q', h3, hs e q' h2, fun h => absurd h hc, fun h => absurd h hc⟩
  cases a with
  | load p' b =>
    simp only [Sys.step, Option.map_eq_some_iff] at h
    obtain ⟨s1, h1, h2⟩ := h
    have hp : s'.provs = s1.provs := by subst h2; split <;> rfl
    obtain ⟨-, -, ⟨e, h1⟩ | ⟨e, q1, q', h1, h2, h3⟩⟩ := upd_cases h1 p
    · exact ⟨q, by rw [hp, h1, hq], .same _ (by simp [Act.loads, e]), by simp, by simp⟩
    · rw [hq] at h1; cases h1; cases h2
      subst e
      exact ⟨_, by rw [hp, h3], .spawn b, by simp, by simp⟩
  | start p' i => exact fin h (by simp) (by simp [Act.loads]) (by rintro rfl q' h; exact .start i q' h)
  | check p' i => exact fin h (by simp) (by simp [Act.loads]) (by rintro rfl q' h; exact .check i q' h)
  | event p' i e => exact fin h (by simp) (by simp [Act.loads]) (by rintro rfl q' h; exact .event i e q' h)
  | close =>
    simp only [Sys.step, Option.some.injEq] at h
    subst h
    by_cases hc : p ∈ s.closers
    · exact ⟨q.close, by simp [hq, hc], .close, fun _ _ => rfl, fun _ h => absurd hc h⟩
    · exact ⟨q, by simp [hq, hc], .same _ rfl, fun _ h => absurd h hc, fun _ _ => rfl⟩

theorem run_prov (I : Prov → Prop) (ok : Act → Bool) {p : Nat} (hstep : ∀ q a q', ok a = true → I q → PStep p q a q' → I q') :
    ∀ (l : List Act) (_ : ∀ a ∈ l, ok a = true) {s s' : Sys} {q : Prov}, s.run l = some s' → s.provs[p]? = some q → I q →
      ∃ q', s'.provs[p]? = some q' ∧ I q' := by
  intro l
  induction l with
  | nil => intro _ s s' q h hq hi; cases h; exact ⟨q, hq, hi⟩
  | cons a l ih =>
    intro hok s s' q h hq hi
    simp only [Sys.run, Option.bind_eq_some_iff] at h
    obtain ⟨s1, h1, h2⟩ := h
    obtain ⟨q1, e1, e2, -⟩ := step_prov h1 hq
    exact ih (fun a ha => hok a (by simp [ha])) h2 e1 (hstep q a q1 (hok a (by simp)) hi e2)

/-- **C54** However often a provider is loaded, as long as the store is not closed at most one of its goroutines is in the watching loop,
in every interleaving: a change is reported once. -/
theorem C54_single {n : Nat} {l : List Act} {s : Sys} (h : (Sys.init n).run l = some s) (hl : ∀ a ∈ l, a.isClose = false) {p : Nat} {q : Prov}
    (hq : s.provs[p]? = some q) : q.runners.countP Runner.active ≤ 1 := by
  by_cases hp : p < n
  · have h0 : (Sys.init n).provs[p]? = some ⟨false, [], 0⟩ := by simp [Sys.init, hp]
    obtain ⟨q', e1, e2⟩ := run_prov (fun q => q.runners.countP Runner.active ≤ q.watching.toNat) (fun a => !a.isClose) (p := p)
      (by
        intro q a q' ha hi hs
        cases hs with
        | same => exact hi
        | spawn b => simpa only [Prov.spawn, List.countP_append, List.countP_singleton, Runner.active, Bool.false_eq_true, if_false, Nat.add_zero] using hi
        | start i q' hs =>
          simp only [Prov.start] at hs
          split at hs
          · rename_i hr
            cases hs
            cases hw : q.watching with
            | true =>
              have := countP_set (r' := .done) hr Runner.active
              simp only [Runner.active, hw, Bool.toNat_true, Bool.toNat_false, if_true, if_false, Bool.false_eq_true, Nat.add_zero] at this hi ⊢; omega
            | false =>
              have := countP_set (r' := .check) hr Runner.active
              simp only [Runner.active, hw, Bool.toNat_true, Bool.toNat_false, if_true, if_false, Bool.false_eq_true, Nat.add_zero] at this hi ⊢; omega
          · cases hs
        | check i q' hs =>
          simp only [Prov.check] at hs
          split at hs
          · rename_i hr
            cases hs
            have := countP_set (r' := if q.watching then .select else .done) hr Runner.active
            cases hw : q.watching <;> simp only [Runner.active, hw, Bool.toNat_true, Bool.toNat_false, if_true, if_false, Bool.false_eq_true, Nat.add_zero] at this hi ⊢ <;> omega
          · cases hs
        | event i e q' hs =>
          simp only [Prov.event] at hs
          split at hs
          · rename_i hr
            cases hs
            have h1 := countP_set (r' := .check) hr Runner.active
            have h2 := countP_set (r' := .done) hr Runner.active
            cases e <;> cases hw : q.watching <;> simp only [Runner.active, hw, Bool.toNat_true, Bool.toNat_false, if_true, if_false, Bool.false_eq_true, Nat.add_zero] at h1 h2 hi ⊢ <;> omega
          · cases hs
        | close => simp [Act.isClose] at ha)
      l (fun a ha => by simp [hl a ha]) h h0 (by simp)
    rw [hq] at e1; cases e1
    exact Nat.le_trans e2 (Bool.toNat_le _)
  · exfalso
    have : ∀ (l : List Act) (s s' : Sys), s.run l = some s' → s'.provs.length = s.provs.length := by
      intro l
      induction l with
      | nil => intro s s' h; cases h; rfl
      | cons a l ih =>
        intro s s' h
        simp only [Sys.run, Option.bind_eq_some_iff] at h
        obtain ⟨s1, h1, h2⟩ := h
        rw [ih _ _ h2]
        cases a with
        | load p' b =>
          simp only [Sys.step, Option.map_eq_some_iff] at h1
          obtain ⟨s2, h3, h4⟩ := h1
          have := (upd_cases h3 0).2.1
          subst h4; split <;> exact this
        | start p' i => exact (upd_cases h1 0).2.1
        | check p' i => exact (upd_cases h1 0).2.1
        | event p' i e => exact (upd_cases h1 0).2.1
        | close => simp only [Sys.step, Option.some.injEq] at h1; subst h1; simp
    have := this _ _ _ h
    simp [Sys.init] at this
    have := (List.getElem?_eq_some_iff.mp hq).1
    omega

/-- **C54** After `Close`, a provider that the store itself loaded and whose goroutines have begun calls back at most once more for each
goroutine that was waiting (hence at most once if the store was never closed before, `C54_single`), in every continuation in which it is not
loaded again; and no goroutine waits for events twice. Partial: the three provisos are needed, see the deviations below. -/
theorem C54_after_close_partial {s s' : Sys} {l : List Act} {p : Nat} {q : Prov} (hq : s.provs[p]? = some q) (hc : p ∈ s.closers)
    (hf : Runner.fresh ∉ q.runners) (hl : ∀ a ∈ l, Act.loads p a = false) (h : s.run (.close :: l) = some s') :
    ∃ q', s'.provs[p]? = some q' ∧ q'.calls + q'.runners.count .select ≤ q.calls + q.runners.count .select := by
  simp only [Sys.run, Option.bind_eq_some_iff] at h
  obtain ⟨s1, h1, h2⟩ := h
  obtain ⟨q1, e1, -, e2, -⟩ := step_prov h1 hq
  have e2 := e2 rfl hc
  subst e2
  obtain ⟨q', e3, -, -, e4⟩ := run_prov (fun r => r.watching = false ∧ r.runners.countP (· == .fresh) = 0 ∧
      r.calls + r.runners.countP (· == .select) ≤ q.calls + q.runners.countP (· == .select)) (fun a => !Act.loads p a) (p := p)
    (by
      rintro r a r' ha ⟨i1, i2, i3⟩ hs
      cases hs with
      | same => exact ⟨i1, i2, i3⟩
      | spawn b => simp [Act.loads] at ha
      | start i q' hs =>
        simp only [Prov.start] at hs
        split at hs
        · rename_i hr
          exfalso
          rw [List.countP_eq_zero] at i2
          exact i2 _ (List.mem_of_getElem? hr) rfl
        · cases hs
      | check i q' hs =>
        simp only [Prov.check] at hs
        split at hs
        · rename_i hr
          cases hs
          have h1 := countP_set (r' := .done) hr (· == .fresh)
          have h2 := countP_set (r' := .done) hr (· == .select)
          simp only [reduceCtorEq, beq_iff_eq, if_false, Nat.add_zero] at h1 h2
          simp only [i1, Bool.false_eq_true, if_false, h1, h2]
          exact ⟨trivial, i2, i3⟩
        · cases hs
      | event i e q' hs =>
        simp only [Prov.event] at hs
        split at hs
        · rename_i hr
          cases hs
          have h1 := countP_set (r' := .done) hr (· == .fresh)
          have h2 := countP_set (r' := .done) hr (· == .select)
          have h3 := countP_set (r' := .check) hr (· == .fresh)
          have h4 := countP_set (r' := .check) hr (· == .select)
          cases e <;> simp only [i1, beq_self_eq_true, if_true, reduceCtorEq, beq_iff_eq, if_false, Nat.add_zero, true_and] at h1 h2 h3 h4 ⊢ <;> omega
        · cases hs
      | close => exact ⟨rfl, i2, i3⟩)
    l (fun a ha => by simp [hl a ha]) h2 e1 ⟨rfl, by
      simp only [Prov.close]
      rw [List.countP_eq_zero]
      intro r hr e
      exact hf (by rw [← (by simpa using e : r = .fresh)]; exact hr), Nat.le_refl _⟩
  exact ⟨q', e3, e4⟩

/-- **C54** What `Store.Close` does: exactly the providers that were loaded without a prefix option are told to stop. -/
theorem C54_closers {n : Nat} {l : List Act} {s : Sys} (h : (Sys.init n).run l = some s) (p : Nat) :
    p ∈ s.closers ↔ .load p false ∈ l := by
  have : ∀ (l : List Act) (s s' : Sys), s.run l = some s' → (p ∈ s'.closers ↔ p ∈ s.closers ∨ .load p false ∈ l) := by
    intro l
    induction l with
    | nil => intro s s' h; cases h; simp
    | cons a l ih =>
      intro s s' h
      simp only [Sys.run, Option.bind_eq_some_iff] at h
      obtain ⟨s1, h1, h2⟩ := h
      rw [ih _ _ h2]
      cases a with
      | load p' b =>
        simp only [Sys.step, Option.map_eq_some_iff] at h1
        obtain ⟨s2, h3, h4⟩ := h1
        have hc := (upd_cases h3 0).1
        subst h4
        cases b <;> simp [hc, or_assoc]
      | start p' i => rw [(upd_cases h1 0).1]; simp
      | check p' i => rw [(upd_cases h1 0).1]; simp
      | event p' i e => rw [(upd_cases h1 0).1]; simp
      | close => simp only [Sys.step, Option.some.injEq] at h1; subst h1; simp
  have := this _ _ _ h
  simpa [Sys.init] using this

/-! ## Deviations -/

/-- One delivery of a change by goroutine `i` of provider `p`, `k` times. -/
def deliver (p i : Nat) : Nat → List Act
  | 0 => []
  | k + 1 => .event p i .change :: .check p i :: deliver p i k

theorem run_deliver {s : Sys} {p i : Nat} {q : Prov} (hq : s.provs[p]? = some q) (hw : q.watching = true) (hr : q.runners[i]? = some .select) (k : Nat) :
    ∃ s', s.run (deliver p i k) = some s' ∧ s'.provs[p]? = some { q with calls := q.calls + k } := by
  induction k generalizing s q with
  | zero => exact ⟨s, rfl, hq⟩
  | succ k ih =>
    have hlt := (List.getElem?_eq_some_iff.mp hq).1
    have hi := (List.getElem?_eq_some_iff.mp hr).1
    have hget := (List.getElem?_eq_some_iff.mp hr).2
    have hset : q.runners.set i .select = q.runners := by rw [← hget]; exact List.set_getElem_self hi
    have e1 : s.step (.event p i .change) = some { s with provs := s.provs.set p { q with runners := q.runners.set i .check, calls := q.calls + 1 } } := by
      simp only [Sys.step, Sys.upd, hq, Prov.event, hr, Option.map_some]
    have e2 : ({ s with provs := s.provs.set p { q with runners := q.runners.set i .check, calls := q.calls + 1 } } : Sys).step (.check p i) =
        some { s with provs := s.provs.set p { q with calls := q.calls + 1 } } := by
      simp only [Sys.step, Sys.upd, List.getElem?_set_self hlt, Prov.check, List.getElem?_set_self hi, Option.map_some, hw, if_true,
        List.set_set, hset]
    obtain ⟨s', h1, h2⟩ := ih (s := { s with provs := s.provs.set p { q with calls := q.calls + 1 } }) (q := { q with calls := q.calls + 1 })
      (by simp [hlt]) hw hr
    refine ⟨s', ?_, by rw [h2]; simp [Nat.add_assoc, Nat.add_comm 1 k]⟩
    simp only [deliver, Sys.run]
    rw [e1, Option.bind_some, e2, Option.bind_some]
    exact h1

/-- After a load with prefix, `Close` does not stop the watcher: any number of changes are reported after it. -/
theorem C54_prefix_fails (k : Nat) : ∃ s, (Sys.init 1).run ([.load 0 true, .start 0 0, .check 0 0, .close] ++ deliver 0 0 k) = some s ∧
    s.provs[0]?.map (·.calls) = some k := by
  obtain ⟨s', h1, h2⟩ := run_deliver (s := ⟨[⟨true, [.select], 0⟩], []⟩) (p := 0) (i := 0) rfl rfl rfl k
  refine ⟨s', ?_, by simp [h2]⟩
  rw [Sys.run_append]
  exact h1

/-- If `Close` comes before the goroutine begins, it is lost, too. -/
theorem C54_close_lost_fails (k : Nat) : ∃ s, (Sys.init 1).run ([.load 0 false, .close, .start 0 0, .check 0 0] ++ deliver 0 0 k) = some s ∧
    s.provs[0]?.map (·.calls) = some k := by
  obtain ⟨s', h1, h2⟩ := run_deliver (s := ⟨[⟨true, [.select], 0⟩], [0]⟩) (p := 0) (i := 0) rfl rfl rfl k
  refine ⟨s', ?_, by simp [h2]⟩
  rw [Sys.run_append]
  exact h1

/-- If the provider is loaded again after `Close`, before the old goroutine has noticed, the old one goes on beside the new one: every change
is reported twice. -/
theorem C54_revived_fails : ∃ s, (Sys.init 1).run [.load 0 false, .start 0 0, .check 0 0, .close, .load 0 false, .start 0 1, .check 0 1,
      .event 0 0 .change, .check 0 0, .event 0 1 .change, .check 0 1] = some s ∧
    s.provs[0]?.map (·.runners) = some [.select, .select] := ⟨_, rfl, rfl⟩

/-- After the context of a load was cancelled, or the file was removed, the provider can not be watched any more: the goroutine of the next
load ends at once. -/
theorem C54_rewatch_fails (e : Ev) (he : e = .cancelled ∨ e = .failed) :
    ∃ s, (Sys.init 1).run [.load 0 false, .start 0 0, .check 0 0, .event 0 0 e, .load 0 false, .start 0 1] = some s ∧
      s.provs[0]?.map (·.runners) = some [.done, .done] := by
  rcases he with rfl | rfl <;> exact ⟨_, rfl, rfl⟩

section examples
/-- The hypotheses of `C54_after_close_partial`: a watched provider, waiting, and one more callback after `Close`. -/
example : ∃ s, (Sys.init 2).run [.load 1 false, .load 1 false, .start 1 1, .start 1 0, .check 1 1, .event 1 1 .ignored, .check 1 1] = some s ∧
    1 ∈ s.closers ∧ s.provs[1]? = some ⟨true, [.done, .select], 0⟩ ∧
    ∃ s', s.run [.close, .event 1 1 .change, .check 1 1] = some s' ∧ s'.provs[1]? = some ⟨false, [.done, .done], 1⟩ :=
  ⟨_, rfl, by decide, rfl, _, rfl, rfl⟩
end examples

end Verif.Watch

import Verif.Model.Reenter
import Verif.Props.Handlers
/-
C58: handlers that call back into the store.
-/
namespace Verif
namespace Store
variable {α κ : Type}

/-! ## What a log must look like -/

/-- The effect of one `Set` or `Remove` by itself, and the handler calls that are due. -/
def Op.exec (s : Store α κ) : Op α κ → Go (Store α κ × List (Event (Any α κ)))
  | .set p x => match s.set p x with
    | .error e => .error e
    | .ok (s', ev, _) => .ok (s', ev)
  | .remove p => match s.remove p with
    | .error e => .error e
    | .ok (s', ev, _) => .ok (s', ev)

mutual
/-- From `s` to `s'`: each change is made, then the handlers that are due are called, then comes the rest. -/
inductive Valid : Store α κ → List (Log α κ) → Store α κ → Prop
  | nil (s) : Valid s [] s
  | op {s s1 s2 s3 o evs l l'} : Op.exec s o = .ok (s1, evs) → Called s1 evs l s2 → Valid s2 l' s3 → Valid s (.did o :: (l ++ l')) s3
/-- The handlers are called in order, each finds the store as the previous one has left it. -/
inductive Called : Store α κ → List (Event (Any α κ)) → List (Log α κ) → Store α κ → Prop
  | nil (s) : Called s [] [] s
  | cons {s s1 s2 e es l l'} : Valid s l s1 → Called s1 es l' s2 → Called s (e :: es) (.enter e s :: (l ++ .leave :: l')) s2
end

/-- The changes of a log. -/
def opsOf (l : List (Log α κ)) : List (Op α κ) := l.filterMap (fun a => match a with | .did o => some o | _ => none)

/-- The same changes made one after the other, without any handler. -/
def replay (s : Store α κ) : List (Op α κ) → Go (Store α κ)
  | [] => .ok s
  | o :: l => match Op.exec s o with
    | .error e => .error e
    | .ok (s', _) => replay s' l

theorem replay_append (s : Store α κ) (l l' : List (Op α κ)) : replay s (l ++ l') = (replay s l).bind (fun s' => replay s' l') := by
  induction l generalizing s with
  | nil => rfl
  | cons o l ih =>
    simp only [List.cons_append, replay]
    cases Op.exec s o with
    | error e => rfl
    | ok a => exact ih a.1

theorem opsOf_append (l l' : List (Log α κ)) : opsOf (l ++ l') = opsOf l ++ opsOf l' := List.filterMap_append

/-! ## Runs -/

theorem callAll_called {H : Event (Any α κ) → Prog α κ} {r : Store α κ → Prog α κ → Outcome α κ}
    (hr : ∀ s P s' l, r s P = some (.ok (s', l)) → Valid s l s') (es : List (Event (Any α κ))) :
    ∀ {s s' l}, callAll H r s es = some (.ok (s', l)) → Called s es l s' := by
  induction es with
  | nil =>
    intro s s' l h
    simp only [callAll, Option.some.injEq, Except.ok.injEq, Prod.mk.injEq] at h
    obtain ⟨rfl, rfl⟩ := h
    exact .nil _
  | cons e es ih =>
    intro s s' l h
    simp only [callAll] at h
    split at h
    · simp at h
    · simp at h
    · rename_i s1 l1 h1
      split at h
      · simp at h
      · simp at h
      · rename_i s2 l2 h2
        simp only [Option.some.injEq, Except.ok.injEq, Prod.mk.injEq] at h
        obtain ⟨rfl, rfl⟩ := h
        exact .cons (hr _ _ _ _ h1) (ih h2)

theorem runWith_valid {H : Event (Any α κ) → Prog α κ} {r : Store α κ → Prog α κ → Outcome α κ}
    (hr : ∀ s P s' l, r s P = some (.ok (s', l)) → Valid s l s') (P : Prog α κ) :
    ∀ {s s' l}, runWith H r P s = some (.ok (s', l)) → Valid s l s' := by
  induction P with
  | done =>
    intro s s' l h
    simp only [runWith, Option.some.injEq, Except.ok.injEq, Prod.mk.injEq] at h
    obtain ⟨rfl, rfl⟩ := h
    exact .nil _
  | look k ih => intro s s' l h; simp only [runWith] at h; exact ih s h
  | set p x k ih =>
    intro s s' l h
    simp only [runWith] at h
    split at h
    · simp at h
    · rename_i s1 ev old h1
      split at h
      · simp at h
      · simp at h
      · rename_i s2 l2 h2
        split at h
        · simp at h
        · simp at h
        · rename_i s3 l3 h3
          simp only [Option.some.injEq, Except.ok.injEq, Prod.mk.injEq] at h
          obtain ⟨rfl, rfl⟩ := h
          exact .op (by rw [Op.exec, h1]) (callAll_called hr _ h2) (ih _ h3)
  | remove p k ih =>
    intro s s' l h
    simp only [runWith] at h
    split at h
    · simp at h
    · rename_i s1 ev old h1
      split at h
      · simp at h
      · simp at h
      · rename_i s2 l2 h2
        split at h
        · simp at h
        · simp at h
        · rename_i s3 l3 h3
          simp only [Option.some.injEq, Except.ok.injEq, Prod.mk.injEq] at h
          obtain ⟨rfl, rfl⟩ := h
          exact .op (by rw [Op.exec, h1]) (callAll_called hr _ h2) (ih _ h3)

/-- **C58** Whatever the handlers do with the store: every `Set` and `Remove`, also those made by handlers, is done at once; then its handlers
are called, in order, once each; and every handler finds the store as it is then. -/
theorem C58_run {H : Event (Any α κ) → Prog α κ} {n : Nat} : ∀ {s s' : Store α κ} {P : Prog α κ} {l : List (Log α κ)},
    run H n s P = some (.ok (s', l)) → Valid s l s' := by
  induction n with
  | zero => intro s s' P l h; exact runWith_valid (fun _ _ _ _ h => by simp at h) P h
  | succ n ih => intro s s' P l h; exact runWith_valid (fun _ _ _ _ h => ih h) P h

mutual
theorem valid_replay {s s' : Store α κ} {l : List (Log α κ)} : Valid s l s' → replay s (opsOf l) = .ok s'
  | .nil s => rfl
  | .op (o := o) (l := l) (l' := l') h1 h2 h3 => by
    have i2 := called_replay h2
    have i3 := valid_replay h3
    rw [show opsOf (Log.did o :: (l ++ l')) = o :: (opsOf l ++ opsOf l') from by rw [← opsOf_append]; rfl, replay, h1]
    simp only
    rw [replay_append, i2]
    exact i3
theorem called_replay {s s' : Store α κ} {es : List (Event (Any α κ))} {l : List (Log α κ)} : Called s es l s' → replay s (opsOf l) = .ok s'
  | .nil s => rfl
  | .cons (s := s) (e := e) (l := l) (l' := l') h1 h2 => by
    have i1 := valid_replay h1
    have i2 := called_replay h2
    rw [show opsOf (Log.enter e s :: (l ++ Log.leave :: l')) = opsOf l ++ opsOf l' from by
      rw [show opsOf (Log.enter e s :: (l ++ Log.leave :: l')) = opsOf (l ++ Log.leave :: l') from rfl, opsOf_append]; rfl]
    rw [replay_append, i1]
    exact i2
end

/-- **C58** The final store is that of the changes made one after the other in the order of the log: nesting changes nothing. -/
theorem C58_sequential {H : Event (Any α κ) → Prog α κ} {n : Nat} {s s' : Store α κ} {P : Prog α κ} {l : List (Log α κ)}
    (h : run H n s P = some (.ok (s', l))) : replay s (opsOf l) = .ok s' := valid_replay (C58_run h)

theorem append_split {β : Type} {l l' l1 l2 : List β} {x : β} (h : l ++ l' = l1 ++ x :: l2) :
    (∃ c, l = l1 ++ x :: c) ∨ ∃ a, l1 = l ++ a ∧ l' = a ++ x :: l2 := by
  rcases List.append_eq_append_iff.mp h with ⟨a, h1, h2⟩ | ⟨c, h1, h2⟩
  · exact .inr ⟨a, h1, h2⟩
  · cases c with
    | nil => exact .inr ⟨[], by simpa using h1.symm, by simpa using h2.symm⟩
    | cons y c =>
      simp only [List.cons_append, List.cons.injEq] at h2
      exact .inl ⟨c, by rw [h1, h2.1]⟩

mutual
theorem valid_seen {s s' : Store α κ} {L : List (Log α κ)} : Valid s L s' → ∀ l1 e seen l2, L = l1 ++ .enter e seen :: l2 →
    replay s (opsOf l1) = .ok seen
  | .nil s => by simp
  | .op (s1 := s1) (o := o) (l := l) (l' := l') h1 h2 h3 => by
    intro l1 e seen l2 h
    cases l1 with
    | nil => simp at h
    | cons a l1 =>
      simp only [List.cons_append, List.cons.injEq] at h
      obtain ⟨rfl, h⟩ := h
      rw [show opsOf (Log.did o :: l1) = o :: opsOf l1 from rfl, replay, h1]
      simp only
      rcases append_split h with ⟨c, hc⟩ | ⟨a, rfl, ha⟩
      · exact called_seen h2 l1 e seen c hc
      · rw [opsOf_append, replay_append, called_replay h2]
        exact valid_seen h3 a e seen l2 ha
theorem called_seen {s s' : Store α κ} {es : List (Event (Any α κ))} {L : List (Log α κ)} : Called s es L s' →
    ∀ l1 e seen l2, L = l1 ++ .enter e seen :: l2 → replay s (opsOf l1) = .ok seen
  | .nil s => by simp
  | .cons (s := s) (e := e0) (l := l) (l' := l') h1 h2 => by
    intro l1 e seen l2 h
    cases l1 with
    | nil =>
      simp only [List.nil_append, List.cons.injEq, Log.enter.injEq] at h
      rw [← h.1.2]
      rfl
    | cons a l1 =>
      simp only [List.cons_append, List.cons.injEq] at h
      obtain ⟨rfl, h⟩ := h
      rw [show opsOf (Log.enter e0 s :: l1) = opsOf l1 from rfl]
      rcases append_split h with ⟨c, hc⟩ | ⟨a, rfl, ha⟩
      · exact valid_seen h1 l1 e seen c hc
      · cases a with
        | nil => simp at ha
        | cons b a =>
          simp only [List.cons_append, List.cons.injEq] at ha
          obtain ⟨rfl, ha⟩ := ha
          rw [opsOf_append, replay_append, valid_replay h1]
          exact called_seen h2 a e seen l2 ha
end

/-- **C58** A handler finds the store with all changes that come before it in the log, and no others. -/
theorem C58_seen {H : Event (Any α κ) → Prog α κ} {n : Nat} {s s' seen : Store α κ} {P : Prog α κ} {l1 l2 : List (Log α κ)} {e}
    (h : run H n s P = some (.ok (s', l1 ++ .enter e seen :: l2))) : replay s (opsOf l1) = .ok seen :=
  valid_seen (C58_run h) l1 e seen l2 rfl

/-! ## Contents -/

/-- Keys to which `Set` writes literally. -/
def Op.Fits (v : View) : Op α κ → Prop
  | .set p _ => ' ' ∉ v.full p ∧ NoRoute v.delim (v.full p)
  | .remove _ => True

/-- The change does not concern `p`: another key is set; a key that is no prefix of `p` is removed. -/
def Op.Misses (v : View) (p : Str) : Op α κ → Prop
  | .set p' _ => v.full p' ≠ v.full p
  | .remove p' => ¬ v.full p' <+: v.full p

theorem exec_set {s s1 : Store α κ} {p : Str} {x : Any α κ} {evs} (hsp : ' ' ∉ s.view.full p) (h : Op.exec s (.set p x) = .ok (s1, evs)) :
    s1 = { s with tree := putTree (!s.loading) s.tree (s.view.full p) x } := by
  simp only [Op.exec, set] at h
  cases hq : s.view.query s.tree p with
  | error e => rw [hq] at h; simp at h
  | ok a =>
    rw [hq] at h
    simp only [Except.ok.injEq, Prod.mk.injEq] at h
    rw [← h.1, setKV_eq s p x _ [] (.inr rfl)]
    have : View.dash (s.view.full p) = s.view.full p := keyOf_nospace hsp
    rw [this]

theorem exec_remove {s s1 : Store α κ} (hr : Reach (NoRoute s.view.delim) s.tree) (hm : s.view.mode ≠ .up) {p : Str} {evs}
    (h : Op.exec s (.remove p) = .ok (s1, evs)) :
    s1 = { s with tree := s1.tree } ∧ Reach (NoRoute s.view.delim) s1.tree ∧
    (∀ q, ¬ s.view.full p <+: q → s1.tree.contents q = s.tree.contents q) ∧ (s.view.full p ≠ [] → s.view.has s1.tree p = .ok false) := by
  have hs1 : s1 = { s with tree := s1.tree } := by
    simp only [Op.exec, Store.remove] at h
    split at h
    · simp at h
    · rename_i he
      split at he
      · simp at he
      · simp only [Except.ok.injEq, Prod.mk.injEq] at h he
        rw [← h.1, ← he.1]
      · simp only [Except.ok.injEq, Prod.mk.injEq] at h he
        rw [← h.1, ← he.1]
  obtain ⟨s', evs', e1, e2, e3, -, e5, e6⟩ := removeAll_spec hr hm [(p, .nil)]
  have : s' = s1 := by
    simp only [removeAll] at e1
    simp only [Op.exec] at h
    split at h
    · simp at h
    · rename_i hx
      rw [hx] at e1
      simp only [Except.ok.injEq, Prod.mk.injEq] at h e1
      exact e1.1.symm.trans h.1
  subst this
  exact ⟨hs1, e3, fun q hq => e5 q (by simpa using hq), fun hne => e6 (p, .nil) (by simp) hne⟩

theorem replay_spec (l : List (Op α κ)) : ∀ {s s' : Store α κ}, Reach (NoRoute s.view.delim) s.tree → s.view.mode ≠ .up →
    (∀ o ∈ l, o.Fits s.view) → replay s l = .ok s' →
    s'.view = s.view ∧ s'.loading = s.loading ∧ s'.hs = s.hs ∧ Reach (NoRoute s.view.delim) s'.tree ∧
    ∀ (p : Str) c, s.tree.contents (s.view.full p) = some c → (∀ o ∈ l, o.Misses s.view p) → s'.tree.contents (s.view.full p) = some c := by
  induction l with
  | nil =>
    intro s s' hr _ _ h
    simp only [replay, Except.ok.injEq] at h
    subst h
    exact ⟨rfl, rfl, rfl, hr, fun _ _ h _ => h⟩
  | cons o l ih =>
    intro s s' hr hm hf h
    simp only [replay] at h
    split at h
    · simp at h
    · rename_i s1 evs he
      have hf' : ∀ o ∈ l, o.Fits s.view := fun o ho => hf o (by simp [ho])
      have : s1.view = s.view ∧ s1.loading = s.loading ∧ s1.hs = s.hs ∧ Reach (NoRoute s.view.delim) s1.tree ∧
          ∀ (p : Str) c, s.tree.contents (s.view.full p) = some c → o.Misses s.view p → s1.tree.contents (s.view.full p) = some c := by
        cases o with
        | set p x =>
          obtain ⟨f1, f2⟩ := hf (.set p x) (by simp)
          have e := exec_set f1 he
          refine ⟨by rw [e], by rw [e], by rw [e], by rw [e]; exact putTree_reach hr _ f2 x, fun p' c hc hmiss => ?_⟩
          rw [e]
          exact (putTree_spec hr.ok (!s.loading) (s.view.full p) x).keep _ c (by simp only [lastWrite]; rw [if_neg hmiss]) hc
        | remove p =>
          obtain ⟨e1, e2, e3, -⟩ := exec_remove hr hm he
          refine ⟨by rw [e1], by rw [e1], by rw [e1], e2, fun p' c hc hmiss => ?_⟩
          rw [e3 _ hmiss]
          exact hc
      obtain ⟨g1, g2, g3, g4, g5⟩ := this
      have i := ih (s := s1) (by rw [g1]; exact g4) (by rw [g1]; exact hm) (by rw [g1]; exact hf') h
      rw [g1] at i
      obtain ⟨i1, i2, i3, i4, i5⟩ := i
      exact ⟨i1, i2.trans g2, i3.trans g3, i4, fun p c hc hmiss =>
        i5 p c (g5 p c hc (hmiss o (by simp))) (fun o' ho' => hmiss o' (by simp [ho']))⟩

/-- The value of the last change that concerns a key. -/
theorem replay_last {s s' : Store α κ} (hr : Reach (NoRoute s.view.delim) s.tree) (hm : s.view.mode ≠ .up) {o1 o2 : List (Op α κ)} {p : Str}
    {x : Any α κ} (hf : ∀ o ∈ o1 ++ .set p x :: o2, o.Fits s.view) (hmiss : ∀ o ∈ o2, o.Misses s.view p)
    (h : replay s (o1 ++ .set p x :: o2) = .ok s') : s'.view = s.view ∧ s'.view.mustGet s'.tree p = .ok x := by
  rw [replay_append] at h
  cases h1 : replay s o1 with
  | error e => rw [h1] at h; simp [Except.bind] at h
  | ok s1 =>
    rw [h1] at h
    simp only [Except.bind, replay] at h
    obtain ⟨a1, a2, a3, a4, -⟩ := replay_spec o1 hr hm (fun o ho => hf o (by simp [ho])) h1
    split at h
    · simp at h
    · rename_i s2 evs he
      obtain ⟨f1, f2⟩ := hf (.set p x) (by simp)
      have e := exec_set (by rw [a1]; exact f1) he
      rw [a1] at e
      have hv2 : s2.view = s.view := by rw [e]
      have hr2 : Reach (NoRoute s.view.delim) s2.tree := by rw [e]; exact putTree_reach a4 _ f2 x
      obtain ⟨c, c1, c2, c3, -⟩ := (putTree_spec a4.ok (!s1.loading) (s.view.full p) x).val (s.view.full p) x (by simp [lastWrite])
      have b := replay_spec o2 (s := s2) (by rw [hv2]; exact hr2) (by rw [hv2]; exact hm)
        (by rw [hv2]; exact fun o ho => hf o (by simp [ho])) h
      rw [hv2] at b
      obtain ⟨b1, b2, b3, b4, b5⟩ := b
      refine ⟨b1, ?_⟩
      rw [b1, mustGet_hit b4.ok b4.plain (resolve_at (b5 p c (by rw [e]; exact c1) hmiss)), c2, c3]
      rfl

/-- **C58** In the end every key has the value of the last change that concerns it, whoever has made it. -/
theorem C58_last_write {H : Event (Any α κ) → Prog α κ} {n : Nat} {s s' : Store α κ} {P : Prog α κ} {l : List (Log α κ)}
    (hr : Reach (NoRoute s.view.delim) s.tree) (hm : s.view.mode ≠ .up) (h : run H n s P = some (.ok (s', l)))
    (hf : ∀ o ∈ opsOf l, o.Fits s.view) {o1 o2 : List (Op α κ)} {p : Str} {x : Any α κ} (hl : opsOf l = o1 ++ .set p x :: o2)
    (hmiss : ∀ o ∈ o2, o.Misses s.view p) : s'.view.mustGet s'.tree p = .ok x := by
  have e := C58_sequential h
  rw [hl] at e hf
  exact (replay_last hr hm hf hmiss e).2

/-- **C58** Keys that no change concerns are not affected. -/
theorem C58_others {H : Event (Any α κ) → Prog α κ} {n : Nat} {s s' : Store α κ} {P : Prog α κ} {l : List (Log α κ)}
    (hr : Reach (NoRoute s.view.delim) s.tree) (hm : s.view.mode ≠ .up) (h : run H n s P = some (.ok (s', l)))
    (hf : ∀ o ∈ opsOf l, o.Fits s.view) {p : Str} {c : Core (Any α κ)} (hc : s.tree.contents (s.view.full p) = some c)
    (hmiss : ∀ o ∈ opsOf l, o.Misses s.view p) : s'.view.query s'.tree p = s.view.query s.tree p := by
  obtain ⟨a1, -, -, a4, a5⟩ := replay_spec _ hr hm hf (C58_sequential h)
  rw [a1, query_hit a4.ok a4.plain (resolve_at (a5 p c hc hmiss)), query_hit hr.ok hr.plain (resolve_at hc)]

/-- **C58** The first handler of a `Set` finds the new value in the store. -/
theorem C58_handler_reads {H : Event (Any α κ) → Prog α κ} {n : Nat} {s s' seen : Store α κ} {P : Prog α κ} {l1 l2 : List (Log α κ)} {e}
    {p : Str} {x : Any α κ} (hr : Reach (NoRoute s.view.delim) s.tree) (hm : s.view.mode ≠ .up)
    (h : run H n s P = some (.ok (s', l1 ++ .did (.set p x) :: .enter e seen :: l2)))
    (hf : ∀ o ∈ opsOf l1 ++ [.set p x], o.Fits s.view) : seen.view.mustGet seen.tree p = .ok x := by
  have e := C58_seen (l1 := l1 ++ [.did (.set p x)]) (by simpa using h)
  rw [opsOf_append, show opsOf [Log.did (Op.set p x)] = [.set p x] from rfl] at e
  exact (replay_last hr hm hf (by simp) e).2

/-- **C58** The first handler of a `Remove` does not find the key any more. -/
theorem C58_handler_misses {H : Event (Any α κ) → Prog α κ} {n : Nat} {s s' seen : Store α κ} {P : Prog α κ} {l1 l2 : List (Log α κ)} {e}
    {p : Str} (hr : Reach (NoRoute s.view.delim) s.tree) (hm : s.view.mode ≠ .up) (hne : s.view.full p ≠ [])
    (h : run H n s P = some (.ok (s', l1 ++ .did (.remove p) :: .enter e seen :: l2)))
    (hf : ∀ o ∈ opsOf l1, o.Fits s.view) : seen.view.has seen.tree p = .ok false := by
  have e := C58_seen (l1 := l1 ++ [.did (.remove p)]) (by simpa using h)
  rw [opsOf_append, show opsOf [Log.did (Op.remove p)] = [.remove p] from rfl, replay_append] at e
  cases h1 : replay s (opsOf l1) with
  | error e' => rw [h1] at e; simp [Except.bind] at e
  | ok s1 =>
    rw [h1] at e
    obtain ⟨a1, a2, a3, a4, -⟩ := replay_spec _ hr hm hf h1
    simp only [Except.bind, replay] at e
    split at e
    · simp at e
    · rename_i s2 evs he
      simp only [Except.ok.injEq] at e
      subst e
      obtain ⟨e1, -, -, e4⟩ := exec_remove (by rw [a1]; exact a4) (by rw [a1]; exact hm) he
      have := e4 (by rw [a1]; exact hne)
      rw [show s2.view = s1.view from by rw [e1]]
      exact this

/-! ## Termination -/

theorem callAll_fuel {H : Event (Any α κ) → Prog α κ} {r r' : Store α κ → Prog α κ → Outcome α κ}
    (hr : ∀ s P a, r s P = some a → r' s P = some a) (es : List (Event (Any α κ))) :
    ∀ {s a}, callAll H r s es = some a → callAll H r' s es = some a := by
  induction es with
  | nil => intro s a h; simpa [callAll] using h
  | cons e es ih =>
    intro s a h
    simp only [callAll] at h ⊢
    cases h1 : r s (H e) with
    | none => rw [h1] at h; simp at h
    | some b =>
      rw [h1] at h
      rw [hr _ _ _ h1]
      cases b with
      | error x => exact h
      | ok b =>
        simp only at h ⊢
        cases h2 : callAll H r b.1 es with
        | none => rw [h2] at h; simp at h
        | some d =>
          rw [h2] at h
          rw [ih h2]
          exact h

theorem runWith_fuel {H : Event (Any α κ) → Prog α κ} {r r' : Store α κ → Prog α κ → Outcome α κ}
    (hr : ∀ s P a, r s P = some a → r' s P = some a) (P : Prog α κ) :
    ∀ {s a}, runWith H r P s = some a → runWith H r' P s = some a := by
  induction P with
  | done => intro s a h; simpa [runWith] using h
  | look k ih => intro s a h; simp only [runWith] at h ⊢; exact ih _ h
  | set p x k ih =>
    intro s a h
    simp only [runWith] at h ⊢
    cases h1 : s.set p x with
    | error e => rw [h1] at h; exact h
    | ok b =>
      rw [h1] at h
      simp only at h ⊢
      cases h2 : callAll H r b.1 b.2.1 with
      | none => rw [h2] at h; simp at h
      | some d =>
        rw [h2] at h
        rw [callAll_fuel hr _ h2]
        cases d with
        | error x => exact h
        | ok d =>
          simp only at h ⊢
          cases h3 : runWith H r (k b.2.2) d.1 with
          | none => rw [h3] at h; simp at h
          | some g =>
            rw [h3] at h
            rw [ih _ h3]
            exact h
  | remove p k ih =>
    intro s a h
    simp only [runWith] at h ⊢
    cases h1 : s.remove p with
    | error e => rw [h1] at h; exact h
    | ok b =>
      rw [h1] at h
      simp only at h ⊢
      cases h2 : callAll H r b.1 b.2.1 with
      | none => rw [h2] at h; simp at h
      | some d =>
        rw [h2] at h
        rw [callAll_fuel hr _ h2]
        cases d with
        | error x => exact h
        | ok d =>
          simp only at h ⊢
          cases h3 : runWith H r (k b.2.2) d.1 with
          | none => rw [h3] at h; simp at h
          | some g =>
            rw [h3] at h
            rw [ih _ h3]
            exact h

theorem run_fuel {H : Event (Any α κ) → Prog α κ} (n : Nat) : ∀ {s : Store α κ} {P a}, run H n s P = some a → run H (n + 1) s P = some a := by
  induction n with
  | zero => intro s P a h; exact runWith_fuel (fun _ _ _ h => by simp at h) P h
  | succ n ih => intro s P a h; exact runWith_fuel (fun _ _ _ h => ih h) P h

/-- **C58** The bound on the nesting does not matter: if it suffices, the outcome is that with any greater one. -/
theorem C58_fuel {H : Event (Any α κ) → Prog α κ} {n m : Nat} (hnm : n ≤ m) {s : Store α κ} {P a} (h : run H n s P = some a) :
    run H m s P = some a := by
  induction hnm with
  | refl => exact h
  | step _ ih => exact run_fuel _ ih

/-- The key a handler is called for. -/
def Event.key : Event (Any α κ) → Str
  | .new _ p _ _ => p
  | .change _ p _ _ _ => p
  | .delete _ p _ _ => p

/-- The code only changes keys of a rank below `b`, whatever it finds in the store. -/
def Prog.Below (rank : Str → Nat) (b : Nat) : Prog α κ → Prop
  | .done => True
  | .set p _ k => rank p < b ∧ ∀ y, (k y).Below rank b
  | .remove p k => rank p < b ∧ ∀ y, (k y).Below rank b
  | .look k => ∀ s, (k s).Below rank b

theorem Prog.Below.mono {rank : Str → Nat} {b b' : Nat} (hb : b ≤ b') : ∀ {P : Prog α κ}, P.Below rank b → P.Below rank b'
  | .done, _ => trivial
  | .set _ _ _, h => ⟨Nat.lt_of_lt_of_le h.1 hb, fun y => (h.2 y).mono hb⟩
  | .remove _ _, h => ⟨Nat.lt_of_lt_of_le h.1 hb, fun y => (h.2 y).mono hb⟩
  | .look _, h => fun s => (h s).mono hb

theorem mem_calls {hs : List (Option Nat)} {f : Nat → Event (Any α κ)} {e} (h : e ∈ calls hs f) : ∃ i, e = f i := by
  obtain ⟨i, _, rfl⟩ := List.mem_map.mp h
  exact ⟨i, rfl⟩

theorem set_keys {s s' : Store α κ} {p : Str} {x old : Any α κ} {ev} (e : s.set p x = .ok (s', ev, old)) : ∀ a ∈ ev, Event.key a = p := by
  obtain ⟨y, f, -, ⟨-, -, rfl⟩ | ⟨-, rfl⟩⟩ := C27_set e
  · intro a ha; obtain ⟨i, rfl⟩ := mem_calls ha; rfl
  · intro a ha; obtain ⟨i, rfl⟩ := mem_calls ha; rfl

theorem remove_keys {s s' : Store α κ} {p : Str} {b : Bool} {ev} (e : s.remove p = .ok (s', ev, b)) : ∀ a ∈ ev, Event.key a = p := by
  simp only [Store.remove] at e
  split at e
  · simp at e
  · simp only [Except.ok.injEq, Prod.mk.injEq] at e
    rw [← e.2.1]
    intro a ha
    obtain ⟨cb, _, h⟩ := List.mem_filterMap.mp ha
    obtain ⟨i, _, rfl⟩ := Option.map_eq_some_iff.mp h
    rfl
  · simp only [Except.ok.injEq, Prod.mk.injEq] at e
    rw [← e.2.1]
    simp

theorem callAll_some {H : Event (Any α κ) → Prog α κ} {r : Store α κ → Prog α κ → Outcome α κ} (es : List (Event (Any α κ)))
    (hr : ∀ s, ∀ e ∈ es, r s (H e) ≠ none) : ∀ {s}, callAll H r s es ≠ none := by
  induction es with
  | nil => intro s; simp [callAll]
  | cons e es ih =>
    intro s
    simp only [callAll]
    cases h1 : r s (H e) with
    | none => exact absurd h1 (hr s e (by simp))
    | some b =>
      cases b with
      | error x => simp
      | ok b =>
        simp only
        have := ih (fun s e he => hr s e (by simp [he])) (s := b.1)
        cases h2 : callAll H r b.1 es with
        | none => exact absurd h2 this
        | some d => cases d <;> simp

theorem runWith_some {H : Event (Any α κ) → Prog α κ} {r : Store α κ → Prog α κ → Outcome α κ} {rank : Str → Nat} {b : Nat}
    (hr : ∀ s e, rank (Event.key e) < b → r s (H e) ≠ none) (P : Prog α κ) : ∀ {s}, P.Below rank b → runWith H r P s ≠ none := by
  induction P with
  | done => intro s _; simp [runWith]
  | look k ih => intro s h; simp only [runWith]; exact ih _ (h s)
  | set p x k ih =>
    intro s h
    simp only [runWith]
    cases h1 : s.set p x with
    | error e => simp
    | ok a =>
      simp only
      have := callAll_some (H := H) (r := r) a.2.1 (fun s e he => hr s e (by rw [set_keys h1 e he]; exact h.1)) (s := a.1)
      cases h2 : callAll H r a.1 a.2.1 with
      | none => exact absurd h2 this
      | some d =>
        cases d with
        | error x => simp
        | ok d =>
          simp only
          have := ih a.2.2 (s := d.1) (h.2 _)
          cases h3 : runWith H r (k a.2.2) d.1 with
          | none => exact absurd h3 this
          | some g => cases g <;> simp
  | remove p k ih =>
    intro s h
    simp only [runWith]
    cases h1 : s.remove p with
    | error e => simp
    | ok a =>
      simp only
      have := callAll_some (H := H) (r := r) a.2.1 (fun s e he => hr s e (by rw [remove_keys h1 e he]; exact h.1)) (s := a.1)
      cases h2 : callAll H r a.1 a.2.1 with
      | none => exact absurd h2 this
      | some d =>
        cases d with
        | error x => simp
        | ok d =>
          simp only
          have := ih a.2.2 (s := d.1) (h.2 _)
          cases h3 : runWith H r (k a.2.2) d.1 with
          | none => exact absurd h3 this
          | some g => cases g <;> simp

/-- **C58** If keys can be ranked such that the handlers called for a key only change keys of a smaller rank, all calls return. -/
theorem C58_terminates {H : Event (Any α κ) → Prog α κ} {rank : Str → Nat} (hH : ∀ e, (H e).Below rank (rank (Event.key e)))
    (n : Nat) : ∀ {P : Prog α κ}, P.Below rank n → ∀ s, run H n s P ≠ none := by
  induction n with
  | zero => intro P h s; exact runWith_some (fun _ _ h => absurd h (by omega)) P h
  | succ n ih => intro P h s; exact runWith_some (fun s e he => ih ((hH e).mono (by omega)) s) P h

/-- **C58 fails** in general: if the handler called on changes of a key sets it to a value other than nil, even the same one, `Set` does not
return: every bound on the nesting is exceeded. -/
theorem C58_loop_fails {H : Event (Any α κ) → Prog α κ} {p : Str} {x : Any α κ} {k : Event (Any α κ) → Any α κ → Prog α κ} (hx : x ≠ .nil)
    (hH : ∀ h old m, H (.change h p x old m) = .set p x (k (.change h p x old m))) (n : Nat) :
    ∀ {s : Store α κ}, Reach (NoRoute s.view.delim) s.tree → ' ' ∉ s.view.full p → NoRoute s.view.delim (s.view.full p) →
    s.loading = false → (∃ h, some h ∈ s.hs.onChange) → ∀ {c}, s.tree.contents (s.view.full p) = some c → c.hasData = true →
    c.data ≠ .nil → ∀ k0, run H n s (.set p x k0) = none := by
  have key : ∀ {s : Store α κ}, Reach (NoRoute s.view.delim) s.tree → ' ' ∉ s.view.full p → NoRoute s.view.delim (s.view.full p) →
      s.loading = false → (∃ h, some h ∈ s.hs.onChange) → ∀ {c}, s.tree.contents (s.view.full p) = some c → c.hasData = true →
      c.data ≠ .nil → ∃ s' h old m es, s.set p x = .ok (s', .change h p x old m :: es, old) ∧
        s' = { s with tree := putTree (!s.loading) s.tree (s.view.full p) x } := by
    intro s hr hsp hnr hl hh c hc hd hnn
    have hq := query_hit hr.ok hr.plain (resolve_at (d := s.view.delim) hc)
    obtain ⟨⟨s', ev, old⟩, he⟩ : ∃ a, s.set p x = .ok a := ⟨_, by simp only [set, hq]; rfl⟩
    have hold := (C27_old hr hsp he).2 (by rw [hc]; rfl)
    obtain ⟨f, hf⟩ := hold
    have hg := get_hit hr.ok hr.plain (resolve_at (d := s.view.delim) hc)
    rw [Store.get, hg, hd] at hf
    simp only [if_true, Except.ok.injEq, Prod.mk.injEq] at hf
    have hs' := exec_set (evs := ev) hsp (s1 := s') (x := x) (by simp only [Op.exec, he])
    obtain ⟨y, fd, -, ⟨-, h2, -⟩ | ⟨-, h2⟩⟩ := C27_set he
    · rw [hl, ← hf.1] at h2
      simp [hnn] at h2
    · obtain ⟨h, hh⟩ := hh
      have : ev ≠ [] := by
        intro h0
        rw [h2] at h0
        have : Event.change h p x old (!s.loading) ∈ calls s.hs.onChange (fun h => .change h p x old (!s.loading)) := by
          exact List.mem_map.mpr ⟨h, List.mem_filterMap.mpr ⟨some h, hh, rfl⟩, rfl⟩
        rw [h0] at this
        simp at this
      obtain ⟨e, es, rfl⟩ := List.exists_cons_of_ne_nil this
      obtain ⟨i, hi⟩ := mem_calls (f := fun h => .change h p x old (!s.loading)) (e := e) (by rw [← h2]; simp)
      subst hi
      exact ⟨s', i, old, _, es, he, hs'⟩
  induction n with
  | zero =>
    intro s hr hsp hnr hl hh c hc hd hnn k0
    obtain ⟨s', h, old, m, es, he, -⟩ := key hr hsp hnr hl hh hc hd hnn
    simp only [run, runWith, he, callAll]
  | succ n ih =>
    intro s hr hsp hnr hl hh c hc hd hnn k0
    obtain ⟨s', h, old, m, es, he, hs'⟩ := key hr hsp hnr hl hh hc hd hnn
    simp only [run, runWith, he, callAll]
    obtain ⟨c', c1, c2, c3, -⟩ := (putTree_spec hr.ok (!s.loading) (s.view.full p) x).val (s.view.full p) x (by simp [lastWrite])
    have := ih (s := s') (by rw [hs']; exact putTree_reach hr _ hnr x) (by rw [hs']; exact hsp) (by rw [hs']; exact hnr) (by rw [hs']; exact hl)
      (by rw [hs']; exact hh) (c := c') (by rw [hs']; exact c1) c2 (by rw [c3]; exact hx) (k (.change h p x old m))
    rw [hH, this]

/-! ## Examples -/

/-- A new key "a" gives rise to a key "b" with the value found at "a"; a change of "a" removes "b"; nothing happens for other keys. -/
def exH58 : Event (Any Nat Nat) → Prog Nat Nat
  | .new _ p _ _ => if p = "a".toList then .look (fun s => match s.mustGet p with
      | .ok x => .set "b".toList x (fun _ => .done)
      | .error _ => .done) else .done
  | .change _ p _ _ _ => if p = "a".toList then .remove "b".toList (fun _ => .done) else .done
  | .delete _ _ _ _ => .done

def exS58 : S0 := Store.new '.' false ⟨[some 1], [some 2], [some 3]⟩

def exP58 : Prog Nat Nat := .set "a".toList (.atom 7) (fun _ => .set "a".toList (.atom 8) (fun _ => .done))

/-- The log with changes as (key, number or 0), beginnings of handlers as (key, number in the store at "b" or 0), ends. -/
def exLog58 (n : Nat) : Option (List (Nat × Str × Nat)) :=
  match run exH58 n exS58 exP58 with
  | some (.ok (_, l)) => some (l.map (fun a => match a with
      | .did (.set p (.atom i)) => (0, p, i)
      | .did (.set p _) => (0, p, 0)
      | .did (.remove p) => (1, p, 0)
      | .enter e s => (2, Event.key e, match s.mustGet "b".toList with | .ok (.atom i) => i | _ => 0)
      | .leave => (3, [], 0)))
  | _ => none

example : exLog58 2 = some [(0, "a".toList, 7), (2, "a".toList, 0), (0, "b".toList, 7), (2, "b".toList, 7), (3, [], 0), (3, [], 0),
    (0, "a".toList, 8), (2, "a".toList, 7), (1, "b".toList, 0), (2, "b".toList, 0), (3, [], 0), (3, [], 0)] := by decide +kernel

example : (run exH58 0 exS58 exP58).isNone = true := by decide +kernel

/-- These handlers can be ranked. -/
def exRank58 (p : Str) : Nat := if p = "a".toList then 1 else 0

theorem exH58_below : ∀ e, (exH58 e).Below exRank58 (exRank58 (Event.key e)) := by
  intro e
  cases e with
  | new h p x m =>
    simp only [exH58, Event.key]
    split
    · rename_i hp
      subst hp
      intro s
      simp only
      split
      · exact ⟨by decide, fun _ => trivial⟩
      · trivial
    · trivial
  | change h p x old m =>
    simp only [exH58, Event.key]
    split
    · rename_i hp
      subst hp
      exact ⟨by decide, fun _ => trivial⟩
    · trivial
  | delete h p x m => trivial

example (s : S0) : run exH58 2 s exP58 ≠ none :=
  C58_terminates exH58_below 2 (show Prog.Below exRank58 2 exP58 from ⟨by decide, fun _ => ⟨by decide, fun _ => trivial⟩⟩) s

/-- The handler on changes writes the key back. -/
def exLoop58 : Event (Any Nat Nat) → Prog Nat Nat
  | .change _ _ _ _ _ => .set "a".toList (.atom 8) (fun _ => .done)
  | _ => .done

example (n : Nat) : run exLoop58 n (Store.setKV exS58 "a".toList (.atom 7) true []).1 (.set "a".toList (.atom 8) (fun _ => .done)) = none := by
  have h0 : Reach (NoRoute '.') exS58.tree := Reach.new
  have e : (Store.setKV exS58 "a".toList (.atom 7) true []).1 = { exS58 with tree := putTree true exS58.tree "a".toList (.atom 7) } := by
    rw [setKV_eq exS58 _ _ _ [] (.inr rfl)]; rfl
  rw [e]
  obtain ⟨c, c1, c2, c3, -⟩ := (putTree_spec h0.ok true "a".toList (.atom 7)).val "a".toList (.atom 7) (by simp [lastWrite])
  have hn : NoRoute '.' "a".toList := noRoute_of_plain (by decide) (by decide)
  have hr : Reach (NoRoute '.') (putTree true exS58.tree "a".toList (.atom 7)) := putTree_reach h0 _ hn _
  exact C58_loop_fails (k := fun _ _ => .done) (by simp) (fun _ _ _ => rfl) n
    (s := { exS58 with tree := putTree true exS58.tree "a".toList (.atom 7) }) hr (by decide) hn rfl ⟨2, by decide⟩ c1 c2 (by rw [c3]; simp) _

end Store
end Verif

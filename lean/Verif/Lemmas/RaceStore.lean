import Verif.Lemmas.RaceReplace
import Verif.Lemmas.RaceExport
import Verif.Spec.RaceStore
/-
Goroutines that call `Set` of a store with handlers.
-/
namespace Verif
namespace Race
open Node (commonPrefixLen)
variable {α : Type} [Inhabited α] (d : Char) (isNil : α → Bool) (Js : Nat → Job α)

theorem Sys.run_append (s : Sys α) (A B : List Nat) : s.run d isNil Js (A ++ B) = (s.run d isNil Js A).run d isNil Js B := by
  induction A generalizing s with
  | nil => rfl
  | cons k A ih => exact ih _

/-- The next step of goroutine `k` is one of `insertInternal`. -/
def Sys.moving (s : Sys α) (k : Nat) : Bool :=
  match s.phase k with
  | .set _ => match s.base.pcs k with
    | .store _ => false
    | .done => false
    | _ => true
  | .took _ _ => true
  | _ => false

theorem Sys.tick_base (s : Sys α) (k : Nat) :
    (s.tick d isNil Js k).base = if s.moving k then s.base.tick Js k else s.base := by
  rw [Sys.tick, Sys.moving]
  split
  · rename_i e; simp [e]
  · rename_i e; simp [e]
  · rename_i e
    rw [e]; dsimp only
    split
    · rename_i e'; simp [e']
    · rename_i e'; simp [e']
    · rename_i h1 h2
      split
      · rename_i e'; exact absurd e' (h1 _)
      · rename_i e'; exact absurd e' h2
      · simp
  · rename_i e; simp [e]
  · rename_i e; simp [e]
  · rename_i e; simp [e]

/-- The steps of `insertInternal` in a schedule. -/
def moves : Sys α → List Nat → List Nat
  | _, [] => []
  | s, k :: S => (if s.moving k then [k] else []) ++ moves (s.tick d isNil Js k) S

theorem run_moves (s : Sys α) (S : List Nat) : (s.run d isNil Js S).base = s.base.run Js (moves d isNil Js s S) := by
  induction S generalizing s with
  | nil => rfl
  | cons k S ih =>
    rw [Sys.run, ih, moves, Sys.tick_base]
    by_cases h : s.moving k = true
    · simp only [h, if_true]; rfl
    · simp only [h]; rfl

theorem stored_moves (s : Sys α) (S : List Nat) : stored d isNil Js s S = finishes Js s.base (moves d isNil Js s S) := by
  induction S generalizing s with
  | nil => rfl
  | cons k S ih =>
    rw [stored, ih, moves, Sys.tick_base]
    by_cases h : s.moving k = true
    · simp only [h, if_true]; rfl
    · simp only [h]
      rw [if_neg (by rintro ⟨h1, h2⟩; exact h1 (by simpa using h2))]; rfl

theorem moves_append (s : Sys α) (A B : List Nat) :
    moves d isNil Js s (A ++ B) = moves d isNil Js s A ++ moves d isNil Js (s.run d isNil Js A) B := by
  induction A generalizing s with
  | nil => rfl
  | cons k A ih => rw [List.cons_append, moves, ih, moves, List.append_assoc]; rfl

theorem stored_append (s : Sys α) (A B : List Nat) :
    stored d isNil Js s (A ++ B) = stored d isNil Js s A ++ stored d isNil Js (s.run d isNil Js A) B := by
  induction A generalizing s with
  | nil => rfl
  | cons k A ih => rw [List.cons_append, stored, ih, stored, List.append_assoc]; rfl

/-- A property of all schedules, by adding one step at a time. -/
theorem sched_ind {p : List Nat → Prop} (h0 : p []) (h1 : ∀ S k, p S → p (S ++ [k])) (S : List Nat) : p S := by
  rw [← List.reverse_reverse S]
  induction S.reverse with
  | nil => exact h0
  | cons k S ih => rw [List.reverse_cons]; exact h1 _ _ ih

/-! ### Every call is told once -/

/-- What holds of the log in any case. -/
structure Once (kvs : List (Str × α)) (s : Sys α) : Prop where
  nodup : (s.log.map (·.1)).Nodup
  who : ∀ k, k ∈ s.log.map (·.1) ↔ k < kvs.length ∧ s.phase k = .done
  what : ∀ e ∈ s.log, kvs[e.1]? = some (e.2.key, e.2.val)

variable {d isNil}

omit [Inhabited α] in
theorem event_key (J : Job α) (ab : Bool) (old : Option α) : (event isNil J ab old).key = J.key ∧ (event isNil J ab old).val = J.val := by
  rw [event]; split <;> exact ⟨rfl, rfl⟩

theorem Once.start (t : Tree α) (kvs : List (Str × α)) : Once kvs (sets t kvs) where
  nodup := .nil
  who := by
    intro k
    simp only [sets, List.map_nil, List.not_mem_nil, false_iff]
    rintro ⟨h1, h2⟩
    rw [List.getElem?_eq_getElem h1] at h2
    cases h2
  what := nofun

theorem Once.tick {t : Tree α} {kvs : List (Str × α)} {s : Sys α} (O : Once kvs s) (hid : ∀ k, kvs.length ≤ k → s.phase k = .done) (k : Nat) :
    Once kvs (s.tick d isNil (jobs t kvs) k) ∧ ∀ l, kvs.length ≤ l → (s.tick d isNil (jobs t kvs) k).phase l = .done := by
  -- a step of a goroutine that is not over, after which it still is not
  have go : ∀ (b : World α) (p : Phase α), s.phase k ≠ .done → p ≠ .done →
      Once kvs { base := b, phase := fun l => if l = k then p else s.phase l, log := s.log } ∧
      ∀ l, kvs.length ≤ l → (if l = k then p else s.phase l) = .done := by
    intro b p h1 h2
    refine ⟨⟨O.nodup, fun l => ?_, O.what⟩, fun l hl => ?_⟩
    · rw [O.who]
      by_cases e : l = k
      · subst e; simp [h1, h2]
      · simp [e]
    · by_cases e : l = k
      · subst e; exact absurd (hid _ hl) h1
      · rw [if_neg e]; exact hid _ hl
  rw [Sys.tick]
  split
  · rename_i e; exact go _ _ (by rw [e]; nofun) nofun
  · rename_i e; exact go _ _ (by rw [e]; nofun) nofun
  · rename_i e
    split
    · exact go _ _ (by rw [e]; nofun) nofun
    · exact go _ _ (by rw [e]; nofun) nofun
    · exact ⟨⟨O.nodup, O.who, O.what⟩, hid⟩
  · rename_i e; exact go _ _ (by rw [e]; nofun) nofun
  · rename_i ab old e
    have hk : k < kvs.length := by
      rcases Nat.lt_or_ge k kvs.length with h | h
      · exact h
      · rw [hid k h] at e; cases e
    have hnot : k ∉ s.log.map (·.1) := by
      rw [O.who, e]; rintro ⟨_, h⟩; cases h
    refine ⟨⟨?_, fun l => ?_, fun a ha => ?_⟩, fun l hl => ?_⟩
    · rw [List.map_append, List.nodup_append]
      refine ⟨O.nodup, by simp, ?_⟩
      intro a ha b hb
      simp only [List.map_cons, List.map_nil, List.mem_singleton] at hb
      rintro rfl
      exact hnot (hb ▸ ha)
    · rw [List.map_append, List.mem_append, O.who]
      by_cases h : l = k
      · subst h; simp [hk]
      · simp [h]
    · rcases List.mem_append.mp ha with ha | ha
      · exact O.what a ha
      · rw [List.mem_singleton] at ha
        subst ha
        dsimp only
        rw [(event_key ..).1, (event_key ..).2, List.getElem?_eq_getElem hk, jobs_key (List.getElem?_eq_getElem hk)]
    · dsimp only
      split
      · rfl
      · exact hid l hl
  · exact ⟨O, hid⟩

theorem sets_idle (t : Tree α) (kvs : List (Str × α)) (k : Nat) (hk : kvs.length ≤ k) : (sets t kvs).phase k = .done := by
  simp only [sets]; simp [hk]

theorem once (t : Tree α) (kvs : List (Str × α)) (S : List Nat) :
    Once kvs ((sets t kvs).run d isNil (jobs t kvs) S) ∧
    ∀ l, kvs.length ≤ l → ((sets t kvs).run d isNil (jobs t kvs) S).phase l = .done := by
  induction S using sched_ind with
  | h0 => exact ⟨.start t kvs, sets_idle t kvs⟩
  | h1 S k ih =>
    rw [Sys.run_append]
    exact ih.1.tick ih.2 k

/-! ### Goroutines that replace values -/

theorem watch_append (d : Char) (Js : Nat → Job α) (A B : List (Option Nat)) : ∀ s : World α × Rd α,
    watch d Js s (A ++ B) = watch d Js (watch d Js s A) B := by
  induction A with
  | nil => intro s; rfl
  | cons a A ih => rintro ⟨W, r⟩; cases a <;> exact ih _

/-- The field `found` of a lookup. -/
def present (d : Char) (t : Tree α) (w : Str) : Bool :=
  match resolve d t.contents w with
  | some (q, c) => c.leaf || endsW d q
  | none => false

theorem invA {t : Tree α} (h : t.OK) {kvs : List (Str × α)} (hr : Replaces t kvs) (B : List Nat) :
    InvA t kvs (finishes (jobs t kvs) (start t kvs) B) ((start t kvs).run (jobs t kvs) B) := by
  have := (InvA.init h kvs).run h hr B
  rwa [List.nil_append] at this

theorem asks {t : Tree α} (h : t.OK) {kvs : List (Str × α)} (hr : Replaces t kvs) (w : Str) (hp : t.ClearAt d w) :
    ∃ N, ∀ V : List (Option Nat),
      let r := (watch d (jobs t kvs) (start t kvs, .enter w t.root.id []) V).2
      r ≠ .crash ∧ (N ≤ V.count none → ∃ a, r = .done a) ∧ ∀ a, r = .done a → a.found = present d t w := by
  obtain ⟨N, hN⟩ := watch_reads h hp (jobs t kvs) (W0 := start t kvs) (K := fun W => ∃ L, InvA t kvs L W)
    (fun S => ⟨_, invA h hr S⟩) (fun W ⟨_, I⟩ => I.calm h _ _) (fun W ⟨_, I⟩ q m hq => nodeAt_flags h I (resolve_some hq))
  refine ⟨N, fun V => ⟨(hN V).1, (hN V).2.1, fun a ha => ?_⟩⟩
  obtain ⟨S1, _, _, e⟩ := (hN V).2.2 a ha
  rw [e, present, resolve_contents h]
  cases hres : resolve d t.nodeAt w with
  | none => rfl
  | some qm =>
    obtain ⟨q, m⟩ := qm
    have := nodeAt_flags h (invA h hr (writers S1)) (resolve_some hres)
    simp only [Option.map_some, ansOf]
    rw [this.2.1]

theorem own_ends {t : Tree α} (h : t.OK) {kvs : List (Str × α)} (hr : Replaces t kvs) {k : Nat} (hk : k < kvs.length) :
    (∃ N, ∀ B : List Nat, N ≤ B.count k → ((start t kvs).run (jobs t kvs) B).pcs k = .done) ∧
    ∀ B : List Nat, ((start t kvs).run (jobs t kvs) B).pcs k ≠ .crash := by
  have own := fun S => (InvA.init h kvs).run_own h hr S (own_start t kvs)
  obtain ⟨c, hc, _⟩ := hr kvs[k] (List.getElem_mem hk)
  obtain ⟨m, hm, _⟩ := (Tree.contents_node h).mp hc
  obtain ⟨g, s⟩ := goes_stored h hm
  have hS : Setup (jobs t kvs k) (start t kvs).mem t.root (jobs t kvs k).key m m.path := by
    rw [jobs_key (List.getElem?_eq_getElem hk)]
    exact setup h (start_holds h) _ (Nat.le_add_right _ _) g s
  refine ⟨?_, fun B => ?_⟩
  · obtain ⟨N2, h2⟩ := enter_ends hS t.root _ (.here _ _)
    refine ⟨N2, fun B hB => ?_⟩
    rw [own B k hk]
    obtain ⟨r, hr'⟩ : ∃ r, 0 + B.count k = N2 + r := ⟨B.count k - N2, by omega⟩
    simp only [hr']
    rw [alone_add]
    have : alone (jobs t kvs k) N2 ((start t kvs).mem, .enter (jobs t kvs k).key t.root.id) = (_, .done) := Prod.ext rfl h2
    rw [this, alone_done]
  · rw [own B k hk]
    have hA := alone_at hS ((0 : Nat) + B.count k) (.enter (.here _ _))
    generalize (alone (jobs t kvs k) (0 + B.count k) ((start t kvs).mem, .enter (jobs t kvs k).key t.root.id)).2 = pc at hA
    generalize (alone (jobs t kvs k) (0 + B.count k) ((start t kvs).mem, .enter (jobs t kvs k).key t.root.id)).1 = M at hA
    rintro rfl
    cases hA with
    | tail ht => cases ht

theorem step_done {J : Job α} {M : Mem α} {pc : Pc} (h : (step J M pc).2 = .done) :
    pc = .done ∨ (∃ i, pc = .store i) ∨ ∃ i ks, pc = .link i ks := by
  cases pc with
  | enter w i =>
    simp only [step] at h
    split at h
    · cases h
    · split at h
      · cases h
      · split at h <;> cases h
  | halve w i pos => simp only [step] at h; split at h <;> cases h
  | cut w i pos d k =>
    simp only [step] at h
    split at h
    · cases h
    · split at h <;> cases h
  | look w i => cases h
  | scan w i js =>
    cases js with
    | nil => cases h
    | cons j js => simp only [step] at h; split at h <;> cases h
  | leaf w i => cases h
  | link i ks => exact .inr (.inr ⟨_, _, rfl⟩)
  | mark i => cases h
  | store i => exact .inr (.inl ⟨_, rfl⟩)
  | done => exact .inl rfl
  | crash => cases h

theorem At.where {J : Job α} {M0 : Mem α} {n : Node α} {w : Str} {m : Node α} {w' : Str} {M : Mem α} {pc : Pc}
    (h : At J M0 n w m w' M pc) :
    (∀ i ks, pc = .link i ks → commonPrefixLen w' (M0 m.id).path < w'.length) ∧ ∀ i, pc = .store i → i = m.id := by
  constructor
  · rintro i ks rfl
    cases h with
    | tail ht => cases ht with
      | link hlt => exact hlt
  · rintro i rfl
    cases h with
    | tail ht => cases ht with
      | store => rfl

/-- Where a goroutine that replaces a value can be. -/
theorem InvA.where {t : Tree α} (h : t.OK) {kvs : List (Str × α)} {L : List Nat} {W : World α} (I : InvA t kvs L W) {k : Nat}
    {kv : Str × α} (hkv : kvs[k]? = some kv) {m : Node α} (hm : (kv.1, m) ∈ t.root.nodes []) :
    (∀ i ks, W.pcs k ≠ .link i ks) ∧ ∀ i, W.pcs k = .store i → i = m.id := by
  obtain ⟨hg, hst⟩ := goes_stored h hm
  have S := setup h (start_holds (kvs := kvs) h) (jobs t kvs k) (by simp [jobs]) hg hst
  have hcpl : commonPrefixLen m.path ((start t kvs).mem m.id).path = m.path.length := by
    rw [S.cell]; exact cpl_prefix (List.prefix_refl _)
  rcases I.pcs k kv hkv m hm with hA | hA | hA
  · refine ⟨fun i ks e => ?_, hA.where.2⟩
    have := hA.where.1 i ks e
    omega
  · rw [hA]; exact ⟨nofun, fun i e => (Pc.store.inj e).symm⟩
  · rw [hA]; exact ⟨nofun, nofun⟩

theorem tick_pcs (W : World α) (k l : Nat) (h : l ≠ k) : (W.tick Js k).pcs l = W.pcs l := by
  simp [World.tick, h]

theorem pcs_done (W : World α) (k : Nat) (h : W.pcs k = .done) (B : List Nat) : (W.run Js B).pcs k = .done := by
  induction B generalizing W with
  | nil => exact h
  | cons l B ih =>
    refine ih _ ?_
    by_cases e : k = l
    · subst e; simp [World.tick, h, step]
    · rw [tick_pcs Js W l k e]; exact h

theorem mem_finishes (W : World α) (B : List Nat) (k : Nat) :
    k ∈ finishes Js W B ↔ W.pcs k ≠ .done ∧ (W.run Js B).pcs k = .done := by
  induction B generalizing W with
  | nil => simp [finishes, World.run]
  | cons l B ih =>
    rw [finishes, List.mem_append, ih, World.run]
    by_cases e : k = l
    · subst e
      by_cases h1 : W.pcs k = .done
      · have : (W.tick Js k).pcs k = .done := by simp [World.tick, h1, step]
        simp [h1, this]
      · by_cases h2 : (W.tick Js k).pcs k = .done
        · simp [h1, h2, pcs_done]
        · simp [h1, h2]
    · rw [tick_pcs Js W l k e]
      split <;> simp [e]

theorem nodup_finishes (W : World α) (B : List Nat) : (finishes Js W B).Nodup := by
  induction B generalizing W with
  | nil => exact .nil
  | cons l B ih =>
    rw [finishes]
    split
    · rename_i h
      rw [List.singleton_append, List.nodup_cons]
      refine ⟨?_, ih _⟩
      rw [mem_finishes]
      exact fun h' => h'.1 h.2
    · exact ih _

/-! The steps of the store, one by one. -/

theorem tick_other (s : Sys α) {k l : Nat} (h : l ≠ k) : (s.tick d isNil Js k).phase l = s.phase l := by
  rw [Sys.tick]
  split <;> try simp [h]
  split <;> simp [h]

theorem tick_ask (s : Sys α) {k : Nat} {r : Rd α} (h : s.phase k = .ask r) (hr : ∀ a, r ≠ .done a) :
    (s.tick d isNil Js k).phase k = .ask (rstep d s.base.mem r) ∧ s.moving k = false := by
  constructor
  · rw [Sys.tick, h]
    dsimp only
    split
    · rename_i e; cases e; exact absurd rfl (hr _)
    · rename_i e; cases e; simp
    · rename_i e; cases e
    · rename_i e; cases e
    · rename_i e; cases e
    · rename_i e; cases e
  · rw [Sys.moving, h]

theorem tick_asked (s : Sys α) {k : Nat} {a : View.Ans α} (h : s.phase k = .ask (.done a)) :
    (s.tick d isNil Js k).phase k = .set (!a.found) ∧ s.moving k = false := by
  rw [Sys.tick, Sys.moving, h]; simp

theorem tick_take (s : Sys α) {k i : Nat} {ab : Bool} (h : s.phase k = .set ab) (hi : s.base.pcs k = .store i) :
    (s.tick d isNil Js k).phase k = .took ab (some (s.base.mem i).core.data) ∧ s.moving k = false := by
  rw [Sys.tick, Sys.moving, h]; simp [hi]

theorem tick_move (s : Sys α) {k : Nat} {ab : Bool} (h : s.phase k = .set ab) (h1 : ∀ i, s.base.pcs k ≠ .store i)
    (h2 : s.base.pcs k ≠ .done) : (s.tick d isNil Js k).phase k = .set ab ∧ s.moving k = true := by
  rw [Sys.tick, Sys.moving, h]
  dsimp only
  split
  · rename_i e; exact absurd e (h1 _)
  · rename_i e; exact absurd e h2
  · refine ⟨h, ?_⟩
    split
    · rename_i e; exact absurd e (h1 _)
    · rename_i e; exact absurd e h2
    · rfl

theorem tick_took (s : Sys α) {k : Nat} {ab : Bool} {old : Option α} (h : s.phase k = .took ab old) :
    (s.tick d isNil Js k).phase k = .tell ab old ∧ s.moving k = true := by
  rw [Sys.tick, Sys.moving, h]; simp

theorem tick_tell (s : Sys α) {k : Nat} {ab : Bool} {old : Option α} (h : s.phase k = .tell ab old) :
    (s.tick d isNil Js k).phase k = .done ∧ (s.tick d isNil Js k).log = s.log ++ [(k, event isNil (Js k) ab old)] ∧
      s.moving k = false := by
  rw [Sys.tick, Sys.moving, h]; simp

theorem tick_log (s : Sys α) (k : Nat) : ∀ e ∈ s.log, e ∈ (s.tick d isNil Js k).log := by
  intro e he
  rw [Sys.tick]
  split <;> try exact he
  · split <;> exact he
  · exact List.mem_append_left _ he

variable (d isNil)

/-- `old` is the value of the key of goroutine `k` at a moment at which the goroutine makes a step and has not stored its value
yet. -/
def Moment (t : Tree α) (kvs : List (Str × α)) (S : List Nat) (k : Nat) (old : α) : Prop :=
  ∃ S1 S2 c, S = S1 ++ k :: S2 ∧ k ∉ stored d isNil (jobs t kvs) (sets t kvs) S1 ∧
    (after t (pick kvs (stored d isNil (jobs t kvs) (sets t kvs) S1))).contents (jobs t kvs k).key = some c ∧ c.data = old

/-- Where goroutine `k` stands after the schedule `S`, in which `B` are the steps of `insertInternal`. -/
def Fine (t : Tree α) (kvs : List (Str × α)) (N1 N2 : Nat) (S B : List Nat) (s : Sys α) (k : Nat) : Phase α → Prop
  | .ask r => s.base.pcs k ≠ .done ∧ ∃ V, writers V = B ∧ V.count none = S.count k ∧ S.count k ≤ N1 ∧
      r = (watch d (jobs t kvs) (start t kvs, .enter (jobs t kvs k).key t.root.id []) V).2
  | .set ab => s.base.pcs k ≠ .done ∧ ab = !present d t (jobs t kvs k).key ∧ S.count k ≤ N1 + 1 + B.count k
  | .took ab old => (∃ i, s.base.pcs k = .store i) ∧ ab = !present d t (jobs t kvs k).key ∧ S.count k ≤ N1 + 2 + B.count k ∧
      ∃ x, old = some x ∧ Moment d isNil t kvs S k x
  | .tell ab old => s.base.pcs k = .done ∧ ab = !present d t (jobs t kvs k).key ∧ S.count k ≤ N1 + 2 + N2 ∧
      ∃ x, old = some x ∧ Moment d isNil t kvs S k x
  | .done => s.base.pcs k = .done ∧ ∃ x, (k, event isNil (jobs t kvs k) (!present d t (jobs t kvs k).key) (some x)) ∈ s.log ∧
      Moment d isNil t kvs S k x

variable {d isNil}

theorem Moment.more {t : Tree α} {kvs : List (Str × α)} {S : List Nat} {k : Nat} {x : α} (h : Moment d isNil t kvs S k x) (l : Nat) :
    Moment d isNil t kvs (S ++ [l]) k x := by
  obtain ⟨S1, S2, c, e, r⟩ := h
  exact ⟨S1, S2 ++ [l], c, by rw [e]; simp, r⟩

theorem fine {t : Tree α} (h : t.OK) {kvs : List (Str × α)} (hr : Replaces t kvs) {k : Nat} (hk : k < kvs.length)
    (hp : t.ClearAt d kvs[k].1) : ∃ N1 N2,
      (∀ S, ((sets t kvs).run d isNil (jobs t kvs) S).base.pcs k ≠ .done →
        (moves d isNil (jobs t kvs) (sets t kvs) S).count k < N2) ∧
      ∀ S : List Nat, Fine d isNil t kvs N1 N2 S (moves d isNil (jobs t kvs) (sets t kvs) S) ((sets t kvs).run d isNil (jobs t kvs) S) k
        (((sets t kvs).run d isNil (jobs t kvs) S).phase k) := by
  have hkv := List.getElem?_eq_getElem hk
  have hkey : (jobs t kvs k).key = kvs[k].1 := by rw [jobs_key hkv]
  obtain ⟨N1, hN1⟩ := asks h hr kvs[k].1 hp
  obtain ⟨⟨N2, hN2⟩, _⟩ := own_ends h hr hk
  obtain ⟨c0, hc0, _⟩ := hr kvs[k] (List.getElem_mem hk)
  obtain ⟨m, hm, rfl⟩ := (Tree.contents_node h).mp hc0
  refine ⟨N1, N2, fun S hne => ?_, fun S => ?_⟩
  · rw [run_moves] at hne
    exact Nat.lt_of_not_le fun h' => hne (hN2 _ h')
  induction S using sched_ind with
  | h0 =>
    have : ((sets t kvs).run d isNil (jobs t kvs) []).phase k = .ask (.enter kvs[k].1 t.root.id []) := by
      simp only [Sys.run, sets, hkv]
    rw [this]
    refine ⟨?_, [], rfl, rfl, Nat.zero_le _, ?_⟩
    · simp only [Sys.run, sets, start, hkv]; nofun
    · rw [hkey]; rfl
  | h1 S l ih =>
    rw [Sys.run_append, moves_append]
    have hbase := run_moves d isNil (jobs t kvs) (sets t kvs) S
    have hI := invA h hr (moves d isNil (jobs t kvs) (sets t kvs) S)
    have hst := stored_moves d isNil (jobs t kvs) (sets t kvs) S
    rw [show (sets t kvs).base = start t kvs from rfl] at hbase hst
    rw [← hbase] at hI
    have hend := hN2 (moves d isNil (jobs t kvs) (sets t kvs) S)
    rw [← hbase] at hend
    have hfin := mem_finishes (jobs t kvs) (start t kvs) (moves d isNil (jobs t kvs) (sets t kvs) S) k
    rw [← hbase, ← hst] at hfin
    rw [← hst] at hI
    generalize hs : (sets t kvs).run d isNil (jobs t kvs) S = s at *
    generalize hB : moves d isNil (jobs t kvs) (sets t kvs) S = B at *
    show Fine d isNil t kvs N1 N2 (S ++ [l]) (B ++ moves d isNil (jobs t kvs) s [l]) (s.tick d isNil (jobs t kvs) l) k
      ((s.tick d isNil (jobs t kvs) l).phase k)
    have hmv : moves d isNil (jobs t kvs) s [l] = if s.moving l then [l] else [] := by simp [moves]
    rw [hmv]
    by_cases hlk : l = k
    · subst hlk
      have hcnt : (S ++ [l]).count l = S.count l + 1 := by simp
      cases hph : s.phase l with
      | ask r =>
        rw [hph] at ih
        obtain ⟨p1, V, v1, v2, v3, v4⟩ := ih
        by_cases hd : ∃ a, r = .done a
        · obtain ⟨a, rfl⟩ := hd
          obtain ⟨e1, e2⟩ := tick_asked (d := d) (isNil := isNil) (jobs t kvs) s hph
          rw [e1]
          refine ⟨?_, ?_, ?_⟩
          · rw [Sys.tick_base, e2]; exact p1
          · rw [hkey] at v4 ⊢
            rw [(hN1 V).2.2 a v4.symm]
          · rw [hcnt]; omega
        · obtain ⟨e1, e2⟩ := tick_ask (d := d) (isNil := isNil) (jobs t kvs) s hph (fun a e => hd ⟨a, e⟩)
          rw [e1]
          refine ⟨?_, V ++ [none], ?_, ?_, ?_, ?_⟩
          · rw [Sys.tick_base, e2]; exact p1
          · rw [← v1, e2]; simp [writers]
          · rw [hcnt, ← v2]; simp
          · rw [hcnt]
            rcases Nat.lt_or_ge (S.count l) N1 with h1 | h1
            · exact h1
            · rw [← v2] at h1
              obtain ⟨a, ha⟩ := (hN1 V).2.1 h1
              rw [hkey] at v4
              exact absurd ⟨a, v4.trans ha⟩ hd
          · rw [watch_append]
            generalize hw : watch d (jobs t kvs) (start t kvs, .enter (jobs t kvs l).key t.root.id []) V = w at v4
            obtain ⟨W, r'⟩ := w
            have hW := watch_world d (jobs t kvs) V (start t kvs) (.enter (jobs t kvs l).key t.root.id [])
            rw [hw, v1, ← hbase] at hW
            simp only at hW v4
            rw [hW, ← v4]
            rfl
      | set ab =>
        rw [hph] at ih
        obtain ⟨p1, p2, p3⟩ := ih
        by_cases hi : ∃ i, s.base.pcs l = .store i
        · obtain ⟨i, hi⟩ := hi
          obtain ⟨e1, e2⟩ := tick_take (d := d) (isNil := isNil) (jobs t kvs) s hph hi
          rw [e1]
          refine ⟨⟨i, ?_⟩, p2, ?_, _, rfl, S, [], ?_⟩
          · rw [Sys.tick_base, e2]; exact hi
          · rw [hcnt, e2]
            simp only [Bool.false_eq_true, if_false, List.append_nil]; omega
          · obtain rfl := (hI.where h hkv hm).2 i hi
            refine ⟨(s.base.mem m.id).core, rfl, fun hmem => p1 (hfin.mp hmem).2, ?_, rfl⟩
            rw [hI.contents h, hkey, (Tree.nodeAt_some h).mpr hm]; rfl
        · obtain ⟨e1, e2⟩ := tick_move (d := d) (isNil := isNil) (jobs t kvs) s hph (fun i e => hi ⟨i, e⟩) p1
          rw [e1]
          refine ⟨?_, p2, ?_⟩
          · rw [Sys.tick_base, e2]
            simp only [if_true, World.tick]
            intro hdone
            rcases step_done hdone with h1 | h1 | ⟨i, ks, h1⟩
            · exact p1 h1
            · exact hi h1
            · exact (hI.where h hkv hm).1 i ks h1
          · rw [hcnt, e2]; simp; omega
      | took ab old =>
        rw [hph] at ih
        obtain ⟨⟨i, hi⟩, p2, p3, x, hx, hmo⟩ := ih
        obtain ⟨e1, e2⟩ := tick_took (d := d) (isNil := isNil) (jobs t kvs) s hph
        rw [e1]
        refine ⟨?_, p2, ?_, x, hx, hmo.more _⟩
        · rw [Sys.tick_base, e2]
          simp [World.tick, hi, step]
        · rw [hcnt]
          rcases Nat.lt_or_ge (B.count l) N2 with h1 | h1
          · omega
          · rw [hend h1] at hi; cases hi
      | tell ab old =>
        rw [hph] at ih
        obtain ⟨p1, p2, p3, x, rfl, hmo⟩ := ih
        obtain ⟨e1, e2, e3⟩ := tick_tell (d := d) (isNil := isNil) (jobs t kvs) s hph
        rw [e1]
        refine ⟨?_, x, ?_, hmo.more _⟩
        · rw [Sys.tick_base, e3]; exact p1
        · rw [e2, p2]; simp
      | done =>
        rw [hph] at ih
        obtain ⟨p1, x, p2, p3⟩ := ih
        have : s.tick d isNil (jobs t kvs) l = s := by rw [Sys.tick, hph]
        rw [this, hph]
        exact ⟨p1, x, p2, p3.more _⟩
    · have hkl : k ≠ l := Ne.symm hlk
      rw [tick_other (jobs t kvs) s hkl]
      have hcnt : (S ++ [l]).count k = S.count k := by simp [List.count_append, hlk]
      have hcB : (B ++ if s.moving l then [l] else []).count k = B.count k := by
        split <;> simp [List.count_append, hlk]
      have hpc : (s.tick d isNil (jobs t kvs) l).base.pcs k = s.base.pcs k := by
        rw [Sys.tick_base]
        split
        · exact tick_pcs _ _ _ _ hkl
        · rfl
      generalize s.phase k = ph at ih
      cases ph with
      | ask r =>
        obtain ⟨p1, V, v1, v2, v3, v4⟩ := ih
        refine ⟨hpc ▸ p1, V ++ (if s.moving l then [some l] else []), ?_, ?_, hcnt ▸ v3, ?_⟩
        · rw [← v1, writers, List.filterMap_append]
          split <;> simp [writers]
        · rw [hcnt, ← v2]
          split <;> simp
        · rw [v4]
          split
          · rw [watch_append]; rfl
          · rw [List.append_nil]
      | set ab => exact ⟨hpc ▸ ih.1, ih.2.1, by rw [hcnt, hcB]; exact ih.2.2⟩
      | took ab old =>
        obtain ⟨⟨i, p1⟩, p2, p3, x, p4, p5⟩ := ih
        exact ⟨⟨i, hpc ▸ p1⟩, p2, by rw [hcnt, hcB]; exact p3, x, p4, p5.more _⟩
      | tell ab old =>
        obtain ⟨p1, p2, p3, x, p4, p5⟩ := ih
        exact ⟨hpc ▸ p1, p2, by rw [hcnt]; exact p3, x, p4, p5.more _⟩
      | done =>
        obtain ⟨p1, x, p2, p3⟩ := ih
        exact ⟨hpc ▸ p1, x, tick_log _ _ _ _ p2, p3.more _⟩

end Race
end Verif

import Verif.Lemmas.History
/-
C01, C02, C03, C04, C05, C06, C16: writing and reading single keys.

`Reach (NoRoute d) t`: `t` is the tree after any history of writing calls through any views, as long
as no inserted full path contains the delimiter `d` followed by ':' or '*' (route patterns).
-/
namespace Verif
variable {α : Type} [Inhabited α]

omit [Inhabited α] in
theorem keyOf_nospace {v : View} {p : Str} (h : ' ' ∉ v.full p) : keyOf v p = v.full p := by
  simp only [keyOf]
  conv => rhs; rw [← List.map_id (v.full p)]
  refine List.map_congr_left (fun c hc => ?_)
  have : c ≠ ' ' := fun e => h (e ▸ hc)
  simp [this]

theorem Reach.set {P : Str → Prop} {t : Tree α} (h : Reach P t) {v : View} {p : Str} (hk : P (keyOf v p)) (x : α) :
    Reach P (v.set t p x).1 :=
  .step (.set v p x) h (fun k e => by simp only [Op.key, Option.some.injEq] at e; rw [← e]; exact hk) rfl

/-- Facts about `Set` used below. -/
theorem set_spec {t : Tree α} (h : t.OK) (v : View) (p : Str) (x : α) :
    PutSpec t (v.set t p x).1 (keyOf v p) x (v.set t p x).2.old := View.insertAt_spec h _ x

theorem putCore_data {t : Tree α} {k : Str} {x : α} {c : Core α} (h : putCore t k x c) :
    c.hasData = true ∧ c.data = x := by
  simp only [putCore] at h
  split at h
  · subst h; exact ⟨rfl, rfl⟩
  · rcases h with ⟨rfl, _⟩ | ⟨_, _, _, _, _, rfl⟩ <;> exact ⟨rfl, rfl⟩

/-! ## C01 -/

/-- **C01** Read your own write, through any two views that name the same full path. -/
theorem C01_read_own_write {r v : View} {t : Tree α} (h : Reach (NoRoute r.delim) t) {p p' : Str}
    (hk : NoRoute r.delim (keyOf v p)) (hp : r.full p' = keyOf v p) (x : α) :
    r.mustGet (v.set t p x).1 p' = .ok x := by
  have h' := h.set hk x
  obtain ⟨c, h1, h2⟩ := (set_spec h.ok v p x).atKey
  rw [← hp] at h1
  rw [mustGet_hit h'.ok h'.plain (resolve_at h1), (putCore_data h2).1, (putCore_data h2).2]
  rfl

/-- **C01**, the everyday case: one view, no space in the path. -/
theorem C01_read_own_write_same {v : View} {t : Tree α} (h : Reach (NoRoute v.delim) t) {p : Str}
    (hs : ' ' ∉ v.full p) (hk : NoRoute v.delim (v.full p)) (x : α) :
    v.mustGet (v.set t p x).1 p = .ok x :=
  C01_read_own_write h (by rw [keyOf_nospace hs]; exact hk) (keyOf_nospace hs).symm x

/-- The restriction on spaces is needed: `Set` stores "a b" under "a-b", and `MustGet("a b")` is zero. -/
theorem C01_space_fails : ∃ (v : View) (p : Str), v.mustGet (v.set (Tree.new : Tree Nat) p 7).1 p = .ok 0 :=
  ⟨View.new '.', "a b".toList, by decide⟩

/-- The restriction to keys that are no route patterns is needed: for delimiter '/', after setting
"/:x" and then "/ab", reading "/ab" gives the value of the pattern. -/
theorem C01_route_fails : ∃ (v : View) (t : Tree Nat), (v.set Tree.new "/:x".toList 1).1 = t ∧
    v.mustGet (v.set t "/ab".toList 2).1 "/ab".toList = .ok 1 :=
  ⟨View.new '/', _, rfl, by decide⟩

/-! ## C02 -/

/-- **C02** `Set` leaves every answer at another path unchanged when that path has its own entry. -/
theorem C02_frame_entry {r v : View} {t : Tree α} (h : Reach (NoRoute r.delim) t) {p p2 : Str}
    (hk : NoRoute r.delim (keyOf v p)) (hne : r.full p2 ≠ keyOf v p) (x : α)
    {c : Core α} (hc : t.contents (r.full p2) = some c) :
    let t' := (v.set t p x).1
    r.query t' p2 = r.query t p2 ∧ r.mustGet t' p2 = r.mustGet t p2 ∧ r.get t' p2 = r.get t p2 ∧
    r.getDesc t' p2 = r.getDesc t p2 ∧ r.getComment t' p2 = r.getComment t p2 ∧ r.getTag t' p2 = r.getTag t p2 := by
  intro t'
  have h' := h.set hk x
  have h1 := (set_spec h.ok v p x).keep _ c hne hc
  have e : r.query t' p2 = r.query t p2 := by
    rw [query_hit h'.ok h'.plain (resolve_at h1), query_hit h.ok h.plain (resolve_at hc)]
  refine ⟨e, by simp only [View.mustGet, e], by simp only [View.get, e], ?_⟩
  exact meta_of_core (by rw [getNodeFast_hit h'.ok h'.plain (resolve_at h1), getNodeFast_hit h.ok h.plain (resolve_at hc)])

/-- **C02** A path without entry (under both spellings) stays without value. -/
theorem C02_frame_absent {r v : View} {t : Tree α} (h : Reach (NoRoute r.delim) t) (hm : r.mode ≠ .up) {p p2 : Str}
    (hk : NoRoute r.delim (keyOf v p)) (hne : r.full p2 ≠ keyOf v p) (hne' : r.full p2 ++ [r.delim] ≠ keyOf v p) (x : α)
    (hc : t.contents (r.full p2) = none) (hc' : t.contents (r.full p2 ++ [r.delim]) = none) :
    r.mustGet (v.set t p x).1 p2 = .ok default ∧ r.mustGet t p2 = .ok default := by
  have h' := h.set hk x
  have hs := set_spec h.ok v p x
  constructor
  · rw [mustGet_plain h'.ok h'.plain hm]
    have hnew : ∀ q c, q ≠ keyOf v p → t.contents q = none → (v.set t p x).1.contents q = some c → c.hasData = false := by
      intro q c h1 h2 h3
      obtain ⟨_, _, _, _, _, h4⟩ := hs.new q c h1 h2 h3
      rw [h4]; rfl
    cases hr : resolve r.delim (v.set t p x).1.contents (r.full p2) with
    | none => rfl
    | some y =>
      obtain ⟨q, c⟩ := y
      obtain ⟨h2, e | ⟨e, _⟩⟩ := resolve_cases hr
      · subst e; simp only [hnew _ c hne hc h2]; rfl
      · subst e; simp only [hnew _ c hne' hc' h2]; rfl
  · rw [mustGet_plain h.ok h.plain hm]
    have : resolve r.delim t.contents (r.full p2) = none := by
      simp only [resolve, hc, hc']; split <;> rfl
    rw [this]

/-- Without the condition the claim is false, first way: "a." holds 1, reading "a" gives 1 (trailing
delimiter spelling); setting the unrelated key "ab" makes "a" zero. -/
theorem C02_alias_fails : ∃ (v : View) (t : Tree Nat), t = (v.set Tree.new "a.".toList 1).1 ∧
    v.mustGet t "a".toList = .ok 1 ∧ v.mustGet (v.set t "ab".toList 2).1 "a".toList = .ok 0 :=
  ⟨View.new '.', _, rfl, by decide, by decide⟩

/-- Second way, `found`: with "app.debug" and "app.verbose", `Get("app")` is found (the branch "app.");
after setting "apple" it is not. -/
theorem C02_found_fails : ∃ (v : View) (t : Tree Nat),
    t = sets [(v, "app.debug".toList, 1), (v, "app.verbose".toList, 2)] Tree.new ∧
    v.get t "app".toList = .ok (0, true) ∧ v.get (v.set t "apple".toList 3).1 "app".toList = .ok (0, false) :=
  ⟨View.new '.', _, rfl, by decide, by decide⟩

/-! ## C03 -/

/-- **C03** Last write wins: after any history of `Set` calls through any views, a path that was set
reads as the last value assigned to it. -/
theorem C03_last_write_wins (h : List (View × Str × α)) (r : View)
    (hk : ∀ a ∈ h, NoRoute r.delim (keyOf a.1 a.2.1)) (p : Str) (x : α)
    (hx : lastWrite (assigns h) (r.full p) = some x) :
    r.mustGet (sets h Tree.new) p = .ok x := by
  have hr : Reach (NoRoute r.delim) (sets h (Tree.new : Tree α)) := Reach.new.sets h hk
  have D := sets_denotes h
  obtain ⟨c, hc⟩ := Option.isSome_iff_exists.mp ((D.dom (r.full p)).mpr (Dom.self (by rw [hx]; rfl)))
  have hv := D.val _ c x hc hx
  rw [mustGet_hit hr.ok hr.plain (resolve_at hc), hv.1, hv.2]; rfl

/-- **C03** A path that was never set (in neither spelling) reads as the zero value. -/
theorem C03_never_written (h : List (View × Str × α)) (r : View) (hm : r.mode ≠ .up)
    (hk : ∀ a ∈ h, NoRoute r.delim (keyOf a.1 a.2.1)) (p : Str)
    (hx : lastWrite (assigns h) (r.full p) = none) (hx' : lastWrite (assigns h) (r.full p ++ [r.delim]) = none) :
    r.mustGet (sets h Tree.new) p = .ok default := by
  have hr : Reach (NoRoute r.delim) (sets h (Tree.new : Tree α)) := Reach.new.sets h hk
  have D := sets_denotes h
  rw [mustGet_plain hr.ok hr.plain hm]
  cases hr : resolve r.delim (sets h (Tree.new : Tree α)).contents (r.full p) with
  | none => rfl
  | some y =>
    obtain ⟨q, c⟩ := y
    obtain ⟨h2, e | ⟨e, _⟩⟩ := resolve_cases hr
    · subst e; simp only [(D.noval _ c h2 hx).1]; rfl
    · subst e; simp only [(D.noval _ c h2 hx').1]; rfl

/-! ## C05, C06 -/

/-- **C05** `Has` is exact on every reachable tree without route patterns. -/
theorem C05_has_exact {v : View} {t : Tree α} (h : Reach (NoRoute v.delim) t) (hm : v.mode ≠ .up) (p : Str) :
    v.has t p = .ok true ↔
      v.full p = [] ∨ (t.contents (v.full p)).isSome ∨ (t.contents (v.full p ++ [v.delim])).isSome := by
  rw [has_plain h.ok h.plain hm]
  simp only [Except.ok.injEq, resolve]
  by_cases e : v.full p = []
  · simp only [e, Tree.contents_root h.ok, Option.isSome_some, true_or]
  · cases h1 : t.contents (v.full p) with
    | some c => simp
    | none => simp [e]

/-- `Has` answers (it neither panics nor hangs). -/
theorem C05_has_total {v : View} {t : Tree α} (h : Reach (NoRoute v.delim) t) (hm : v.mode ≠ .up) (p : Str) :
    ∃ b, v.has t p = .ok b := ⟨_, has_plain h.ok h.plain hm p⟩

/-- **C05** After `Set` calls only, the full paths are the set keys and their longest common prefixes. -/
theorem C05_paths (h : List (View × Str × α)) (q : Str) :
    ((sets h (Tree.new : Tree α)).contents q).isSome ↔
      q = [] ∨ ∃ k1 k2 x1 x2, (k1, x1) ∈ assigns h ∧ (k2, x2) ∈ assigns h ∧ q = lcp k1 k2 := by
  rw [(sets_denotes h).dom q]
  simp only [Dom, lastWrite_isSome]
  constructor
  · rintro (h | ⟨k1, k2, ⟨x1, h1⟩, ⟨x2, h2⟩, h3⟩)
    · exact .inl h
    · exact .inr ⟨k1, k2, x1, x2, h1, h2, h3⟩
  · rintro (h | ⟨k1, k2, x1, x2, h1, h2, h3⟩)
    · exact .inl h
    · exact .inr ⟨k1, k2, ⟨x1, h1⟩, ⟨x2, h2⟩, h3⟩

/-- **C05** for histories of `Set` calls, with no mention of the tree. -/
theorem C05_has_sets (h : List (View × Str × α)) (r : View) (hm : r.mode ≠ .up)
    (hk : ∀ a ∈ h, NoRoute r.delim (keyOf a.1 a.2.1)) (p : Str) :
    r.has (sets h (Tree.new : Tree α)) p = .ok true ↔
      r.full p = [] ∨ ∃ k1 k2 x1 x2, (k1, x1) ∈ assigns h ∧ (k2, x2) ∈ assigns h ∧
        (r.full p = lcp k1 k2 ∨ r.full p ++ [r.delim] = lcp k1 k2) := by
  have hr : Reach (NoRoute r.delim) (sets h (Tree.new : Tree α)) := Reach.new.sets h hk
  rw [C05_has_exact hr hm, C05_paths, C05_paths]
  constructor
  · rintro (h | (h | ⟨k1, k2, x1, x2, h1, h2, h3⟩) | (h | ⟨k1, k2, x1, x2, h1, h2, h3⟩))
    · exact .inl h
    · exact .inl h
    · exact .inr ⟨k1, k2, x1, x2, h1, h2, .inl h3⟩
    · simp at h
    · exact .inr ⟨k1, k2, x1, x2, h1, h2, .inr h3⟩
  · rintro (h | ⟨k1, k2, x1, x2, h1, h2, h3 | h3⟩)
    · exact .inl h
    · exact .inr (.inl (.inr ⟨k1, k2, x1, x2, h1, h2, h3⟩))
    · exact .inr (.inr (.inr ⟨k1, k2, x1, x2, h1, h2, h3⟩))

/-- `Has` does not do what its documentation says: a path that is only a partial component is
reported when it happens to be a branching point. -/
theorem C05_doc_fails : ∃ v : View,
    v.has (sets [(v, "app.lite-mode".toList, 1), (v, "app.logging".toList, 2)] (Tree.new : Tree Nat)) "app.l".toList = .ok true :=
  ⟨View.new '.', by decide⟩

/-- **C06** Insertion order does not matter: two `Set` histories with the same final assignment
answer `MustGet` and `Has` alike, for every path. -/
theorem C06_order_irrelevant (h1 h2 : List (View × Str × α)) (r : View) (hm : r.mode ≠ .up)
    (hk1 : ∀ a ∈ h1, NoRoute r.delim (keyOf a.1 a.2.1)) (hk2 : ∀ a ∈ h2, NoRoute r.delim (keyOf a.1 a.2.1))
    (he : ∀ q, lastWrite (assigns h1) q = lastWrite (assigns h2) q) (p : Str) :
    r.mustGet (sets h1 Tree.new) p = r.mustGet (sets h2 Tree.new) p ∧
    r.has (sets h1 (Tree.new : Tree α)) p = r.has (sets h2 Tree.new) p := by
  have r1 : Reach (NoRoute r.delim) (sets h1 (Tree.new : Tree α)) := Reach.new.sets h1 hk1
  have r2 : Reach (NoRoute r.delim) (sets h2 (Tree.new : Tree α)) := Reach.new.sets h2 hk2
  have D1 := sets_denotes h1
  have D2 := sets_denotes h2
  have hfun : lastWrite (assigns h1) = lastWrite (assigns h2) := funext he
  rw [hfun] at D1
  generalize sets h1 (Tree.new : Tree α) = t1 at *
  generalize sets h2 (Tree.new : Tree α) = t2 at *
  -- data of an entry, as a function of the path
  have key : ∀ q, (t1.contents q).map (fun c => (c.hasData, c.data)) = (t2.contents q).map (fun c => (c.hasData, c.data)) := by
    intro q
    have e1 := D1.dom q
    have e2 := D2.dom q
    cases c1 : t1.contents q with
    | none =>
      cases c2 : t2.contents q with
      | none => rfl
      | some c => rw [c1] at e1; rw [c2] at e2; simp at e1 e2; exact absurd e2 e1
    | some a =>
      cases c2 : t2.contents q with
      | none => rw [c1] at e1; rw [c2] at e2; simp at e1 e2; exact absurd e1 e2
      | some b =>
        simp only [Option.map_some, Option.some.injEq, Prod.mk.injEq]
        cases hx : lastWrite (assigns h2) q with
        | some x =>
          have := D1.val q a x c1 hx; have := D2.val q b x c2 hx; simp_all
        | none =>
          have := D1.noval q a c1 hx; have := D2.noval q b c2 hx; simp_all
  have hres : (resolve r.delim t1.contents (r.full p)).map (fun x => (x.1, x.2.hasData, x.2.data)) =
      (resolve r.delim t2.contents (r.full p)).map (fun x => (x.1, x.2.hasData, x.2.data)) := by
    have := resolve_map r.delim t1.contents (fun c => (c.hasData, c.data)) (r.full p)
    rw [← this, ← resolve_map r.delim t2.contents (fun c => (c.hasData, c.data)) (r.full p)]
    congr 1
    funext q; exact key q
  constructor
  · rw [mustGet_plain r1.ok r1.plain hm, mustGet_plain r2.ok r2.plain hm]
    revert hres
    cases resolve r.delim t1.contents (r.full p) <;> cases resolve r.delim t2.contents (r.full p) <;>
      simp only [Option.map_none, Option.map_some, reduceCtorEq, false_implies, Option.some.injEq, Prod.mk.injEq, implies_true]
    rintro ⟨_, h2, h3⟩
    rw [h2, h3]
  · rw [has_plain r1.ok r1.plain hm, has_plain r2.ok r2.plain hm]
    have := congrArg Option.isSome hres
    simp only [Option.isSome_map] at this
    rw [this]

/-! ## C04 -/

/-- The property as wished for fails: after `Set("apple", 1)` and `Set("app", 2)`, `Get("app")` is
`(2, false)`. -/
theorem C04_found_fails : ∃ (v : View) (t : Tree Nat), t = (v.set Tree.new "apple".toList 1).1 ∧
    v.get (v.set t "app".toList 2).1 "app".toList = .ok (2, false) :=
  ⟨View.new '.', _, rfl, by decide⟩

/-- **C04** What holds: after `Set(k, x)`, `Get(k)` returns `x`, and `found` is true exactly when the
full path ends with the delimiter, or it had a leaf entry before, or it had no entry and no stored path extends it. -/
theorem C04_found_partial {v : View} {t : Tree α} (h : Reach (NoRoute v.delim) t) {p : Str}
    (hs : ' ' ∉ v.full p) (hk : NoRoute v.delim (v.full p)) (x : α) :
    ∃ found, v.get (v.set t p x).1 p = .ok (x, found) ∧
      (found = true ↔ endsW v.delim (v.full p) = true ∨ (∃ c0, t.contents (v.full p) = some c0 ∧ c0.leaf = true) ∨
        (t.contents (v.full p) = none ∧ ∀ q c0, t.contents q = some c0 → ¬ v.full p <+: q)) := by
  have e := keyOf_nospace hs
  have h' := h.set (v := v) (p := p) (by rw [e]; exact hk) x
  obtain ⟨c, h1, h2⟩ := (set_spec h.ok v p x).atKey
  rw [e] at h1 h2
  refine ⟨c.leaf || endsW v.delim (v.full p), ?_, ?_⟩
  · rw [get_hit h'.ok h'.plain (resolve_at h1), (putCore_data h2).1, (putCore_data h2).2]; rfl
  · simp only [putCore] at h2
    cases h0 : t.contents (v.full p) with
    | some c0 =>
      rw [h0] at h2
      simp only at h2
      subst h2
      simp [Or.comm]
    | none =>
      rw [h0] at h2
      rcases h2 with ⟨rfl, h3⟩ | ⟨q, c0, h3, h4, h5, rfl⟩
      · simp only [Node.leafCore, Bool.true_or, true_iff]
        exact .inr (.inr ⟨trivial, h3⟩)
      · simp only [Node.cutCore, Core.zero, Bool.false_or, reduceCtorEq, false_and, exists_false, true_and, false_or]
        constructor
        · exact .inl
        · rintro (h6 | h6)
          · exact h6
          · exact absurd h4 (h6 q c0 h3)

/-- The leaf bit never changes under `Set`. -/
theorem leaf_const (h : List (View × Str × α)) {t : Tree α} (hok : t.OK) {q : Str} {c : Core α} (hc : t.contents q = some c) :
    ∃ c', (sets h t).contents q = some c' ∧ c'.leaf = c.leaf ∧ (sets h t).OK := by
  induction h using snocInd with
  | h0 => exact ⟨c, hc, rfl, hok⟩
  | h1 l a ih =>
    obtain ⟨c1, h1, h2, h3⟩ := ih
    rw [sets_snoc]
    have hs := View.insertAt_spec h3 (keyOf a.1 a.2.1) a.2.2
    have hok' := View.insertAt_ok h3 (keyOf a.1 a.2.1) a.2.2
    by_cases e : q = keyOf a.1 a.2.1
    · obtain ⟨c2, h4, h5⟩ := hs.atKey
      rw [← e] at h4 h5
      simp only [putCore, h1] at h5
      rw [e] at h4
      exact ⟨c2, by rw [e]; exact h4, by rw [h5]; exact h2, hok'⟩
    · exact ⟨c1, hs.keep q c1 e h1, h2, hok'⟩

/-- **C04** over whole histories: a set path is reported as found exactly when it ends with the
delimiter, or it is not empty and no key set before its first `Set` starts with it. -/
theorem C04_found_history_partial (h1 h2 : List (View × Str × α)) (v : View) (k : Str) (x : α) (r : View)
    (hk : ∀ a ∈ h1 ++ (v, k, x) :: h2, NoRoute r.delim (keyOf a.1 a.2.1))
    (hfirst : ∀ y, (keyOf v k, y) ∉ assigns h1) (p : Str) (hp : r.full p = keyOf v k) :
    ∃ y found, r.get (sets (h1 ++ (v, k, x) :: h2) Tree.new) p = .ok (y, found) ∧
      (found = true ↔ endsW r.delim (keyOf v k) = true ∨
        (keyOf v k ≠ [] ∧ ∀ k' y', (k', y') ∈ assigns h1 → ¬ keyOf v k <+: k')) := by
  have hr : Reach (NoRoute r.delim) (sets (h1 ++ (v, k, x) :: h2) (Tree.new : Tree α)) := Reach.new.sets _ hk
  have D := sets_denotes h1
  have hsplit : sets (h1 ++ (v, k, x) :: h2) (Tree.new : Tree α) = sets h2 (View.insertAt (sets h1 Tree.new) (keyOf v k) x).1 := by
    have : h1 ++ (v, k, x) :: h2 = (h1 ++ [(v, k, x)]) ++ h2 := by simp
    rw [this]
    simp only [sets, List.foldl_append, List.foldl_cons, List.foldl_nil]
    rfl
  have hs := View.insertAt_spec D.ok (keyOf v k) x
  have hok1 := View.insertAt_ok D.ok (keyOf v k) x
  obtain ⟨c, hc, hput⟩ := hs.atKey
  obtain ⟨c', hc', hl, _⟩ := leaf_const h2 hok1 hc
  rw [← hsplit] at hc'
  rw [← hp] at hc'
  refine ⟨_, _, get_hit hr.ok hr.plain (resolve_at hc'), ?_⟩
  rw [hl, hp]
  have hnone : lastWrite (assigns h1) (keyOf v k) = none := (lastWrite_none ..).mpr hfirst
  -- the stored paths that extend the key are set keys that extend it, up to further extension
  have hext : (∀ q c0, (sets h1 (Tree.new : Tree α)).contents q = some c0 → ¬ keyOf v k <+: q) ↔
      (keyOf v k ≠ [] ∧ ∀ k' y', (k', y') ∈ assigns h1 → ¬ keyOf v k <+: k') := by
    constructor
    · intro H
      refine ⟨fun e => H [] _ (Tree.contents_root D.ok) (by rw [e]; exact List.nil_prefix), ?_⟩
      intro k' y' hk' hpre
      obtain ⟨c0, hc0⟩ := Option.isSome_iff_exists.mp ((D.dom k').mpr (Dom.self ((lastWrite_isSome ..).mpr ⟨y', hk'⟩)))
      exact H k' c0 hc0 hpre
    · rintro ⟨hne, H⟩ q c0 hq hpre
      rcases (D.dom q).mp (by rw [hq]; rfl) with e | ⟨k1, k2, hk1, _, e⟩
      · rw [e, List.prefix_nil] at hpre; exact hne hpre
      · obtain ⟨y', hy'⟩ := (lastWrite_isSome ..).mp hk1
        exact H k1 y' hy' (hpre.trans (e ▸ lcp_prefix_left k1 k2))
  rw [← hext]
  simp only [putCore] at hput
  cases h0 : (sets h1 (Tree.new : Tree α)).contents (keyOf v k) with
  | some c0 =>
    rw [h0] at hput
    simp only at hput
    subst hput
    have := (D.noval _ c0 h0 hnone).2.2
    simp only [this, Bool.false_or]
    constructor
    · exact .inl
    · rintro (h | h)
      · exact h
      · exact absurd List.prefix_rfl (h _ _ h0)
  | none =>
    rw [h0] at hput
    rcases hput with ⟨rfl, h3⟩ | ⟨q, c0, h3, h4, h5, rfl⟩
    · simp only [Node.leafCore, Bool.true_or, true_iff]
      exact .inr h3
    · simp only [Node.cutCore, Core.zero, Bool.false_or]
      constructor
      · exact .inl
      · rintro (h6 | h6)
        · exact h6
        · exact absurd h4 (h6 q c0 h3)

/-! ## C16 -/

/-- Entries without data bit hold the zero value. -/
theorem noData_zero {P : Str → Prop} : EntryInv (α := α) P (fun _ c => c.hasData = false → c.data = default) := by
  refine ⟨fun _ => rfl, ?_, ?_, ?_, ?_, fun _ _ _ h => h⟩
  · intro k x _ h; simp [Node.leafCore] at h
  · intros; rfl
  · intro q c x _ h; simp at h
  · intro q c o h
    cases o <;> simp_all [NodeOp.app, emptyCore]

/-- **C16** `Set` returns as old value what `MustGet` returned before, if the path had an entry ... -/
theorem C16_old_value {v : View} {t : Tree α} (h : Reach (NoRoute v.delim) t) {p : Str}
    (hs : ' ' ∉ v.full p) {c0 : Core α} (hc : t.contents (v.full p) = some c0) (x : α) :
    ∃ y, (v.set t p x).2.old = some y ∧ v.mustGet t p = .ok y := by
  have e := keyOf_nospace hs
  have h1 := (set_spec h.ok v p x).oldHit c0 (by rw [e]; exact hc)
  refine ⟨c0.data, h1, ?_⟩
  rw [mustGet_hit h.ok h.plain (resolve_at hc)]
  cases hd : c0.hasData with
  | true => rfl
  | false =>
    have := (h.inv (noData_zero)).2 _ c0 hc hd
    rw [this]; rfl

/-- ... nil if neither the path nor an extension of it was stored, and the zero value if only
extensions were stored. -/
theorem C16_old_value_new {v : View} {t : Tree α} (h : Reach (NoRoute v.delim) t) {p : Str}
    (hs : ' ' ∉ v.full p) (hc : t.contents (v.full p) = none) (x : α) :
    ((∀ q c0, t.contents q = some c0 → ¬ v.full p <+: q) → (v.set t p x).2.old = none) ∧
    (∀ q c0, t.contents q = some c0 → v.full p <+: q → (v.set t p x).2.old = some default) := by
  have e := keyOf_nospace hs
  have hs' := set_spec h.ok v p x
  rw [e] at hs'
  exact ⟨hs'.oldNew hc, fun q c0 => hs'.oldSplit q c0 hc⟩

/-! ## Examples: the hypotheses are met by non-trivial states -/

section examples
def exV : View := View.new '.'
def exW : View := exV.withPrefix ["app".toList]
def exH : List (View × Str × Nat) :=
  [(exV, "app.debug".toList, 1), (exW, "verbose".toList, 2), (exV, "apple".toList, 3), (exW, "debug".toList, 4)]

theorem noRoute_of_no {d : Char} {p : Str} (h : d ∉ p) : NoRoute d p := by
  intro u c v e; exact absurd (e ▸ (by simp : d ∈ u ++ d :: c :: v)) h

theorem noRoute_of_plain {d : Char} {p : Str} (h : ':' ∉ p) (h' : '*' ∉ p) : NoRoute d p := by
  intro u c v e
  have hc : c ∈ p := e ▸ (by simp : c ∈ u ++ d :: c :: v)
  exact ⟨fun e => h (e ▸ hc), fun e => h' (e ▸ hc)⟩

theorem exH_plain : ∀ a ∈ exH, NoRoute exV.delim (keyOf a.1 a.2.1) := by
  intro a ha
  simp only [exH, List.mem_cons, List.not_mem_nil, or_false] at ha
  rcases ha with rfl | rfl | rfl | rfl <;> exact noRoute_of_plain (by decide) (by decide)

example : exV.mustGet (sets exH Tree.new) "app.debug".toList = .ok 4 :=
  C03_last_write_wins exH exV exH_plain _ _ (by decide)
example : exW.mustGet (sets exH Tree.new) "verbose".toList = .ok 2 := by decide
example : exV.has (sets exH (Tree.new : Tree Nat)) "app".toList = .ok true := by decide
example : exV.mustGet (sets exH Tree.new) "nope".toList = .ok 0 :=
  C03_never_written exH exV (by decide) exH_plain _ (by decide) (by decide)
example : exV.mustGet (exV.set (sets exH Tree.new) "app.x".toList 9).1 "app.x".toList = .ok 9 :=
  C01_read_own_write_same (Reach.new.sets exH exH_plain) (by decide) (noRoute_of_plain (by decide) (by decide)) 9
example : exV.mustGet (exV.set (sets exH Tree.new) "app.x".toList 9).1 "apple".toList =
    exV.mustGet (sets exH Tree.new) "apple".toList :=
  (C02_frame_entry (r := exV) (v := exV) (p2 := "apple".toList) (Reach.new.sets exH exH_plain)
    (noRoute_of_plain (by decide) (by decide)) (by decide) 9
    (c := ((sets exH Tree.new).contents "apple".toList).getD Core.zero) (by decide)).2.1
example : (exV.set (sets exH Tree.new) "app.debug".toList 9).2.old = some 4 := by decide
example : (exV.set (sets exH Tree.new) "app.debug.x".toList 9).2.old = none := by decide
example : (exV.set (sets exH Tree.new) "app.de".toList 9).2.old = some 0 := by decide
example : exV.get (exV.set (sets exH Tree.new) "app.de".toList 9).1 "app.de".toList = .ok (9, false) := by decide
example : exV.get (exV.set (sets exH Tree.new) "zzz".toList 9).1 "zzz".toList = .ok (9, true) := by decide
end examples

end Verif

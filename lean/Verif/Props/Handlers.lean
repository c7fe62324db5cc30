import Verif.Props.Load
/-
C27 change handlers, C28 modified marks, C36 watched changes.
-/
namespace Verif
variable {α κ : Type}
namespace Store

/-! ## C27 -/

/-- Every registered (non-nil) handler once, in order of registration. -/
def calls (hs : List (Option Nat)) (f : Nat → Event (Any α κ)) : List (Event (Any α κ)) :=
  (hs.filterMap id).map f

theorem calls_eq (hs : List (Option Nat)) (f : Nat → Event (Any α κ)) :
    hs.filterMap (fun cb => cb.map f) = calls hs f := by
  induction hs with
  | nil => rfl
  | cons a hs ih => cases a <;> simp_all [calls]

theorem isNil_iff {x : Any α κ} : x.isNil = true ↔ x = .nil := by
  cases x <;> simp [Any.isNil]

/-- **C27** `Set(k, v)` calls every new-handler exactly once and no other handler, if `Get(k)` was not found and (unless
the store is loading) the entry had no data; else every change-handler exactly once, with the old data, and
no other handler. The flag passed is "not loading". -/
theorem C27_set {s s' : Store α κ} {p : Str} {x old : Any α κ} {ev : List (Event (Any α κ))}
    (e : s.set p x = .ok (s', ev, old)) :
    ∃ y found, s.get p = .ok (y, found) ∧
      ((found = false ∧ (s.loading = true ∨ old = .nil) ∧ ev = calls s.hs.onNew (fun h => .new h p x (!s.loading))) ∨
       ((found = true ∨ (s.loading = false ∧ old ≠ .nil)) ∧
          ev = calls s.hs.onChange (fun h => .change h p x old (!s.loading)))) := by
  simp only [set] at e
  cases hq : s.view.query s.tree p with
  | error e' => rw [hq] at e; simp at e
  | ok a =>
    rw [hq] at e
    simp only [Except.ok.injEq, setKV, Prod.mk.injEq] at e
    obtain ⟨_, e2, e3⟩ := e
    refine ⟨a.data, a.found, by simp [get, View.get, hq], ?_⟩
    rw [← e3, ← e2]
    generalize ((s.view.set s.tree p x).2.old.getD .nil) = old
    simp only [tryOnSet, calls_eq]
    have hnil := isNil_iff (x := old)
    cases hf : a.found <;> cases hl : s.loading <;> cases ho : old.isNil <;> simp [ho] at hnil <;> simp [hnil]

/-- The data of `Get` is what `Trie.MustGet` answers. -/
theorem get_of_mustGet {s : Store α κ} {p : Str} {x : Any α κ} (h : s.view.mustGet s.tree p = .ok x) :
    ∃ f, s.get p = .ok (x, f) := by
  simp only [View.mustGet, get, View.get] at h ⊢
  cases hq : s.view.query s.tree p with
  | error e => rw [hq] at h; cases h
  | ok a =>
    rw [hq] at h
    simp only [Except.ok.injEq] at h ⊢
    refine ⟨a.found, ?_⟩
    rw [← h]
    by_cases hf : (!a.found && !a.branch) = true
    · rw [if_pos hf]
      simp only [View.query] at hq
      unfold View.queryKV at hq
      cases hs : s.view.search s.tree (s.view.full p) with
      | error e => rw [hs] at hq; cases hq
      | ok r =>
        rw [hs] at hq
        obtain ⟨n, par, pm, kv⟩ := r
        cases n <;> cases pm <;> (cases hq; first | rfl | skip)
        simp only [Bool.and_eq_true, Bool.not_eq_true'] at hf
        simp [hf.2] at hf
    · rw [if_neg hf]

/-- **C27** The old data reported: the data that `Get(k)` answered if `k` has an entry, nil if it has none. -/
theorem C27_old {s s' : Store α κ} (h : Reach (NoRoute s.view.delim) s.tree) {p : Str} (hsp : ' ' ∉ s.view.full p)
    {x old : Any α κ} {ev : List (Event (Any α κ))} (e : s.set p x = .ok (s', ev, old)) :
    (s.tree.contents (s.view.full p) = none → old = .nil) ∧
    ((s.tree.contents (s.view.full p)).isSome → ∃ f, s.get p = .ok (old, f)) := by
  simp only [set] at e
  cases hq : s.view.query s.tree p with
  | error e' => rw [hq] at e; simp at e
  | ok a =>
    rw [hq] at e
    simp only [Except.ok.injEq, setKV, Prod.mk.injEq] at e
    obtain ⟨_, _, e3⟩ := e
    have hs := set_spec h.ok s.view p x
    rw [keyOf_nospace hsp] at hs
    constructor
    · intro hc
      rw [← e3]
      by_cases hx : ∃ q c0, s.tree.contents q = some c0 ∧ s.view.full p <+: q
      · obtain ⟨q, c0, h1, h2⟩ := hx
        rw [hs.oldSplit q c0 hc h1 h2]; rfl
      · rw [hs.oldNew hc (fun q c0 h1 h2 => hx ⟨q, c0, h1, h2⟩)]; rfl
    · intro hc
      obtain ⟨c, hc⟩ := Option.isSome_iff_exists.mp hc
      refine get_of_mustGet ?_
      rw [← e3, hs.oldHit c hc, mustGet_hit h.ok h.plain (resolve_at hc)]
      cases hd : c.hasData with
      | true => rfl
      | false => rw [(h.inv noData_zero).2 _ _ hc hd]; rfl

/-- **C27** `Remove(k)` calls every delete-handler exactly once, with the removed data, if it returns true; otherwise it calls
none and changes nothing. -/
theorem C27_remove {s s' : Store α κ} (h : Reach (NoRoute s.view.delim) s.tree) (hm : s.view.mode ≠ .up) {p : Str}
    {b : Bool} {ev : List (Event (Any α κ))} (e : s.remove p = .ok (s', ev, b)) :
    (b = true → ∃ x f, s.get p = .ok (x, f) ∧ ev = calls s.hs.onDelete (fun h => .delete h p x (!s.loading))) ∧
    (b = false → ev = [] ∧ s' = s) ∧
    (b = true ↔ s.view.full p ≠ [] ∧ s.view.has s.tree p = .ok true) := by
  obtain ⟨t', b', h1, h2, h3⟩ := C08_remove_iff_has h hm p
  simp only [remove] at e
  simp only [View.remove] at h1
  cases hq : s.view.removeEx s.tree p with
  | error e' => rw [hq] at e; simp at e
  | ok a =>
    rw [hq] at h1 e
    obtain ⟨t1, r⟩ := a
    simp only [Except.ok.injEq, Prod.mk.injEq] at h1
    obtain ⟨rfl, rfl⟩ := h1
    cases r with
    | none =>
      simp only [Except.ok.injEq, Prod.mk.injEq] at e
      obtain ⟨rfl, rfl, rfl⟩ := e
      refine ⟨by simp, fun _ => ⟨rfl, ?_⟩, h2⟩
      rw [h3 rfl]
    | some y =>
      obtain ⟨n, pr⟩ := y
      simp only [Except.ok.injEq, Prod.mk.injEq] at e
      obtain ⟨rfl, rfl, rfl⟩ := e
      obtain ⟨f, hf⟩ := get_of_mustGet (C08_removed_node h hm hq)
      refine ⟨fun _ => ⟨n.core.data, f, hf, ?_⟩, by simp, h2⟩
      simp only [tryOnDelete, calls_eq]

/-- The deviation from the documentation: handlers are told `mergingMapOrLoading = true` exactly when the store is
neither merging nor loading. -/
theorem C27_flag_fails : ∃ s : S0, s = Store.new '.' false ⟨[some 1], [], []⟩ ∧
    ∃ s' old, s.set "a".toList (.atom 7) = .ok (s', [.new 1 "a".toList (.atom 7) true], old) ∧ s.loading = false := by
  refine ⟨_, rfl, _, _, rfl, rfl⟩

/-- Handlers are never called for writes through prefix views, merges of maps, or loads of maps. -/
theorem C27_silent_views (s : Store α κ) (ps : List Str) (p : Str) (x : Any α κ) {s' : Store α κ} {ev old}
    (e : (s.withPrefix ps).set p x = .ok (s', ev, old)) : ev = [] := by
  simp only [set] at e
  split at e
  · simp at e
  · simp only [Except.ok.injEq] at e
    have := dupS_events s (s.view.withPrefix ps) p x
    rw [withPrefix] at e
    have h1 := congrArg (fun r => r.2.1) e
    simp only [this] at h1
    exact h1.symm

theorem C27_silent_merge (str : κ → Str) (s : Store α κ) (pos : Str) (m : SMap α κ) (hne : s.flatten = true → keysNEM str m) :
    (s.merge str pos m).2 = [] := by rw [C29_merge_is_sets str s pos m hne]

/-- Loading from a stream provider reports every pair to the new-handlers, also the ones that overwrite. -/
theorem C27_stream_fails : ∃ s : S0, s = Store.new '.' false ⟨[some 1], [some 2], []⟩ ∧
    let s1 := (s.setKV "a".toList (.atom 7) true []).1
    (s1.load itoa none none (.stream [("a".toList, .atom 8)] none)).2.1.map
      (fun e => match e with | .new h _ _ _ => (h, 0) | .change h _ _ _ _ => (h, 1) | .delete h _ _ _ => (h, 2)) = [(1, 0)] := by
  refine ⟨_, rfl, by decide +kernel⟩

/-! ## C28 -/

/-- The modified mark of the entry at a full path. -/
def mark (s : Store α κ) (q : Str) : Option Bool := (s.tree.contents q).map (·.modified)

theorem set_store {s s' : Store α κ} {p : Str} {x old : Any α κ} {ev} (e : s.set p x = .ok (s', ev, old)) :
    s' = { s with tree := putTree (!s.loading) s.tree (View.dash (s.view.full p)) x } := by
  simp only [set] at e
  split at e
  · simp at e
  · simp only [Except.ok.injEq] at e
    have := congrArg (·.1) e
    simp only at this
    rw [← this, setKV_eq _ _ _ _ _ (.inr rfl)]

/-- **C28** After `Set(k, v)` outside of loading the entry of `k` is marked modified; inside of loading an existing mark is
kept and a new entry is unmarked. No other entry's mark changes, and entries created on the way are unmarked. -/
theorem C28_set_mark {s s' : Store α κ} (h : s.tree.OK) {p : Str} {x old : Any α κ} {ev}
    (e : s.set p x = .ok (s', ev, old)) :
    s'.mark (keyOf s.view p) = some (!s.loading || (s.mark (keyOf s.view p)).getD false) ∧
    ∀ q, q ≠ keyOf s.view p → s'.mark q = s.mark q ∨ (s.mark q = none ∧ s'.mark q = some false) := by
  have hs := putTree_spec h (!s.loading) (View.dash (s.view.full p)) x
  rw [set_store e]
  change PutsSpec _ _ _ [(keyOf s.view p, x)] at hs
  constructor
  · obtain ⟨c, h1, _, _, h4⟩ := hs.val (keyOf s.view p) x (by simp [lastWrite])
    simp only [mark]
    change (Tree.contents (putTree _ _ (View.dash (s.view.full p)) _) _).map _ = _
    rw [h1]
    simp only [Option.map_some, h4, markAfter]
    cases s.tree.contents (keyOf s.view p) <;> simp
  · intro q hq
    have hl : lastWrite [(keyOf s.view p, x)] q = none := by simp [lastWrite, Ne.symm hq]
    simp only [mark]
    cases hc : s.tree.contents q with
    | some c => left; rw [hs.keep q c hl hc]
    | none =>
      cases hc' : (putTree (!s.loading) s.tree (View.dash (s.view.full p)) x).contents q with
      | none => left; rfl
      | some c' => right; simp [(hs.new q c' hl hc hc').2.2.1]

/-- **C28** `Merge` marks exactly the entries it writes; `Load` marks none. -/
theorem C28_merge_mark (str : κ → Str) {s : Store α κ} (h : s.tree.OK) (pos : Str) (m : SMap α κ)
    (hne : s.flatten = true → keysNEM str m) (hs : s.loading = false) :
    (∀ l x, IsLeaf s.flatten str m l x → (s.merge str pos m).1.mark (leafKey s.view.delim pos l) = some true) ∧
    ∀ q, (∀ l x, IsLeaf s.flatten str m l x → q ≠ leafKey s.view.delim pos l) →
      (s.merge str pos m).1.mark q = s.mark q ∨ (s.mark q = none ∧ (s.merge str pos m).1.mark q = some false) := by
  rw [C29_merge_is_sets str s pos m hne]
  have hp := putTrees_spec h (!s.loading) (leafPuts s.view.delim pos (leavesM s.flatten str m))
  constructor
  · intro l x hx
    have : (lastWrite (leafPuts s.view.delim pos (leavesM s.flatten str m)) (leafKey s.view.delim pos l)).isSome :=
      (lastWrite_isSome _ _).mpr ⟨x, mem_leafPuts.mpr ⟨l, hx, rfl⟩⟩
    obtain ⟨y, hy⟩ := Option.isSome_iff_exists.mp this
    obtain ⟨c, h1, _, _, h4⟩ := hp.val _ _ hy
    simp only [mark, h1, Option.map_some, h4, markAfter]
    simp [hs]
  · intro q hq
    have hl : lastWrite (leafPuts s.view.delim pos (leavesM s.flatten str m)) q = none := by
      rw [lastWrite_none]
      intro x hx
      obtain ⟨l, h1, h2⟩ := mem_leafPuts.mp hx
      exact hq l x h1 h2
    simp only [mark]
    cases hc : s.tree.contents q with
    | some c => left; rw [hp.keep q c hl hc]
    | none =>
      cases hc' : (putTrees (!s.loading) s.tree (leafPuts s.view.delim pos (leavesM s.flatten str m))).contents q with
      | none => left; rfl
      | some c' => right; simp [(hp.new q c' hl hc hc').2.2.1]

theorem C28_load_mark (str : κ → Str) {s : Store α κ} (h : s.tree.OK) (hs : s.loading = false)
    (prefix' : Option Str) (flat : Option Bool) (src : Source α κ) {L : List (List Str × Any α κ)}
    (hL : src.leaves (flat.getD s.flatten) str = some L) (hne : flat.getD s.flatten = true → src.NE str) (q : Str) :
    (s.load str prefix' flat src).1.mark q = s.mark q ∨
      (s.mark q = none ∧ (s.load str prefix' flat src).1.mark q = some false) := by
  obtain ⟨s', e, ht, -⟩ := C29_load_is_sets str s hs prefix' flat src hL hne
  rw [e]
  simp only [mark, ht]
  have hp := putTrees_spec h false (leafPuts s.view.delim (s.loadAt prefix') L)
  generalize leafPuts s.view.delim (s.loadAt prefix') L = W at *
  cases hl : lastWrite W q with
  | some x =>
    obtain ⟨c, h1, _, _, h4⟩ := hp.val _ _ hl
    rw [h1]
    cases hc : s.tree.contents q with
    | some c0 => left; simp [h4, markAfter, hc]
    | none => right; simp [h4, markAfter, hc]
  | none =>
    cases hc : s.tree.contents q with
    | some c => left; rw [hp.keep q c hl hc]
    | none =>
      cases hc' : (putTrees false s.tree W).contents q with
      | none => left; rfl
      | some c' => right; simp [(hp.new q c' hl hc hc').2.2.1]

/-- `WithinLoading` restores the loading state, and does not run its argument when the store is loading already. -/
theorem C28_withinLoading (s : Store α κ) (fn : Store α κ → Go (Store α κ × List (Event (Any α κ)))) {s' ev}
    (e : s.withinLoading fn = .ok (s', ev)) :
    (s.loading = true → s' = s ∧ ev = []) ∧
    (s.loading = false → s'.loading = false ∧ ∃ s1, fn { s with loading := true } = .ok (s1, ev) ∧ s'.tree = s1.tree) := by
  simp only [withinLoading] at e
  cases hl : s.loading with
  | true => rw [hl] at e; simp at e; exact ⟨fun _ => ⟨e.1.symm, e.2⟩, by simp⟩
  | false =>
    rw [hl] at e
    simp only [Bool.false_eq_true, if_false] at e
    refine ⟨by simp, fun _ => ?_⟩
    split at e
    · simp at e
    · rename_i s1 ev1 h1
      simp only [Except.ok.injEq, Prod.mk.injEq] at e
      obtain ⟨rfl, rfl⟩ := e
      exact ⟨rfl, s1, h1, rfl⟩

/-- The documentation (new.go:275-277) promises a clean modified flag for pairs put while loading; a key the user
modified before stays modified. -/
theorem C28_reload_stays_modified : ∃ s : S0, s = ((S0.new false).setKV "a".toList (.atom 1) true []).1 ∧
    (s.load itoa none none (.once (some [("a".toList, .atom 2)]))).1.mark "a".toList = some true := by
  exact ⟨_, rfl, by decide +kernel⟩

/-! ## C36 -/

theorem applyWrites_eq {s : Store α κ} (h : Reach (NoRoute s.view.delim) s.tree) (create : Bool) (l : List (Str × Any α κ))
    (hl : ∀ a ∈ l, NoRoute s.view.delim (keyOf s.view a.1)) (hm : s.view.mode ≠ .up) :
    ∃ ev, applyWrites s create l = .ok ({ s with tree := (putTrees (!s.loading) s.tree
      (l.map (fun a => (keyOf s.view a.1, a.2)))) }, ev) := by
  induction l generalizing s with
  | nil => exact ⟨[], rfl⟩
  | cons a l ih =>
    obtain ⟨k, x⟩ := a
    have e := setKV_eq s k x create [] (.inr rfl)
    have h' : Reach (NoRoute s.view.delim) (s.setKV k x create []).1.tree := by
      rw [e]; exact putTree_reach h _ (hl (k, x) (by simp)) x
    have hv : (s.setKV k x create []).1.view = s.view := by rw [e]
    have hld : (s.setKV k x create []).1.loading = s.loading := by rw [e]
    obtain ⟨ev, he⟩ := ih (s := (s.setKV k x create []).1) (by rw [hv]; exact h')
      (by rw [hv]; exact fun b hb => hl b (by simp [hb])) (by rw [hv]; exact hm)
    have hg : ∃ y, (s.setKV k x create []).1.mustGet k = .ok y := by
      rw [mustGet, query_plain h'.ok (by rw [hv]; exact h'.plain) (by rw [hv]; exact hm) k]
      exact ⟨_, rfl⟩
    obtain ⟨y, hy⟩ := hg
    refine ⟨(s.setKV k x create []).2.1 ++ ev, ?_⟩
    · simp only [applyWrites, hy, he, hld, hv]
      simp only [e, List.map_cons, putTrees, List.foldl_cons, keyOf, View.dash]

/-- **C36** A create or write event stores every pair it yields (the last one if a key occurs twice), marks the entries
as modified outside of loading, and keeps all other entries. -/
theorem C36_write {s : Store α κ} (h : Reach (NoRoute s.view.delim) s.tree) (hm : s.view.mode ≠ .up) (ev : Change α κ)
    (hop : ev.has opCreate = true ∨ ev.has opWrite = true)
    (hl : ∀ a ∈ ev.pairs, NoRoute s.view.delim (keyOf s.view a.1)) :
    ∃ s' evs, s.applyChanges ev = .ok (s', evs) ∧
      (∀ (r : View) (p : Str) x, r.delim = s.view.delim →
        lastWrite (ev.pairs.map (fun a => (keyOf s.view a.1, a.2))) (r.full p) = some x → r.mustGet s'.tree p = .ok x) ∧
      (∀ (r : View) (p : Str) c, r.delim = s.view.delim → s.tree.contents (r.full p) = some c →
        (∀ a ∈ ev.pairs, r.full p ≠ keyOf s.view a.1) → r.query s'.tree p = r.query s.tree p) := by
  obtain ⟨evs, he⟩ := applyWrites_eq h (ev.has opCreate) ev.pairs hl hm
  have hc : (ev.has opCreate || ev.has opWrite) = true := by rcases hop with h | h <;> simp [h]
  refine ⟨_, evs, by rw [applyChanges, if_pos hc]; exact he, ?_, ?_⟩
  · intro r p x hr hx
    rw [← hr] at h hl
    exact putTrees_read h (by rintro _ hb; obtain ⟨a, ha, rfl⟩ := List.mem_map.mp hb; exact hl a ha) hx
  · intro r p c hr hc hx
    rw [← hr] at h hl
    refine (putTrees_frame h (by rintro _ hb; obtain ⟨a, ha, rfl⟩ := List.mem_map.mp hb; exact hl a ha) hc ?_).1
    intro x hmem
    simp only [List.mem_map, Prod.mk.injEq] at hmem
    obtain ⟨a, ha, h1, _⟩ := hmem
    exact hx a ha h1.symm

theorem removeAll_spec {s : Store α κ} (h : Reach (NoRoute s.view.delim) s.tree) (hm : s.view.mode ≠ .up)
    (l : List (Str × Any α κ)) :
    ∃ s' evs, removeAll s l = .ok (s', evs) ∧ s'.view = s.view ∧ Reach (NoRoute s.view.delim) s'.tree ∧
      (∀ q c, s'.tree.contents q = some c → s.tree.contents q = some c) ∧
      (∀ q, (∀ a ∈ l, ¬ s.view.full a.1 <+: q) → s'.tree.contents q = s.tree.contents q) ∧
      (∀ a ∈ l, s.view.full a.1 ≠ [] → s.view.has s'.tree a.1 = .ok false) := by
  induction l generalizing s with
  | nil => exact ⟨s, [], rfl, rfl, h, fun _ _ hc => hc, fun _ _ => rfl, by simp⟩
  | cons a l ih =>
    obtain ⟨k, x⟩ := a
    obtain ⟨t1, b, h1, h2, h3⟩ := C08_remove_iff_has h hm k
    have hr1 : Reach (NoRoute s.view.delim) t1 := h.remove h1
    obtain ⟨ev0, hrem⟩ : ∃ ev0, s.remove k = .ok ({ s with tree := t1 }, ev0, b) := by
      simp only [View.remove] at h1
      simp only [remove]
      cases hq : s.view.removeEx s.tree k with
      | error e => rw [hq] at h1; simp at h1
      | ok y =>
        rw [hq] at h1
        obtain ⟨t2, r⟩ := y
        simp only [Except.ok.injEq, Prod.mk.injEq] at h1
        obtain ⟨rfl, rfl⟩ := h1
        cases r with
        | none => exact ⟨_, rfl⟩
        | some y => exact ⟨_, rfl⟩
    have hsub : ∀ q c, t1.contents q = some c → s.tree.contents q = some c := by
      cases b with
      | false => rw [h3 rfl]; exact fun _ _ hc => hc
      | true =>
        obtain ⟨_, q0, c0, _, hc⟩ := remove_true h.ok h.plain hm h1
        intro q c hq
        rw [hc] at hq
        split at hq
        · simp at hq
        · exact hq
    have hkeep : ∀ q, ¬ s.view.full k <+: q → t1.contents q = s.tree.contents q := by
      cases b with
      | false => rw [h3 rfl]; exact fun _ _ => rfl
      | true =>
        obtain ⟨_, q0, c0, hres, hc⟩ := remove_true h.ok h.plain hm h1
        intro q hq
        rw [hc, if_neg]
        intro hp
        apply hq
        obtain ⟨_, rfl | ⟨rfl, _⟩⟩ := resolve_cases hres
        · exact hp
        · exact (List.prefix_append _ _).trans hp
    have hgone : s.view.full k ≠ [] → s.view.has t1 k = .ok false := by
      intro hne
      cases b with
      | true => exact (C08_remove_idempotent h hm h1).1
      | false =>
        obtain ⟨y, hy⟩ := C05_has_total h hm k
        rw [h3 rfl]
        cases y with
        | false => exact hy
        | true => simp [hne, hy] at h2
    obtain ⟨s', evs, g1, g2, g3, g4, g5, g6⟩ := ih (s := { s with tree := t1 }) hr1 hm
    refine ⟨s', ev0 ++ evs, by simp only [removeAll, hrem, g1], g2, g3, fun q c hc => hsub q c (g4 q c hc), ?_, ?_⟩
    · intro q hq
      rw [g5 q (fun a ha => hq a (by simp [ha]))]
      exact hkeep q (hq (k, x) (by simp))
    · intro a ha hne
      simp only [List.mem_cons] at ha
      rcases ha with rfl | ha
      · have hf := hgone hne
        rw [has_plain hr1.ok hr1.plain hm] at hf
        simp only [Except.ok.injEq, Option.isSome_eq_false_iff, Option.isNone_iff_eq_none] at hf
        rw [has_plain g3.ok g3.plain hm]
        have : resolve s.view.delim s'.tree.contents (s.view.full k) = none := by
          rw [resolve_none] at hf ⊢
          refine ⟨?_, fun hne => ?_⟩
          · cases hc : s'.tree.contents (s.view.full k) with
            | none => rfl
            | some c => have := g4 _ _ hc; simp only at this; rw [hf.1] at this; simp at this
          · cases hc : s'.tree.contents (s.view.full k ++ [s.view.delim]) with
            | none => rfl
            | some c => have := g4 _ _ hc; simp only at this; rw [hf.2 hne] at this; simp at this
        simp only [this]; rfl
      · exact g6 a ha hne

/-- **C36** A remove event (without create or write) removes every key it yields; entries whose path does not start with
one of the removed paths are unchanged. -/
theorem C36_remove {s : Store α κ} (h : Reach (NoRoute s.view.delim) s.tree) (hm : s.view.mode ≠ .up) (ev : Change α κ)
    (h1 : ev.has opCreate = false) (h2 : ev.has opWrite = false) (h3 : ev.has opRemove = true) :
    ∃ s' evs, s.applyChanges ev = .ok (s', evs) ∧
      (∀ a ∈ ev.pairs, s.view.full a.1 ≠ [] → s.view.has s'.tree a.1 = .ok false) ∧
      (∀ (r : View) (p : Str) c, r.delim = s.view.delim → s.tree.contents (r.full p) = some c →
        (∀ a ∈ ev.pairs, ¬ s.view.full a.1 <+: r.full p) → r.query s'.tree p = r.query s.tree p) := by
  obtain ⟨s', evs, g1, g2, g3, g4, g5, g6⟩ := removeAll_spec h hm ev.pairs
  refine ⟨s', evs, by simp [applyChanges, h1, h2, h3, g1], g6, ?_⟩
  intro r p c hr hc hx
  rw [← hr] at h g3
  rw [query_hit g3.ok g3.plain (resolve_at ((g5 _ hx).trans hc)), query_hit h.ok h.plain (resolve_at hc)]

/-- **C36** Other events change nothing. -/
theorem C36_other (s : Store α κ) (ev : Change α κ)
    (h1 : ev.has opCreate = false) (h2 : ev.has opWrite = false) (h3 : ev.has opRemove = false) :
    s.applyChanges ev = .ok (s, []) := by simp [applyChanges, h1, h2, h3]

section examples
def exH : Handlers := ⟨[some 1, none, some 2], [some 3], [some 4]⟩
def exS : S0 := ((Store.new '.' false exH : S0).merge itoa [] exM).1
/-- A new key calls both new-handlers, an existing one the change-handler, with its old value. -/
example : ∃ s' old, exS.set "app.x".toList (.atom 5) = .ok (s', [.new 1 "app.x".toList (.atom 5) true, .new 2 "app.x".toList (.atom 5) true], old) :=
  ⟨_, _, rfl⟩
example : ∃ s', exS.set "app.debug".toList (.atom 5) = .ok (s', [.change 3 "app.debug".toList (.atom 5) (.atom 1) true], .atom 1) :=
  ⟨_, rfl⟩
example : ∃ s', exS.remove "app.debug".toList = .ok (s', [.delete 4 "app.debug".toList (.atom 1) true], true) := ⟨_, rfl⟩
example : ∃ s', exS.remove "nope".toList = .ok (s', [], false) := ⟨_, rfl⟩
example : exS.mark "app.debug".toList = some true ∧ exS.mark "app.".toList = some false := by
  refine ⟨by decide +kernel, by decide +kernel⟩
example : ∃ s' ev, exS.applyChanges ⟨opWrite, [("app.debug".toList, .atom 6), ("new".toList, .atom 7)]⟩ = .ok (s', ev) ∧
    isAtom 6 (s'.mustGet "app.debug".toList) = true ∧ isAtom 7 (s'.mustGet "new".toList) = true :=
  ⟨_, _, rfl, by decide +kernel, by decide +kernel⟩
example : ∃ s' ev, exS.applyChanges ⟨opRemove, [("app.debug".toList, .nil)]⟩ = .ok (s', ev) ∧
    s'.view.has s'.tree "app.debug".toList = .ok false := ⟨_, _, rfl, by decide +kernel⟩
end examples

end Store
end Verif

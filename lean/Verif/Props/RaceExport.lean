import Verif.Lemmas.RaceMild
import Verif.Props.RaceRead
import Verif.Props.Export
/-
C97: exporting the trie while other goroutines set keys.
-/
namespace Verif
namespace Race
variable {α : Type} [Inhabited α]

section helpers

/-- The keys of the export in the order of the walk. -/
def order (d : Char) (t : Tree α) : List Str := (t.root.nodes []).flatMap fun a => shownKey d a.2.core

omit [Inhabited α] in
theorem local_nil (d : Char) (cores : Nat → Core α) (m : Node α) : local' d cores (fun _ => []) m = shownKey d m.core := by
  simp [local']

omit [Inhabited α] in
theorem mem_order {t : Tree α} (h : t.OK) (hn : Named t) (d : Char) (q : Str) : q ∈ order d t ↔ ∃ x, Exported d t q x := by
  rw [order, List.mem_flatMap]
  constructor
  · rintro ⟨⟨p, m⟩, h1, h2⟩
    obtain ⟨rfl, h3, h4⟩ := (mem_shownKey (hn p m h1)).mp h2
    exact ⟨m.core.data, m.core, (Tree.contents_node h).mpr ⟨m, h1, rfl⟩, h3, h4, rfl⟩
  · rintro ⟨x, c, h1, h2, h3, _⟩
    obtain ⟨m, hm, rfl⟩ := (Tree.contents_node h).mp h1
    exact ⟨(q, m), hm, (mem_shownKey (hn q m hm)).mpr ⟨rfl, h2, h3⟩⟩

omit [Inhabited α] in
theorem shownKey_nodup (d : Char) (c : Core α) : (shownKey d c).Nodup := by
  rw [shownKey]; split <;> simp

omit [Inhabited α] in
/-- No key is met twice, not even with all the new ones. -/
theorem spread_nodup {t : Tree α} (h : t.OK) (hn : Named t) (d : Char) {cores : Nat → Core α} {f : Nat → List Nat}
    (key : Nat → Str) (hc : ∀ j, (cores j).leaf = true → (cores j).pathS = utf8 (key j))
    (hf : ∀ q m, (q, m) ∈ t.root.nodes [] → ∀ j ∈ f m.id, t.contents (key j) = none)
    (hone : ∀ i, (f i).length ≤ 1)
    (hinj : ∀ i i' j j', j ∈ f i → j' ∈ f i' → key j = key j' → i = i') : (spread d cores f t.root).Nodup := by
  rw [(spread_perm d cores f t.root []).nodup_iff]
  have hnew : ∀ (q : Str) (m : Node α), (q, m) ∈ t.root.nodes [] → ∀ p, p ∈ (f m.id).flatMap (fun j => shownKey d (cores j)) →
      ∃ j ∈ f m.id, p = key j := by
    intro q m _ p hp
    obtain ⟨j, h1, h2⟩ := List.mem_flatMap.mp hp
    exact ⟨j, h1, ((mem_shownKey (hc j)).mp h2).1⟩
  have hold : ∀ (q : Str) (m : Node α), (q, m) ∈ t.root.nodes [] → ∀ p, p ∈ shownKey d m.core → p = q ∧ (t.contents p).isSome := by
    intro q m hm p hp
    obtain ⟨rfl, _⟩ := (mem_shownKey (hn q m hm)).mp hp
    exact ⟨rfl, by rw [(Tree.contents_node h).mpr ⟨m, hm, rfl⟩]; rfl⟩
  rw [List.nodup_flatMap]
  constructor
  · rintro ⟨q, m⟩ hm
    rw [local', List.nodup_append]
    refine ⟨shownKey_nodup _ _, ?_, ?_⟩
    · have := hone m.id
      cases hl : f m.id with
      | nil => simp
      | cons j js =>
        rw [hl] at this
        have : js = [] := by
          cases js with
          | nil => rfl
          | cons => simp at this
        subst this
        simpa using shownKey_nodup d (cores j)
    · intro p hp p' hp' e
      subst e
      obtain ⟨j, hj, rfl⟩ := hnew q m hm p hp'
      have := (hold q m hm _ hp).2
      rw [hf q m hm j hj] at this
      cases this
  · have hk : (t.root.nodes []).Pairwise fun a b => a.1 ≠ b.1 := by
      have := Node.keys_nodup h.wf []
      rw [Node.keys, List.nodup_iff_pairwise_ne, List.pairwise_map] at this
      exact this
    refine hk.imp_of_mem ?_
    rintro ⟨q, m⟩ ⟨q', m'⟩ hm hm' hne p hp hp'
    have hp : p ∈ local' d cores f m := hp
    have hp' : p ∈ local' d cores f m' := hp'
    rw [local', List.mem_append] at hp hp'
    rcases hp with hp | hp <;> rcases hp' with hp' | hp'
    · exact hne ((hold q m hm p hp).1.symm.trans (hold q' m' hm' p hp').1)
    · obtain ⟨j, hj, rfl⟩ := hnew q' m' hm' p hp'
      have := (hold q m hm _ hp).2
      rw [hf q' m' hm' j hj] at this
      cases this
    · obtain ⟨j, hj, rfl⟩ := hnew q m hm p hp
      have := (hold q' m' hm' _ hp').2
      rw [hf q m hm j hj] at this
      cases this
    · obtain ⟨j, hj, rfl⟩ := hnew q m hm p hp
      obtain ⟨j', hj', e⟩ := hnew q' m' hm' _ hp'
      exact hne (same_node h hm hm' (hinj _ _ j j' hj hj' e)).1

omit [Inhabited α] in
theorem same_list {β γ : Type} (f : β → Option γ) : ∀ {A B : List (β × γ)}, A.map (·.1) = B.map (·.1) →
    (∀ e ∈ A, f e.1 = some e.2) → (∀ e ∈ B, f e.1 = some e.2) → A = B := by
  intro A
  induction A with
  | nil => intro B h _ _; cases B with
    | nil => rfl
    | cons => simp at h
  | cons a A ih =>
    intro B h h1 h2
    cases B with
    | nil => simp at h
    | cons b B =>
      rw [List.map_cons, List.map_cons, List.cons.injEq] at h
      have e : a = b := by
        have e1 := h1 a (by simp)
        rw [h.1, h2 b (by simp)] at e1
        exact Prod.ext h.1 (Option.some.inj e1).symm
      rw [e, ih h.2 (fun e he => h1 e (by simp [he])) fun e he => h2 e (by simp [he])]

theorem order_nodup {t : Tree α} (h : t.OK) (hn : Named t) (d : Char) : (order d t).Nodup := by
  have := spread_nodup h hn d (cores := fun _ => Core.zero) (f := fun _ => []) (fun _ => []) nofun nofun (by simp) nofun
  rw [spread_none d _ t.root []] at this
  exact this

theorem replace_keys {P : Str → Prop} {t : Tree α} (h : Reach P t) (d : Char) (kvs : List (Str × α)) (hr : Replaces t kvs)
    (S0 : List Nat) : ∃ N, ∀ S : List (Option Nat),
      let s := (collect d (jobs t kvs) ((start t kvs).run (jobs t kvs) S0, .visit t.root.id [], []) S).2
      (N ≤ S.count none → s.1 = .done) ∧
      (s.1 = .done → ∃ L : List (Nat × Str × α), s.2 = L.map (·.2) ∧ (L.map (·.1)).Pairwise (· ≤ ·) ∧
        L.map (·.2.1) = order d t ∧ ∀ e ∈ L, e.1 ≤ S.length ∧
        Exported d (after t (pick kvs (finishes (jobs t kvs) (start t kvs) (S0 ++ writers (S.take e.1))))) e.2.1 e.2.2) := by
  obtain ⟨N, hN⟩ := collect_mild d t.root (fun _ => (Core.zero : Core α)) id (fun _ => [])
  refine ⟨N, fun S => ?_⟩
  obtain ⟨h1, h2⟩ := hN (jobs t kvs) ((start t kvs).run (jobs t kvs) S0) S _ _ (mild_replace h.ok (named h) d hr S0 S)
  refine ⟨h1, fun hd => ?_⟩
  obtain ⟨L, e, p1, p2, p3⟩ := h2 hd
  refine ⟨L, e, p1.sorted, ?_, fun a ha => ⟨(p1.inside a ha).2, p1.good a ha⟩⟩
  rw [spread_none d _ t.root []] at p2 p3
  exact p3.antisymm p2

end helpers

/-- **C97** Goroutines that replace values that are there do not disturb an export: it ends after finitely many steps of
its own, it has exactly the keys of the trie, each of them once, and each value is the one that the trie had at some
moment of the export, where a `Set` counts from the moment at which it returns; these moments follow one another in
the order in which the keys are visited. The export may begin at any moment, and several goroutines may set the same
key. -/
theorem C97_replace {P : Str → Prop} {t : Tree α} (h : Reach P t) (d : Char) (kvs : List (Str × α)) (hr : Replaces t kvs)
    (S0 : List Nat) : ∃ N, ∀ S : List (Option Nat),
      let s := (collect d (jobs t kvs) ((start t kvs).run (jobs t kvs) S0, .visit t.root.id [], []) S).2
      (N ≤ S.count none → s.1 = .done) ∧
      (s.1 = .done →
        (s.2.map (·.1)).Nodup ∧ (∀ q, q ∈ s.2.map (·.1) ↔ ∃ x, Exported d t q x) ∧
        ∃ L : List (Nat × Str × α), s.2 = L.map (·.2) ∧ (L.map (·.1)).Pairwise (· ≤ ·) ∧ ∀ e ∈ L, e.1 ≤ S.length ∧
          Exported d (after t (pick kvs (finishes (jobs t kvs) (start t kvs) (S0 ++ writers (S.take e.1))))) e.2.1 e.2.2) := by
  obtain ⟨N, hN⟩ := replace_keys h d kvs hr S0
  refine ⟨N, fun S => ⟨(hN S).1, fun hd => ?_⟩⟩
  obtain ⟨L, e, p1, p2, p3⟩ := (hN S).2 hd
  have hk : (L.map (·.2)).map (·.1) = order d t := by rw [List.map_map]; exact p2
  rw [e, hk]
  exact ⟨order_nodup h.ok (named h) d, mem_order h.ok (named h) d, L, rfl, p1, p3⟩

/-- **C97** Goroutines that set new keys do not disturb an export either, as long as they do not get in each other's
way and none of them cuts a path: each key is there once, with the value that the trie with the keys of those
goroutines has that have returned at some moment of the export, and no key is missing that was there when the export
began. -/
theorem C97_beside {P : Str → Prop} {t : Tree α} (h : Reach P t) (d : Char) (kvs : List (Str × α))
    (ha : Apart t (kvs.map (·.1))) (hg : ∀ kv ∈ kvs, Grows t kv.1) (S0 : List Nat) : ∃ N, ∀ S : List (Option Nat),
      let s := (collect d (jobs t kvs) ((start t kvs).run (jobs t kvs) S0, .visit t.root.id [], []) S).2
      (N ≤ S.count none → s.1 = .done) ∧
      (s.1 = .done →
        (s.2.map (·.1)).Nodup ∧
        (∀ q x, Exported d (after t (returned kvs ((start t kvs).run (jobs t kvs) S0))) q x → q ∈ s.2.map (·.1)) ∧
        ∃ L : List (Nat × Str × α), s.2 = L.map (·.2) ∧ (L.map (·.1)).Pairwise (· ≤ ·) ∧ ∀ e ∈ L, e.1 ≤ S.length ∧
          Exported d (after t (returned kvs ((start t kvs).run (jobs t kvs) (S0 ++ writers (S.take e.1))))) e.2.1 e.2.2) := by
  have hok := h.ok
  have hn := named h
  obtain ⟨tgt, rem, T⟩ := targets hok kvs ha
  obtain ⟨N, hN⟩ := collect_mild d t.root (newCore t kvs) (fun k => (jobs t kvs k).fresh + 1) (ext t kvs tgt)
  refine ⟨N, fun S => ?_⟩
  obtain ⟨h1, h2⟩ := hN (jobs t kvs) ((start t kvs).run (jobs t kvs) S0) S _ _
    (mild_beside T hok hn ha ha.nodup hg d S0 S)
  refine ⟨h1, fun hd => ?_⟩
  obtain ⟨L, e, p1, p2, p3⟩ := h2 hd
  have hk : (L.map (·.2)).map (·.1) = L.map (·.2.1) := by rw [List.map_map]; rfl
  rw [e, hk]
  refine ⟨?_, ?_, L, rfl, p1.sorted, fun a ha => ⟨(p1.inside a ha).2, p1.good a ha⟩⟩
  · refine (spread_nodup hok hn d (fun k => (jobs t kvs k).key) (fun _ _ => rfl) ?_ ?_ ?_).sublist p3
    · intro q m _ j hj
      exact (under_some (mem_ext.mp hj)).2.1
    · intro i
      rw [ext]; cases under t kvs tgt i <;> simp
    · intro i i' j j' hj hj' he
      obtain ⟨a1, _, a3⟩ := under_some (mem_ext.mp hj)
      obtain ⟨b1, _, b3⟩ := under_some (mem_ext.mp hj')
      have hjj : j = j' := by
        have hnd := ha.nodup
        rw [jobs_key (List.getElem?_eq_getElem a1), jobs_key (List.getElem?_eq_getElem b1)] at he
        have l1 : j < (kvs.map (·.1)).length := by simpa using a1
        have l2 : j' < (kvs.map (·.1)).length := by simpa using b1
        exact (List.Nodup.getElem_inj_iff hnd (hi := l1) (hj := l2)).mp (by simpa using he)
      subst hjj
      exact a3.symm.trans b3
  · rintro q x ⟨c, c1, c2, c3, _⟩
    refine p2.subset ?_
    rw [mem_spread]
    rcases after_leaf _ hok c1 c2 with ⟨c0, d1, d2⟩ | ⟨d1, d2⟩
    · obtain ⟨m, hm, rfl⟩ := (Tree.contents_node hok).mp d1
      exact ⟨q, m, hm, List.mem_append_left _ ((mem_shownKey (hn q m hm)).mpr ⟨rfl, d2, c3⟩)⟩
    · obtain ⟨kv, hkv, rfl⟩ := List.mem_map.mp d2
      obtain ⟨k, hk1, hk2⟩ := mem_returned.mp hkv
      obtain ⟨hk3, _⟩ := List.getElem?_eq_some_iff.mp hk1
      have hkey : (jobs t kvs k).key = kv.1 := by rw [jobs_key hk1]
      obtain ⟨u, hu, _⟩ := (T.goes k).path []
      refine ⟨_, _, hu, List.mem_append_right _ (List.mem_flatMap.mpr ⟨k, ?_, ?_⟩)⟩
      · rw [added, List.mem_filter]
        refine ⟨mem_ext.mpr (under_eq T hok hk3 (by rw [hkey]; exact d1)), ?_⟩
        simpa [writers] using hk2
      · rw [mem_shownKey (q := kv.1) (fun _ => by rw [← hkey]; rfl)]
        exact ⟨rfl, rfl, c3⟩

/-- **C97** An export that runs by itself gives the map of `GetM("")`. -/
theorem C97_alone {β κ : Type} {P : Str → Prop} {t : Tree (Any β κ)} (h : Reach P t) {v : View} (hpre : v.pre = []) :
    ∃ N m, v.getM t [] MOpts.default = .ok (some m) ∧ ∀ n, N ≤ n →
      (collect v.delim (jobs t []) (start t [], .visit t.root.id [], []) (List.replicate n none)).2 = (.done, m) := by
  obtain ⟨N, hN⟩ := replace_keys h v.delim [] (fun _ hkv => by cases hkv) []
  obtain ⟨m, h1, h2, h3⟩ := C19_getM_exact h hpre
  have hkeys : m.map (·.1) = order v.delim t := by
    rw [(getM_root h hpre _).1] at h1
    simp only [MOpts.default, Bool.false_eq_true, if_false, Except.ok.injEq, Option.some.injEq] at h1
    rw [← h1, order]
    have hn := named h
    unfold Named at hn
    revert hn
    generalize t.root.nodes [] = A
    intro hn
    induction A with
    | nil => rfl
    | cons a A ih =>
      have ih := ih fun q m hm => hn q m (by simp [hm])
      rw [List.filterMap_cons, List.flatMap_cons, ← ih, shownKey, shown_eq (hn a.1 a.2 (by simp)), selected]
      by_cases hs : (a.2.core.leaf && !endsW v.delim a.1) = true
      · have hl : a.2.core.leaf = true := by
          rw [Bool.and_eq_true] at hs; exact hs.1
        simp [hs, MOpts.pass, hn a.1 a.2 (by simp) hl, runes_utf8]
      · simp [hs]
  refine ⟨N, m, h1, fun n hn => ?_⟩
  obtain ⟨p1, p2⟩ := hN (List.replicate n none)
  have hd := p1 (by simpa using hn)
  obtain ⟨L, e, _, q2, q3⟩ := p2 hd
  have hw : ∀ i, writers ((List.replicate n (none : Option Nat)).take i) = [] := by
    intro i
    rw [writers, List.filterMap_eq_nil_iff]
    intro x hx
    rw [(List.mem_replicate.mp (List.mem_of_mem_take hx)).2]; rfl
  refine Prod.ext hd (e.trans ?_)
  refine same_list (fun q => (t.contents q).map (·.data)) ?_ ?_ ?_
  · rw [hkeys, List.map_map]; exact q2
  · intro a ha
    obtain ⟨b, hb, rfl⟩ := List.mem_map.mp ha
    obtain ⟨_, c, c1, _, _, c4⟩ := q3 b hb
    rw [hw] at c1
    rw [show t.contents b.2.1 = some c from c1, ← c4]; rfl
  · intro a ha
    obtain ⟨c, c1, _, _, c4⟩ := (h3 a.1 a.2).mp ha
    rw [c1, ← c4]; rfl

/-! ### What an export is not -/

/-- What an export has put into the map when it is over. -/
def exports (t : Tree Nat) (kvs : List (Str × Nat)) (S : List (Option Nat)) : Option (List (Str × Nat)) :=
  match (collect '.' (jobs t kvs) (start t kvs, .visit t.root.id [], []) S).2 with
  | (.done, out) => some out
  | _ => none

/-- **C97** An export is not a snapshot: the map need not be that of the trie at any moment, although values are only
replaced. Here `a.name` is read, then it is replaced, then `db.host` is, and then `db.host` is read. -/
theorem C97_snapshot_fails :
    ∃ (t : Tree Nat) (kvs : List (Str × Nat)) (S : List (Option Nat)) (m : List (Str × Nat)), Reach (NoRoute '.') t ∧ Replaces t kvs ∧
      exports t kvs S = some m ∧ ∀ n, n ≤ S.length →
        ∃ q x, (q, x) ∈ m ∧ ¬ Exported '.' (after t (pick kvs (finishes (jobs t kvs) (start t kvs) (writers (S.take n))))) q x := by
  refine ⟨three, [("a.name".toList, 20), ("db.host".toList, 30)],
    List.replicate 15 none ++ List.replicate 10 (some 0) ++ List.replicate 10 (some 1) ++ List.replicate 20 none,
    [("a.name".toList, 1), ("a.log.level".toList, 2), ("db.host".toList, 30)], three_plain, ?_, by decide +kernel, ?_⟩
  · intro kv hkv
    have : (three.contents kv.1).any (·.hasData) = true := by
      have key : ([("a.name".toList, 20), ("db.host".toList, 30)] : List (Str × Nat)).all
          (fun kv => (three.contents kv.1).any (·.hasData)) = true := by decide +kernel
      exact List.all_eq_true.mp key kv hkv
    cases hc : three.contents kv.1 with
    | none => rw [hc] at this; cases this
    | some c => rw [hc] at this; exact ⟨c, rfl, this⟩
  · generalize hkvs : ([("a.name".toList, 20), ("db.host".toList, 30)] : List (Str × Nat)) = kvs
    generalize hS : List.replicate 15 (none : Option Nat) ++ List.replicate 10 (some 0) ++ List.replicate 10 (some 1) ++
      List.replicate 20 none = S
    have key : ((List.range (S.length + 1)).all fun n =>
        ([("a.name".toList, 1), ("db.host".toList, 30)] : List (Str × Nat)).any fun e =>
          ((after three (pick kvs (finishes (jobs three kvs) (start three kvs) (writers (S.take n))))).contents e.1).map (·.data)
            != some e.2) = true := by
      rw [← hkvs, ← hS]; decide +kernel
    intro n hn
    have h1 := List.all_eq_true.mp key n (List.mem_range.mpr (by omega))
    obtain ⟨⟨q, x⟩, h2, h3⟩ := List.any_eq_true.mp h1
    refine ⟨q, x, ?_, ?_⟩
    · simp only [List.mem_cons, List.not_mem_nil, or_false] at h2 ⊢
      rcases h2 with h2 | h2
      · exact .inl h2
      · exact .inr (.inr h2)
    · rintro ⟨c, c1, _, _, c4⟩
      rw [c1] at h3
      simp [c4] at h3

/-- **C97** One `Set` that cuts a path can put a key into the map that nobody ever set and that is exported neither
before nor afterwards: the node already has the shorter path (radix/node.go:285) but is not yet a branch (287). -/
theorem C97_phantom_fails :
    ∃ (t : Tree Nat) (key : Str) (x : Nat) (S : List (Option Nat)) (m : List (Str × Nat)) (p : Str) (y : Nat), Reach (NoRoute '.') t ∧
      Apart t [key] ∧ exports t [(key, x)] S = some m ∧ (p, y) ∈ m ∧
      (∀ z, ¬ Exported '.' t p z) ∧ ∀ z, ¬ Exported '.' (after t [(key, x)]) p z := by
  refine ⟨one "abcd".toList, "abx".toList, 5, List.replicate 4 none ++ List.replicate 7 (some 0) ++ List.replicate 3 none ++
    List.replicate 30 (some 0) ++ List.replicate 30 none, [("ab".toList, 7), ("abcd".toList, 7), ("abx".toList, 5)], "ab".toList, 7,
    one_plain (by decide) (by decide), ?_, by decide +kernel, by decide +kernel, ?_, ?_⟩
  · intro i j hij k l hk hl
    have h1 := (List.getElem?_eq_some_iff.mp hk).1
    have h2 := (List.getElem?_eq_some_iff.mp hl).1
    simp at h1 h2
    omega
  · rintro z ⟨c, c1, c2, _⟩
    have : ((one "abcd".toList).contents "ab".toList).any (·.leaf) = false := by decide +kernel
    rw [c1] at this
    simp [c2] at this
  · rintro z ⟨c, c1, c2, _⟩
    have : ((after (one "abcd".toList) [("abx".toList, 5)]).contents "ab".toList).any (·.leaf) = false := by decide +kernel
    rw [c1] at this
    simp [c2] at this

/-! Examples: the trie with `a.name`, `a.log.level` and `db.host`. Two goroutines replace the value of `a.log.level` and
one that of `db.host`. -/

example (S0 : List Nat) : ∃ N, ∀ S : List (Option Nat),
    let kvs := [("a.log.level".toList, 20), ("a.log.level".toList, 21), ("db.host".toList, 30)]
    let s := (collect '.' (jobs three kvs) ((start three kvs).run (jobs three kvs) S0, .visit three.root.id [], []) S).2
    (N ≤ S.count none → s.1 = .done) ∧
    (s.1 = .done →
      (s.2.map (·.1)).Nodup ∧ (∀ q, q ∈ s.2.map (·.1) ↔ ∃ x, Exported '.' three q x) ∧
      ∃ L : List (Nat × Str × Nat), s.2 = L.map (·.2) ∧ (L.map (·.1)).Pairwise (· ≤ ·) ∧ ∀ e ∈ L, e.1 ≤ S.length ∧
        Exported '.' (after three (pick kvs (finishes (jobs three kvs) (start three kvs) (S0 ++ writers (S.take e.1))))) e.2.1 e.2.2) :=
  C97_replace three_reach '.' _ three_replaces S0

/-! New keys below `a.name` and `db.host`, while the value of `a.log.level` is replaced. -/

def growing : List (Str × Nat) := [("a.name.first".toList, 10), ("a.log.level".toList, 20), ("db.host.ip".toList, 30)]

theorem three_growing : Apart three (growing.map (·.1)) := by
  have key : ∀ i j : Nat, i < 3 → j < 3 → i ≠ j →
      Free three ((growing.map (·.1))[i]?.getD []) ((growing.map (·.1))[j]?.getD []) := by
    intro i j hi hj hij
    match i, j, hi, hj, hij with
    | 0, 0, _, _, h => exact absurd rfl h
    | 1, 1, _, _, h => exact absurd rfl h
    | 2, 2, _, _, h => exact absurd rfl h
    | 0, 1, _, _, _ => exact .inl (by decide +kernel)
    | 2, 1, _, _, _ => exact .inl (by decide +kernel)
    | 1, 0, _, _, _ => exact .inr ⟨"a.name".toList, "a.n".toList, by decide +kernel⟩
    | 2, 0, _, _, _ => exact .inr ⟨"a.name".toList, "a.n".toList, by decide +kernel⟩
    | 0, 2, _, _, _ => exact .inr ⟨"db.host".toList, "db".toList, by decide +kernel⟩
    | 1, 2, _, _, _ => exact .inr ⟨"db.host".toList, "db".toList, by decide +kernel⟩
  intro i j hij k l hk hl
  have hi : i < 3 := by
    have := (List.getElem?_eq_some_iff.mp hk).1; simpa [growing] using this
  have hj : j < 3 := by
    have := (List.getElem?_eq_some_iff.mp hl).1; simpa [growing] using this
  have := key i j hi hj hij
  rw [hk, hl] at this
  exact this

theorem grows_of {t : Tree Nat} (h : t.OK) {k s : Str} (h1 : (t.contents s).isSome = true) (h2 : s.isPrefixOf k = true)
    (h3 : ((t.root.nodes []).all fun a => (lcp a.1 k).isPrefixOf s) = true) : Grows t k := by
  refine .inr ⟨s, h1, List.isPrefixOf_iff_prefix.mp h2, fun s' z h4 h5 h6 => ?_⟩
  obtain ⟨c, hc⟩ := Option.isSome_iff_exists.mp h4
  obtain ⟨m, hm, _⟩ := (Tree.contents_node h).mp hc
  exact (prefix_lcp h5 h6).trans (List.isPrefixOf_iff_prefix.mp (List.all_eq_true.mp h3 _ hm))

theorem growing_grows : ∀ kv ∈ growing, Grows three kv.1 := by
  intro kv hkv
  simp only [growing, List.mem_cons, List.not_mem_nil, or_false] at hkv
  rcases hkv with rfl | rfl | rfl
  · exact grows_of three_reach.ok (s := "a.name".toList) (by decide +kernel) (by decide +kernel) (by decide +kernel)
  · exact .inl (by decide +kernel)
  · exact grows_of three_reach.ok (s := "db.host".toList) (by decide +kernel) (by decide +kernel) (by decide +kernel)

example (S0 : List Nat) : ∃ N, ∀ S : List (Option Nat),
    let s := (collect '.' (jobs three growing) ((start three growing).run (jobs three growing) S0, .visit three.root.id [], []) S).2
    (N ≤ S.count none → s.1 = .done) ∧
    (s.1 = .done →
      (s.2.map (·.1)).Nodup ∧
      (∀ q x, Exported '.' (after three (returned growing ((start three growing).run (jobs three growing) S0))) q x → q ∈ s.2.map (·.1)) ∧
      ∃ L : List (Nat × Str × Nat), s.2 = L.map (·.2) ∧ (L.map (·.1)).Pairwise (· ≤ ·) ∧ ∀ e ∈ L, e.1 ≤ S.length ∧
        Exported '.' (after three (returned growing ((start three growing).run (jobs three growing) (S0 ++ writers (S.take e.1))))) e.2.1 e.2.2) :=
  C97_beside three_reach '.' growing three_growing growing_grows S0

/-- The new key below `a.name` comes in time for the export, the one below `db.host` does not. -/
example : exports three growing (List.replicate 10 none ++ List.replicate 20 (some 0) ++ List.replicate 60 none ++
    List.replicate 20 (some 2)) =
    some [("a.name".toList, 1), ("a.name.first".toList, 10), ("a.log.level".toList, 2), ("db.host".toList, 3)] := by decide +kernel

/-! By itself. -/

def mixed : Tree (Any Nat Unit) :=
  (top.set (top.set (top.set Tree.new "a.name".toList (.atom 1)).1 "a.log.level".toList (.atom 2)).1 "db.".toList (.atom 3)).1

theorem mixed_reach : Reach (fun _ => True) mixed :=
  .step (.set top _ _) (.step (.set top _ _) (.step (.set top _ _) .new (fun _ _ => trivial) rfl) (fun _ _ => trivial) rfl)
    (fun _ _ => trivial) rfl

example : ∃ N m, top.getM mixed [] MOpts.default = .ok (some m) ∧ ∀ n, N ≤ n →
    (collect '.' (jobs mixed []) (start mixed [], .visit mixed.root.id [], []) (List.replicate n none)).2 = (.done, m) :=
  C97_alone mixed_reach (v := top) rfl

end Race
end Verif

import Verif.Lemmas.RaceWorld
import Verif.Lemmas.Reach
/-
C88: several goroutines set keys at the same time.
-/
namespace Verif
namespace Race
variable {α : Type} [Inhabited α]

section helpers

omit [Inhabited α] in
theorem Free.ne {t : Tree α} {k l : Str} (h : Free t k l) : l ≠ k := by
  rcases h with ⟨_, h⟩ | ⟨s, z, _, _, h1, h2⟩
  · exact h
  · rintro rfl; exact h2 h1

theorem idle_run (Js : Nat → Job α) (S : List Nat) {W : World α} {k : Nat} (h : W.pcs k = .done) :
    (W.run Js S).pcs k = .done := by
  induction S generalizing W with
  | nil => exact h
  | cons l ls ih =>
    refine ih ?_
    simp only [World.tick]
    by_cases hl : k = l
    · subst hl; simp [h, step]
    · simp [hl, h]

theorem done_of {t : Tree α} {kvs : List (Str × α)} {S : List Nat}
    (h : (List.range kvs.length).all (fun k => ((start t kvs).run (jobs t kvs) S).pcs k == .done) = true) :
    ((start t kvs).run (jobs t kvs) S).Done := by
  intro k
  by_cases hk : k < kvs.length
  · exact beq_iff_eq.mp (List.all_eq_true.mp h k (List.mem_range.mpr hk))
  · refine idle_run _ _ ?_
    simp only [start]
    simp [Nat.le_of_not_lt hk]

theorem putCore_data {t : Tree α} {key : Str} {x : α} {c : Core α} (h : putCore t key x c) :
    c.data = x ∧ c.hasData = true := by
  rw [putCore] at h
  split at h
  · rw [h]; exact ⟨rfl, rfl⟩
  · rcases h with ⟨rfl, _⟩ | ⟨q, c0, _, _, _, rfl⟩
    · exact ⟨rfl, rfl⟩
    · exact ⟨rfl, rfl⟩

end helpers

/-- **C88** When none of the keys gets in the way of another, it does not matter how the goroutines are
scheduled: when all have returned, the trie is the one that setting the keys one after the other leaves. -/
theorem C88_same {P : Str → Prop} {t : Tree α} (h : Reach P t) (kvs : List (Str × α))
    (ha : Apart t (kvs.map (·.1))) (S : List Nat) (hd : ((start t kvs).run (jobs t kvs) S).Done) :
    ∃ D, ∀ d, D ≤ d → read ((start t kvs).run (jobs t kvs) S).mem d t.root.id = (after t kvs).root := by
  have hok := h.ok
  obtain ⟨tgt, rem, T⟩ := targets hok kvs ha
  obtain ⟨S', h1, h2⟩ := sequential hok kvs kvs.length (Nat.le_refl _)
  have hd' : ((start t kvs).run (jobs t kvs) S').Done := by
    intro k
    rw [h2]
    by_cases hk : k < kvs.length
    · rw [if_pos hk]
    · rw [if_neg hk]; simp only [start]; simp [Nat.le_of_not_lt hk]
  have he := ((Inv.start t kvs tgt).run T hok S).unique ((Inv.start t kvs tgt).run T hok S') hd hd'
  rw [he]
  rw [List.take_length] at h1
  have := read_holds _ h1
  rwa [after_id hok] at this

/-- **C88** … and they do return, each after finitely many steps of its own, without a panic. -/
theorem C88_ends {P : Str → Prop} {t : Tree α} (h : Reach P t) (kvs : List (Str × α))
    (ha : Apart t (kvs.map (·.1))) :
    (∃ N, ∀ S : List Nat, (∀ k, k < kvs.length → N ≤ S.count k) → ((start t kvs).run (jobs t kvs) S).Done) ∧
      ∀ S k, ((start t kvs).run (jobs t kvs) S).pcs k ≠ .crash := by
  have hok := h.ok
  obtain ⟨tgt, rem, T⟩ := targets hok kvs ha
  constructor
  · have hN : ∀ n, n ≤ kvs.length → ∃ N, ∀ k, k < n →
        (alone (jobs t kvs k) N ((start t kvs).mem, .enter (jobs t kvs k).key t.root.id)).2 = .done := by
      intro n
      induction n with
      | zero => exact fun _ => ⟨0, fun k hk => absurd hk (by omega)⟩
      | succ n ih =>
        intro hn
        obtain ⟨N1, h1⟩ := ih (by omega)
        obtain ⟨N2, h2⟩ := enter_ends (T.setup hok n) t.root _ (.here _ _)
        refine ⟨N1 + N2, fun k hk => ?_⟩
        by_cases hkn : k = n
        · subst hkn
          rw [Nat.add_comm, alone_add]
          have : alone (jobs t kvs k) N2 ((start t kvs).mem, .enter (jobs t kvs k).key t.root.id) = (_, .done) :=
            Prod.ext rfl h2
          rw [this, alone_done]
        · rw [alone_add]
          have : alone (jobs t kvs k) N1 ((start t kvs).mem, .enter (jobs t kvs k).key t.root.id) = (_, .done) :=
            Prod.ext rfl (h1 k (by omega))
          rw [this, alone_done]
    obtain ⟨N, hN⟩ := hN kvs.length (Nat.le_refl _)
    refine ⟨N, fun S hS k => ?_⟩
    have I := (Inv.start t kvs tgt).run T hok S
    by_cases hk : k < kvs.length
    · rw [I.pc k hk]
      have hc := hS k hk
      simp only [Nat.zero_add]
      obtain ⟨r, hr⟩ : ∃ r, S.count k = N + r := ⟨S.count k - N, by omega⟩
      rw [hr, alone_add]
      have : alone (jobs t kvs k) N ((start t kvs).mem, .enter (jobs t kvs k).key t.root.id) = (_, .done) :=
        Prod.ext rfl (hN k hk)
      rw [this, alone_done]
    · exact I.idle k (by omega)
  · intro S k
    have I := (Inv.start t kvs tgt).run T hok S
    by_cases hk : k < kvs.length
    · rw [I.pc k hk]
      have hA := T.at hok k ((0 : Nat) + S.count k)
      generalize (alone (jobs t kvs k) (0 + S.count k) ((start t kvs).mem, .enter (jobs t kvs k).key t.root.id)).2 = pc at hA
      generalize (alone (jobs t kvs k) (0 + S.count k) ((start t kvs).mem, .enter (jobs t kvs k).key t.root.id)).1 = M at hA
      rintro rfl
      cases hA with
      | tail ht => cases ht
    · rw [I.idle k (by omega)]; decide

/-- **C88** In particular every key then has its value, and what nobody wrote to is as it was. -/
theorem C88_values {P : Str → Prop} {t : Tree α} (h : Reach P t) (kvs : List (Str × α))
    (ha : Apart t (kvs.map (·.1))) (S : List Nat) (hd : ((start t kvs).run (jobs t kvs) S).Done) :
    ∃ D, ∀ d, D ≤ d → ∀ next,
      let t' : Tree α := { root := read ((start t kvs).run (jobs t kvs) S).mem d t.root.id, next := next }
      (∀ kv ∈ kvs, ∃ c, t'.contents kv.1 = some c ∧ c.data = kv.2 ∧ c.hasData = true) ∧
      ∀ q c, q ∉ kvs.map (·.1) → t.contents q = some c → t'.contents q = some c := by
  obtain ⟨D, hD⟩ := C88_same h kvs ha S hd
  refine ⟨D, fun d hd' next => ?_⟩
  simp only [hD d hd']
  have hnd : (kvs.map (·.1)).Nodup := by
    rw [List.nodup_iff_pairwise_ne, List.pairwise_iff_getElem]
    intro i j hi hj hij e
    exact (ha j i (by omega) _ _ (List.getElem?_eq_getElem hj) (List.getElem?_eq_getElem hi)).ne e
  have key : ∀ (kvs : List (Str × α)) (t : Tree α), t.OK → (kvs.map (·.1)).Nodup →
      (∀ kv ∈ kvs, ∃ c, (after t kvs).contents kv.1 = some c ∧ c.data = kv.2 ∧ c.hasData = true) ∧
      ∀ q c, q ∉ kvs.map (·.1) → t.contents q = some c → (after t kvs).contents q = some c := by
    intro kvs
    induction kvs with
    | nil => exact fun t _ _ => ⟨by simp, fun q c _ h => h⟩
    | cons kv kvs ih =>
      intro t hok hnd
      rw [List.map_cons, List.nodup_cons] at hnd
      obtain ⟨h1, h2⟩ := ih (View.insertAt t kv.1 kv.2).1 (View.insertAt_ok hok kv.1 kv.2) hnd.2
      have hp := View.insertAt_spec hok kv.1 kv.2
      refine ⟨?_, ?_⟩
      · intro x hx
        rcases List.mem_cons.mp hx with rfl | hx
        · obtain ⟨c, hc, hput⟩ := hp.atKey
          exact ⟨c, h2 x.1 c hnd.1 hc, putCore_data hput⟩
        · exact h1 x hx
      · intro q c hq hc
        rw [List.map_cons, List.mem_cons, not_or] at hq
        exact h2 q c hq.2 (hp.keep q c hq.1 hc)
  exact key kvs t h.ok hnd

/-! ### Keys that do get in each other's way -/

/-- What is found at a path when the goroutines have run. -/
def found (t : Tree Nat) (kvs : List (Str × Nat)) (S : List Nat) (d : Nat) (q : Str) : Option Nat :=
  ({ root := read ((start t kvs).run (jobs t kvs) S).mem d t.root.id, next := 0 } : Tree Nat).contents q |>.map (·.data)

/-- Nothing lies deeper than `d` below the pointer. -/
def shallow (M : Mem Nat) : Nat → Nat → Bool
  | 0, i => (M i).kids.isEmpty
  | d + 1, i => (M i).kids.all (shallow M d)

section witnesses

theorem read_shallow {M : Mem Nat} {D i : Nat} (h : shallow M D i = true) : ∀ d, D ≤ d → read M d i = read M D i := by
  induction D generalizing i with
  | zero =>
    intro d _
    rw [shallow, List.isEmpty_iff] at h
    cases d with
    | zero => rfl
    | succ d => rw [read, read, h]; rfl
  | succ D ih =>
    intro d hd
    obtain ⟨d, rfl⟩ : ∃ e, d = e + 1 := ⟨d - 1, by omega⟩
    rw [shallow, List.all_eq_true] at h
    rw [read, read]
    congr 1
    exact List.map_congr_left fun j hj => ih (h j hj) d (by omega)

theorem found_of {t : Tree Nat} {kvs : List (Str × Nat)} {S : List Nat} {D : Nat} {q : Str} {o : Option Nat}
    (h : shallow ((start t kvs).run (jobs t kvs) S).mem D t.root.id = true) (hf : found t kvs S D q = o) :
    ∀ d, D ≤ d → found t kvs S d q = o := by
  intro d hd
  rw [← hf, found, found, read_shallow h d hd]

def top : View := ⟨[], '.', .none⟩

/-- Tries with one key and with three. -/
def one (key : Str) : Tree Nat := (top.set Tree.new key 7).1
def three : Tree Nat :=
  (top.set (top.set (top.set Tree.new "a.name".toList 1).1 "a.log.level".toList 2).1 "db.host".toList 3).1

theorem one_reach (key : Str) : Reach (fun _ => True) (one key) :=
  .step (.set top key 7) .new (fun _ _ => trivial) rfl

theorem three_reach : Reach (fun _ => True) three :=
  .step (.set top "db.host".toList 3) (.step (.set top "a.log.level".toList 2)
    (.step (.set top "a.name".toList 1) .new (fun _ _ => trivial) rfl) (fun _ _ => trivial) rfl) (fun _ _ => trivial) rfl

end witnesses

/-- **C88** Without the hypothesis it fails. Two goroutines set two new keys below one node, both return, and
one of the keys is not there: both append to the children as they found them (radix/node.go:304). -/
theorem C88_lost_fails :
    ∃ (t : Tree Nat) (kvs : List (Str × Nat)) (S : List Nat) (q : Str) (x : Nat), Reach (fun _ => True) t ∧
      (kvs.map (·.1)).Nodup ∧ (q, x) ∈ kvs ∧ ((start t kvs).run (jobs t kvs) S).Done ∧
      ∃ D, ∀ d, D ≤ d → found t kvs S d q = none :=
  ⟨one "a".toList, [("ab".toList, 1), ("ac".toList, 2)], List.replicate 7 0 ++ List.replicate 7 1 ++ [0, 1],
    "ab".toList, 1, one_reach _, by decide +kernel, by decide +kernel, done_of (by decide +kernel), 5,
    found_of (by decide +kernel) (by decide +kernel)⟩

/-- **C88** … A value that is replaced while another goroutine splits its node is still the old one when both
have returned: `split` copies the value (radix/node.go:276) before it is replaced, and clears the new one
(292). -/
theorem C88_value_fails :
    ∃ (t : Tree Nat) (kvs : List (Str × Nat)) (S : List Nat) (q : Str) (x y : Nat), Reach (fun _ => True) t ∧
      (kvs.map (·.1)).Nodup ∧ (q, x) ∈ kvs ∧ ((start t kvs).run (jobs t kvs) S).Done ∧
      (t.contents q).map (·.data) = some y ∧ y ≠ x ∧ ∃ D, ∀ d, D ≤ d → found t kvs S d q = some y :=
  ⟨one "abc".toList, [("abc".toList, 5), ("abx".toList, 2)],
    List.replicate 5 1 ++ List.replicate 6 0 ++ List.replicate 13 1,
    "abc".toList, 5, 7, one_reach _, by decide +kernel, by decide +kernel, done_of (by decide +kernel),
    by decide +kernel, by decide, 5, found_of (by decide +kernel) (by decide +kernel)⟩

/-- **C88** … A key comes out under a path that nobody set, when a node on its way is split after its path
has been compared (radix/node.go:218) and before its children are looked at (309). -/
theorem C88_phantom_fails :
    ∃ (t : Tree Nat) (kvs : List (Str × Nat)) (S : List Nat) (q q' : Str) (x : Nat), Reach (fun _ => True) t ∧
      (kvs.map (·.1)).Nodup ∧ (q, x) ∈ kvs ∧ ((start t kvs).run (jobs t kvs) S).Done ∧
      q' ∉ kvs.map (·.1) ∧ t.contents q' = none ∧
      ∃ D, ∀ d, D ≤ d → found t kvs S d q = none ∧ found t kvs S d q' = some x :=
  ⟨one "abcd".toList, [("abx".toList, 1), ("abcdef".toList, 2)],
    List.replicate 4 1 ++ List.replicate 18 0 ++ List.replicate 6 1,
    "abcdef".toList, "abef".toList, 2, one_reach _, by decide +kernel, by decide +kernel, done_of (by decide +kernel),
    by decide +kernel, by decide +kernel, 5,
    fun d hd => ⟨found_of (by decide +kernel) (by decide +kernel) d hd, found_of (by decide +kernel) (by decide +kernel) d hd⟩⟩

/-- **C88** … And the program can panic: the path has become shorter than the place where it is to be cut
(`s.path[pos:]`, radix/node.go:273). -/
theorem C88_panic_fails :
    ∃ (t : Tree Nat) (kvs : List (Str × Nat)) (S : List Nat), Reach (fun _ => True) t ∧ (kvs.map (·.1)).Nodup ∧
      ((start t kvs).run (jobs t kvs) S).pcs 1 = .crash :=
  ⟨one "abcd".toList, [("ax".toList, 1), ("abx".toList, 2)],
    List.replicate 4 1 ++ List.replicate 18 0 ++ [1], one_reach _, by decide +kernel, by decide +kernel⟩

/-! Example: three goroutines in a trie with `a.name`, `a.log.level` and `db.host`; the first splits a node, the
second replaces a value, the third splits another node. -/

theorem three_apart : Apart three ["a.nick".toList, "a.log.level".toList, "db.port".toList] := by
  have key : ∀ i j : Nat, i < 3 → j < 3 → i ≠ j →
      Free three ((["a.nick".toList, "a.log.level".toList, "db.port".toList])[i]?.getD [])
        ((["a.nick".toList, "a.log.level".toList, "db.port".toList])[j]?.getD []) := by
    intro i j hi hj hij
    match i, j, hi, hj, hij with
    | 0, 0, _, _, h => exact absurd rfl h
    | 1, 1, _, _, h => exact absurd rfl h
    | 2, 2, _, _, h => exact absurd rfl h
    | 0, 1, _, _, _ => exact .inl (by decide +kernel)
    | 2, 1, _, _, _ => exact .inl (by decide +kernel)
    | 1, 0, _, _, _ => exact .inr ⟨"a.name".toList, "a.n".toList, by decide +kernel⟩
    | 2, 0, _, _, _ => exact .inr ⟨"a.name".toList, "a.n".toList, by decide +kernel⟩
    | 0, 2, _, _, _ => exact .inr ⟨"db.host".toList, "db".toList, by decide +kernel⟩
    | 1, 2, _, _, _ => exact .inr ⟨"db.host".toList, "db".toList, by decide +kernel⟩
  intro i j hij k l hk hl
  have hi : i < 3 := by
    have := (List.getElem?_eq_some_iff.mp hk).1; simpa using this
  have hj : j < 3 := by
    have := (List.getElem?_eq_some_iff.mp hl).1; simpa using this
  have := key i j hi hj hij
  rw [hk, hl] at this
  exact this

example (S : List Nat)
    (hd : ((start three [("a.nick".toList, 10), ("a.log.level".toList, 20), ("db.port".toList, 30)]).run
      (jobs three [("a.nick".toList, 10), ("a.log.level".toList, 20), ("db.port".toList, 30)]) S).Done) :
    ∃ D, ∀ d, D ≤ d →
      read ((start three [("a.nick".toList, 10), ("a.log.level".toList, 20), ("db.port".toList, 30)]).run
        (jobs three [("a.nick".toList, 10), ("a.log.level".toList, 20), ("db.port".toList, 30)]) S).mem d three.root.id =
      (after three [("a.nick".toList, 10), ("a.log.level".toList, 20), ("db.port".toList, 30)]).root :=
  C88_same three_reach [("a.nick".toList, 10), ("a.log.level".toList, 20), ("db.port".toList, 30)] three_apart S hd

example : ∃ S, ((start three [("a.nick".toList, 10), ("a.log.level".toList, 20), ("db.port".toList, 30)]).run
      (jobs three [("a.nick".toList, 10), ("a.log.level".toList, 20), ("db.port".toList, 30)]) S).Done := by
  obtain ⟨⟨N, hN⟩, _⟩ := C88_ends three_reach [("a.nick".toList, 10), ("a.log.level".toList, 20), ("db.port".toList, 30)] three_apart
  refine ⟨(List.range 3).flatMap (List.replicate N), hN _ ?_⟩
  intro k hk
  match k, hk with
  | 0, _ => simp [List.range, List.range.loop, List.count_replicate]
  | 1, _ => simp [List.range, List.range.loop, List.count_replicate]
  | 2, _ => simp [List.range, List.range.loop, List.count_replicate]

end Race
end Verif

import Verif.Lemmas.RaceBeside
import Verif.Props.Race
import Verif.Props.Write
/-
C89: a lookup while other goroutines set keys.
-/
namespace Verif
namespace Race
variable {α : Type} [Inhabited α]

section helpers

theorem run_writers (Js : Nat → Job α) (W : World α) (S0 : List Nat) (S1 : List (Option Nat)) :
    (W.run Js S0).run Js (writers S1) = W.run Js (S0 ++ writers S1) := (run_append Js W S0 (writers S1)).symm

omit [Inhabited α] in
theorem Apart.nodup {t : Tree α} {kvs : List (Str × α)} (ha : Apart t (kvs.map (·.1))) : (kvs.map (·.1)).Nodup := by
  rw [List.nodup_iff_pairwise_ne, List.pairwise_iff_getElem]
  intro i j hi hj hij e
  exact (ha j i (by omega) _ _ (List.getElem?_eq_getElem hj) (List.getElem?_eq_getElem hi)).ne e

theorem after_plain {d : Char} (rs : List (Str × α)) : ∀ {t : Tree α}, t.OK → t.Plain d → (∀ kv ∈ rs, NoRoute d kv.1) →
    (after t rs).Plain d := by
  induction rs with
  | nil => exact fun _ h _ => h
  | cons kv rs ih =>
    intro t h hp hk
    exact ih (View.insertAt_ok h kv.1 kv.2)
      ((entryInv_prefix (P := NoRoute d) (by intro u c v e; simp at e) NoRoute.prefix).insertAt h hp (hk kv (by simp)) kv.2)
      fun kv' h' => hk kv' (by simp [h'])

end helpers

/-- **C89** Goroutines that replace values that are there do not disturb a lookup, even of one of their keys and
even when several of them set the same key: the lookup does not panic, it ends after finitely many steps of its
own, and its answer is the one that the trie would have given at some moment between its first and its last
step, where a `Set` counts from the moment at which it returns. The lookup may begin at any moment. -/
theorem C89_replace {P : Str → Prop} {t : Tree α} (h : Reach P t) {v : View} (hp : t.Plain v.delim) (hm : v.mode ≠ .up)
    (kvs : List (Str × α)) (hr : Replaces t kvs) (p : Str) (S0 : List Nat) :
    ∃ N, ∀ S : List (Option Nat),
      let r := (watch v.delim (jobs t kvs) ((start t kvs).run (jobs t kvs) S0, .enter (v.full p) t.root.id []) S).2
      r ≠ .crash ∧ (N ≤ S.count none → ∃ a, r = .done a) ∧
      ∀ a, r = .done a → ∃ S1 S2, S = S1 ++ S2 ∧
        v.query (after t (pick kvs (finishes (jobs t kvs) (start t kvs) (S0 ++ writers S1)))) p = .ok a := by
  have hok := h.ok
  have inv : ∀ S, InvA t kvs (finishes (jobs t kvs) (start t kvs) S) ((start t kvs).run (jobs t kvs) S) := by
    intro S
    have := (InvA.init hok kvs).run hok hr S
    rwa [List.nil_append] at this
  obtain ⟨N, hN⟩ := watch_reads hok (hp.at (v.full p)) (jobs t kvs) (W0 := (start t kvs).run (jobs t kvs) S0)
    (K := fun W => ∃ L, InvA t kvs L W) (fun S => by rw [← run_append]; exact ⟨_, inv _⟩)
    (fun W ⟨_, I⟩ => I.calm hok _ _) (fun W ⟨_, I⟩ q m hq => nodeAt_flags hok I (resolve_some hq))
  refine ⟨N, fun S => ?_⟩
  obtain ⟨h1, h2, h3⟩ := hN S
  refine ⟨h1, h2, fun a ha => ?_⟩
  obtain ⟨S1, S2, e, h4⟩ := h3 a ha
  refine ⟨S1, S2, e, ?_⟩
  rw [h4, run_writers]
  exact (inv _).query hok hm p (hp.at _)

/-- **C89** … Meanwhile the goroutines return as well, without a panic, and what they leave is the trie in which
the values were set one after the other, in the order in which they returned. -/
theorem C89_replaced {P : Str → Prop} {t : Tree α} (h : Reach P t) (kvs : List (Str × α)) (hr : Replaces t kvs) :
    (∃ N, ∀ S : List Nat, (∀ k, k < kvs.length → N ≤ S.count k) → ((start t kvs).run (jobs t kvs) S).Done) ∧
    ∀ S : List Nat, (∀ k, ((start t kvs).run (jobs t kvs) S).pcs k ≠ .crash) ∧
      ∃ D, ∀ d, D ≤ d → read ((start t kvs).run (jobs t kvs) S).mem d t.root.id =
        (after t (pick kvs (finishes (jobs t kvs) (start t kvs) S))).root := by
  have hok := h.ok
  have I0 := InvA.init hok kvs
  have hset : ∀ k, k < kvs.length → ∃ m : Node α, Setup (jobs t kvs k) (start t kvs).mem t.root (jobs t kvs k).key m m.path := by
    intro k hk
    obtain ⟨c, hc, _⟩ := hr kvs[k] (List.getElem_mem hk)
    obtain ⟨m, hm, _⟩ := (Tree.contents_node hok).mp hc
    obtain ⟨g, s⟩ := goes_stored hok hm
    refine ⟨m, ?_⟩
    rw [jobs_key (List.getElem?_eq_getElem hk)]
    exact setup hok (start_holds hok) _ (Nat.le_add_right _ _) g s
  have own := fun S => I0.run_own hok hr S (own_start t kvs)
  have idle : ∀ S k, kvs.length ≤ k → ((start t kvs).run (jobs t kvs) S).pcs k = .done := fun S k hk =>
    (I0.run hok hr S).idle k hk
  refine ⟨?_, fun S => ⟨fun k => ?_, ?_⟩⟩
  · have hN : ∀ n, n ≤ kvs.length → ∃ N, ∀ k, k < n → ∀ N', N ≤ N' →
        (alone (jobs t kvs k) N' ((start t kvs).mem, .enter (jobs t kvs k).key t.root.id)).2 = .done := by
      intro n
      induction n with
      | zero => exact fun _ => ⟨0, fun k hk => absurd hk (by omega)⟩
      | succ n ih =>
        intro hn
        obtain ⟨N1, h1⟩ := ih (by omega)
        obtain ⟨m, hS⟩ := hset n (by omega)
        obtain ⟨N2, h2⟩ := enter_ends hS t.root _ (.here _ _)
        refine ⟨N1 + N2, fun k hk N' hN' => ?_⟩
        by_cases hkn : k = n
        · subst hkn
          obtain ⟨r, rfl⟩ : ∃ r, N' = N2 + r := ⟨N' - N2, by omega⟩
          rw [alone_add]
          have : alone (jobs t kvs k) N2 ((start t kvs).mem, .enter (jobs t kvs k).key t.root.id) = (_, .done) :=
            Prod.ext rfl h2
          rw [this, alone_done]
        · exact h1 k (by omega) N' (by omega)
    obtain ⟨N, hN⟩ := hN kvs.length (Nat.le_refl _)
    refine ⟨N, fun S hS k => ?_⟩
    by_cases hk : k < kvs.length
    · rw [own S k hk]
      exact hN k hk _ (by have := hS k hk; show N ≤ 0 + S.count k; omega)
    · exact idle S k (by omega)
  · by_cases hk : k < kvs.length
    · rw [own S k hk]
      obtain ⟨m, hS⟩ := hset k hk
      have hA := alone_at hS ((0 : Nat) + S.count k) (.enter (.here _ _))
      generalize (alone (jobs t kvs k) (0 + S.count k) ((start t kvs).mem, .enter (jobs t kvs k).key t.root.id)).2 = pc at hA
      generalize (alone (jobs t kvs k) (0 + S.count k) ((start t kvs).mem, .enter (jobs t kvs k).key t.root.id)).1 = M at hA
      rintro rfl
      cases hA with
      | tail ht => cases ht
    · rw [idle S k (by omega)]; decide
  · have I := I0.run hok hr S
    rw [List.nil_append] at I
    have := read_holds _ I.holds
    rwa [after_id hok] at this

/-- **C89** Goroutines that set new keys do not disturb the lookup of a key that is there, as long as none of
them gets in the way: the answer is the one that the trie with the keys of those goroutines gives that have
returned at some moment between the first and the last step of the lookup. -/
theorem C89_beside {t : Tree α} {v : View} (h : Reach (NoRoute v.delim) t) (hm : v.mode ≠ .up) (kvs : List (Str × α))
    (hk : ∀ kv ∈ kvs, NoRoute v.delim kv.1) (ha : Apart t (kvs.map (·.1))) (p : Str) {q : Str} {c : Core α}
    (hr : resolve v.delim t.contents (v.full p) = some (q, c)) (hb : Beside t kvs (v.full p) q c) (S0 : List Nat) :
    ∃ N, ∀ S : List (Option Nat),
      let r := (watch v.delim (jobs t kvs) ((start t kvs).run (jobs t kvs) S0, .enter (v.full p) t.root.id []) S).2
      r ≠ .crash ∧ (N ≤ S.count none → ∃ a, r = .done a) ∧
      ∀ a, r = .done a → ∃ S1 S2, S = S1 ++ S2 ∧
        v.query (after t (returned kvs ((start t kvs).run (jobs t kvs) (S0 ++ writers S1)))) p = .ok a := by
  have hok := h.ok
  obtain ⟨tgt, rem, T⟩ := targets hok kvs ha
  rw [resolve_contents hok, Option.map_eq_some_iff] at hr
  obtain ⟨⟨q', m⟩, hr, e⟩ := hr
  obtain ⟨rfl, rfl⟩ := Prod.mk.inj e
  have inv : ∀ S, ∃ c, Inv t kvs tgt c ((start t kvs).run (jobs t kvs) S) := fun S =>
    ⟨_, (Inv.start t kvs tgt).run T hok S⟩
  obtain ⟨N, hN⟩ := watch_reads hok (h.plain.at (v.full p)) (jobs t kvs) (W0 := (start t kvs).run (jobs t kvs) S0)
    (K := fun W => ∃ c, Inv t kvs tgt c W) (fun S => by rw [← run_append]; exact inv _)
    (fun W ⟨_, I⟩ => I.calm T hok hr hb)
    (fun W ⟨_, I⟩ q m' hq => by
      rw [hr] at hq
      obtain ⟨rfl, rfl⟩ := Prod.mk.inj (Option.some.inj hq)
      obtain ⟨h1, h2, h3, _⟩ := I.answer T hok ha.nodup hr hb
      exact ⟨h1, h2, h3⟩)
  refine ⟨N, fun S => ?_⟩
  obtain ⟨h1, h2, h3⟩ := hN S
  refine ⟨h1, h2, fun a ha' => ?_⟩
  obtain ⟨S1, S2, e, h4⟩ := h3 a ha'
  refine ⟨S1, S2, e, ?_⟩
  rw [h4, run_writers]
  obtain ⟨cc, I⟩ := inv (S0 ++ writers S1)
  obtain ⟨_, _, _, h5⟩ := I.answer T hok ha.nodup hr hb
  rw [query_at (after_ok hok _) hm p ((after_plain _ hok h.plain fun kv hkv => ?_).at _), h5, hr]
  obtain ⟨k, hk', _⟩ := mem_returned.mp hkv
  exact hk kv (List.mem_of_getElem? hk')

/-- **C89** Goroutines that set new keys do not make a key appear that is not there, as long as none of them gets
in the way of the key followed by the delimiter: the lookup does not panic, it ends, and it finds nothing, as it
finds nothing in the trie with the keys of any of the goroutines that have returned. -/
theorem C89_absent {t : Tree α} {v : View} (h : Reach (NoRoute v.delim) t) (hm : v.mode ≠ .up) (kvs : List (Str × α))
    (hk : ∀ kv ∈ kvs, NoRoute v.delim kv.1) (ha : Apart t (kvs.map (·.1))) (p : Str)
    (hr : resolve v.delim t.contents (v.full p) = none) (hf : ∀ kv ∈ kvs, Free t (v.full p ++ [v.delim]) kv.1)
    (S0 : List Nat) :
    (∃ N, ∀ S : List (Option Nat),
      let r := (watch v.delim (jobs t kvs) ((start t kvs).run (jobs t kvs) S0, .enter (v.full p) t.root.id []) S).2
      r ≠ .crash ∧ (N ≤ S.count none → r = .done ⟨default, false, false, true⟩) ∧
      ∀ a, r = .done a → a = ⟨default, false, false, true⟩) ∧
    ∀ S, v.query (after t (returned kvs ((start t kvs).run (jobs t kvs) S))) p = .ok ⟨default, false, false, true⟩ := by
  have hok := h.ok
  obtain ⟨tgt, rem, T⟩ := targets hok kvs ha
  have hrn : resolve v.delim t.nodeAt (v.full p) = none := by
    rw [resolve_contents hok] at hr; exact Option.map_eq_none_iff.mp hr
  have inv : ∀ S, ∃ c, Inv t kvs tgt c ((start t kvs).run (jobs t kvs) S) := fun S =>
    ⟨_, (Inv.start t kvs tgt).run T hok S⟩
  refine ⟨?_, fun S => ?_⟩
  · obtain ⟨N, hN⟩ := watch_reads hok (h.plain.at (v.full p)) (jobs t kvs) (W0 := (start t kvs).run (jobs t kvs) S0)
      (K := fun W => ∃ c, Inv t kvs tgt c W) (fun S => by rw [← run_append]; exact inv _)
      (fun W ⟨_, I⟩ => I.calm_absent T hok fun _ kv h => .inr (hf kv (List.mem_of_getElem? h))) (fun W ⟨_, I⟩ q m' hq => by rw [hrn] at hq; cases hq)
    refine ⟨N, fun S => ?_⟩
    obtain ⟨h1, h2, h3⟩ := hN S
    have h4 : ∀ a, (watch v.delim (jobs t kvs) ((start t kvs).run (jobs t kvs) S0, .enter (v.full p) t.root.id []) S).2 =
        .done a → a = ⟨default, false, false, true⟩ := by
      intro a ha'
      obtain ⟨S1, S2, e, h4⟩ := h3 a ha'
      rw [h4, hrn]; rfl
    refine ⟨h1, fun hS => ?_, h4⟩
    obtain ⟨a, ha'⟩ := h2 hS
    rw [ha', h4 a ha']
  · have hsub : ∀ kv ∈ returned kvs ((start t kvs).run (jobs t kvs) S), kv ∈ kvs := by
      intro kv hkv
      obtain ⟨k, hk', _⟩ := mem_returned.mp hkv
      exact List.mem_of_getElem? hk'
    rw [query_at (after_ok hok _) hm p ((after_plain _ hok h.plain fun kv hkv => hk kv (hsub kv hkv)).at _),
      after_absent _ hok hr fun kv hkv => hf kv (hsub kv hkv)]
    rfl

/-- **C89** A lookup that runs by itself gives the answer of `Query`. -/
theorem C89_alone {P : Str → Prop} {t : Tree α} (h : Reach P t) {v : View} (hp : t.Plain v.delim) (hm : v.mode ≠ .up)
    (p : Str) : ∃ N a, v.query t p = .ok a ∧ ∀ n, N ≤ n →
      (watch v.delim (jobs t []) (start t [], .enter (v.full p) t.root.id []) (List.replicate n none)).2 = .done a := by
  obtain ⟨N, hN⟩ := C89_replace h hp hm [] (fun _ hkv => by cases hkv) p []
  have hw : ∀ S1 S2 n, List.replicate n (none : Option Nat) = S1 ++ S2 → writers S1 = [] := by
    intro S1 S2 n e
    rw [writers, List.filterMap_eq_nil_iff]
    intro x hx
    have : x ∈ List.replicate n (none : Option Nat) := by rw [e]; exact List.mem_append_left _ hx
    rw [(List.mem_replicate.mp this).2]; rfl
  have key : ∀ n, N ≤ n → ∃ a, v.query t p = .ok a ∧
      (watch v.delim (jobs t []) (start t [], .enter (v.full p) t.root.id []) (List.replicate n none)).2 = .done a := by
    intro n hn
    obtain ⟨_, h2, h3⟩ := hN (List.replicate n none)
    obtain ⟨a, ha⟩ := h2 (by simpa using hn)
    obtain ⟨S1, S2, e, h4⟩ := h3 a ha
    rw [hw S1 S2 n e] at h4
    exact ⟨a, h4, ha⟩
  obtain ⟨a, h1, _⟩ := key N (Nat.le_refl _)
  refine ⟨N, a, h1, fun n hn => ?_⟩
  obtain ⟨b, h2, h3⟩ := key n hn
  rw [h1] at h2
  rw [Except.ok.inj h2]
  exact h3

/-! ### Getting in the way -/

/-- What a lookup of `p` returns: `none` while it runs, and when it has panicked. -/
def sees (t : Tree Nat) (kvs : List (Str × Nat)) (p : Str) (S : List (Option Nat)) : Option (View.Ans Nat) :=
  match (watch '.' (jobs t kvs) (start t kvs, .enter p t.root.id []) S).2 with
  | .done a => some a
  | _ => none

def panics (t : Tree Nat) (kvs : List (Str × Nat)) (p : Str) (S : List (Option Nat)) : Bool :=
  match (watch '.' (jobs t kvs) (start t kvs, .enter p t.root.id []) S).2 with
  | .crash => true
  | _ => false

theorem one_plain {key : Str} (h1 : ':' ∉ View.dash key) (h2 : '*' ∉ View.dash key) : Reach (NoRoute '.') (one key) :=
  .step (.set top key 7) .new (fun q hq => by
    have e : top.full key = key := rfl
    rw [Op.key, e] at hq
    obtain rfl : View.dash key = q := Option.some.inj hq
    exact noRoute_of_plain h1 h2) rfl

theorem three_plain : Reach (NoRoute '.') three := by
  have key : ∀ (a : Str) (x : Nat) (t : Tree Nat), ':' ∉ View.dash a → '*' ∉ View.dash a → Reach (NoRoute '.') t → Reach (NoRoute '.') (top.set t a x).1 :=
    fun a x t h1 h2 h => .step (.set top a x) h (fun q hq => by
      have e : top.full a = a := rfl
      rw [Op.key, e] at hq
      obtain rfl : View.dash a = q := Option.some.inj hq
      exact noRoute_of_plain h1 h2) rfl
  exact key _ _ _ (by decide +kernel) (by decide +kernel) (key _ _ _ (by decide +kernel) (by decide +kernel)
    (key _ _ _ (by decide +kernel) (by decide +kernel) .new))

/-- The lookup makes `a` steps, then the writer `b`, then the lookup the rest. -/
def between (a b c : Nat) : List (Option Nat) :=
  List.replicate a none ++ List.replicate b (some 0) ++ List.replicate c none

/-- **C89** One `Set` beside one lookup can make the lookup panic: a path is cut while its runes are compared
(radix/node.go:357). The key that is looked up need not be in the trie, nor the one that is set. -/
theorem C89_panic_fails :
    ∃ (t : Tree Nat) (key : Str) (x : Nat) (p : Str) (S : List (Option Nat)), Reach (NoRoute '.') t ∧
      panics t [(key, x)] p S = true :=
  ⟨one "abcd".toList, "ax".toList, 1, "abcd".toList, between 8 30 30, one_plain (by decide) (by decide), by decide +kernel⟩

/-- **C89** … A lookup can return a value that was only ever set under another key: the node that was found is
cut, and given the value of a shorter key, before its value is read (radix/trie.go:717). -/
theorem C89_other_fails :
    ∃ (t : Tree Nat) (key : Str) (x : Nat) (p : Str) (S : List (Option Nat)) (y : Nat), Reach (NoRoute '.') t ∧
      key ≠ p ∧ (t.contents p).map (·.data) = some y ∧ y ≠ x ∧
      sees t [(key, x)] p S = some ⟨x, false, true, false⟩ :=
  ⟨one "abcd".toList, "ab".toList, 5, "abcd".toList, between 15 30 30, 7, one_plain (by decide) (by decide), by decide +kernel,
    by decide +kernel, by decide +kernel, by decide +kernel⟩

/-- **C89** … A lookup can find a key that nobody ever set: the node is cut after its path has been compared
and before its children are looked at (radix/node.go:442-460), and the rest of the key fits the part cut off. -/
theorem C89_absent_fails :
    ∃ (t : Tree Nat) (key : Str) (x : Nat) (p : Str) (S : List (Option Nat)) (y : Nat), Reach (NoRoute '.') t ∧
      key ≠ p ∧ resolve '.' t.contents p = none ∧ resolve '.' (after t [(key, x)]).contents p = none ∧
      sees t [(key, x)] p S = some ⟨y, false, true, false⟩ :=
  ⟨one "abcd".toList, "abx".toList, 5, "abcdcd".toList, between 12 30 30, 7, one_plain (by decide) (by decide), by decide +kernel,
    by decide +kernel, by decide +kernel, by decide +kernel⟩

/-- **C89** … A lookup can miss a key that is there before, after and all the time, for the same reason. -/
theorem C89_missed_fails :
    ∃ (t : Tree Nat) (key : Str) (x : Nat) (p : Str) (S : List (Option Nat)) (y : Nat), Reach (NoRoute '.') t ∧
      key ≠ p ∧ (t.contents p).map (·.data) = some y ∧ ((after t [(key, x)]).contents p).map (·.data) = some y ∧
      sees t [(key, x)] p S = some ⟨0, false, false, true⟩ :=
  ⟨(top.set (one "abcd".toList) "abcdef".toList 8).1, "abx".toList, 5, "abcdef".toList, between 12 30 30, 8,
    .step (.set top "abcdef".toList 8) (one_plain (by decide) (by decide)) (fun q hq => by
      obtain rfl : View.dash "abcdef".toList = q := Option.some.inj hq
      exact noRoute_of_plain (by decide) (by decide)) rfl, by decide +kernel,
    by decide +kernel, by decide +kernel, by decide +kernel⟩

/-- **C89** … A lookup of a section can return the value of a key in it, as if it were its own: the node of `a.b`
is cut to `a.` for the sake of `a.c`, and for three more assignments it is still a leaf with the value of `a.b`
(radix/node.go:281-284). Before and after, there is no value at `a`. Neither key gets in the way of `a` itself,
only of `a` with the delimiter. -/
theorem C89_section_fails :
    ∃ (t : Tree Nat) (key : Str) (x : Nat) (p : Str) (S : List (Option Nat)) (y : Nat), Reach (NoRoute '.') t ∧
      Free t p key ∧ resolve '.' t.contents p = none ∧
      top.query (after t [(key, x)]) p = .ok ⟨0, true, true, false⟩ ∧ y ≠ 0 ∧
      sees t [(key, x)] p S = some ⟨y, false, true, false⟩ :=
  ⟨one "a.b".toList, "a.c".toList, 5, "a".toList, between 0 6 30, 7, one_plain (by decide) (by decide),
    .inr ⟨"a.b".toList, "a.".toList, by decide +kernel⟩, by decide +kernel, by decide +kernel, by decide, by decide +kernel⟩

/-! Examples: the trie with `a.name`, `a.log.level` and `db.host`. Two goroutines replace the value of
`a.log.level` and one that of `db.host`, while `a.log.level` is looked up. -/

theorem three_replaces :
    Replaces three [("a.log.level".toList, 20), ("a.log.level".toList, 21), ("db.host".toList, 30)] := by
  intro kv hkv
  have : (three.contents kv.1).any (·.hasData) = true := by
    have key : ([("a.log.level".toList, 20), ("a.log.level".toList, 21), ("db.host".toList, 30)] : List (Str × Nat)).all
        (fun kv => (three.contents kv.1).any (·.hasData)) = true := by decide +kernel
    exact List.all_eq_true.mp key kv hkv
  cases hc : three.contents kv.1 with
  | none => rw [hc] at this; cases this
  | some c => rw [hc] at this; exact ⟨c, rfl, this⟩

example (S0 : List Nat) : ∃ N, ∀ S : List (Option Nat),
    let kvs := [("a.log.level".toList, 20), ("a.log.level".toList, 21), ("db.host".toList, 30)]
    let r := (watch '.' (jobs three kvs) ((start three kvs).run (jobs three kvs) S0,
      .enter "a.log.level".toList three.root.id []) S).2
    r ≠ .crash ∧ (N ≤ S.count none → ∃ a, r = .done a) ∧
    ∀ a, r = .done a → ∃ S1 S2, S = S1 ++ S2 ∧
      top.query (after three (pick kvs (finishes (jobs three kvs) (start three kvs) (S0 ++ writers S1))))
        "a.log.level".toList = .ok a :=
  C89_replace three_reach (v := top) three_plain.plain (by decide) _ three_replaces "a.log.level".toList S0

/-- With the schedule in which the first of the goroutines has written its value and the second not yet. -/
example : sees three [("a.log.level".toList, 20), ("a.log.level".toList, 21), ("db.host".toList, 30)] "a.log.level".toList
    (List.replicate 5 none ++ List.replicate 5 (some 1) ++ List.replicate 20 (some 0) ++ List.replicate 40 none) =
    some ⟨20, false, true, false⟩ := by decide +kernel

/-! `a` refers to the branch `a.`, below which one of the goroutines puts a new key. -/

theorem three_beside : Beside three [("a.nick".toList, 10), ("a.log.level".toList, 20), ("db.port".toList, 30)]
    "a".toList "a.".toList { (Core.zero : Core Nat) with pathS := utf8 "a.".toList } := by
  intro kv hkv
  right
  simp only [List.mem_cons, List.not_mem_nil, or_false] at hkv
  rcases hkv with rfl | rfl | rfl
  · exact ⟨by decide +kernel, .inr ⟨"a.name".toList, "a.".toList, by decide +kernel⟩⟩
  · exact ⟨by decide +kernel, .inl (by decide +kernel)⟩
  · exact ⟨by decide +kernel, .inr ⟨"db.host".toList, "db".toList, by decide +kernel⟩⟩

example (S0 : List Nat) : ∃ N, ∀ S : List (Option Nat),
    let kvs := [("a.nick".toList, 10), ("a.log.level".toList, 20), ("db.port".toList, 30)]
    let r := (watch '.' (jobs three kvs) ((start three kvs).run (jobs three kvs) S0, .enter "a".toList three.root.id []) S).2
    r ≠ .crash ∧ (N ≤ S.count none → ∃ a, r = .done a) ∧
    ∀ a, r = .done a → ∃ S1 S2, S = S1 ++ S2 ∧
      top.query (after three (returned kvs ((start three kvs).run (jobs three kvs) (S0 ++ writers S1)))) "a".toList = .ok a :=
  C89_beside (v := top) three_plain (by decide) [("a.nick".toList, 10), ("a.log.level".toList, 20), ("db.port".toList, 30)] (by
    intro kv hkv
    simp only [List.mem_cons, List.not_mem_nil, or_false] at hkv
    rcases hkv with rfl | rfl | rfl <;> exact noRoute_of_plain (by decide +kernel) (by decide +kernel))
    three_apart "a".toList (by decide +kernel) three_beside S0

/-! `dx` is not there; the node `db.host`, with which it is compared, is cut meanwhile. -/

def dx : List (Str × Nat) := [("a.nick".toList, 10), ("a.log.level".toList, 20), ("db.port".toList, 30)]

example (S0 : List Nat) : ∃ N, ∀ S : List (Option Nat),
    let r := (watch '.' (jobs three dx) ((start three dx).run (jobs three dx) S0, .enter "dx".toList three.root.id []) S).2
    r ≠ .crash ∧ (N ≤ S.count none → r = .done ⟨0, false, false, true⟩) ∧ ∀ a, r = .done a → a = ⟨0, false, false, true⟩ :=
  (C89_absent (v := top) three_plain (by decide) dx (by
    intro kv hkv
    simp only [dx, List.mem_cons, List.not_mem_nil, or_false] at hkv
    rcases hkv with rfl | rfl | rfl <;> exact noRoute_of_plain (by decide +kernel) (by decide +kernel))
    three_apart "dx".toList (by decide +kernel) (by
    intro kv hkv
    simp only [dx, List.mem_cons, List.not_mem_nil, or_false] at hkv
    rcases hkv with rfl | rfl | rfl
    · exact .inr ⟨"a.name".toList, "a".toList, by decide +kernel⟩
    · exact .inl (by decide +kernel)
    · exact .inr ⟨"db.host".toList, "db".toList, by decide +kernel⟩) S0).1

example : sees three dx "dx".toList
    (List.replicate 8 none ++ List.replicate 9 (some 2) ++ List.replicate 40 none) = some ⟨0, false, false, true⟩ := by
  decide +kernel

end Race
end Verif

import Verif.Lemmas.RaceAlone
import Verif.Props.RaceRemove
/-
C92: goroutines that work in different parts of a trie.
-/
namespace Verif
namespace Parts
variable {α : Type} [Inhabited α]
open Prune (Cell Mem)

section
variable {t : Tree α} {ps : List (View × List (Act α))} {us : Nat → Str}

/-- A goroutine of the beginning, alone. -/
theorem alone {k : Nat} {v : View} {as : List (Act α)} (hk : ps[k]? = some (v, as)) (h : Reach (NoRoute v.delim) t) (hm : v.mode ≠ .up)
    (hset : ∀ p x, .set p x ∈ as → NoRoute v.delim (View.dash (v.full p))) :
    ∃ n M' f', solo t.root.id (2 * ps.length) n ((start t ps).mem, (start t ps).gs k) = (M', ⟨v, [], .idle, seq v t as, f'⟩) := by
  have hl := (List.getElem?_eq_some_iff.mp hk).1
  have ok := h.ok
  have e : (start t ps).gs k = ⟨v, as, .idle, [], t.next + 2 * k⟩ := by simp [start, hk]
  have I : Mine t.root.id v.delim (start t ps).mem { t with next := t.next + 2 * k } t := by
    refine ⟨⟨ok.wf, ok.nil, ok.nodup, fun y hy => ?_⟩, ?_, rfl, ⟨fun i => i, (Node.ren_self _).symm⟩, h⟩
    · have := ok.lt y hy
      show y.2.id < t.next + 2 * k
      omega
    · refine ⟨fun q m hqm => ?_, fun i => ?_⟩
      · have e : (start t ps).mem m.id = Prune.cellOf m := Prune.lay_nodes t.root _ ok.ids_nodup [] q m hqm
        rw [Prune.Holds, e]
        exact ⟨rfl, rfl, List.take_of_length_le (by simp [Prune.cellOf]), rfl⟩
      · by_cases hi : i ∈ t.root.ids
        · rw [← Node.ids_eq []] at hi
          obtain ⟨⟨q, m⟩, hqm, rfl⟩ := List.mem_map.mp hi
          have e : (start t ps).mem m.id = Prune.cellOf m := Prune.lay_nodes t.root _ ok.ids_nodup [] q m hqm
          rw [e]
          simp [Prune.cellOf]
        · have e : (start t ps).mem i = ⟨[], Core.zero, [], 0⟩ := Prune.lay_out t.root _ i hi
          rw [e]
          exact Nat.le_refl _
  obtain ⟨n, M', f', hn⟩ := solo_all (outs := []) hm (by omega : 2 ≤ 2 * ps.length) as I hset
  exact ⟨n, M', f', by rw [e]; exact hn⟩

/-- **C92** Goroutines that look up, set and remove keys below different nodes of a trie do not disturb one
another, however they are interleaved: none of them panics, what each is told is at any time a beginning of what it
would be told if it was alone with the trie, and after finitely many steps of its own it has been told all of that. -/
theorem C92_parts (hk : ∀ (k : Nat) v as, ps[k]? = some (v, as) → Reach (NoRoute v.delim) t ∧ v.mode ≠ .up ∧
      ∀ p x, .set p x ∈ as → NoRoute v.delim (View.dash (v.full p)))
    (ha : Apart t ps us) :
    ∃ N : Nat → Nat, ∀ S k v as, ps[k]? = some (v, as) → let g := (runs t ps S).gs k
      ¬ g.crashed ∧ g.outs <+: seq v t as ∧ (N k ≤ S.count k → g.outs = seq v t as ∧ g.todo = [] ∧ g.doing = .idle) := by
  have main : ∀ k, ∃ N, ∀ v as, ps[k]? = some (v, as) → ∃ M' f',
      solo t.root.id (2 * ps.length) N ((start t ps).mem, (start t ps).gs k) = (M', ⟨v, [], .idle, seq v t as, f'⟩) := by
    intro k
    cases e : ps[k]? with
    | none => exact ⟨0, fun _ _ h => by cases h⟩
    | some r =>
      obtain ⟨v, as⟩ := r
      obtain ⟨h1, h2, h3⟩ := hk k v as e
      obtain ⟨n, M', f', hn⟩ := alone e h1 h2 h3
      refine ⟨n, fun v' as' h => ?_⟩
      cases h
      exact ⟨M', f', hn⟩
  refine ⟨fun k => (main k).choose, fun S k v as e => ?_⟩
  have hl := (List.getElem?_eq_some_iff.mp e).1
  obtain ⟨h1, h2, h3⟩ := hk k v as e
  obtain ⟨M', f', hN⟩ := (main k).choose_spec v as e
  generalize hNe : (main k).choose = N at hN
  simp only [hNe]
  rw [runs_solo h1.ok ha S hl]
  generalize hr : ((start t ps).mem, (start t ps).gs k) = r at hN
  have late : ∀ n, N ≤ n → solo t.root.id (2 * ps.length) n r = (M', ⟨v, [], .idle, seq v t as, f'⟩) := by
    intro n hn
    obtain ⟨m, rfl⟩ := Nat.exists_eq_add_of_le hn
    rw [solo_add, hN, solo_idle _ _ rfl rfl]
  have all : ∀ n, ∃ m, solo t.root.id (2 * ps.length) m (solo t.root.id (2 * ps.length) n r) = (M', ⟨v, [], .idle, seq v t as, f'⟩) := by
    intro n
    refine ⟨N, ?_⟩
    rw [← solo_add]
    exact late _ (by omega)
  refine ⟨fun hc => ?_, ?_, fun hle => ?_⟩
  · obtain ⟨m, hm⟩ := all (S.count k)
    have := solo_crashed (root := t.root.id) (gap := 2 * ps.length) m _ hc
    rw [hm] at this
    rcases this with ⟨c, h⟩ | ⟨J, h⟩ <;> cases h
  · obtain ⟨m, hm⟩ := all (S.count k)
    have := solo_outs (root := t.root.id) (gap := 2 * ps.length) m (solo t.root.id (2 * ps.length) (S.count k) r)
    rw [hm] at this
    exact this
  · rw [late _ hle]
    exact ⟨rfl, rfl, rfl⟩

/-- **C92** … and alone it is told something for each of its calls. -/
theorem C92_answers {v : View} (hm : v.mode ≠ .up) (as : List (Act α)) : ∀ {t : Tree α}, Reach (NoRoute v.delim) t →
    (∀ p x, .set p x ∈ as → NoRoute v.delim (View.dash (v.full p))) → (seq v t as).length = as.length := by
  induction as with
  | nil => exact fun _ _ => rfl
  | cons a as ih =>
    intro t h hset
    have hset' : ∀ p x, .set p x ∈ as → NoRoute v.delim (View.dash (v.full p)) := fun p x h => hset p x (by simp [h])
    cases a with
    | get p => rw [seq, Prune.query_node h.ok h.plain hm]; simp [ih h hset']
    | set p x => rw [seq]; simp [ih (h.set (hset p x (by simp)) x) hset']
    | remove p =>
      obtain ⟨t', _, b, e, _⟩ := remove_ren (T := t) (T' := t) (Node.ren_self _).symm h.ok h.ok h.plain hm p
      rw [seq, e]
      simp [ih (h.remove e) hset']

end

section examples
open Prune (trie trie_reach)

/-- The stores with the prefixes `a` and `b`. -/
def subA : View := ⟨"a".toList, '.', .none⟩
def subB : View := ⟨"b".toList, '.', .none⟩

/-- **C92** Without the nodes it fails: two goroutines set a key each, one through the store with the prefix `a` and
one through the store with the prefix `b`, in an empty trie. The second is told that its key is stored, and then that
the key is not there. -/
theorem C92_empty_fails :
    ∃ S, ((runs (Tree.new : Tree Nat) [(subA, [.set "x".toList 1]), (subB, [.set "x".toList 2, .get "x".toList])] S).gs 1).outs =
      [.stored, .got ⟨0, false, false, true⟩] ∧
    seq subB Tree.new [.set "x".toList 2, .get "x".toList] = [.stored, .got ⟨2, false, true, false⟩] :=
  ⟨List.replicate 3 0 ++ List.replicate 5 1 ++ List.replicate 2 0 ++ List.replicate 20 1, by decide +kernel, by decide +kernel⟩

/-- A trie with two keys below each of the prefixes. -/
def four : Tree Nat := trie ["a.x", "a.y", "b.x", "b.y"]

def progs : List (View × List (Act Nat)) :=
  [(subA, [.get "x".toList, .set "zone".toList 7, .remove "x".toList, .get "x".toList, .get "zone".toList]),
   (subB, [.remove "y".toList, .set "x".toList 9, .set "w.v".toList 3, .get "w".toList, .get "x".toList])]

def below : Nat → Str
  | 0 => "a.".toList
  | _ => "b.".toList

theorem progs_apart : Apart four progs below := by
  have node : ∀ u, ((four.root.nodes []).any fun qm => qm.1 == u) = true → ∃ N, (u, N) ∈ four.root.nodes [] := by
    intro u h
    obtain ⟨⟨q, m⟩, h1, h2⟩ := List.any_eq_true.mp h
    exact ⟨m, eq_of_beq h2 ▸ h1⟩
  refine ⟨fun k hk => ?_, fun i j hi hj hij => ?_, fun k v as a hk ha => ?_⟩
  · match k, hk with
    | 0, _ => exact node _ (by decide +kernel)
    | 1, _ => exact node _ (by decide +kernel)
  · match i, j, hi, hj, hij with
    | 0, 1, _, _, _ => decide
    | 1, 0, _, _, _ => decide
    | 0, 0, _, _, h => exact absurd rfl h
    | 1, 1, _, _, h => exact absurd rfl h
  · have key : ∀ k, k < 2 → ((progs[k]?.getD (subA, [])).2.all fun a =>
        (below k).isPrefixOf (a.key (progs[k]?.getD (subA, [])).1) && below k != a.key (progs[k]?.getD (subA, [])).1) = true := by
      decide +kernel
    have h := key k (List.getElem?_eq_some_iff.mp hk).1
    rw [hk] at h
    have := List.all_eq_true.mp h a ha
    simpa using this

theorem progs_plain : ∀ (k : Nat) v as, progs[k]? = some (v, as) → Reach (NoRoute v.delim) four ∧ v.mode ≠ .up ∧
    ∀ p x, .set p x ∈ as → NoRoute v.delim (View.dash (v.full p)) := by
  intro k v as hk
  have key : ∀ k, k < 2 → (progs[k]?.getD (subA, [])).1.delim = '.' ∧ (progs[k]?.getD (subA, [])).1.mode ≠ .up ∧
      ((progs[k]?.getD (subA, [])).2.all fun a => match a with
        | .set p _ => !(View.dash ((progs[k]?.getD (subA, [])).1.full p)).contains ':' &&
            !(View.dash ((progs[k]?.getD (subA, [])).1.full p)).contains '*'
        | _ => true) = true := by decide +kernel
  obtain ⟨h1, h2, h3⟩ := key k (List.getElem?_eq_some_iff.mp hk).1
  rw [hk] at h1 h2 h3
  have h1' : v.delim = '.' := h1
  refine ⟨by rw [h1']; exact trie_reach _ (by decide +kernel), h2, fun p x hp => ?_⟩
  have := List.all_eq_true.mp h3 _ hp
  simp only [Option.getD_some, Bool.and_eq_true, Bool.not_eq_true', List.contains_eq_mem, decide_eq_false_iff_not] at this
  rw [h1']
  exact noRoute_of_plain this.1 this.2

example : ∃ N : Nat → Nat, ∀ S k v as, progs[k]? = some (v, as) → let g := (runs four progs S).gs k
    ¬ g.crashed ∧ g.outs <+: seq v four as ∧ (N k ≤ S.count k → g.outs = seq v four as ∧ g.todo = [] ∧ g.doing = .idle) :=
  C92_parts progs_plain progs_apart

example : seq subA four (progs[0]?.getD (subA, [])).2 = [.got ⟨1, false, true, false⟩, .stored, .removed true,
    .got ⟨0, false, false, true⟩, .got ⟨7, false, true, false⟩] := by decide +kernel

example : seq subB four (progs[1]?.getD (subA, [])).2 = [.removed true, .stored, .stored,
    .got ⟨0, false, false, true⟩, .got ⟨9, false, true, false⟩] := by decide +kernel

example : (seq subB four (progs[1]?.getD (subA, [])).2).length = 5 :=
  C92_answers (by decide) _ (progs_plain 1 _ _ rfl).1 (progs_plain 1 _ _ rfl).2.2

end examples
end Parts
end Verif

import Verif.Lemmas.RaceMix
import Verif.Props.RaceRemove
/-
C93: `Set` beside `Remove`.
-/
namespace Verif
namespace Parts
variable {α : Type} [Inhabited α]
open Prune (Cell Mem Pc Call)

section
variable {K : Str → Prop} {v : View} {t : Tree α} {as : List (Act α)}

theorem run_snoc (root gap : Nat) (W : World α) (S : List Nat) (k : Nat) :
    W.run root gap (S ++ [k]) = (W.run root gap S).tick root gap k := by
  induction S generalizing W with
  | nil => rfl
  | cons l S ih => exact ih _

theorem mixed_start {B : Nat → Nat} : Mixed v t as B [] [] (fun _ c => c) (start t (each v as)) := by
  have hg : ∀ k a, as[k]? = some a → (start t (each v as)).gs k = ⟨v, [a], .idle, [], t.next + 2 * k⟩ := by
    intro k a h
    simp only [start, each, List.getElem?_map, h, Option.map_some, Option.getD_some]
  refine ⟨rfl, fun _ _ => rfl, fun k h => ?_, fun k p h => ?_, fun k p h => ?_, fun k p x h => ?_⟩
  · refine (show (start t (each v as)).gs k = ⟨⟨[], '.', .none⟩, [], .idle, [], t.next + 2 * k⟩ from ?_) ▸ .idle _ _ _ _ (.inl rfl)
    simp only [start, each, List.getElem?_map, h, Option.map_none, Option.getD_none]
  · rw [hg k _ h]; exact .idle _ _ _ _ (.inr ⟨p, rfl⟩)
  · rw [hg k _ h]
    refine .idle _ rfl rfl ?_
    simp only [Prune.World.run, Prune.start, get_calls h]
    rfl
  · rw [hg k _ h]; exact .idle rfl rfl

/-- A step of any goroutine. -/
theorem mixed_tick (h : t.OK) (hp : t.Plain v.delim) (hm : v.mode ≠ .up) (ht : Prune.Tidy v t (calls as)) (hs : Spared v t as) :
    ∃ B : Nat → Nat,
      (∀ (k : Nat) (p : Str), as[k]? = some (.remove p) → ∀ S' : List Nat,
        let r := ((Prune.start v t (calls as)).run v.delim (calls as) S').pcs k
        r ≠ .crash ∧ r ≠ .gone false ∧ (B k ≤ S'.count k → r = .gone true)) ∧
      (∀ S' : List Nat, ((Prune.start v t (calls as)).run v.delim (calls as) S').mem =
        Prune.mems (Prune.start v t (calls as)).mem (Prune.planOf v t (calls as))
          (Prune.stages (Prune.planOf v t (calls as)) ((Prune.start v t (calls as)).run v.delim (calls as) S').pcs)) ∧
      ∀ S S' g W, Mixed v t as B S S' g W → ∀ k, ∃ S'' g', (S'' = S' ∨ S'' = S' ++ [k]) ∧
        Mixed v t as B (S ++ [k]) S'' g' (W.tick t.root.id (2 * (each v as).length) k) := by
  obtain ⟨B1, hB1⟩ := Prune.remove_result h hp hm ht
  have hl := Prune.start_lays (v := v) h (calls as)
  have hN : ∀ k : Nat, ∃ N, ∀ p x, as[k]? = some (.set p x) → ∀ σ, Finds (jobOf v t k p x)
      (Prune.mems (Prune.start v t (calls as)).mem (Prune.planOf v t (calls as))) (idAt t (View.dash (v.full p))) N σ
      (.enter (View.dash (v.full p)) t.root.id) := by
    intro k
    cases ha : as[k]? with
    | none => exact ⟨0, fun p x e => by cases e⟩
    | some a =>
      cases a with
      | get p => exact ⟨0, fun p x e => by cases e⟩
      | remove p => exact ⟨0, fun p x e => by cases e⟩
      | set p x =>
        have hmem := List.mem_of_getElem? ha
        obtain ⟨m, hm'⟩ := stored_node h (hs.stored p x hmem)
        obtain ⟨N, hN⟩ := finds_node (J := jobOf v t k p x)
          (ms := Prune.mems (Prune.start v t (calls as)).mem (Prune.planOf v t (calls as))) t.root [] (View.dash (v.full p)) h.wf
          (fun a A hA => Prune.mems_shows hl hA) (fun a A hA s => mems_len hl hA s)
          (fun a A ch hA hch hq => Prune.spares_sure h hp hm (R := fun _ => False)
            (fun k c P y _ hc htk => hs.spares c P y p x (List.mem_of_getElem? hc) htk hmem) (fun k T hT => ⟨id, hT⟩) hl hA hch hq) hm' rfl
        refine ⟨N, fun p' x' e => ?_⟩
        cases e
        rw [idAt_mem h hm']
        exact hN
  have hB2 : ∃ B2 : Nat → Nat, ∀ k p x, as[k]? = some (.set p x) → ∀ σ, Finds (jobOf v t k p x)
      (Prune.mems (Prune.start v t (calls as)).mem (Prune.planOf v t (calls as))) (idAt t (View.dash (v.full p))) (B2 k) σ
      (.enter (View.dash (v.full p)) t.root.id) := ⟨fun k => (hN k).choose, fun k => (hN k).choose_spec⟩
  obtain ⟨B2, hB2⟩ := hB2
  have hR : ∀ (k : Nat) (p : Str), as[k]? = some (.remove p) → ∀ S' : List Nat,
      let r := ((Prune.start v t (calls as)).run v.delim (calls as) S').pcs k
      r ≠ .crash ∧ r ≠ .gone false ∧ (max (B1 k) (B2 k) ≤ S'.count k → r = .gone true) := by
    intro k p ha S'
    have hc := get_calls ha
    obtain ⟨P, y, htk⟩ := ht.takes p (List.mem_of_getElem? hc)
    obtain ⟨r1, r2, r3⟩ := (hB1 S').2.2 k _ (Prune.planOf_takes hc htk)
    exact ⟨r1, r2, fun hle => r3 (by omega)⟩
  exact ⟨fun k => max (B1 k) (B2 k), hR, fun S' => (hB1 S').1, fun S S' g W I k =>
    I.tick h hp hm ht (set_inj h hs) (fun k p ha S' => (hR k p ha S').2) (fun k p x ha σ => (hB2 k p x ha σ).mono (Nat.le_max_right _ _))
      (fun S' => (hB1 S').1) _ k⟩

/-- What all goroutines come to. -/
theorem mixed (h : t.OK) (hp : t.Plain v.delim) (hm : v.mode ≠ .up) (ht : Prune.Tidy v t (calls as)) (hs : Spared v t as) :
    ∃ B : Nat → Nat,
      (∀ (k : Nat) (p : Str), as[k]? = some (.remove p) → ∀ S' : List Nat,
        let r := ((Prune.start v t (calls as)).run v.delim (calls as) S').pcs k
        r ≠ .crash ∧ r ≠ .gone false ∧ (B k ≤ S'.count k → r = .gone true)) ∧
      ∀ S, ∃ S' g, Mixed v t as B S S' g (runs t (each v as) S) := by
  obtain ⟨B, hR, _, hT⟩ := mixed_tick h hp hm ht hs
  refine ⟨B, hR, fun S => ?_⟩
  have key : ∀ S : List Nat, ∃ S' g, Mixed v t as B S.reverse S' g
      ((start t (each v as)).run t.root.id (2 * (each v as).length) S.reverse) := by
    intro S
    induction S with
    | nil => exact ⟨[], _, mixed_start⟩
    | cons k S ih =>
      obtain ⟨S', g, I⟩ := ih
      rw [List.reverse_cons, run_snoc]
      obtain ⟨S'', g', _, I'⟩ := hT _ _ _ _ I k
      exact ⟨S'', g', I'⟩
  have := key S.reverse
  rwa [List.reverse_reverse] at this

/-- What has come of it when all calls of `Set` and `Remove` have returned. -/
theorem mixed_end (hok : t.OK) (hp : t.Plain v.delim) (hm : v.mode ≠ .up) (ht : Prune.Tidy v t (calls as)) (hs : Spared v t as)
    {B : Nat → Nat} {S S' : List Nat} {g : Nat → Core α → Core α} {W : World α} (I : Mixed v t as B S S' g W)
    (hall : ∀ (k : Nat) a, as[k]? = some a → told a ≠ none → (W.gs k).outs ≠ []) :
    W.mem = over (putAll v t as) (Prune.mems (Prune.start v t (calls as)).mem (Prune.planOf v t (calls as))
      (Prune.ends (Prune.planOf v t (calls as)) (calls as).length)) := by
  have hret : Prune.Returned (calls as) ((Prune.start v t (calls as)).run v.delim (calls as) S') := by
    intro k p hc
    have ha := calls_get hc
    have r := I.rem k p ha
    have ho := hall k _ ha (by simp [told])
    generalize W.gs k = G at r ho
    cases r with
    | idle f hn hn' hpc => exact absurd rfl ho
    | asks f hn hb hsf => exact absurd rfl ho
    | done f hpc => exact ⟨true, hpc⟩
  have hg : ∀ i c, g i c = putAll v t as i c := by
    intro i c
    by_cases hi : ∃ (k : Nat) (p : Str) (x : α), as[k]? = some (.set p x) ∧ idAt t (View.dash (v.full p)) = i
    · obtain ⟨k, p, x, ha, rfl⟩ := hi
      have r := I.set k p x ha
      have ho := hall k _ ha (by simp [told])
      rw [putAll_at as k c ha fun j p' x' hj e => set_inj hok hs j k p' x' p x hj ha e]
      generalize W.gs k = G at r ho
      cases r with
      | done f hg => rw [hg]; rfl
      | idle | finds | store | fin => exact absurd rfl ho
    · have hn : ∀ p x, .set p x ∈ as → idAt t (View.dash (v.full p)) ≠ i := by
        intro p x hx e
        obtain ⟨k, hk⟩ := List.mem_iff_getElem?.mp hx
        exact hi ⟨k, p, x, hk, e⟩
      rw [I.frame i hn, putAll_other as c hn]
  rw [I.mem, Prune.returned_mem hok hp hm ht S' hret]
  exact congrArg (over · _) (funext fun i => funext fun c => hg i c)

/-- **C93** Any number of goroutines call `Remove`, and any number call `Set`, each for a key of its own that is in the
trie, and each one once. If the removals are apart from each other (`Tidy`, as in C91), and every child on the way to a
key that is set is not the one that is removed, nor one behind it, except the last (`Spared`), then, whatever the scheduler does, nobody panics; every
`Remove` reports success; every goroutine that is given enough steps returns; and when all have returned, the trie is
the one that is got by first calling `Set` for all the keys, and then `Remove`, one after the other. (There may be
lookups as well. Of them C105 speaks.) -/
theorem C93_replace (h : Reach K t) (hp : t.Plain v.delim) (hm : v.mode ≠ .up) (ht : Prune.Tidy v t (calls as)) (hs : Spared v t as) :
    ∃ N : Nat → Nat, ∀ S, let W := runs t (each v as) S
      (∀ k a o, as[k]? = some a → told a = some o → ¬ (W.gs k).crashed ∧ ((W.gs k).outs = [] ∨ (W.gs k).outs = [o]) ∧
        (N k ≤ S.count k → (W.gs k).doing = .idle ∧ (W.gs k).todo = [] ∧ (W.gs k).outs = [o])) ∧
      ((∀ (k : Nat) a, as[k]? = some a → told a ≠ none → (W.gs k).outs ≠ []) →
        ∃ D, ∀ d, D ≤ d → Prune.read W.mem d t.root.id = (Prune.after v (sets v t as) (calls as)).root) := by
  have hok := h.ok
  obtain ⟨B, hR, hB⟩ := mixed hok hp hm ht hs
  refine ⟨fun k => B k + 4, fun S => ?_⟩
  obtain ⟨S', g, I⟩ := hB S
  refine ⟨fun k a o ha ho => ?_, fun hall => ?_⟩
  · cases a with
    | get p => cases ho
    | remove p =>
      cases ho
      have r := I.rem k p ha
      obtain ⟨r1, r2, r3⟩ := hR k p ha S'
      generalize (runs t (each v as) S).gs k = G at r
      cases r with
      | idle f hn hn' hpc => exact ⟨(by rintro (⟨c, e⟩ | ⟨J, e⟩) <;> cases e), .inl rfl, fun hle => by have : B k + 4 ≤ S.count k := hle; omega⟩
      | asks f hn hb hsf =>
        refine ⟨?_, .inl rfl, fun hle => by have : B k + 4 ≤ S.count k := hle; omega⟩
        rintro (⟨c, e⟩ | ⟨J, e⟩)
        · exact r1 (Doing.asks.inj e).2
        · cases e
      | done f hpc => exact ⟨(by rintro (⟨c, e⟩ | ⟨J, e⟩) <;> cases e), .inr rfl, fun _ => ⟨rfl, rfl, rfl⟩⟩
    | set p x =>
      cases ho
      have r := I.set k p x ha
      generalize (runs t (each v as) S).gs k = G at r
      cases r with
      | idle hn hg => exact ⟨(by rintro (⟨c, e⟩ | ⟨J, e⟩) <;> cases e), .inl rfl, fun hle => by have : B k + 4 ≤ S.count k := hle; omega⟩
      | finds f b pc hf hn hg =>
        refine ⟨?_, .inl rfl, fun hle => by have : B k + 4 ≤ S.count k := hle; omega⟩
        rintro (⟨c, e⟩ | ⟨J, e⟩)
        · cases e
        · rw [(Doing.sets.inj e).2] at hf
          exact finds_crash hf
      | store f hn hg | fin f hn hg => exact ⟨(by rintro (⟨c, e⟩ | ⟨J, e⟩) <;> cases e), .inl rfl, fun hle => by have : B k + 4 ≤ S.count k := hle; omega⟩
      | done f hg => exact ⟨(by rintro (⟨c, e⟩ | ⟨J, e⟩) <;> cases e), .inr rfl, fun _ => ⟨rfl, rfl, rfl⟩⟩
  · have U := Prune.upto_all hok hp hm ht
    obtain ⟨D, hD⟩ := Prune.read_holds _ [] U.holds
    obtain ⟨ok', e'⟩ := sets_recore (v := v) hok as (T := t) (g := fun _ c => c) hok (Node.recore_self _).symm
      fun p x hx => stored_node hok (hs.stored p x hx)
    refine ⟨D, fun d hd => ?_⟩
    rw [mixed_end hok hp hm ht hs I hall, read_over, ← U.rid, hD d hd, after_recore hm (calls as) e' ok' hok hp]
end

section examples
open Prune (trie trie_reach keys read)
open Race (top)

/-- Two goroutines, one with a call of `Set`, after which it may look the key up, and one with a call of `Remove`. -/
def setRem (p : String) (x : Nat) (more : List (Act Nat)) (q : String) : List (View × List (Act Nat)) :=
  [(top, .set p.toList x :: more), (top, [.remove q.toList])]

def crashes : Gor Nat → Bool := fun g => match g.doing with
  | .asks _ .crash => true
  | _ => false

/-- **C93** One goroutine removes `a.z`, one sets `ab`. The first has found its child at index 2; the second splits the
node, which leaves it with two children (radix/node.go:284-292); then the first evaluates `s.children[:2]` and
`s.children[3:]` (190), and panics. -/
theorem C93_panic_fails :
    ∃ S, crashes ((runs (trie ["a.x", "a.y", "a.z"]) (setRem "ab" 9 [] "a.z") S).gs 1) = true :=
  ⟨List.replicate 30 1 ++ List.replicate 20 0 ++ [1], by decide +kernel⟩

/-- **C93** … If it removes `a.x`, which is at index 0, it removes the node that `split` has made, and with it all keys
below `a.`, and reports success. -/
theorem C93_wipe_fails :
    ∃ S, let W := runs (trie ["a.x", "a.y", "a.z"]) (setRem "ab" 9 [] "a.x") S
      (W.gs 0).outs = [.stored] ∧ (W.gs 1).outs = [.removed true] ∧ keys (read W.mem 6 0) = ["ab"] :=
  ⟨List.replicate 22 1 ++ List.replicate 20 0 ++ List.replicate 10 1, by decide +kernel⟩

/-- **C93** One goroutine removes `a.x`, one sets `a.z`. The second has built the new slice of children (304) when the
first removes its child from the old one and reports success. Then the second assigns its slice: `a.x` is back. -/
theorem C93_back_fails :
    ∃ S, let W := runs (trie ["a.x", "a.y"]) (setRem "a.z" 9 [] "a.x") S
      (W.gs 0).outs = [.stored] ∧ (W.gs 1).outs = [.removed true] ∧ keys (read W.mem 6 0) = ["a.x", "a.y", "a.z"] :=
  ⟨List.replicate 10 0 ++ List.replicate 26 1 ++ List.replicate 10 0, by decide +kernel⟩

/-- **C93** … The other way round, when the first has evaluated its slices (190) before the second assigns the new one:
`a.z` is lost, although `Set` has returned and nobody has removed it. -/
theorem C93_lost_fails :
    ∃ S, let W := runs (trie ["a.x", "a.y"]) (setRem "a.z" 9 [] "a.x") S
      (W.gs 0).outs = [.stored] ∧ (W.gs 1).outs = [.removed true] ∧ keys (read W.mem 6 0) = ["a.y"] :=
  ⟨List.replicate 23 1 ++ List.replicate 20 0 ++ List.replicate 10 1, by decide +kernel⟩

/-- **C93** One goroutine removes `a.x`, one sets `a.y`, which is in the trie, behind `a.x`. The second has looked at
`a.x` when the first moves the children: it misses the node of `a.y` and makes another. When it looks its key up, it gets the
value that was there before. -/
theorem C93_twice_fails :
    ∃ S, let W := runs (trie ["a.x", "a.y", "a.z"]) (setRem "a.y" 9 [.get "a.y".toList] "a.x") S
      (W.gs 0).outs = [.stored, .got ⟨2, false, true, false⟩] ∧ (W.gs 1).outs = [.removed true] ∧
      keys (read W.mem 6 0) = ["a.y", "a.z", "a.y"] :=
  ⟨List.replicate 7 0 ++ List.replicate 40 1 ++ List.replicate 60 0, by decide +kernel⟩

/-- `a.name`, `a.log.level` and `db.host` are in the trie. Two are removed, one is set. -/
def acts : List (Act Nat) := [.set "a.log.level".toList 9, .remove "a.name".toList, .remove "db.host".toList]

theorem acts_spared : Spared top Race.three acts := by
  have hmem : ∀ p x, .set p x ∈ acts → p = "a.log.level".toList := by
    intro p x h
    rcases List.mem_cons.mp h with e | h
    · exact (Act.set.inj e).1
    · rcases List.mem_cons.mp h with e | h
      · cases e
      · rcases List.mem_cons.mp h with e | h
        · cases e
        · cases h
  have hidx : ∀ (i : Nat) p x, acts[i]? = some (.set p x) → i = 0 := by
    intro i p x h
    match i, h with
    | 0, _ => rfl
    | 1, h => cases h
    | 2, h => cases h
    | n + 3, h => cases h
  refine ⟨fun p x h => ?_, fun i j p x p' x' hi hj _ => (hidx i p x hi).trans (hidx j p' x' hj).symm, fun c P y p x hc htk hx => ?_⟩
  · rw [hmem p x h]
    have : Race.three.contents "a.log.level".toList = some (Prune.nd 4 "log.level" "a.log.level" (some 2) []).core := by exact rfl
    intro e
    have := this.symm.trans e
    cases this
  · rw [hmem p x hx]
    exact Prune.calls_spare c P y hc htk

example : ∃ N : Nat → Nat, ∀ S, let W := runs Race.three (each top acts) S
    (∀ k a o, acts[k]? = some a → told a = some o → ¬ (W.gs k).crashed ∧ ((W.gs k).outs = [] ∨ (W.gs k).outs = [o]) ∧
      (N k ≤ S.count k → (W.gs k).doing = .idle ∧ (W.gs k).todo = [] ∧ (W.gs k).outs = [o])) ∧
    ((∀ (k : Nat) a, acts[k]? = some a → told a ≠ none → (W.gs k).outs ≠ []) →
      ∃ D, ∀ d, D ≤ d → read W.mem d Race.three.root.id = (Prune.after top (sets top Race.three acts) (calls acts)).root) :=
  C93_replace Race.three_reach Race.three_plain.plain (by decide) Prune.calls_tidy acts_spared

/-- On one schedule, by turns. -/
example : let W := runs Race.three (each top acts) ((List.replicate 60 [0, 1, 2]).flatten)
    (W.gs 0).outs = [.stored] ∧ (W.gs 1).outs = [.removed true] ∧ (W.gs 2).outs = [.removed true] ∧
    keys (read W.mem 5 0) = ["a.log.level"] ∧ (W.mem 4).core.data = 9 := by decide +kernel

end examples

end Parts
end Verif

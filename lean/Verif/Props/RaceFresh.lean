import Verif.Lemmas.RaceDeck
import Verif.Props.RaceMix
/-
C109: `Set` for new keys beside `Remove`.
-/
namespace Verif
namespace Parts
variable {α : Type} [Inhabited α]
open Prune (Cell Mem Pc Call)

section
variable {K : Str → Prop} {v : View} {t : Tree α} {as : List (Act α)}

omit [Inhabited α] in
theorem comes_stuck {β : Type} {f : Mem α → β → Mem α × β} {R : (Nat → Nat) → Mem α → Prop} {Q : β → Prop} {r : β} (hf : ∀ M, (f M r).2 = r)
    (hR : ∀ s, ∃ M, R s M) (hQ : ¬ Q r) : ∀ n s, ¬ Comes f R Q n s r
  | 0, _ => hQ
  | n + 1, s => by
    rintro (h | h)
    · exact hQ h
    · obtain ⟨M, hM⟩ := hR s
      have h' := (h s M (fun _ => Nat.le_refl _) hM).2
      rw [hf] at h'
      exact comes_stuck hf hR hQ n s h'

/-- The invariant holds on every schedule. -/
theorem blended (h : t.OK) (hp : t.Plain v.delim) (hm : v.mode ≠ .up) (ht : Prune.Tidy v t (calls as)) (hj : Joins v t as) :
    ∃ site B, Setting v t as (Prune.start v t (calls as)).mem (Prune.planOf v t (calls as)) site B ∧
      ∀ S, ∃ s ext g, Blend v t as (Prune.start v t (calls as)).mem (Prune.planOf v t (calls as)) site B S s ext g (runs t (each v as) S) := by
  obtain ⟨site, B, X⟩ := setting h hp hm ht hj
  refine ⟨site, B, X, fun S => ?_⟩
  have key : ∀ S : List Nat, ∃ s ext g, Blend v t as (Prune.start v t (calls as)).mem (Prune.planOf v t (calls as)) site B S.reverse s ext g
      ((start t (each v as)).run t.root.id (2 * (each v as).length) S.reverse) := by
    intro S
    induction S with
    | nil => exact ⟨_, _, _, blend_start h X⟩
    | cons k S ih =>
      obtain ⟨s, ext, g, I⟩ := ih
      rw [List.reverse_cons, run_snoc]
      obtain ⟨s', ext', g', _, _, I'⟩ := I.tick X (fun k p ha => by
        obtain ⟨P, x, htk⟩ := ht.takes p (List.mem_of_getElem? (get_calls ha))
        exact ⟨_, Prune.planOf_takes (get_calls ha) htk⟩) (2 * (each v as).length) k
      exact ⟨s', ext', g', I'⟩
  have := key S.reverse
  rwa [List.reverse_reverse] at this

/-- **C109** Any number of goroutines call `Remove`, and any number call `Set`, each for a key of its own, which is in the trie, or which
adds a child to a node from which no child is removed, and to which no other `Set` adds one. If the removals are apart from each
other (`Tidy`, as in C91), and the child on the way to a key that is set is not the one that is removed, nor one behind it, except the last, then, whatever
the scheduler does, nobody panics; every `Remove` reports success; every goroutine that is given enough steps returns; and when all
have returned, what is in memory is a trie in which every key that was set has its value, there is nothing at or below a node that was
removed, and at all other paths there is what was there before. -/
theorem C109_new (h : Reach K t) (hp : t.Plain v.delim) (hm : v.mode ≠ .up) (ht : Prune.Tidy v t (calls as)) (hj : Joins v t as) :
    ∃ N : Nat → Nat, ∀ S, let W := runs t (each v as) S
      (∀ k a o, as[k]? = some a → told a = some o → ¬ (W.gs k).crashed ∧ ((W.gs k).outs = [] ∨ (W.gs k).outs = [o]) ∧
        (N k ≤ S.count k → (W.gs k).doing = .idle ∧ (W.gs k).todo = [] ∧ (W.gs k).outs = [o])) ∧
      ((∀ (k : Nat) a, as[k]? = some a → told a ≠ none → (W.gs k).outs ≠ []) →
        ∃ t' : Tree α, (∃ D, ∀ d, D ≤ d → Prune.read W.mem d t.root.id = t'.root) ∧ t'.OK ∧
          (∀ p x, .set p x ∈ as → t'.contents (View.dash (v.full p)) = some (held (View.dash (v.full p)) x (t.contents (View.dash (v.full p))))) ∧
          (∀ q, Gone v t as q → t'.contents q = none) ∧
          ∀ q, ¬ Gone v t as q → (∀ p x, .set p x ∈ as → View.dash (v.full p) ≠ q) → t'.contents q = t.contents q) := by
  have hok := h.ok
  obtain ⟨site, B, X, hB⟩ := blended hok hp hm ht hj
  refine ⟨fun k => B k + 1, fun S => ?_⟩
  obtain ⟨s, ext, g, I⟩ := hB S
  refine ⟨fun k a o ha ho => ?_, fun hall => ?_⟩
  · cases a with
    | get p => cases ho
    | remove p =>
      cases ho
      obtain ⟨P, x, htk⟩ := ht.takes p (List.mem_of_getElem? (get_calls ha))
      have r := (I.all k).rem p _ ha (Prune.planOf_takes (get_calls ha) htk)
      generalize (runs t (each v as) S).gs k = G at r
      cases r with
      | idle f hn hs => exact ⟨(by rintro (⟨c, e⟩ | ⟨J, e⟩) <;> cases e), .inl rfl, fun hle => by have : B k + 1 ≤ S.count k := hle; omega⟩
      | search f b pc hs hn h0 =>
        refine ⟨?_, .inl rfl, fun hle => by have : B k + 1 ≤ S.count k := hle; omega⟩
        rintro (⟨c, e⟩ | ⟨J, e⟩)
        · rw [(Doing.asks.inj e).2] at hs
          exact comes_stuck (fun _ => rfl) (fun s => ⟨_, like_self X.lays s⟩) (by rintro ⟨_, e⟩; cases e) _ _ hs
        · cases e
      | late f b pc hd hn h0 =>
        refine ⟨?_, .inl rfl, fun hle => by have : B k + 1 ≤ S.count k := hle; omega⟩
        rintro (⟨c, e⟩ | ⟨J, e⟩)
        · rw [(Doing.asks.inj e).2] at hd
          cases hd
        · cases e
      | done f hs => exact ⟨(by rintro (⟨c, e⟩ | ⟨J, e⟩) <;> cases e), .inr rfl, fun _ => ⟨rfl, rfl, rfl⟩⟩
    | set p x =>
      cases ho
      cases hsk : site k with
      | none =>
        have r := (I.all k).set p x ha hsk
        generalize (runs t (each v as) S).gs k = G at r
        cases r with
        | finds f b pc hf hn hg =>
          refine ⟨?_, .inl rfl, fun hle => by have : B k + 1 ≤ S.count k := hle; omega⟩
          rintro (⟨c, e⟩ | ⟨J, e⟩)
          · cases e
          · rw [(Doing.sets.inj e).2] at hf
            exact comes_stuck (fun _ => rfl) (fun s => ⟨_, like_self X.lays s⟩) (by intro e; cases e) _ _ hf
        | idle hn hg => exact ⟨(by rintro (⟨c, e⟩ | ⟨J, e⟩) <;> cases e), .inl rfl, fun hle => by have : B k + 1 ≤ S.count k := hle; omega⟩
        | store f hn hg | fin f hn hg => exact ⟨(by rintro (⟨c, e⟩ | ⟨J, e⟩) <;> cases e), .inl rfl, fun hle => by have : B k + 1 ≤ S.count k := hle; omega⟩
        | done f hg => exact ⟨(by rintro (⟨c, e⟩ | ⟨J, e⟩) <;> cases e), .inr rfl, fun _ => ⟨rfl, rfl, rfl⟩⟩
      | some y =>
        obtain ⟨A, w⟩ := y
        have r := (I.all k).new p x A w ha hsk
        generalize (runs t (each v as) S).gs k = G at r
        generalize (runs t (each v as) S).mem (t.next + 2 * k + 1) = c at r
        cases r with
        | finds f b pc hf hn hg =>
          refine ⟨?_, .inl rfl, fun hle => by have : B k + 1 ≤ S.count k := hle; omega⟩
          rintro (⟨c, e⟩ | ⟨J, e⟩)
          · cases e
          · rw [(Doing.sets.inj e).2] at hf
            exact comes_stuck (fun _ => rfl) (fun s => ⟨_, like_self X.lays s⟩) (by intro e; cases e) _ _ hf
        | idle hn hg => exact ⟨(by rintro (⟨c, e⟩ | ⟨J, e⟩) <;> cases e), .inl rfl, fun hle => by have : B k + 1 ≤ S.count k := hle; omega⟩
        | link f hn hg hc | fin f hn hg hc => exact ⟨(by rintro (⟨c, e⟩ | ⟨J, e⟩) <;> cases e), .inl rfl, fun hle => by have : B k + 1 ≤ S.count k := hle; omega⟩
        | done f hg hc => exact ⟨(by rintro (⟨c, e⟩ | ⟨J, e⟩) <;> cases e), .inr rfl, fun _ => ⟨rfl, rfl, rfl⟩⟩
  · obtain ⟨t', h1, h2, h3, h4, h5⟩ := blend_end hok hp hm ht hj X I hall
    have hg : ∀ q, Gone v t as q ↔ Prune.Struck v t (calls as) (calls as).length q := by
      intro q
      constructor
      · rintro ⟨c, P, y, u, hc, htk, hu, hq⟩
        obtain ⟨i, hi⟩ := List.mem_iff_getElem?.mp hc
        exact ⟨i, c, P, y, u, (List.getElem?_eq_some_iff.mp hi).1, hi, htk, hu, hq⟩
      · rintro ⟨i, c, P, y, u, _, hi, htk, hu, hq⟩
        exact ⟨c, P, y, u, List.mem_of_getElem? hi, htk, hu, hq⟩
    exact ⟨t', h1, h2, h3, fun q hq => h4 q ((hg q).mp hq), fun q hq => h5 q fun e => hq ((hg q).mpr e)⟩
end

section examples
open Prune (keys read)
open Race (top)

/-- `a.name`, `a.log.level` and `db.host` are in the trie. `a.x` is new. -/
def joining : List (Act Nat) := [.set "a.x".toList 9, .set "a.log.level".toList 7, .remove "db.host".toList]

theorem joining_tidy : Prune.Tidy top Race.three (calls joining) := Prune.tidy_of (by decide +kernel)

/-- The node `a.`, to which `a.x` is added. -/
def siteA : Node Nat := Race.three.root.kids.headD Race.three.root

theorem siteA_leaves : Leaves Race.three "a.x".toList siteA "x".toList := by
  refine ⟨"a.".toList, ?_, by decide +kernel, by decide +kernel, ?_⟩
  · have hk : siteA ∈ Race.three.root.kids := List.mem_of_mem_head? (by exact rfl)
    rw [Node.mem_nodes]
    exact .inr ⟨siteA, hk, by rw [Node.mem_nodes]; exact .inl (by exact rfl)⟩
  · have : (siteA.kids.all fun e => e.path.head? != "x".toList.head?) = true := by decide +kernel
    intro e he
    simpa using List.all_eq_true.mp this e he

theorem joining_joins : Joins top Race.three joining := by
  have hmem : ∀ p x, .set p x ∈ joining → p = "a.x".toList ∨ p = "a.log.level".toList := by
    intro p x h
    rcases List.mem_cons.mp h with e | h
    · exact .inl (Act.set.inj e).1
    · rcases List.mem_cons.mp h with e | h
      · exact .inr (Act.set.inj e).1
      · rcases List.mem_cons.mp h with e | h
        · cases e
        · cases h
  have hidx : ∀ (i : Nat) p x, joining[i]? = some (.set p x) → i = 0 ∧ p = "a.x".toList ∨ i = 1 ∧ p = "a.log.level".toList := by
    intro i p x h
    match i, h with
    | 0, h => exact .inl ⟨rfl, (Act.set.inj (Option.some.inj h)).1.symm⟩
    | 1, h => exact .inr ⟨rfl, (Act.set.inj (Option.some.inj h)).1.symm⟩
    | 2, h => cases h
    | n + 3, h => cases h
  have hx : ¬ Race.three.contents "a.log.level".toList = none := by
    have : (Race.three.contents "a.log.level".toList).isSome = true := by decide +kernel
    intro e
    rw [e] at this
    cases this
  have e1 : View.dash (top.full "a.x".toList) = "a.x".toList := by decide +kernel
  have e2 : View.dash (top.full "a.log.level".toList) = "a.log.level".toList := by decide +kernel
  have hok := Race.three_reach.ok
  refine ⟨fun p x h => ?_, fun i j p x p' x' hi hj e => ?_, fun i j p x p' x' A w A' w' hi hj hA hA' _ => ?_, fun c P y p x A w hc htk hs hL e => ?_,
    fun c P y p x hc htk hs => ?_⟩
  · rcases hmem p x h with rfl | rfl
    · rw [e1]; exact .inr ⟨_, _, siteA_leaves⟩
    · rw [e2]; exact .inl hx
  · rcases hidx i p x hi with ⟨rfl, rfl⟩ | ⟨rfl, rfl⟩ <;> rcases hidx j p' x' hj with ⟨rfl, rfl⟩ | ⟨rfl, rfl⟩
    · rfl
    · revert e; decide +kernel
    · revert e; decide +kernel
    · rfl
  · rcases hidx i p x hi with ⟨rfl, rfl⟩ | ⟨rfl, rfl⟩
    · rcases hidx j p' x' hj with ⟨rfl, rfl⟩ | ⟨rfl, rfl⟩
      · rfl
      · rw [e2] at hA'; exact absurd (hA'.none hok) hx
    · rw [e2] at hA; exact absurd (hA.none hok) hx
  · rcases hmem p x hs with rfl | rfl
    · have key : ((calls joining).all fun c => match Prune.taken top Race.three c with
        | none => true
        | some (_, P) => P.id == Race.three.root.id) = true := by decide +kernel
      have hP := List.all_eq_true.mp key c hc
      rw [Prune.taken_iff.mp htk] at hP
      have hP : P.id = Race.three.root.id := by simpa using hP
      rw [e1] at hL
      obtain ⟨a, hA, hq, _, hk⟩ := hL
      obtain ⟨rfl, rfl⟩ := Prod.mk.inj (hok.id_inj hA ((Node.mem_nodes _ _ _).mpr (.inl rfl)) (e.symm.trans hP))
      rw [hok.nil] at hq
      obtain rfl : "a.x".toList = w := hq
      exact hk siteA (List.mem_of_mem_head? (by exact rfl)) (by decide +kernel)
    · rw [e2] at hL; exact absurd (hL.none hok) hx
  · have key : ((calls joining).all fun c => match Prune.taken top Race.three c with
      | none => true
      | some (y, P) => Prune.spares Race.three P y "a.x".toList && Prune.spares Race.three P y "a.log.level".toList) = true := by decide +kernel
    have := List.all_eq_true.mp key c hc
    rw [Prune.taken_iff.mp htk] at this
    have := (Bool.and_eq_true _ _).mp this
    rcases hmem p x hs with rfl | rfl
    · rw [e1]; exact Prune.spares_of this.1
    · rw [e2]; exact Prune.spares_of this.2

example : ∃ N : Nat → Nat, ∀ S, let W := runs Race.three (each top joining) S
    (∀ k a o, joining[k]? = some a → told a = some o → ¬ (W.gs k).crashed ∧ ((W.gs k).outs = [] ∨ (W.gs k).outs = [o]) ∧
      (N k ≤ S.count k → (W.gs k).doing = .idle ∧ (W.gs k).todo = [] ∧ (W.gs k).outs = [o])) ∧
    ((∀ (k : Nat) a, joining[k]? = some a → told a ≠ none → (W.gs k).outs ≠ []) →
      ∃ t' : Tree Nat, (∃ D, ∀ d, D ≤ d → read W.mem d Race.three.root.id = t'.root) ∧ t'.OK ∧
        (∀ p x, .set p x ∈ joining → t'.contents (View.dash (top.full p)) = some (held (View.dash (top.full p)) x (Race.three.contents (View.dash (top.full p))))) ∧
        (∀ q, Gone top Race.three joining q → t'.contents q = none) ∧
        ∀ q, ¬ Gone top Race.three joining q → (∀ p x, .set p x ∈ joining → View.dash (top.full p) ≠ q) → t'.contents q = Race.three.contents q) :=
  C109_new Race.three_reach Race.three_plain.plain (by decide) joining_tidy joining_joins

/-- On one schedule, by turns. -/
example : let W := runs Race.three (each top joining) ((List.replicate 60 [0, 1, 2]).flatten)
    (W.gs 0).outs = [.stored] ∧ (W.gs 1).outs = [.stored] ∧ (W.gs 2).outs = [.removed true] ∧
    keys (read W.mem 5 0) = ["a.name", "a.log.level", "a.x"] ∧ (W.mem 4).core.data = 7 := by decide +kernel

end examples

end Parts
end Verif

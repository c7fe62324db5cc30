import Verif.Props.RaceAll
import Verif.Props.RaceFreshGet
/-
C112: what handlers are told when new keys are set while other keys are removed.
-/
namespace Verif
namespace Parts
variable {α : Type} [Inhabited α] {K : Str → Prop} {t : Tree α} {v : View} {isNil : α → Bool} {as : List (Act α)}
open Prune (Mem Pc)

section helpers

omit [Inhabited α] in
theorem twice_call {c : Prune.Call} {P y : Node α} (hc : c ∈ calls (twice as)) (hT : Prune.Takes v t c P y) : c ∈ calls as := by
  obtain ⟨q, rfl⟩ := takes_rem hT
  obtain ⟨k, hk⟩ := List.mem_iff_getElem?.mp hc
  exact List.mem_of_getElem? (twice_rem hk)

omit [Inhabited α] in
theorem twice_setAt {k : Nat} {p : Str} {x : α} (h : (twice as)[k]? = some (.set p x)) : as[k]? = some (.set p x) := by
  rcases twice_cases h with h | ⟨_, h⟩
  · exact h
  · cases h

omit [Inhabited α] in
theorem twice_joins (hj : Joins v t as) : Joins v t (twice as) where
  keys p x h := hj.keys p x (twice_set h)
  apart i j p x p' x' h1 h2 e := hj.apart i j p x p' x' (twice_setAt h1) (twice_setAt h2) e
  sites i j p x p' x' A w A' w' h1 h2 := hj.sites i j p x p' x' A w A' w' (twice_setAt h1) (twice_setAt h2)
  still c P y p x A w hc hT hx := hj.still c P y p x A w (twice_call hc hT) hT (twice_set hx)
  spares c P y p x hc hT hx := hj.spares c P y p x (twice_call hc hT) hT (twice_set hx)

/-- The value that a `Set` replaces, if there is one. -/
def priorOf (v : View) (t : Tree α) (as : List (Act α)) (k : Nat) : Option α := match as[k]? with
  | some (.set p _) => (t.contents (v.full p)).map fun c => c.data
  | _ => none

/-- Whether the lookup of a `Set` finds its key. A new one it does not. -/
def foundOf (v : View) (t : Tree α) (as : List (Act α)) (k : Nat) : Bool := (priorOf v t as k).isSome && isFound v t as k

omit [Inhabited α] in
theorem mem_dash (hb : ∀ p x, .set p x ∈ as → ' ' ∉ v.full p) {k : Nat} {p : Str} {x : α} (ha : as[k]? = some (.set p x)) :
    View.dash (v.full p) = v.full p := dash_same (hb p x (List.mem_of_getElem? ha))

theorem fresh_plan (h : Reach K t) (hp : t.Plain v.delim) (hm : v.mode ≠ .up) (ht : Prune.Tidy v t (calls as)) (hj : Joins v t as)
    (hb : ∀ p x, .set p x ∈ as → ' ' ∉ v.full p) :
    ∃ N : Nat → Nat, Plan v t as (foundOf v t as) (oldOf v t as) (priorOf v t as) (itemOf v t as) N ∧
      (∀ T k a, as[k]? = some a → told a ≠ none → ¬ ((runs t (each v (twice as)) T).gs k).crashed) ∧
      ∀ T k p x, as[k]? = some (.set p x) → ¬ ((runs t (each v (twice as)) T).gs (as.length + k)).crashed := by
  have hok := h.ok
  have ht2 := twice_tidy ht
  have hj2 := twice_joins hj
  obtain ⟨site, B, X, hB⟩ := blended hok hp hm ht2 hj2
  obtain ⟨N1, hN1⟩ := C109_new h hp hm ht2 hj2
  have look : ∀ k, ∃ N, ∀ p x, as[k]? = some (.set p x) → ∀ T, let G := (runs t (each v (twice as)) T).gs (as.length + k)
      ¬ G.crashed ∧ (N ≤ T.count (as.length + k) → ∃ a, G.outs = [.got a]) ∧ (T.count k = 0 → ∀ a, .got a ∈ G.outs → a.found = foundOf v t as k) := by
    intro k
    cases ha : as[k]? with
    | none => exact ⟨0, nofun⟩
    | some a =>
      cases a with
      | get p => exact ⟨0, nofun⟩
      | remove p => exact ⟨0, nofun⟩
      | set p x =>
        have hd := mem_dash hb ha
        cases hc : t.contents (v.full p) with
        | some c =>
          have hr : resolve v.delim t.contents (v.full p) = some (v.full p, c) := by rw [resolve, hc]
          obtain ⟨N, hN⟩ := C110_answer h hp hm ht2 hj2 (twice_right ha) hr (fun c P y hc htk => by
            have := hj2.spares c P y p x hc htk (List.mem_of_getElem? (twice_left ha))
            rwa [hd] at this)
          refine ⟨N, fun p' x' e T => ?_⟩
          cases e
          obtain ⟨h1, h2, h3⟩ := hN T
          refine ⟨h1, h2, fun _ a hg => ?_⟩
          obtain ⟨a0, hq, _, _, _, _, h4⟩ := h3 a hg
          simp only [foundOf, priorOf, isFound, ha, hc]
          have hq : v.query t p = .ok a0 := hq
          rw [hq]
          rcases h4 with ⟨rfl, _⟩ | ⟨_, _, _, _, _, rfl, _⟩ <;> rfl
        | none =>
          obtain ⟨N, hN⟩ := C110_new h hp hm ht2 hj2 (twice_right ha) (twice_left ha) hd hc
          refine ⟨N, fun p' x' e T => ?_⟩
          cases e
          obtain ⟨h1, h2, h3⟩ := hN T
          refine ⟨h1, h2, fun h0 a hg => ?_⟩
          simp only [foundOf, priorOf, ha, hc]
          obtain ⟨S₁, S₂, rfl, ⟨rfl, _⟩ | ⟨_, h5⟩⟩ := h3 a hg
          · rfl
          · have hn : k ∉ S₁ := by
              intro e
              have := List.count_pos_iff.mpr e
              rw [List.count_append] at h0
              omega
            have := runs_gs_ne (t := t) (each v (twice as)) S₁ hn []
            rw [List.nil_append] at this
            rw [this] at h5
            exfalso
            have h6 : (runs t (each v (twice as)) []).gs k = ⟨v, [.set p x], .idle, [], t.next + 2 * k⟩ := by
              simp only [runs, World.run, start, each, List.getElem?_map, twice_left ha, Option.map_some, Option.getD_some]
            rw [h6] at h5
            cases h5
  obtain ⟨N2, hN2⟩ := Classical.axiomOfChoice look
  refine ⟨fun k => max (N1 k) (N2 k), ?_, fun T k a ha hn => ?_, fun T k p x ha => (hN2 k p x ha T).1⟩
  rotate_left
  · cases a with
    | get p => exact absurd rfl hn
    | set p x => exact ((hN1 T).1 k _ _ (twice_left ha) rfl).1
    | remove p => exact ((hN1 T).1 k _ _ (twice_left ha) rfl).1
  have le1 : ∀ k m, max (N1 k) (N2 k) ≤ m → N1 k ≤ m := fun k m h => by omega
  have le2 : ∀ k m, max (N1 k) (N2 k) ≤ m → N2 k ≤ m := fun k m h => by omega
  -- the way of a `Set` does not come to `r` from where it does not go on
  have hgo : ∀ {Y : Nat → Prop} {J : Race.Job α} {i : Nat} {r : SetPc} {b : Nat} {s : Nat → Nat}, r ≠ .done → r ≠ .store i →
      ¬ Goes t (Prune.start v t (calls (twice as))).mem (Prune.planOf v t (calls (twice as))) Y J r b s (.store i) := by
    intro Y J i r b s h1 h2 hg
    cases b with
    | zero => exact h2 (Eq.symm hg)
    | succ b =>
      rcases hg with e | hg
      · exact h2 (Eq.symm e)
      · exact h1 (goes_fixed X.lays (hg s _ (.refl _) (like_self X.lays s)).2 fun _ => rfl).symm
  have hnot : ∀ {Y : Nat → Prop} {J : Race.Job α} {r pc : SetPc} {b : Nat} {s : Nat → Nat} {M : Mem α}, r ≠ .done → (insStep J M r).2 ≠ .done →
      Like t (Prune.mems (Prune.start v t (calls (twice as))).mem (Prune.planOf v t (calls (twice as)))) Y s M →
      Goes t (Prune.start v t (calls (twice as))).mem (Prune.planOf v t (calls (twice as))) Y J r b s pc → (insStep J M pc).2 ≠ .done := by
    intro Y J r pc b s M h1 h2 hM hg e
    cases b with
    | zero =>
      have hg : pc = r := hg
      rw [hg] at e; exact h2 e
    | succ b =>
      rcases hg with rfl | hg
      · exact h2 e
      · have := (hg s M (.refl _) hM).2
        rw [e] at this
        exact h1 (goes_fixed X.lays this fun _ => rfl).symm
  have hprior : ∀ k p x A w, as[k]? = some (.set p x) → site k = some (A, w) → priorOf v t as k = none := by
    intro k p x A w ha hs
    obtain ⟨p1, x1, h1, hL⟩ := X.sited.new k A w hs
    rw [twice_left ha] at h1
    obtain ⟨rfl, rfl⟩ := Act.set.inj (Option.some.inj h1)
    have := hL.none hok
    rw [mem_dash hb ha] at this
    simp only [priorOf, ha, this, Option.map_none]
  refine ⟨?_, ?_, ?_, ?_, ?_, ?_, ?_, ?_, ?_, ?_, ?_⟩
  · intro T j p f pc ha hg
    obtain ⟨s, ext, g, I⟩ := hB T
    have := (I.all j).get p ha
    rw [hg] at this
    cases this with
    | asks _ _ _ _ _ h => exact h
  · intro T k p x r ha h0 hg
    exact (hN2 k p x ha T).2.2 h0 r hg
  · intro T k p x ha hle e
    obtain ⟨a, h1⟩ := (hN2 k p x ha T).2.1 (le2 _ _ hle)
    rw [h1] at e; cases e
  · intro T k p x ha hle e
    rw [((hN1 T).1 k _ _ (twice_left ha) rfl).2.2 (le1 _ _ hle) |>.2.2] at e
    cases e
  · intro T k p x J i f ha hg
    obtain ⟨s, ext, g, I⟩ := hB T
    have hd := mem_dash hb ha
    cases hs : site k with
    | some y =>
      obtain ⟨A, w⟩ := y
      have r := (I.all k).new p x A w (twice_left ha) hs
      rw [hg] at r
      generalize (runs t (each v (twice as)) T).mem (t.next + 2 * k + 1) = c at r
      cases r with
      | finds _ b _ hf => exact absurd hf (hgo nofun nofun)
    | none =>
      have r := (I.all k).set p x (twice_left ha) hs
      rw [hg] at r
      obtain ⟨m, hmem⟩ := X.sited.old k p x (twice_left ha) hs
      rw [hd] at hmem
      have hc := (Tree.contents_node hok).mpr ⟨m, hmem, rfl⟩
      generalize hgi : g (idAt t (View.dash (v.full p))) = gi at r
      cases r with
      | finds _ b _ hf => exact absurd hf (hgo nofun nofun)
      | store _ _ hgi' =>
        rw [hd, idAt_mem hok hmem] at hgi ⊢
        rw [I.grown _ m hmem]
        simp only [hgi, hgi', oldOf, priorOf, ha, hc, Option.map_some, and_self]
  · intro T k p x J pc f ha hg h1 h2 e
    obtain ⟨s, ext, g, I⟩ := hB T
    cases hs : site k with
    | some y => exact hprior k p x _ _ ha hs
    | none =>
      have r := (I.all k).set p x (twice_left ha) hs
      rw [hg] at r
      generalize g (idAt t (View.dash (v.full p))) = gi at r
      exfalso
      cases r with
      | finds _ b _ hf => exact hnot (r := .mark _) (by intro e; cases e) (by intro e; cases e) ⟨_, _, I.grown, I.exts⟩ hf e
      | store => exact absurd rfl (h2 _)
      | fin => exact absurd rfl h1
  · intro T k p par i f ha hg
    obtain ⟨s, ext, g, I⟩ := hB T
    obtain ⟨P, y, htk⟩ := ht.takes p (List.mem_of_getElem? (get_calls ha))
    have hpl := Prune.planOf_takes (get_calls (twice_left ha)) htk
    have r := (I.all k).rem p _ (twice_left ha) hpl
    rw [hg] at r
    obtain ⟨p', t', e, hrm⟩ := htk
    cases e
    cases r with
    | search _ b _ hf =>
      have := comes_hunts (fun s => ⟨_, like_self X.lays s⟩) (by rintro r ⟨stk, rfl⟩; rfl) _ _ _ hf
      cases this
    | late _ b _ hd =>
      cases hd
      simp only [itemOf, ha, hrm]
  · intro T k p ha
    obtain ⟨s, ext, g, I⟩ := hB T
    obtain ⟨P, y, htk⟩ := ht.takes p (List.mem_of_getElem? (get_calls ha))
    have htk' := htk
    obtain ⟨p', t', e, hrm⟩ := htk
    cases e
    obtain ⟨_, _, u, hP, hy, hym, _⟩ := Prune.takes_spec hok hp hm hrm
    have hfr : g y.id = fun c => c := by
      refine I.cores _ fun j q x hx hs e => ?_
      obtain ⟨m, hmem⟩ := X.sited.old j q x hx hs
      rw [idAt_mem hok hmem] at e
      have hq := (Prod.mk.inj (hok.id_inj hmem hym e)).1
      obtain ⟨A, C, hAC⟩ := List.append_of_mem hy
      have := hj2.spares _ P y q x (List.mem_of_getElem? (get_calls (twice_left ha))) htk' (List.mem_of_getElem? hx) u A y C hP hAC
        (by rw [hq]; exact List.prefix_refl _)
      exact this.1 rfl
    simp only [itemOf, oldOf, ha, hrm, I.grown _ y hym, hfr]
  · intro T k p b f ha hg
    obtain ⟨s, ext, g, I⟩ := hB T
    obtain ⟨P, y, htk⟩ := ht.takes p (List.mem_of_getElem? (get_calls ha))
    have r := (I.all k).rem p _ (twice_left ha) (Prune.planOf_takes (get_calls (twice_left ha)) htk)
    rw [hg] at r
    cases r with
    | search _ b _ hf =>
      have := comes_hunts (fun s => ⟨_, like_self X.lays s⟩) (by rintro r ⟨stk, rfl⟩; rfl) _ _ _ hf
      cases this
    | late _ b _ hd =>
      cases hd
      rfl
  · intro T k p r f ha hg
    obtain ⟨s, ext, g, I⟩ := hB T
    obtain ⟨P, y, htk⟩ := ht.takes p (List.mem_of_getElem? (get_calls ha))
    have r := (I.all k).rem p _ (twice_left ha) (Prune.planOf_takes (get_calls (twice_left ha)) htk)
    rw [hg] at r
    cases r with
    | search _ b _ hf =>
      have := comes_hunts (fun s => ⟨_, like_self X.lays s⟩) (by rintro r ⟨stk, rfl⟩; rfl) _ _ _ hf
      cases this
    | late _ b _ hd => cases hd
  · intro T k p ha hle e
    rw [((hN1 T).1 k _ _ (twice_left ha) rfl).2.2 (le1 _ _ hle) |>.2.2] at e
    cases e

omit [Inhabited α] in
theorem gone_twice {q : Str} : Gone v t (twice as) q ↔ Gone v t as q := by
  constructor
  · rintro ⟨c, P, y, u, hc, hT, h⟩
    exact ⟨c, P, y, u, twice_call hc hT, hT, h⟩
  · rintro ⟨c, P, y, u, hc, hT, h⟩
    refine ⟨c, P, y, u, ?_, hT, h⟩
    rw [calls, twice, List.map_append]
    exact List.mem_append_left _ hc

/-- What handlers are told of a `Set`, made alone: `c` is what was at the path, and `a` what the lookup finds. -/
def tale (isNil : α → Bool) (p : Str) (x : α) (a : View.Ans α) : Option (Core α) → News α
  | none => .created p x
  | some c => if a.found = false ∧ isNil c.data = true then .created p x else .changed p x (some c.data)

end helpers

/-- **C112** Goroutines call `Set`, `Remove` and `Get` of a store, each once. The keys that are set may be new, as in C109; none of them has a blank. Whatever the
scheduler does, nobody panics; every call returns after finitely many steps of its own, and every `Remove` returns true. The handlers are told
of each call what they would be told if it were made alone: of a new key that it is new, with its value; of a key that is
in the trie the value before, as in C108; of a `Remove` the value of the node that it removes. -/
theorem C112_told (h : Reach K t) (hp : t.Plain v.delim) (hm : v.mode ≠ .up) (ht : Prune.Tidy v t (calls as)) (hj : Joins v t as)
    (hb : ∀ p x, .set p x ∈ as → ' ' ∉ v.full p) :
    ∃ N : Nat → Nat, ∀ S, let s := hears v t isNil as S
      (∀ k p x, as[k]? = some (.set p x) → (s.spot k).crashed = false ∧ (N k ≤ S.count k → s.spot k = .back) ∧
        ∃ a, v.query t p = .ok a ∧ ∀ e, (k, e) ∈ s.log → e = tale isNil p x a (t.contents (v.full p))) ∧
      ∀ k p, as[k]? = some (.remove p) → (s.spot k).crashed = false ∧ (∀ pc, s.spot k ≠ .drop (.back false) pc) ∧
        (N k ≤ S.count k → s.spot k = .drop (.back true) (.gone true)) ∧
        ∃ t' x P, v.removeEx t p = .ok (t', some (x, P)) ∧ ∀ e, (k, e) ∈ s.log → e = .deleted p x.core.data := by
  obtain ⟨N, P, hc1, hc2⟩ := fresh_plan h hp hm ht hj hb
  refine ⟨fun k => 2 * N k + 3, fun S => ?_⟩
  obtain ⟨h1, h2, _⟩ := heard (isNil := isNil) P hc1 hc2 S
  refine ⟨fun k p x ha => ?_, fun k p ha => ?_⟩
  · obtain ⟨a1, a2, a3⟩ := h1 k p x ha
    obtain ⟨a, hq⟩ : ∃ a, v.query t p = .ok a := ⟨_, Prune.query_node h.ok hp hm p⟩
    refine ⟨a1, a2, a, hq, fun e he => ?_⟩
    rw [a3 e he]
    cases hc : t.contents (v.full p) with
    | none =>
      simp only [foundOf, priorOf, ha, hc, Option.map_none]
      rfl
    | some c =>
      simp only [foundOf, priorOf, isFound, ha, hc, hq, Option.map_some, news_plain, tale, Option.isSome_some, Bool.true_and]
  · obtain ⟨a1, a2, a3, a4⟩ := h2 k p ha
    obtain ⟨Q, y, p', t', e, hrm⟩ := ht.takes p (List.mem_of_getElem? (get_calls ha))
    cases e
    refine ⟨a1, a2, a3, t', y, Q, hrm, fun e he => ?_⟩
    rw [a4 e he]
    simp only [oldOf, ha, hrm]

/-- **C112** … So when all have returned, the handlers have been told of every `Set` and `Remove` once, in some order, and what is in memory is a trie in
which every key that was set has its value, there is nothing at or below a node that was removed, and at all other paths there is what was
there before. -/
theorem C112_all (h : Reach K t) (hp : t.Plain v.delim) (hm : v.mode ≠ .up) (ht : Prune.Tidy v t (calls as)) (hj : Joins v t as)
    (hb : ∀ p x, .set p x ∈ as → ' ' ∉ v.full p) {S : List Nat}
    (hr : ∀ k a, as[k]? = some a → Through a ((hears v t isNil as S).spot k)) :
    let s := hears v t isNil as S
    (s.log.map (·.1)).Nodup ∧
      (∀ k e, (k, e) ∈ s.log ↔
        (∃ p x a, as[k]? = some (.set p x) ∧ v.query t p = .ok a ∧ e = tale isNil p x a (t.contents (v.full p))) ∨
        ∃ p t' x P, as[k]? = some (.remove p) ∧ v.removeEx t p = .ok (t', some (x, P)) ∧ e = .deleted p x.core.data) ∧
      ∃ t' : Tree α, (∃ D, ∀ d, D ≤ d → Prune.read s.mem d t.root.id = t'.root) ∧ t'.OK ∧
        (∀ p x, .set p x ∈ as → t'.contents (v.full p) = some (held (v.full p) x (t.contents (v.full p)))) ∧
        (∀ q, Gone v t as q → t'.contents q = none) ∧
        ∀ q, ¬ Gone v t as q → (∀ p x, .set p x ∈ as → v.full p ≠ q) → t'.contents q = t.contents q := by
  obtain ⟨o1, o2, o3⟩ := C108_once (v := v) (t := t) (isNil := isNil) as S
  obtain ⟨N', hN'⟩ := C112_told (isNil := isNil) h hp hm ht hj hb
  obtain ⟨t1, t2⟩ := hN' S
  refine ⟨o1, fun k e => ⟨fun he => ?_, ?_⟩, ?_⟩
  · rcases o3 k e he with ⟨p, x, ha, _⟩ | ⟨p, y, ha, _⟩
    · obtain ⟨_, _, a, hq, hl⟩ := t1 k p x ha
      exact .inl ⟨p, x, a, ha, hq, hl e he⟩
    · obtain ⟨_, _, _, t', x, P, hrm, hl⟩ := t2 k p ha
      exact .inr ⟨p, t', x, P, ha, hrm, hl e he⟩
  · rintro (⟨p, x, a, ha, hq, rfl⟩ | ⟨p, t', x, P, ha, hrm, rfl⟩)
    · obtain ⟨⟨k', e⟩, he, rfl⟩ := List.mem_map.mp ((o2 k).mpr (.inl ⟨p, x, ha, hr k _ ha⟩))
      obtain ⟨_, _, a', hq', hl⟩ := t1 k' p x ha
      rw [hq] at hq'; cases hq'
      rw [← hl e he]; exact he
    · obtain ⟨pc, hpc⟩ := hr k _ ha
      obtain ⟨⟨k', e⟩, he, rfl⟩ := List.mem_map.mp ((o2 k).mpr (.inr ⟨p, pc, ha, hpc⟩))
      obtain ⟨_, _, _, t1', x', P', hrm', hl⟩ := t2 k' p ha
      rw [hrm] at hrm'; cases hrm'
      rw [← hl e he]; exact he
  · obtain ⟨N, P, hc1, hc2⟩ := fresh_plan h hp hm ht hj hb
    obtain ⟨T, hT, hall⟩ := (heard (isNil := isNil) P hc1 hc2 S).2.2 hr
    obtain ⟨_, hN⟩ := C109_new h hp hm (twice_tidy ht) (twice_joins hj)
    obtain ⟨t', h1, h2, h3, h4, h5⟩ := (hN T).2 hall
    refine ⟨t', hT ▸ h1, h2, fun p x hx => ?_, fun q hq => h4 q (gone_twice.mpr hq), fun q hq hne => ?_⟩
    · have := h3 p x (List.mem_append_left _ hx)
      rwa [dash_same (hb p x hx)] at this
    · refine h5 q (fun e => hq (gone_twice.mp e)) fun p x hx => ?_
      rw [dash_same (hb p x (twice_set hx))]
      exact hne p x (twice_set hx)

section examples
open Race (top)
open Prune (keys read)

theorem joining_blank (p : Str) (x : Nat) (h : .set p x ∈ joining) : ' ' ∉ top.full p := by
  rcases List.mem_cons.mp h with e | h
  · cases e; decide
  · rcases List.mem_cons.mp h with e | h
    · cases e; decide
    · rcases List.mem_cons.mp h with e | h
      · cases e
      · cases h

/-- `a.x` is new, `a.log.level` is set to 7 and `db.host` is removed. By turns. -/
example : let s := hears top Race.three (fun _ => false) joining ((List.replicate 90 [0, 1, 2]).flatten)
    s.log = [(2, .deleted "db.host".toList 3), (0, .created "a.x".toList 9), (1, .changed "a.log.level".toList 7 (some 2))] ∧
    keys (read s.mem 5 0) = ["a.name", "a.log.level", "a.x"] := by decide +kernel

example : ∃ N : Nat → Nat, ∀ S, let s := hears top Race.three (fun _ => false) joining S
    (∀ k p x, joining[k]? = some (.set p x) → (s.spot k).crashed = false ∧ (N k ≤ S.count k → s.spot k = .back) ∧
      ∃ a, top.query Race.three p = .ok a ∧ ∀ e, (k, e) ∈ s.log → e = tale (fun _ => false) p x a (Race.three.contents (top.full p))) ∧
    ∀ k p, joining[k]? = some (.remove p) → (s.spot k).crashed = false ∧ (∀ pc, s.spot k ≠ .drop (.back false) pc) ∧
      (N k ≤ S.count k → s.spot k = .drop (.back true) (.gone true)) ∧
      ∃ t' x P, top.removeEx Race.three p = .ok (t', some (x, P)) ∧ ∀ e, (k, e) ∈ s.log → e = .deleted p x.core.data :=
  C112_told (isNil := fun _ => false) Race.three_reach Race.three_plain.plain (by decide) joining_tidy joining_joins joining_blank

/-- The hypothesis of `C112_all` on one schedule. -/
example : let s := hears top Race.three (fun _ => false) joining ((List.replicate 90 [0, 1, 2]).flatten)
    [0, 1].all (fun k => match s.spot k with | .back => true | _ => false) = true ∧
    (match s.spot 2 with | .drop (.back true) _ => true | _ => false) = true := by decide +kernel

/-- **C112** The conditions are needed. `db.host` is removed while `db.host.x`, which is below it, is set. The handlers are told that `db.host` is gone, and then that
`db.host.x` is new. But it is not in the trie. -/
theorem C112_below_fails : ∃ S, let s := hears top Race.three (fun _ => false) [.set "db.host.x".toList 9, .remove "db.host".toList] S
    s.log = [(1, .deleted "db.host".toList 3), (0, .created "db.host.x".toList 9)] ∧ keys (read s.mem 5 0) = ["a.name", "a.log.level"] :=
  ⟨List.replicate 28 0 ++ List.replicate 90 1 ++ List.replicate 90 0, by decide +kernel⟩

/-- **C112** … `a.x` and `a.y` are new, and children of the same node. The handlers are told that both are new. But only `a.x` is in the trie. -/
theorem C112_beside_fails : ∃ S, let s := hears top Race.three (fun _ => false) [.set "a.x".toList 9, .set "a.y".toList 8] S
    s.log = [(1, .created "a.y".toList 8), (0, .created "a.x".toList 9)] ∧ keys (read s.mem 5 0) = ["a.name", "a.log.level", "a.x", "db.host"] :=
  ⟨List.replicate 35 0 ++ List.replicate 90 1 ++ List.replicate 90 0, by decide +kernel⟩

end examples

end Parts
end Verif

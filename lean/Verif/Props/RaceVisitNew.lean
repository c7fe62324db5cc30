import Verif.Lemmas.RaceVisitNew
import Verif.Props.RaceDupNew
import Verif.Props.RaceVisit
/-
C116: the order of the calls of a walk beside `Set`.
-/
namespace Verif
namespace Parts
variable {α : Type} [Inhabited α]
open Prune (Cell Mem Up)

section
variable {K : Str → Prop} {v : View} {t : Tree α} {as : List (Act α)}

/-- **C116** A goroutine that holds a node of the trie may call `Walk` of the node. If nobody calls `Remove`, this calls `cb` at most once for a node. The calls about nodes of the trie (their identities are
below `t.next`) are those for the node and all below it, in the order in which `Walk` makes them alone; the others, about new keys, are between them. -/
theorem C116_below (h : Reach K t) (hp : t.Plain v.delim) (hm : v.mode ≠ .up) (hr : ∀ p, .remove p ∉ as) (hj : Joins v t as) {Q : Str} {A : Node α}
    (hA : (Q, A) ∈ t.root.nodes []) :
    ∃ N, ∀ S0 S, let r := walksAt t (each v as) A.id S0 S
      (N ≤ S.count none → r.1 = .done) ∧ (r.1 = .done → (r.2.map (·.2.2)).Nodup ∧ r.2.filter (fun x => decide (x.2.2 < t.next)) = A.walk.map shownAs) := by
  have hok := h.ok
  have ht := tidy_sets (v := v) (t := t) hr
  obtain ⟨site, B, X, hB⟩ := blended hok hp hm ht hj
  obtain ⟨ex, E⟩ := adds X
  obtain ⟨u', hu'⟩ := Node.nodes_below _ hA
  have hAn : A.ids.Nodup := by
    have := (Node.deck_below (g := fun _ c => c) (x := fun _ => []) _ hA)
    rw [Node.deck_nil, Node.deck_nil] at this
    exact this.nodup hok.ids_nodup
  obtain ⟨N, hN⟩ := vleads_walk A u' hAn
  refine ⟨N + 1, fun S0 S => ?_⟩
  let T := S0 ++ S.filterMap id
  have hrem : ∀ (k : Nat) p, as[k]? = some (.remove p) → ∃ T, Prune.planOf v t (calls as) k = some T := fun k p ha =>
    absurd (List.mem_of_getElem? ha) (hr p)
  obtain ⟨s0, ext0, g0, I0⟩ := hB S0
  let σ := {x : List Nat × (Nat → Nat) × (Nat → List Nat) × (Nat → Core α → Core α) //
    Blend v t as (Prune.start v t (calls as)).mem (Prune.planOf v t (calls as)) site B x.1 x.2.1 x.2.2.1 x.2.2.2 (runs t (each v as) x.1) ∧
      (∀ i, ext0 i ≠ [] → x.2.2.1 i = ext0 i) ∧ S0 <+: x.1 ∧ x.1 <+: T}
  let ms : σ → Mem α := fun x => (runs t (each v as) x.1.1).mem
  let R : σ → σ → Prop := fun a b => (∀ i, a.1.2.2.1 i ≠ [] → b.1.2.2.1 i = a.1.2.2.1 i) ∧ a.1.1 <+: b.1.1
  let es : σ → Nat → List (Node α) := fun x i => if x.1.2.2.1 i = [] then [] else ex i
  have hR0 : ∀ a, R a a := fun a => ⟨fun _ _ => rfl, List.prefix_refl _⟩
  have hR1 : ∀ a b c, R a b → R b c → R a c := fun a b c h1 h2 =>
    ⟨fun i hi => (h2.1 i (by rw [h1.1 i hi]; exact hi)).trans (h1.1 i hi), h1.2.trans h2.2⟩
  have hcell : ∀ (x : σ) q m, (q, m) ∈ t.root.nodes [] → ms x m.id =
      ⟨m.path, x.1.2.2.2 m.id m.core, m.kids.map Node.id ++ x.1.2.2.1 m.id, m.kids.length + (x.1.2.2.1 m.id).length⟩ := by
    intro x q m hm
    show (runs t (each v as) x.1.1).mem m.id = _
    rw [x.2.1.grown q m hm, mems_sets hok hr hm]
    simp [Prune.cellOf]
  have hext : ∀ (x : σ) i, x.1.2.2.1 i = [] ∧ es x i = [] ∨ ∃ k A w p y, as[k]? = some (.set p y) ∧ site k = some (A, w) ∧ A.id = i ∧
      x.1.2.2.1 i = [t.next + 2 * k + 1] ∧ es x i = [leafOf v t k p y w] ∧ ((runs t (each v as) x.1.1).gs k).todo = [] ∧
      ms x (t.next + 2 * k + 1) = leafCell w (jobOf v t k p y) := by
    intro x i
    rcases x.2.1.added X i with e | ⟨k, A, w, p, y, e1, e2, e3, e4, e5, e6⟩
    · exact .inl ⟨e, if_pos e⟩
    · refine .inr ⟨k, A, w, p, y, e1, e2, e3, e4, ?_, e5, e6⟩
      show (if _ then _ else _) = _
      rw [if_neg (by rw [e4]; simp), ← e3, E.all k A w p y e1 e2]
  have hsh : ∀ q m, (q, m) ∈ t.root.nodes [] → JShows R ms es m := by
    intro q m hm
    refine ⟨fun s => ?_, fun s => ?_, fun s => ?_, fun s => ?_, fun s s' hs hne => ?_, fun s l hl => ?_⟩
    · rw [hcell s q m hm]
    · rw [hcell s q m hm, List.map_append]
      rcases hext s m.id with ⟨e1, e2⟩ | ⟨k, A, w, p, y, _, _, _, e1, e2, _⟩ <;> rw [e1, e2] <;> rfl
    · rw [hcell s q m hm, List.length_append]
      rcases hext s m.id with ⟨e1, e2⟩ | ⟨k, A, w, p, y, _, _, _, e1, e2, _⟩ <;> rw [e1, e2] <;> rfl
    · rcases hext s m.id with ⟨_, e2⟩ | ⟨k, A, w, p, y, _, _, _, _, e2, _⟩ <;> rw [e2] <;> simp
    · have h1 : s.1.2.2.1 m.id ≠ [] := fun e => hne (if_pos e)
      have h2 : s'.1.2.2.1 m.id ≠ [] := by rw [hs.1 _ h1]; exact h1
      show (if _ then _ else _) = (if _ then _ else _)
      rw [if_neg h1, if_neg h2]
    · rcases hext s m.id with ⟨_, e2⟩ | ⟨k, A, w, p, y, _, _, _, _, e2, _, e3⟩
      · rw [e2] at hl; cases hl
      · rw [e2] at hl
        obtain rfl := List.mem_singleton.mp hl
        refine ⟨rfl, ?_, ?_, ?_⟩
        · show (ms s (t.next + 2 * k + 1)).path = _
          rw [e3]; rfl
        · show (ms s (t.next + 2 * k + 1)).core = _
          rw [e3]; rfl
        · show (ms s (t.next + 2 * k + 1)).len = _
          rw [e3]; rfl
  have hpS : ∀ q m, (q, m) ∈ t.root.nodes [] → JShows R ms es m ∧ ∀ s, (ms s m.id).core.pathS = m.core.pathS := fun q m hm =>
    ⟨hsh q m hm, fun s => by rw [hcell s q m hm]; exact (s.2.1.path _ _).1⟩
  obtain ⟨h1, h2⟩ := walking_leads (root := t.root.id) (gap := 2 * (each v as).length) (T := T) (R := R) (ms := ms)
    (Q := fun r => r.1 = .done ∧ ∃ x, (∀ q m, (q, m) ∈ A.nodes u' → ∃ s, x m.id = es s m.id) ∧ r.2 = (A.deck (fun _ c => c) x).walk.map shownAs)
    (J := fun L W x => W = runs t (each v as) L ∧ x.1.1 = L) hR0 hR1
    (fun L W x hJ => by rw [hJ.1, ← hJ.2])
    (fun L W x k hJ hLk => by
      obtain ⟨⟨⟨L', s', ext', g'⟩, I, h3, h4, h5⟩, rfl⟩ : ∃ y : σ, y = x := ⟨x, rfl⟩
      obtain ⟨rfl, rfl⟩ := hJ
      obtain ⟨s'', ext'', g'', hs, he, I'⟩ := I.tick X hrem (2 * (each v as).length) k
      have e : runs t (each v as) (L' ++ [k]) = (runs t (each v as) L').tick t.root.id (2 * (each v as).length) k := run_snoc _ _ _ _ _
      exact ⟨⟨(L' ++ [k], s'', ext'', g''), e ▸ I', fun i hi => (he i (by show ext' i ≠ []; rw [show ext' i = ext0 i from h3 i hi]; exact hi)).trans (h3 i hi),
        h4.trans (List.prefix_append _ _), hLk⟩, ⟨he, List.prefix_append _ _⟩, e.symm, rfl⟩)
    (fun e he => he.1) S
    (s := ⟨(S0, s0, ext0, g0), I0, fun _ _ => rfl, List.prefix_refl _, List.prefix_append _ _⟩) ⟨rfl, rfl⟩ rfl
    ((hN σ R ms es hR0 hR1 (fun q m hm => hpS q m (hu' _ hm)) _ [] []).trans hR0 hR1 (by
      rintro s' r _ ⟨x, hx, rfl⟩
      exact (show WLeads R ms _ 1 s' _ from .inr fun s1 _ => .now ⟨rfl, x, hx, by simp [wstep]⟩ _)))
  refine ⟨h1, fun hd => ?_⟩
  obtain ⟨_, x, hx, e⟩ := h2 hd
  have hx' : ∀ i ∈ A.ids, x i = [] ∨ x i = ex i := by
    intro i hi
    obtain ⟨q, m, hm, rfl⟩ := Node.ids_of _ u' i hi
    obtain ⟨s, hs⟩ := hx q m hm
    rw [hs]
    show (if _ then _ else _) = _ ∨ (if _ then _ else _) = _
    split
    · exact .inl rfl
    · exact .inr rfl
  have e' : (walksAt t (each v as) A.id S0 S).2 = (A.deck (fun _ c => c) x).walk.map shownAs := e
  rw [e']
  refine ⟨?_, Node.deck_walk_filter (f := shownAs) (P := fun x => decide (x.2.2 < t.next)) (fun _ _ _ _ _ => rfl) _ (fun i hi l hl m hm => ?_) fun m hm => ?_⟩
  · rw [List.map_map, show ((·.2.2) ∘ shownAs : Node α → Nat) = Node.id from rfl, Node.walk_map_id]
    refine ((Node.deck_ids_sub (y := ex) A fun i hi => ?_).trans (Node.deck_below _ hA)).nodup (full_nodup hok E)
    rcases hx' i hi with e | e <;> rw [e]
    exact List.nil_sublist _
  · have hl' : l ∈ ex i := by
      rcases hx' i hi with e | e <;> rw [e] at hl
      · cases hl
      · exact hl
    rcases E.one i with e | ⟨k, A, w, p, y, _, _, _, e⟩
    · rw [e] at hl'; cases hl'
    · rw [e] at hl'
      obtain rfl := List.mem_singleton.mp hl'
      rw [leafOf, Node.walk_node, List.flatMap_nil, List.mem_singleton] at hm
      subst hm
      show decide (t.next + 2 * k + 1 < t.next) = false
      exact decide_eq_false (by omega)
  · have : m.id ∈ A.ids := by rw [← Node.walk_map_id]; exact List.mem_map_of_mem hm
    obtain ⟨q, m', hm', e⟩ := Node.ids_of _ u' _ this
    have := hok.lt _ (hu' _ hm')
    exact decide_eq_true (by show m.id < t.next; rw [← e]; exact this)

/-- **C116** If nobody calls `Remove`, the walk calls `cb` at most once for a node. The calls about nodes of the trie (their identities are below `t.next`) are those that `Walk` makes if it is alone,
in the same order; the others, about new keys, are between them. -/
theorem C116_order (h : Reach K t) (hp : t.Plain v.delim) (hm : v.mode ≠ .up) (hr : ∀ p, .remove p ∉ as) (hj : Joins v t as) :
    ∃ N, ∀ S0 S, let r := walks t (each v as) S0 S
      (N ≤ S.count none → r.1 = .done) ∧ (r.1 = .done → (r.2.map (·.2.2)).Nodup ∧ r.2.filter (fun x => decide (x.2.2 < t.next)) = t.root.walk.map shownAs) :=
  C116_below h hp hm hr hj ((Node.mem_nodes [] t.root (t.root.path, t.root)).mpr (.inl (by simp)))

/-- **C116** If all calls of `Set` and `Remove` have returned when the walk begins, it calls `cb` once for every node of the trie that is then in memory, in the order in which `Walk` does it alone: the trie
of C109, in which every key that was set has its value, nothing is left at or below what was removed, and all else is as it was. -/
theorem C116_after (h : Reach K t) (hp : t.Plain v.delim) (hm : v.mode ≠ .up) (ht : Prune.Tidy v t (calls as)) (hj : Joins v t as) (S0 : List Nat)
    (hall : ∀ (k : Nat) a, as[k]? = some a → told a ≠ none → ((runs t (each v as) S0).gs k).outs ≠ []) :
    ∃ t' : Tree α, t'.OK ∧
      (∀ p x, .set p x ∈ as → t'.contents (View.dash (v.full p)) = some (held (View.dash (v.full p)) x (t.contents (View.dash (v.full p))))) ∧
      (∀ q, Gone v t as q → t'.contents q = none) ∧
      (∀ q, ¬ Gone v t as q → (∀ p x, .set p x ∈ as → View.dash (v.full p) ≠ q) → t'.contents q = t.contents q) ∧
      ∃ N, ∀ S, (N ≤ S.count none → (walks t (each v as) S0 S).1 = .done) ∧
        ((walks t (each v as) S0 S).1 = .done → (walks t (each v as) S0 S).2 = t'.root.walk.map shownAs) := by
  have hok := h.ok
  obtain ⟨site, B, X, hB⟩ := blended hok hp hm ht hj
  obtain ⟨s0, ext0, g0, I0⟩ := hB S0
  obtain ⟨t', hH, hrid, okT, c1, c2, c3⟩ := blend_tree hok hp hm ht hj X I0 hall
  have hg : ∀ q, Gone v t as q ↔ Prune.Struck v t (calls as) (calls as).length q := by
    intro q
    constructor
    · rintro ⟨c, P, y, u, hc, htk, hu, hq⟩
      obtain ⟨i, hi⟩ := List.mem_iff_getElem?.mp hc
      exact ⟨i, c, P, y, u, (List.getElem?_eq_some_iff.mp hi).1, hi, htk, hu, hq⟩
    · rintro ⟨i, c, P, y, u, _, hi, htk, hu, hq⟩
      exact ⟨c, P, y, u, List.mem_of_getElem? hi, htk, hu, hq⟩
  refine ⟨t', okT, c1, fun q hq => c2 q ((hg q).mp hq), fun q hq => c3 q fun e => hq ((hg q).mpr e), ?_⟩
  let M := (runs t (each v as) S0).mem
  have hconst : ∀ L' : List Nat, (runs t (each v as) (S0 ++ L')).mem = M := by
    intro L'
    have key : ∀ R : List Nat, (runs t (each v as) (S0 ++ R.reverse)).mem = M := by
      intro R
      induction R with
      | nil => simp only [List.reverse_nil, List.append_nil]; rfl
      | cons k R ih =>
        rw [List.reverse_cons, ← List.append_assoc]
        refine (fresh_still hok hp hm ht hj _ (fun k a ha ho e => ?_) k).trans ih
        have := run_outs t.root.id (2 * (each v as).length) k R.reverse (runs t (each v as) S0)
        rw [← runs_append, e] at this
        exact hall k a ha ho (List.prefix_nil.mp this)
    have := key L'.reverse
    rwa [List.reverse_reverse] at this
  obtain ⟨N, hN⟩ := cleads_walk t'.root [] fun q m hm => ⟨(hH q m hm).1, (hH q m hm).2.1, (hH q m hm).2.2⟩
  refine ⟨N + 1, fun S => ?_⟩
  obtain ⟨h1, h2⟩ := walking_leads (root := t.root.id) (gap := 2 * (each v as).length) (T := S0 ++ S.filterMap id)
    (R := fun _ _ : Unit => True) (ms := fun _ => M)
    (Q := fun r => r.1 = .done ∧ r.2 = t'.root.walk.map shownAs)
    (J := fun L W _ => S0 <+: L ∧ W = runs t (each v as) L) (fun _ => trivial) (fun _ _ _ _ _ => trivial)
    (fun L W _ hJ => by
      obtain ⟨⟨L', rfl⟩, rfl⟩ := hJ
      exact hconst L')
    (fun L W _ k hJ _ => by
      obtain ⟨h3, rfl⟩ := hJ
      exact ⟨(), trivial, h3.trans (List.prefix_append _ _), (run_snoc _ _ _ _ _).symm⟩)
    (fun e he => he.1) S (s := ()) ⟨List.prefix_refl _, rfl⟩ rfl
    (hrid ▸ (hN [] []).trans (fun _ => trivial) (fun _ _ _ _ _ => trivial) (by
      rintro s' r _ rfl
      exact (show WLeads _ _ _ 1 s' _ from .inr fun s1 _ => .now ⟨rfl, by simp [wstep]⟩ _)))
  exact ⟨h1, fun hd => (h2 hd).2⟩

end

section examples
open Race (top three three_reach three_plain)

/-- Two goroutines set `a.x` and `a.log.level`. -/
example : ∃ N, ∀ S0 S, let r := walks three (each top adding) S0 S
    (N ≤ S.count none → r.1 = .done) ∧ (r.1 = .done → (r.2.map (·.2.2)).Nodup ∧ r.2.filter (fun x => decide (x.2.2 < three.next)) = three.root.walk.map shownAs) :=
  C116_order three_reach three_plain.plain (by decide) adding_no_remove adding_joins

/-- The same, and a third walks below the node `a.`. -/
example : ∃ N, ∀ S0 S, let r := walksAt three (each top adding) siteA.id S0 S
    (N ≤ S.count none → r.1 = .done) ∧ (r.1 = .done → (r.2.map (·.2.2)).Nodup ∧ r.2.filter (fun x => decide (x.2.2 < three.next)) = siteA.walk.map shownAs) :=
  have ⟨_, hA, _⟩ := siteA_leaves
  C116_below three_reach three_plain.plain (by decide) adding_no_remove adding_joins hA

/-- `a.x` and `a.log.level` are set, `db.host` is removed; then the walk begins. -/
example : ∃ t' : Tree Nat, t'.OK ∧
    (∀ p x, .set p x ∈ joining → t'.contents (View.dash (top.full p)) = some (held (View.dash (top.full p)) x (three.contents (View.dash (top.full p))))) ∧
    (∀ q, Gone top three joining q → t'.contents q = none) ∧
    (∀ q, ¬ Gone top three joining q → (∀ p x, .set p x ∈ joining → View.dash (top.full p) ≠ q) → t'.contents q = three.contents q) ∧
    ∃ N, ∀ S, (N ≤ S.count none → (walks three (each top joining) (List.replicate 60 [0, 1, 2]).flatten S).1 = .done) ∧
      ((walks three (each top joining) (List.replicate 60 [0, 1, 2]).flatten S).1 = .done →
        (walks three (each top joining) (List.replicate 60 [0, 1, 2]).flatten S).2 = t'.root.walk.map shownAs) :=
  C116_after three_reach three_plain.plain (by decide) joining_tidy joining_joins _ (fun k a ha ho => by
    match k, ha with
    | 0, _ => decide +kernel
    | 1, _ => decide +kernel
    | 2, _ => decide +kernel
    | n + 3, ha => cases ha)

end examples
end Parts
end Verif

import Verif.Lemmas.RaceDump
import Verif.Props.RaceDupNew
/-
C117: dumping the trie beside `Set`, for new keys too.
-/
namespace Verif
namespace Parts
variable {α : Type} [Inhabited α]
open Prune (Cell Mem Up)

section
variable {K : Str → Prop} {v : View} {t : Tree α} {as : List (Act α)}

/-- **C117** Goroutines call `Set` for keys that are in the trie and for new ones, as in C109, and lookups, and one calls `Dump`, at any moment (`S0`). It returns after finitely many steps of its own.
The text is the dump of a well-formed trie. This has all keys of the trie, each with the value that was right at a moment of the dumping, and the flag that was right at that moment or an earlier one; the rest
is as in the trie. What it has beside these are new keys whose `Set` had begun at a moment of the dumping, each as that `Set` stores it. A new key whose `Set` had returned when the dumping began is in it. -/
theorem C117_dump (F : DumpFmt α) (nc : Bool) (h : Reach K t) (hp : t.Plain v.delim) (hm : v.mode ≠ .up) (hr : ∀ p, .remove p ∉ as) (hj : Joins v t as) :
    ∃ N, ∀ S0 S, let r := dumps F nc t (each v as) S0 S
      (N ≤ S.count none → r.1 = .done) ∧ (r.1 = .done → ∃ T : Tree α, T.OK ∧ r.2 = T.dump F nc ∧
        (∀ q c0, t.contents q = some c0 → ∃ b x S₁ S₂, T.contents q = some { c0 with hasData := b, data := x } ∧
          S₁ <+: S₂ ∧ S₂ <+: S.filterMap id ∧ FlagAt v t as q c0.hasData b (S0 ++ S₁) ∧ ValueAt v t as q c0.data x (S0 ++ S₂)) ∧
        (∀ q c, t.contents q = none → T.contents q = some c → ∃ x S₁, c = held q x none ∧ S₁ <+: S.filterMap id ∧ NewAt v t as q x (S0 ++ S₁)) ∧
        ∀ (j : Nat) p x, as[j]? = some (.set p x) → t.contents (View.dash (v.full p)) = none → ((runs t (each v as) S0).gs j).outs ≠ [] →
          T.contents (View.dash (v.full p)) = some (held (View.dash (v.full p)) x none)) := by
  have hok := h.ok
  have ht := tidy_sets (v := v) (t := t) hr
  obtain ⟨site, B, X, hB⟩ := blended hok hp hm ht hj
  obtain ⟨ex, E⟩ := adds X
  obtain ⟨N, hN⟩ := uleads_walk F nc t.root [] hok.ids_nodup
  refine ⟨N + 1, fun S0 S => ?_⟩
  let T := S0 ++ S.filterMap id
  have hrem : ∀ (k : Nat) p, as[k]? = some (.remove p) → ∃ T, Prune.planOf v t (calls as) k = some T := fun k p ha =>
    absurd (List.mem_of_getElem? ha) (hr p)
  obtain ⟨s0, ext0, g0, I0⟩ := hB S0
  let σ := {x : List Nat × (Nat → Nat) × (Nat → List Nat) × (Nat → Core α → Core α) //
    Blend v t as (Prune.start v t (calls as)).mem (Prune.planOf v t (calls as)) site B x.1 x.2.1 x.2.2.1 x.2.2.2 (runs t (each v as) x.1) ∧
      (∀ i, ext0 i ≠ [] → x.2.2.1 i = ext0 i) ∧ S0 <+: x.1 ∧ x.1 <+: T}
  let ms : σ → Mem α := fun x => (runs t (each v as) x.1.1).mem
  let R : σ → σ → Prop := fun a b => (∀ i, a.1.2.2.1 i ≠ [] → b.1.2.2.1 i = a.1.2.2.1 i) ∧ a.1.1 <+: b.1.1
  let es : σ → Nat → List (Node α) := fun x i => if x.1.2.2.1 i = [] then [] else ex i
  have hR0 : ∀ a, R a a := fun a => ⟨fun _ _ => rfl, List.prefix_refl _⟩
  have hR1 : ∀ a b c, R a b → R b c → R a c := fun a b c h1 h2 =>
    ⟨fun i hi => (h2.1 i (by rw [h1.1 i hi]; exact hi)).trans (h1.1 i hi), h1.2.trans h2.2⟩
  have hcell : ∀ (x : σ) q m, (q, m) ∈ t.root.nodes [] → ms x m.id =
      ⟨m.path, x.1.2.2.2 m.id m.core, m.kids.map Node.id ++ x.1.2.2.1 m.id, m.kids.length + (x.1.2.2.1 m.id).length⟩ := by
    intro x q m hm
    show (runs t (each v as) x.1.1).mem m.id = _
    rw [x.2.1.grown q m hm, mems_sets hok hr hm]
    simp [Prune.cellOf]
  have hext : ∀ (x : σ) i, x.1.2.2.1 i = [] ∧ es x i = [] ∨ ∃ k A w p y, as[k]? = some (.set p y) ∧ site k = some (A, w) ∧ A.id = i ∧
      x.1.2.2.1 i = [t.next + 2 * k + 1] ∧ es x i = [leafOf v t k p y w] ∧ ((runs t (each v as) x.1.1).gs k).todo = [] ∧
      ms x (t.next + 2 * k + 1) = leafCell w (jobOf v t k p y) := by
    intro x i
    rcases x.2.1.added X i with e | ⟨k, A, w, p, y, e1, e2, e3, e4, e5, e6⟩
    · exact .inl ⟨e, if_pos e⟩
    · refine .inr ⟨k, A, w, p, y, e1, e2, e3, e4, ?_, e5, e6⟩
      show (if _ then _ else _) = _
      rw [if_neg (by rw [e4]; simp), ← e3, E.all k A w p y e1 e2]
  have hsh : ∀ q m, (q, m) ∈ t.root.nodes [] → JShows R ms es m := by
    intro q m hm
    refine ⟨fun s => ?_, fun s => ?_, fun s => ?_, fun s => ?_, fun s s' hs hne => ?_, fun s l hl => ?_⟩
    · rw [hcell s q m hm]
    · rw [hcell s q m hm, List.map_append]
      rcases hext s m.id with ⟨e1, e2⟩ | ⟨k, A, w, p, y, _, _, _, e1, e2, _⟩ <;> rw [e1, e2] <;> rfl
    · rw [hcell s q m hm, List.length_append]
      rcases hext s m.id with ⟨e1, e2⟩ | ⟨k, A, w, p, y, _, _, _, e1, e2, _⟩ <;> rw [e1, e2] <;> rfl
    · rcases hext s m.id with ⟨_, e2⟩ | ⟨k, A, w, p, y, _, _, _, _, e2, _⟩ <;> rw [e2] <;> simp
    · have h1 : s.1.2.2.1 m.id ≠ [] := fun e => hne (if_pos e)
      have h2 : s'.1.2.2.1 m.id ≠ [] := by rw [hs.1 _ h1]; exact h1
      show (if _ then _ else _) = (if _ then _ else _)
      rw [if_neg h1, if_neg h2]
    · rcases hext s m.id with ⟨_, e2⟩ | ⟨k, A, w, p, y, _, _, _, _, e2, _, e3⟩
      · rw [e2] at hl; cases hl
      · rw [e2] at hl
        obtain rfl := List.mem_singleton.mp hl
        refine ⟨rfl, ?_, ?_, ?_⟩
        · show (ms s (t.next + 2 * k + 1)).path = _
          rw [e3]; rfl
        · show (ms s (t.next + 2 * k + 1)).core = _
          rw [e3]; rfl
        · show (ms s (t.next + 2 * k + 1)).len = _
          rw [e3]; rfl
  obtain ⟨h1, h2⟩ := dumping_leads (F := F) (nc := nc) (root := t.root.id) (gap := 2 * (each v as).length) (T := T) (R := R) (ms := ms)
    (Q := fun r => r.1 = .done ∧ ∃ g x, (∀ q m, (q, m) ∈ t.root.nodes [] → Put R ms es m (g m.id m.core) (x m.id)) ∧ r.2 = (t.root.deck g x).dumpR F nc 0)
    (J := fun L W x => W = runs t (each v as) L ∧ x.1.1 = L) hR0 hR1
    (fun L W x hJ => by rw [hJ.1, ← hJ.2])
    (fun L W x k hJ hLk => by
      obtain ⟨⟨⟨L', s', ext', g'⟩, I, h3, h4, h5⟩, rfl⟩ : ∃ y : σ, y = x := ⟨x, rfl⟩
      obtain ⟨rfl, rfl⟩ := hJ
      obtain ⟨s'', ext'', g'', hs, he, I'⟩ := I.tick X hrem (2 * (each v as).length) k
      have e : runs t (each v as) (L' ++ [k]) = (runs t (each v as) L').tick t.root.id (2 * (each v as).length) k := run_snoc _ _ _ _ _
      exact ⟨⟨(L' ++ [k], s'', ext'', g''), e ▸ I', fun i hi => (he i (by show ext' i ≠ []; rw [show ext' i = ext0 i from h3 i hi]; exact hi)).trans (h3 i hi),
        h4.trans (List.prefix_append _ _), hLk⟩, ⟨he, List.prefix_append _ _⟩, e.symm, rfl⟩)
    (fun e he => he.1) S
    (s := ⟨(S0, s0, ext0, g0), I0, fun _ _ => rfl, List.prefix_refl _, List.prefix_append _ _⟩) ⟨rfl, rfl⟩ rfl
    ((hN σ R ms es hR0 hR1 hsh _ [] []).trans hR0 hR1 (by
      rintro s' r _ ⟨g, x, hx, rfl⟩
      exact (show ULeads F nc R ms _ 1 s' _ from .inr fun s1 _ => .now ⟨rfl, g, x, hx, by simp [ustep]⟩ _)))
  refine ⟨h1, fun hd => ?_⟩
  obtain ⟨_, g, x', hg, e⟩ := h2 hd
  have hpre : ∀ x : σ, ∃ S₁, S0 ++ S₁ = x.1.1 ∧ S₁ <+: S.filterMap id := by
    intro x
    obtain ⟨S₁, hS₁⟩ := x.2.2.2.1
    refine ⟨S₁, hS₁, ?_⟩
    have := x.2.2.2.2
    rw [← hS₁] at this
    exact (List.prefix_append_right_inj _).mp this
  have hwf : (t.root.deck g x').WF := by
    refine Node.deck_wf _ _ t.root [] hok.wf fun q m hmem => ?_
    obtain ⟨_, y, hy⟩ := hg q m hmem
    have hk := (Node.wf_iff m).mp (Node.wf_of_mem hok.wf hmem)
    rcases hext y m.id with ⟨_, e2⟩ | ⟨k, A, w, p, z, k1, k2, k3, _, e2, _⟩
    · rw [hy, e2]
      exact ⟨by rw [List.append_nil]; exact hk.1, nofun⟩
    · obtain ⟨p', z', k1', a, hA, hq, hne, hh⟩ := X.sited.new k A w k2
      obtain ⟨rfl, rfl⟩ := Prod.mk.inj (hok.id_inj hA hmem k3)
      rw [hy, e2]
      refine ⟨?_, fun l hl => ?_⟩
      · rw [List.map_append, List.nodup_append]
        refine ⟨hk.1, by simp, fun b hb c hc => ?_⟩
        obtain ⟨e, he, rfl⟩ := List.mem_map.mp hb
        obtain ⟨l, hl, rfl⟩ := List.mem_map.mp hc
        obtain rfl := List.mem_singleton.mp hl
        exact hh e he
      · obtain rfl := List.mem_singleton.mp hl
        exact ⟨hne, (Node.wf_iff _).mpr ⟨List.nodup_nil, nofun⟩⟩
  have hx' : ∀ i ∈ t.root.ids, x' i = [] ∨ x' i = ex i := by
    intro i hi
    obtain ⟨q, m, hm, rfl⟩ := Node.ids_of _ [] i hi
    obtain ⟨_, s, hs⟩ := hg q m hm
    rw [hs]
    show (if _ then _ else _) = _ ∨ (if _ then _ else _) = _
    split
    · exact .inl rfl
    · exact .inr rfl
  have hnd : (t.root.deck g x').ids.Nodup := by
    rw [Node.deck_ids_core (g' := fun _ c => c)]
    refine (Node.deck_ids_sub (y := ex) t.root fun i hi => ?_).nodup (full_nodup hok E)
    rcases hx' i hi with e | e <;> rw [e]
    exact List.nil_sublist _
  have a1 : (⟨t.root.deck g x', t.next + 2 * as.length⟩ : Tree α).OK := by
    refine ⟨hwf, by rw [Node.deck_path]; exact hok.nil, hnd, fun y hy => ?_⟩
    rcases (Node.mem_deck _ _ _ _ _ _).mp hy with ⟨m, hmem, e⟩ | ⟨a, m, l, hmem, hl, hin⟩
    · rw [e, Node.deck_id]
      have := hok.lt _ hmem
      simp only at this ⊢
      omega
    · have hl' : l ∈ ex m.id := by
        rcases hx' m.id (Node.id_mem_ids hmem) with e | e <;> rw [e] at hl
        · cases hl
        · exact hl
      rcases E.one m.id with e | ⟨k, A, w, p, z, k1, _, _, e⟩
      · rw [e] at hl'; cases hl'
      · rw [e] at hl'
        obtain rfl := List.mem_singleton.mp hl'
        rw [Node.mem_nodes] at hin
        rcases hin with hin | ⟨_, he, _⟩
        · rw [(Prod.mk.inj hin).2]
          have := (List.getElem?_eq_some_iff.mp k1).1
          show t.next + 2 * k + 1 < t.next + 2 * as.length
          omega
        · cases he
  have a3 : ∀ q c, (⟨t.root.deck g x', t.next + 2 * as.length⟩ : Tree α).contents q = some c ↔ ∃ m, (q, m) ∈ (t.root.deck g x').nodes [] ∧ m.core = c :=
    fun q c => Tree.contents_node a1
  refine ⟨_, a1, e, fun q c0 hq => ?_, fun q c hq hc => ?_, fun j p x ha hc ho => ?_⟩
  · obtain ⟨m, hmem, rfl⟩ := (Tree.contents_node hok).mp hq
    obtain ⟨⟨x0, x1, x2, hx, hgm⟩, _⟩ := hg q m hmem
    rw [hcell x0 q m hmem, hcell x1 q m hmem, hcell x2 q m hmem] at hgm
    obtain ⟨S₁, hS₁, _⟩ := hpre x1
    obtain ⟨S₂, hS₂, hpre2⟩ := hpre x2
    have hpre' : S₁ <+: S₂ := by
      have : x1.1.1 <+: x2.1.1 := hx.2
      rw [← hS₁, ← hS₂] at this
      exact (List.prefix_append_right_inj _).mp this
    obtain ⟨f1, f2⟩ := x1.2.1.flag X hj hmem
    obtain ⟨f4, _⟩ := x2.2.1.flag X hj hmem
    obtain ⟨_, _, _, f3⟩ := x2.2.1.core X hj hmem
    rw [← hS₁] at f2
    rw [← hS₂] at f3
    refine ⟨(x1.1.2.2.2 m.id m.core).hasData, (x2.1.2.2.2 m.id m.core).data, S₁, S₂, ?_, hpre', hpre2, f2, ?_⟩
    · refine (a3 q _).mpr ⟨m.deck g x', (Node.mem_deck _ _ _ _ _ _).mpr (.inl ⟨m, hmem, rfl⟩), ?_⟩
      rw [Node.deck_core, hgm]
      show ({ x2.1.2.2.2 m.id m.core with leaf := (x0.1.2.2.2 m.id m.core).leaf, hasData := _ } : Core α) = _
      rw [(x0.2.1.path _ _).2, f4]
    · rcases f3 with f3 | ⟨j, p, x, k1, k2, k3, k4⟩
      · exact .inl f3
      · exact .inr ⟨j, p, by rw [k3]; exact k1, k2, k4⟩
  · obtain ⟨M, hM, hMc⟩ := (a3 q c).mp hc
    rcases (Node.mem_deck _ _ _ _ _ _).mp hM with ⟨m, hmem, _⟩ | ⟨a, m, l, hmem, hl, hin⟩
    · exact absurd hmem (Tree.contents_none.mp hq m)
    · obtain ⟨_, y, hy⟩ := hg a m hmem
      rw [hy] at hl
      rcases hext y m.id with ⟨_, e2⟩ | ⟨k, A, w, p, z, k1, k2, k3, _, e2, k4, _⟩
      · rw [e2] at hl; cases hl
      · rw [e2] at hl
        obtain rfl := List.mem_singleton.mp hl
        obtain ⟨p', z', k1', a', hA, hkey, _⟩ := X.sited.new k A w k2
        rw [k1] at k1'
        cases k1'
        obtain ⟨rfl, rfl⟩ := Prod.mk.inj (hok.id_inj hA hmem k3)
        rw [Node.mem_nodes] at hin
        rcases hin with hin | ⟨_, he, _⟩
        · obtain ⟨rfl, rfl⟩ := Prod.mk.inj hin
          obtain ⟨S₁, hS₁, hpre1⟩ := hpre y
          have hkey' : View.dash (v.full p) = a' ++ (leafOf v t k p z w).path := hkey
          refine ⟨z, S₁, ?_, hpre1, hq, k, p, k1, hkey', by rw [hS₁]; exact k4⟩
          rw [← hMc, ← hkey']
          rfl
        · cases he
  · cases hsk : site j with
    | none =>
      obtain ⟨m, hm'⟩ := X.sited.old j p x ha hsk
      exact absurd hm' (Tree.contents_none.mp hc m)
    | some y =>
      obtain ⟨A, w⟩ := y
      obtain ⟨p', z', g1', a, hA, hq, _⟩ := X.sited.new j A w hsk
      rw [ha] at g1'
      cases g1'
      have hext0 : ext0 A.id = [t.next + 2 * j + 1] := by
        rcases I0.leaf X ha hsk with ⟨_, _, e⟩ | ⟨_, e, _⟩
        · exact absurd e ho
        · exact e
      obtain ⟨_, y, hy⟩ := hg a A hA
      have hes : es y A.id = [leafOf v t j p x w] := by
        have : y.1.2.2.1 A.id ≠ [] := by rw [y.2.2.1 _ (by rw [hext0]; simp), hext0]; simp
        show (if _ then _ else _) = _
        rw [if_neg this, E.all j A w p x ha hsk]
      refine (a3 _ _).mpr ⟨leafOf v t j p x w, (Node.mem_deck _ _ _ _ _ _).mpr (.inr ⟨a, A, leafOf v t j p x w, hA, ?_, ?_⟩), rfl⟩
      · rw [hy, hes]; simp
      · rw [Node.mem_nodes]
        exact .inl (by rw [hq]; rfl)

/-- **C117** … A key that nobody sets is in the dumped trie as in the trie, and what is in neither is nowhere. -/
theorem C117_other (F : DumpFmt α) (nc : Bool) (h : Reach K t) (hp : t.Plain v.delim) (hm : v.mode ≠ .up) (hr : ∀ p, .remove p ∉ as) (hj : Joins v t as)
    (S0 : List Nat) (S : List (Option Nat)) (hd : (dumps F nc t (each v as) S0 S).1 = .done) :
    ∃ T : Tree α, T.OK ∧ (dumps F nc t (each v as) S0 S).2 = T.dump F nc ∧ ∀ q, (∀ p x, .set p x ∈ as → View.dash (v.full p) ≠ q) → T.contents q = t.contents q := by
  obtain ⟨N, hN⟩ := C117_dump F nc h hp hm hr hj
  obtain ⟨T, ok, e, h1, h2, _⟩ := (hN S0 S).2 hd
  refine ⟨T, ok, e, fun q hq => ?_⟩
  have hno : ∀ (j : Nat) p x, as[j]? = some (.set p x) → View.dash (v.full p) ≠ q := fun j p x hj => hq p x (List.mem_of_getElem? hj)
  cases hc : t.contents q with
  | none =>
    cases hT : T.contents q with
    | none => rfl
    | some c1 =>
      obtain ⟨_, _, _, _, _, j, p, k1, k2, _⟩ := h2 q c1 hc hT
      exact absurd k2 (hno _ _ _ k1)
  | some c0 =>
    obtain ⟨b, x, S₁, S₂, k1, _, _, k2, k3⟩ := h1 q c0 hc
    rcases k2 with ⟨rfl, _⟩ | ⟨_, j, p, x, hj, e, _⟩
    · rcases k3 with ⟨rfl, _⟩ | ⟨j, p, hj, e, _⟩
      · exact k1
      · exact absurd e (hno _ _ _ hj)
    · exact absurd e (hno _ _ _ hj)

end

section examples
open Race (top three three_reach three_plain)

/-- No colours; a value is as many strokes. -/
def plainFmt : DumpFmt Nat := ⟨fun n => List.replicate n 124, id, id, id, id⟩

/-- Two goroutines set `a.x` and `a.log.level`, one dumps. -/
example : ∃ N, ∀ S0 S, let r := dumps plainFmt true three (each top adding) S0 S
    (N ≤ S.count none → r.1 = .done) ∧ (r.1 = .done → ∃ T : Tree Nat, T.OK ∧ r.2 = T.dump plainFmt true ∧
      (∀ q c0, three.contents q = some c0 → ∃ b x S₁ S₂, T.contents q = some { c0 with hasData := b, data := x } ∧
        S₁ <+: S₂ ∧ S₂ <+: S.filterMap id ∧ FlagAt top three adding q c0.hasData b (S0 ++ S₁) ∧ ValueAt top three adding q c0.data x (S0 ++ S₂)) ∧
      (∀ q c, three.contents q = none → T.contents q = some c → ∃ x S₁, c = held q x none ∧ S₁ <+: S.filterMap id ∧ NewAt top three adding q x (S0 ++ S₁)) ∧
      ∀ (j : Nat) p x, adding[j]? = some (.set p x) → three.contents (View.dash (top.full p)) = none → ((runs three (each top adding) S0).gs j).outs ≠ [] →
        T.contents (View.dash (top.full p)) = some (held (View.dash (top.full p)) x none)) :=
  C117_dump _ _ three_reach three_plain.plain (by decide) adding_no_remove adding_joins

/-- Dumped alone, the text is that of `Dump`. -/
example : dumps plainFmt true three (each top adding) [] (List.replicate 60 none) = (.done, three.dump plainFmt true) := by decide +kernel

/-- **C117** The text is not the dump of the trie at any moment: the dumping goroutine has the slice of `a.` when `a.x` is added to it; then `a.log.level` is set, and then read. -/
theorem C117_snapshot_fails : ∃ S : List (Option Nat), (dumps plainFmt true three (each top adding) [] S).1 = .done ∧
    ∀ n, n ≤ S.length → let T : Tree Nat := ⟨Prune.read (runs three (each top adding) ((S.take n).filterMap id)).mem 6 three.root.id, 200⟩
      (dumps plainFmt true three (each top adding) [] S).2 ≠ T.dump plainFmt true := by
  let S : List (Option Nat) := List.replicate 13 none ++ List.replicate 30 (some 0) ++ List.replicate 30 (some 1) ++ List.replicate 40 none
  have key : (List.range 114).all (fun n =>
      let T : Tree Nat := ⟨Prune.read (runs three (each top adding) ((S.take n).filterMap id)).mem 6 three.root.id, 200⟩
      decide ((dumps plainFmt true three (each top adding) [] S).2 ≠ T.dump plainFmt true)) = true := by decide +kernel
  exact ⟨S, by decide +kernel, fun n hn => of_decide_eq_true (List.all_eq_true.mp key n (List.mem_range.mpr (Nat.lt_succ_of_le hn)))⟩

end examples
end Parts
end Verif

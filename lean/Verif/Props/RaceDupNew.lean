import Verif.Lemmas.RaceDupNew
import Verif.Props.RaceDup
import Verif.Props.RaceFreshExport
/-
C114: copying the trie beside `Set` for new keys.
-/
namespace Verif
namespace Parts
variable {α : Type} [Inhabited α]
open Prune (Cell Mem Up)

omit [Inhabited α] in
/-- A trie whose root is a copy of `n`. -/
theorem dup_tree {n : Node α} (hw : n.WF) (hnil : n.path = []) (f : Nat) :
    let T : Tree α := ⟨(n.dup f).1, (n.dup f).2⟩
    T.OK ∧ (∀ i ∈ T.root.ids, f ≤ i) ∧ ∀ q c, T.contents q = some c ↔ ∃ m, (q, m) ∈ n.nodes [] ∧ m.core.strip = c := by
  obtain ⟨h1, h2, h3, h4, h5, h6⟩ := Node.dup_spec n f
  have ok : (⟨(n.dup f).1, (n.dup f).2⟩ : Tree α).OK := by
    refine ⟨?_, ?_, h4, fun x hx => (h3 _ (Node.id_mem_ids (q := x.1) (m := x.2) hx)).2⟩
    · rw [← Node.wf_strip]
      simp only [h1]
      exact (Node.wf_strip _).mpr hw
    · simp only [h5, hnil]
  have clear : ∀ (n : Node α) (f : Nat) (u q : Str) (m : Node α), (q, m) ∈ (n.dup f).1.nodes u → m.core.strip = m.core := by
    intro n
    induction n using Node.ind with
    | h i p c k ih =>
      have hk : ∀ (k' : List (Node α)), (∀ a ∈ k', a ∈ k) → ∀ f, ∀ a ∈ (Node.dupL f k').1, ∀ u q m, (q, m) ∈ a.nodes u → m.core.strip = m.core := by
        intro k'
        induction k' with
        | nil => intro _ f a ha; simp [Node.dupL] at ha
        | cons b k' ihk =>
          intro hs f a ha
          simp only [Node.dupL, List.mem_cons] at ha
          rcases ha with rfl | ha
          · exact ih b (hs b (by simp)) f
          · exact ihk (fun a ha => hs a (by simp [ha])) _ a ha
      intro f u q m hm
      rw [Node.dup, Node.mem_nodes] at hm
      rcases hm with e | ⟨a, ha, hm⟩
      · rw [(Prod.mk.inj e).2]; rfl
      · exact hk k (fun _ h => h) _ a ha _ q m hm
  refine ⟨ok, fun i hi => (h3 i hi).1, fun q c => ?_⟩
  have e : ∀ n : Node α, (∃ m, (q, m) ∈ n.nodes [] ∧ m.core.strip = c) ↔ ∃ m, (q, m) ∈ n.strip.nodes [] ∧ m.core = c := by
    intro n
    rw [Node.nodes_strip]
    simp only [List.mem_map, Prod.mk.injEq]
    constructor
    · rintro ⟨m, hm, e⟩
      exact ⟨_, ⟨_, hm, rfl, rfl⟩, by rw [Node.strip_core]; exact e⟩
    · rintro ⟨_, ⟨x, hx, rfl, rfl⟩, e⟩
      exact ⟨x.2, hx, by rw [Node.strip_core] at e; exact e⟩
  rw [e, ← h1, ← e, Tree.contents_node ok]
  constructor
  · rintro ⟨m, hm, e⟩
    exact ⟨m, hm, (clear _ _ _ _ _ hm).trans e⟩
  · rintro ⟨m, hm, e⟩
    exact ⟨m, hm, (clear _ _ _ _ _ hm).symm.trans e⟩

section
variable {K : Str → Prop} {v : View} {t : Tree α} {as : List (Act α)}

section
variable {base : Mem α} {plan : Nat → Option Prune.Task} {site : Site α} {B : Nat → Nat}
  {S : List Nat} {s : Nat → Nat} {ext : Nat → List Nat} {g : Nat → Core α → Core α} {W : World α}

/-- What the calls of `Set` have made of a node: only the value and the flag. -/
theorem Blend.flag (X : Setting v t as base plan site B) (hj : Joins v t as) (I : Blend v t as base plan site B S s ext g W) {q : Str} {m : Node α}
    (hm : (q, m) ∈ t.root.nodes []) :
    g m.id m.core = { m.core with hasData := (g m.id m.core).hasData, data := (g m.id m.core).data } ∧
    ((g m.id m.core).hasData = m.core.hasData ∧
        (∀ (j : Nat) (p : Str) (x : α), as[j]? = some (.set p x) → View.dash (v.full p) = q → (W.gs j).outs = []) ∨
      (g m.id m.core).hasData = true ∧
        ∃ (j : Nat) (p : Str) (x : α), as[j]? = some (.set p x) ∧ View.dash (v.full p) = q ∧ (W.gs j).todo = []) := by
  have h := X.ok
  have hsite : ∀ (j : Nat) (p : Str) (x : α), as[j]? = some (.set p x) → View.dash (v.full p) = q → site j = none := by
    intro j p x ha hq
    cases hs : site j with
    | none => rfl
    | some y =>
      obtain ⟨A, w⟩ := y
      obtain ⟨p', x', ha', hL⟩ := X.sited.new j A w hs
      rw [ha] at ha'
      cases ha'
      rw [hq] at hL
      exact absurd hm (Tree.contents_none.mp (hL.none h) m)
  by_cases hex : ∃ (j : Nat) (p : Str) (x : α), as[j]? = some (.set p x) ∧ View.dash (v.full p) = q
  · obtain ⟨j, p, x, ha, hq⟩ := hex
    have r := (I.all j).set p x ha (hsite j p x ha hq)
    have one : (W.gs j).outs = [] → ∀ (j' : Nat) (p' : Str) (x' : α), as[j']? = some (.set p' x') → View.dash (v.full p') = q → (W.gs j').outs = [] := by
      intro h1 j' p' x' ha' hq'
      rw [hj.apart j' j p' x' p x ha' ha (hq'.trans hq.symm)]
      exact h1
    rw [hq, idAt_mem h hm] at r
    generalize hG : W.gs j = G at r
    rw [hG] at one
    cases r with
    | idle hn hg | finds f b pc hf hn hg =>
      rw [hg]
      exact ⟨rfl, .inl ⟨rfl, one rfl⟩⟩
    | store f hn hg | fin f hn hg | done f hg =>
      rw [hg]
      exact ⟨rfl, .inr ⟨rfl, j, p, x, ha, hq, by rw [hG]⟩⟩
  · have hg : g m.id = fun c => c := by
      refine I.cores _ fun k p x ha hs e => ?_
      obtain ⟨m', hm'⟩ := X.sited.old k p x ha hs
      rw [idAt_mem h hm'] at e
      exact hex ⟨k, p, x, ha, (Prod.mk.inj (h.id_inj hm' hm e)).1⟩
    rw [hg]
    exact ⟨rfl, .inl ⟨rfl, fun j p x ha hq => absurd ⟨j, p, x, ha, hq⟩ hex⟩⟩

end

/-- **C114** Goroutines call `Set` for keys that are in the trie and for new ones, as in C109, and lookups, and one copies the trie. It may begin at any moment
(`S0`). The copy is complete after finitely many steps of its own. It is a well-formed trie, and has none of the nodes of the original (whose identities are
below `f`). It has all keys of the trie, each with the value that was right at a moment of the copying, and the flag that was right at that moment or an earlier
one; the rest is as in the trie, without description, comment and tag. What it has beside these are new keys whose `Set` had begun at a moment of the copying,
each as that `Set` stores it. A new key whose `Set` had returned when the copying began is in the copy. -/
theorem C114_copy (h : Reach K t) (hp : t.Plain v.delim) (hm : v.mode ≠ .up) (hr : ∀ p, .remove p ∉ as) (hj : Joins v t as) :
    ∃ N, ∀ f S0 S, let r := copies t (each v as) f S0 S
      (N ≤ S.count none → ∃ c, r.1 = .done c) ∧ ∀ c, r.1 = .done c → let T : Tree α := ⟨c, r.2⟩
        T.OK ∧ (∀ i ∈ c.ids, f ≤ i) ∧
        (∀ q c0, t.contents q = some c0 → ∃ b x S₁ S₂,
          T.contents q = some { c0 with hasData := b, data := x, desc := [], comment := [], tag := none } ∧
          S₁ <+: S₂ ∧ S₂ <+: S.filterMap id ∧ FlagAt v t as q c0.hasData b (S0 ++ S₁) ∧ ValueAt v t as q c0.data x (S0 ++ S₂)) ∧
        (∀ q c, t.contents q = none → T.contents q = some c → ∃ x S₁, c = held q x none ∧ S₁ <+: S.filterMap id ∧ NewAt v t as q x (S0 ++ S₁)) ∧
        ∀ (j : Nat) p x, as[j]? = some (.set p x) → t.contents (View.dash (v.full p)) = none → ((runs t (each v as) S0).gs j).outs ≠ [] →
          T.contents (View.dash (v.full p)) = some (held (View.dash (v.full p)) x none) := by
  have hok := h.ok
  have ht := tidy_sets (v := v) (t := t) hr
  obtain ⟨site, B, X, hB⟩ := blended hok hp hm ht hj
  obtain ⟨ex, E⟩ := adds X
  obtain ⟨N, hN⟩ := jleads_walk t.root [] hok.ids_nodup
  refine ⟨N, fun f S0 S => ?_⟩
  let T := S0 ++ S.filterMap id
  have hrem : ∀ (k : Nat) p, as[k]? = some (.remove p) → ∃ T, Prune.planOf v t (calls as) k = some T := fun k p ha =>
    absurd (List.mem_of_getElem? ha) (hr p)
  obtain ⟨s0, ext0, g0, I0⟩ := hB S0
  let σ := {x : List Nat × (Nat → Nat) × (Nat → List Nat) × (Nat → Core α → Core α) //
    Blend v t as (Prune.start v t (calls as)).mem (Prune.planOf v t (calls as)) site B x.1 x.2.1 x.2.2.1 x.2.2.2 (runs t (each v as) x.1) ∧
      (∀ i, ext0 i ≠ [] → x.2.2.1 i = ext0 i) ∧ S0 <+: x.1 ∧ x.1 <+: T}
  let ms : σ → Mem α := fun x => (runs t (each v as) x.1.1).mem
  let R : σ → σ → Prop := fun a b => (∀ i, a.1.2.2.1 i ≠ [] → b.1.2.2.1 i = a.1.2.2.1 i) ∧ a.1.1 <+: b.1.1
  let es : σ → Nat → List (Node α) := fun x i => if x.1.2.2.1 i = [] then [] else ex i
  have hR0 : ∀ a, R a a := fun a => ⟨fun _ _ => rfl, List.prefix_refl _⟩
  have hR1 : ∀ a b c, R a b → R b c → R a c := fun a b c h1 h2 =>
    ⟨fun i hi => (h2.1 i (by rw [h1.1 i hi]; exact hi)).trans (h1.1 i hi), h1.2.trans h2.2⟩
  have hcell : ∀ (x : σ) q m, (q, m) ∈ t.root.nodes [] → ms x m.id =
      ⟨m.path, x.1.2.2.2 m.id m.core, m.kids.map Node.id ++ x.1.2.2.1 m.id, m.kids.length + (x.1.2.2.1 m.id).length⟩ := by
    intro x q m hm
    show (runs t (each v as) x.1.1).mem m.id = _
    rw [x.2.1.grown q m hm, mems_sets hok hr hm]
    simp [Prune.cellOf]
  have hext : ∀ (x : σ) i, x.1.2.2.1 i = [] ∧ es x i = [] ∨ ∃ k A w p y, as[k]? = some (.set p y) ∧ site k = some (A, w) ∧ A.id = i ∧
      x.1.2.2.1 i = [t.next + 2 * k + 1] ∧ es x i = [leafOf v t k p y w] ∧ ((runs t (each v as) x.1.1).gs k).todo = [] ∧
      ms x (t.next + 2 * k + 1) = leafCell w (jobOf v t k p y) := by
    intro x i
    rcases x.2.1.added X i with e | ⟨k, A, w, p, y, e1, e2, e3, e4, e5, e6⟩
    · exact .inl ⟨e, if_pos e⟩
    · refine .inr ⟨k, A, w, p, y, e1, e2, e3, e4, ?_, e5, e6⟩
      show (if _ then _ else _) = _
      rw [if_neg (by rw [e4]; simp), ← e3, E.all k A w p y e1 e2]
  have hsh : ∀ q m, (q, m) ∈ t.root.nodes [] → JShows R ms es m := by
    intro q m hm
    refine ⟨fun s => ?_, fun s => ?_, fun s => ?_, fun s => ?_, fun s s' hs hne => ?_, fun s l hl => ?_⟩
    · rw [hcell s q m hm]
    · rw [hcell s q m hm, List.map_append]
      rcases hext s m.id with ⟨e1, e2⟩ | ⟨k, A, w, p, y, _, _, _, e1, e2, _⟩ <;> rw [e1, e2] <;> rfl
    · rw [hcell s q m hm, List.length_append]
      rcases hext s m.id with ⟨e1, e2⟩ | ⟨k, A, w, p, y, _, _, _, e1, e2, _⟩ <;> rw [e1, e2] <;> rfl
    · rcases hext s m.id with ⟨_, e2⟩ | ⟨k, A, w, p, y, _, _, _, _, e2, _⟩ <;> rw [e2] <;> simp
    · have h1 : s.1.2.2.1 m.id ≠ [] := fun e => hne (if_pos e)
      have h2 : s'.1.2.2.1 m.id ≠ [] := by rw [hs.1 _ h1]; exact h1
      show (if _ then _ else _) = (if _ then _ else _)
      rw [if_neg h1, if_neg h2]
    · rcases hext s m.id with ⟨_, e2⟩ | ⟨k, A, w, p, y, _, _, _, _, e2, _, e3⟩
      · rw [e2] at hl; cases hl
      · rw [e2] at hl
        obtain rfl := List.mem_singleton.mp hl
        refine ⟨rfl, ?_, ?_, ?_⟩
        · show (ms s (t.next + 2 * k + 1)).path = _
          rw [e3]; rfl
        · show (ms s (t.next + 2 * k + 1)).core = _
          rw [e3]; rfl
        · show (ms s (t.next + 2 * k + 1)).len = _
          rw [e3]; rfl
  obtain ⟨h1, h2⟩ := copying_leads (root := t.root.id) (gap := 2 * (each v as).length) (T := T) (R := R) (ms := ms)
    (J := fun L W x => W = runs t (each v as) L ∧ x.1.1 = L) hR0 hR1
    (fun L W x hJ => by rw [hJ.1, ← hJ.2])
    (fun L W x k hJ hLk => by
      obtain ⟨⟨⟨L', s', ext', g'⟩, I, h3, h4, h5⟩, rfl⟩ : ∃ y : σ, y = x := ⟨x, rfl⟩
      obtain ⟨rfl, rfl⟩ := hJ
      obtain ⟨s'', ext'', g'', hs, he, I'⟩ := I.tick X hrem (2 * (each v as).length) k
      have e : runs t (each v as) (L' ++ [k]) = (runs t (each v as) L').tick t.root.id (2 * (each v as).length) k := run_snoc _ _ _ _ _
      exact ⟨⟨(L' ++ [k], s'', ext'', g''), e ▸ I', fun i hi => (he i (by show ext' i ≠ []; rw [show ext' i = ext0 i from h3 i hi]; exact hi)).trans (h3 i hi),
        h4.trans (List.prefix_append _ _), hLk⟩, ⟨he, List.prefix_append _ _⟩, e.symm, rfl⟩)
    (fun e he => by obtain ⟨g, x, _, rfl⟩ := he; exact ⟨_, rfl⟩) S
    (s := ⟨(S0, s0, ext0, g0), I0, fun _ _ => rfl, List.prefix_refl _, List.prefix_append _ _⟩) ⟨rfl, rfl⟩ rfl
    (hN σ R ms es hR0 hR1 hsh _ [] f)
  refine ⟨h1, fun c hd => ?_⟩
  obtain ⟨g, x', hg, e⟩ := h2 c hd
  have e1 : c = ((t.root.deck g x').dup f).1 := by
    have := congrArg Prod.fst e
    rw [show (copying t.root.id (2 * (each v as).length) (runs t (each v as) S0, .visit t.root.id [], f) S).2.1 = _ from hd] at this
    cases this
    rfl
  have e2 : (copies t (each v as) f S0 S).2 = ((t.root.deck g x').dup f).2 := congrArg Prod.snd e
  have hpre : ∀ x : σ, ∃ S₁, S0 ++ S₁ = x.1.1 ∧ S₁ <+: S.filterMap id := by
    intro x
    obtain ⟨S₁, hS₁⟩ := x.2.2.2.1
    refine ⟨S₁, hS₁, ?_⟩
    have := x.2.2.2.2
    rw [← hS₁] at this
    exact (List.prefix_append_right_inj _).mp this
  have hwf : (t.root.deck g x').WF := by
    refine Node.deck_wf _ _ t.root [] hok.wf fun q m hmem => ?_
    obtain ⟨_, y, hy⟩ := hg q m hmem
    have hk := (Node.wf_iff m).mp (Node.wf_of_mem hok.wf hmem)
    rcases hext y m.id with ⟨_, e2⟩ | ⟨k, A, w, p, z, k1, k2, k3, _, e2, _⟩
    · rw [hy, e2]
      exact ⟨by rw [List.append_nil]; exact hk.1, nofun⟩
    · obtain ⟨p', z', k1', a, hA, hq, hne, hh⟩ := X.sited.new k A w k2
      obtain ⟨rfl, rfl⟩ := Prod.mk.inj (hok.id_inj hA hmem k3)
      rw [hy, e2]
      refine ⟨?_, fun l hl => ?_⟩
      · rw [List.map_append, List.nodup_append]
        refine ⟨hk.1, by simp, fun b hb c hc => ?_⟩
        obtain ⟨e, he, rfl⟩ := List.mem_map.mp hb
        obtain ⟨l, hl, rfl⟩ := List.mem_map.mp hc
        obtain rfl := List.mem_singleton.mp hl
        exact hh e he
      · obtain rfl := List.mem_singleton.mp hl
        exact ⟨hne, (Node.wf_iff _).mpr ⟨List.nodup_nil, nofun⟩⟩
  obtain ⟨a1, a2, a3⟩ := dup_tree hwf (by rw [Node.deck_path]; exact hok.nil) f
  rw [← e1, ← e2] at a1 a2 a3
  refine ⟨a1, a2, fun q c0 hq => ?_, fun q c hq hc => ?_, fun j p x ha hc ho => ?_⟩
  · obtain ⟨m, hmem, rfl⟩ := (Tree.contents_node hok).mp hq
    obtain ⟨⟨x1, x2, hx, hgm⟩, _⟩ := hg q m hmem
    rw [hcell x1 q m hmem, hcell x2 q m hmem] at hgm
    obtain ⟨S₁, hS₁, _⟩ := hpre x1
    obtain ⟨S₂, hS₂, hpre2⟩ := hpre x2
    have hpre' : S₁ <+: S₂ := by
      have : x1.1.1 <+: x2.1.1 := hx.2
      rw [← hS₁, ← hS₂] at this
      exact (List.prefix_append_right_inj _).mp this
    obtain ⟨f1, f2⟩ := x1.2.1.flag X hj hmem
    obtain ⟨_, _, _, f3⟩ := x2.2.1.core X hj hmem
    rw [← hS₁] at f2
    rw [← hS₂] at f3
    refine ⟨(x1.1.2.2.2 m.id m.core).hasData, (x2.1.2.2.2 m.id m.core).data, S₁, S₂, ?_, hpre', hpre2, f2, ?_⟩
    · refine (a3 q _).mpr ⟨m.deck g x', (Node.mem_deck _ _ _ _ _ _).mpr (.inl ⟨m, hmem, rfl⟩), ?_⟩
      rw [Node.deck_core, hgm]
      show Core.strip { x1.1.2.2.2 m.id m.core with data := _ } = _
      rw [f1]
      rfl
    · rcases f3 with f3 | ⟨j, p, x, k1, k2, k3, k4⟩
      · exact .inl f3
      · exact .inr ⟨j, p, by rw [k3]; exact k1, k2, k4⟩
  · obtain ⟨M, hM, hMc⟩ := (a3 q c).mp hc
    rcases (Node.mem_deck _ _ _ _ _ _).mp hM with ⟨m, hmem, _⟩ | ⟨a, m, l, hmem, hl, hin⟩
    · exact absurd hmem (Tree.contents_none.mp hq m)
    · obtain ⟨_, y, hy⟩ := hg a m hmem
      rw [hy] at hl
      rcases hext y m.id with ⟨_, e2⟩ | ⟨k, A, w, p, z, k1, k2, k3, _, e2, k4, _⟩
      · rw [e2] at hl; cases hl
      · rw [e2] at hl
        obtain rfl := List.mem_singleton.mp hl
        obtain ⟨p', z', k1', a', hA, hkey, _⟩ := X.sited.new k A w k2
        rw [k1] at k1'
        cases k1'
        obtain ⟨rfl, rfl⟩ := Prod.mk.inj (hok.id_inj hA hmem k3)
        rw [Node.mem_nodes] at hin
        rcases hin with hin | ⟨_, he, _⟩
        · obtain ⟨rfl, rfl⟩ := Prod.mk.inj hin
          obtain ⟨S₁, hS₁, hpre1⟩ := hpre y
          have hkey' : View.dash (v.full p) = a' ++ (leafOf v t k p z w).path := hkey
          refine ⟨z, S₁, ?_, hpre1, hq, k, p, k1, hkey', by rw [hS₁]; exact k4⟩
          rw [← hMc, ← hkey']
          rfl
        · cases he
  · cases hsk : site j with
    | none =>
      obtain ⟨m, hm'⟩ := X.sited.old j p x ha hsk
      exact absurd hm' (Tree.contents_none.mp hc m)
    | some y =>
      obtain ⟨A, w⟩ := y
      obtain ⟨p', z', g1', a, hA, hq, _⟩ := X.sited.new j A w hsk
      rw [ha] at g1'
      cases g1'
      have hext0 : ext0 A.id = [t.next + 2 * j + 1] := by
        rcases I0.leaf X ha hsk with ⟨_, _, e⟩ | ⟨_, e, _⟩
        · exact absurd e ho
        · exact e
      obtain ⟨_, y, hy⟩ := hg a A hA
      have hes : es y A.id = [leafOf v t j p x w] := by
        have : y.1.2.2.1 A.id ≠ [] := by rw [y.2.2.1 _ (by rw [hext0]; simp), hext0]; simp
        show (if _ then _ else _) = _
        rw [if_neg this, E.all j A w p x ha hsk]
      refine (a3 _ _).mpr ⟨leafOf v t j p x w, (Node.mem_deck _ _ _ _ _ _).mpr (.inr ⟨a, A, leafOf v t j p x w, hA, ?_, ?_⟩), rfl⟩
      · rw [hy, hes]; simp
      · rw [Node.mem_nodes]
        exact .inl (by rw [hq]; rfl)

/-- **C114** … A key that nobody sets has in the copy what it has in the trie. -/
theorem C114_other (h : Reach K t) (hp : t.Plain v.delim) (hm : v.mode ≠ .up) (hr : ∀ p, .remove p ∉ as) (hj : Joins v t as)
    {q : Str} (hq : ∀ p x, .set p x ∈ as → View.dash (v.full p) ≠ q) (f : Nat) (S0 : List Nat) (S : List (Option Nat)) {c : Node α}
    (hd : (copies t (each v as) f S0 S).1 = .done c) :
    Tree.contents (⟨c, (copies t (each v as) f S0 S).2⟩ : Tree α) q =
      (t.contents q).map fun c0 => { c0 with desc := [], comment := [], tag := none } := by
  obtain ⟨N, hN⟩ := C114_copy h hp hm hr hj
  obtain ⟨_, _, h1, h2, _⟩ := (hN f S0 S).2 c hd
  have hno : ∀ (j : Nat) p x, as[j]? = some (.set p x) → View.dash (v.full p) ≠ q := fun j p x hj => hq p x (List.mem_of_getElem? hj)
  cases hc : t.contents q with
  | none =>
    cases hT : Tree.contents (⟨c, (copies t (each v as) f S0 S).2⟩ : Tree α) q with
    | none => rfl
    | some c1 =>
      obtain ⟨_, _, _, _, _, j, p, k1, k2, _⟩ := h2 q c1 hc hT
      exact absurd k2 (hno _ _ _ k1)
  | some c0 =>
    obtain ⟨b, x, S₁, S₂, k1, _, _, k2, k3⟩ := h1 q c0 hc
    rcases k2 with ⟨rfl, _⟩ | ⟨_, j, p, x, hj, e, _⟩
    · rcases k3 with ⟨rfl, _⟩ | ⟨j, p, hj, e, _⟩
      · exact k1
      · exact absurd e (hno _ _ _ hj)
    · exact absurd e (hno _ _ _ hj)

/-- **C114** … A key whose `Set` has returned before the copying begins, new or not, is in the copy as that `Set` stores it. -/
theorem C114_set (h : Reach K t) (hp : t.Plain v.delim) (hm : v.mode ≠ .up) (hr : ∀ p, .remove p ∉ as) (hs : Joins v t as)
    {j : Nat} {p : Str} {x : α} (hj : as[j]? = some (.set p x)) (f : Nat) (S0 : List Nat) (ho : ((runs t (each v as) S0).gs j).outs ≠ [])
    (S : List (Option Nat)) {c : Node α} (hd : (copies t (each v as) f S0 S).1 = .done c) :
    Tree.contents (⟨c, (copies t (each v as) f S0 S).2⟩ : Tree α) (View.dash (v.full p)) =
      some { held (View.dash (v.full p)) x (t.contents (View.dash (v.full p))) with desc := [], comment := [], tag := none } := by
  obtain ⟨N, hN⟩ := C114_copy h hp hm hr hs
  obtain ⟨_, _, h2, _, h3⟩ := (hN f S0 S).2 c hd
  cases hc : t.contents (View.dash (v.full p)) with
  | none => exact h3 j p x hj hc ho
  | some c0 =>
    obtain ⟨b, y, S₁, S₂, k1, _, _, k2, k3⟩ := h2 _ c0 hc
    have still : ∀ S', ((runs t (each v as) (S0 ++ S')).gs j).outs ≠ [] := by
      intro S' e
      have := run_outs t.root.id (2 * (each v as).length) j S' (runs t (each v as) S0)
      rw [← runs_append, e] at this
      exact ho (List.prefix_nil.mp this)
    have hb : b = true := by
      rcases k2 with ⟨_, k⟩ | ⟨k, _⟩
      · exact absurd (k j p x hj rfl) (still _)
      · exact k
    have hy : y = x := by
      rcases k3 with ⟨_, k⟩ | ⟨j', p', g1, g2, _⟩
      · exact absurd (k j p x hj rfl) (still _)
      · have := hs.apart j' j p' y p x g1 hj g2
        subst this
        rw [hj] at g1
        cases g1
        rfl
    rw [k1, hb, hy]
    rfl

/-- **C114** … A new key whose `Set` has not begun when the copying ends is not in the copy. -/
theorem C114_unset (h : Reach K t) (hp : t.Plain v.delim) (hm : v.mode ≠ .up) (hr : ∀ p, .remove p ∉ as) (hj : Joins v t as)
    {q : Str} (hq : t.contents q = none) (f : Nat) (S0 : List Nat) (S : List (Option Nat))
    (hno : ∀ (j : Nat) p x, as[j]? = some (.set p x) → View.dash (v.full p) = q → ((runs t (each v as) (S0 ++ S.filterMap id)).gs j).todo ≠ [])
    {c : Node α} (hd : (copies t (each v as) f S0 S).1 = .done c) :
    Tree.contents (⟨c, (copies t (each v as) f S0 S).2⟩ : Tree α) q = none := by
  obtain ⟨N, hN⟩ := C114_copy h hp hm hr hj
  obtain ⟨_, _, _, h2, _⟩ := (hN f S0 S).2 c hd
  cases hT : Tree.contents (⟨c, (copies t (each v as) f S0 S).2⟩ : Tree α) q with
  | none => rfl
  | some c1 =>
    obtain ⟨x, S₁, _, ⟨S₂, k2⟩, _, j, p, g1, g2, g3⟩ := h2 q c1 hq hT
    refine absurd ?_ (hno j p x g1 g2)
    rw [← k2, ← List.append_assoc, runs_append]
    exact run_todo _ _ _ _ _ g3

/-- **C114** Here there may be calls of `Remove` too, as in C109. A copy that begins when all calls of `Set` and `Remove` have returned is the copy of the trie
that is then in memory, node by node, and the identities too: that of C109, in which every key that was set has its value, nothing is left at or below what was
removed, and all else is as it was. -/
theorem C114_after (h : Reach K t) (hp : t.Plain v.delim) (hm : v.mode ≠ .up) (ht : Prune.Tidy v t (calls as)) (hj : Joins v t as) (S0 : List Nat)
    (hall : ∀ (k : Nat) a, as[k]? = some a → told a ≠ none → ((runs t (each v as) S0).gs k).outs ≠ []) :
    ∃ t' : Tree α, t'.OK ∧
      (∀ p x, .set p x ∈ as → t'.contents (View.dash (v.full p)) = some (held (View.dash (v.full p)) x (t.contents (View.dash (v.full p))))) ∧
      (∀ q, Gone v t as q → t'.contents q = none) ∧
      (∀ q, ¬ Gone v t as q → (∀ p x, .set p x ∈ as → View.dash (v.full p) ≠ q) → t'.contents q = t.contents q) ∧
      ∀ f S c, (copies t (each v as) f S0 S).1 = .done c → (c, (copies t (each v as) f S0 S).2) = Node.dup f t'.root := by
  have hok := h.ok
  obtain ⟨site, B, X, hB⟩ := blended hok hp hm ht hj
  obtain ⟨s0, ext0, g0, I0⟩ := hB S0
  obtain ⟨t', hH, hrid, okT, c1, c2, c3⟩ := blend_tree hok hp hm ht hj X I0 hall
  have hg : ∀ q, Gone v t as q ↔ Prune.Struck v t (calls as) (calls as).length q := by
    intro q
    constructor
    · rintro ⟨c, P, y, u, hc, htk, hu, hq⟩
      obtain ⟨i, hi⟩ := List.mem_iff_getElem?.mp hc
      exact ⟨i, c, P, y, u, (List.getElem?_eq_some_iff.mp hi).1, hi, htk, hu, hq⟩
    · rintro ⟨i, c, P, y, u, _, hi, htk, hu, hq⟩
      exact ⟨c, P, y, u, List.mem_of_getElem? hi, htk, hu, hq⟩
  refine ⟨t', okT, c1, fun q hq => c2 q ((hg q).mp hq), fun q hq => c3 q fun e => hq ((hg q).mpr e), fun f S c hd => ?_⟩
  let M := (runs t (each v as) S0).mem
  have hconst : ∀ L' : List Nat, (runs t (each v as) (S0 ++ L')).mem = M := by
    intro L'
    have key : ∀ R : List Nat, (runs t (each v as) (S0 ++ R.reverse)).mem = M := by
      intro R
      induction R with
      | nil => simp only [List.reverse_nil, List.append_nil]; rfl
      | cons k R ih =>
        rw [List.reverse_cons, ← List.append_assoc]
        refine (fresh_still hok hp hm ht hj _ (fun k a ha ho e => ?_) k).trans ih
        have := run_outs t.root.id (2 * (each v as).length) k R.reverse (runs t (each v as) S0)
        rw [← runs_append, e] at this
        exact hall k a ha ho (List.prefix_nil.mp this)
    have := key L'.reverse
    rwa [List.reverse_reverse] at this
  obtain ⟨N, hN⟩ := dleads_walk t'.root [] okT.ids_nodup
  obtain ⟨_, h2⟩ := copying_leads (root := t.root.id) (gap := 2 * (each v as).length) (T := S0 ++ S.filterMap id)
    (R := fun _ _ : Unit => True) (ms := fun _ => M)
    (J := fun L W _ => S0 <+: L ∧ W = runs t (each v as) L) (fun _ => trivial) (fun _ _ _ _ _ => trivial)
    (fun L W _ hJ => by
      obtain ⟨⟨L', rfl⟩, rfl⟩ := hJ
      exact hconst L')
    (fun L W _ k hJ _ => by
      obtain ⟨h3, rfl⟩ := hJ
      exact ⟨(), trivial, h3.trans (List.prefix_append _ _), (run_snoc _ _ _ _ _).symm⟩)
    (fun e he => by obtain ⟨g, _, rfl⟩ := he; exact ⟨_, rfl⟩) S (s := ()) ⟨List.prefix_refl _, rfl⟩ rfl
    (hrid ▸ hN Unit _ _ (fun _ => trivial) (fun _ _ _ _ _ => trivial)
      (fun q m hm => ⟨fun _ => (hH q m hm).1, fun _ => by have := (hH q m hm).2.2; rw [this.2] at this; exact this.1, fun _ => (hH q m hm).2.2.2⟩) () [] f)
  obtain ⟨g, hg, e⟩ := h2 c hd
  have eg : t'.root.recore g = t'.root := by
    refine (Node.recore_ext t'.root [] fun q m hm => ?_).trans (Node.recore_self t'.root)
    obtain ⟨_, _, _, k⟩ := hg q m hm
    exact k.trans (hH q m hm).2.1
  rw [eg] at e
  have e1 : Dp.done c = Dp.done (Node.dup f t'.root).1 := hd.symm.trans (congrArg Prod.fst e)
  have e2 : (copies t (each v as) f S0 S).2 = (Node.dup f t'.root).2 := congrArg Prod.snd e
  cases e1
  rw [e2]

end

section examples
open Race (top three three_reach three_plain)

/-- `a.name`, `a.log.level` and `db.host` are in the trie. `a.x` is new. -/
def adding : List (Act Nat) := [.set "a.x".toList 9, .set "a.log.level".toList 7, .get "a.name".toList]

theorem adding_no_remove (p : Str) : Act.remove p ∉ adding := by
  intro h
  rcases List.mem_cons.mp h with e | h
  · cases e
  · rcases List.mem_cons.mp h with e | h
    · cases e
    · rcases List.mem_cons.mp h with e | h
      · cases e
      · cases h

theorem adding_joining {i : Nat} {p : Str} {x : Nat} (h : adding[i]? = some (.set p x)) : joining[i]? = some (.set p x) := by
  match i, h with
  | 0, h => exact h
  | 1, h => exact h
  | 2, h => cases h
  | n + 3, h => cases h

theorem adding_mem {p : Str} {x : Nat} (h : .set p x ∈ adding) : .set p x ∈ joining := by
  obtain ⟨i, hi⟩ := List.mem_iff_getElem?.mp h
  exact List.mem_of_getElem? (adding_joining hi)

theorem adding_joins : Joins top three adding where
  keys p x h := joining_joins.keys p x (adding_mem h)
  apart i j p x p' x' hi hj := joining_joins.apart i j p x p' x' (adding_joining hi) (adding_joining hj)
  sites i j p x p' x' A w A' w' hi hj := joining_joins.sites i j p x p' x' A w A' w' (adding_joining hi) (adding_joining hj)
  still c P y p x A w hc ht := by
    obtain ⟨p', _, rfl, _⟩ := ht
    exact absurd hc (calls_no_remove adding_no_remove p')
  spares c P y p x hc ht := by
    obtain ⟨p', _, rfl, _⟩ := ht
    exact absurd hc (calls_no_remove adding_no_remove p')

theorem new_x : three.contents (View.dash (top.full "a.x".toList)) = none := siteA_leaves.none three_reach.ok

example : ∃ N, ∀ f S0 S, let r := copies three (each top adding) f S0 S
    (N ≤ S.count none → ∃ c, r.1 = .done c) ∧ ∀ c, r.1 = .done c → let T : Tree Nat := ⟨c, r.2⟩
      T.OK ∧ (∀ i ∈ c.ids, f ≤ i) ∧
      (∀ q c0, three.contents q = some c0 → ∃ b x S₁ S₂,
        T.contents q = some { c0 with hasData := b, data := x, desc := [], comment := [], tag := none } ∧
        S₁ <+: S₂ ∧ S₂ <+: S.filterMap id ∧ FlagAt top three adding q c0.hasData b (S0 ++ S₁) ∧ ValueAt top three adding q c0.data x (S0 ++ S₂)) ∧
      (∀ q c, three.contents q = none → T.contents q = some c →
        ∃ x S₁, c = held q x none ∧ S₁ <+: S.filterMap id ∧ NewAt top three adding q x (S0 ++ S₁)) ∧
      ∀ (j : Nat) p x, adding[j]? = some (.set p x) → three.contents (View.dash (top.full p)) = none → ((runs three (each top adding) S0).gs j).outs ≠ [] →
        T.contents (View.dash (top.full p)) = some (held (View.dash (top.full p)) x none) :=
  C114_copy three_reach three_plain.plain (by decide) adding_no_remove adding_joins

example (f : Nat) (S0 : List Nat) (S : List (Option Nat)) {c : Node Nat} (hd : (copies three (each top adding) f S0 S).1 = .done c) :
    Tree.contents (⟨c, (copies three (each top adding) f S0 S).2⟩ : Tree Nat) "a.name".toList =
      (three.contents "a.name".toList).map fun c0 => { c0 with desc := [], comment := [], tag := none } :=
  C114_other three_reach three_plain.plain (by decide) adding_no_remove adding_joins (fun p x h => by
    rcases List.mem_cons.mp h with e | h
    · rw [(Act.set.inj e).1]; decide +kernel
    · rcases List.mem_cons.mp h with e | h
      · rw [(Act.set.inj e).1]; decide +kernel
      · rcases List.mem_cons.mp h with e | h
        · cases e
        · cases h) f S0 S hd

/-- `a.x` is set first. -/
example (f : Nat) (S : List (Option Nat)) {c : Node Nat} (hd : (copies three (each top adding) f (List.replicate 60 0) S).1 = .done c) :
    Tree.contents (⟨c, (copies three (each top adding) f (List.replicate 60 0) S).2⟩ : Tree Nat) (View.dash (top.full "a.x".toList)) =
      some { held (View.dash (top.full "a.x".toList)) 9 (three.contents (View.dash (top.full "a.x".toList))) with desc := [], comment := [], tag := none } :=
  C114_set (j := 0) three_reach three_plain.plain (by decide) adding_no_remove adding_joins rfl f _ (by decide +kernel) S hd

/-- Nobody has begun to set `a.x`. -/
example (f : Nat) (S : List (Option Nat)) (hS : S.filterMap id = List.replicate 30 1) {c : Node Nat} (hd : (copies three (each top adding) f [] S).1 = .done c) :
    Tree.contents (⟨c, (copies three (each top adding) f [] S).2⟩ : Tree Nat) (View.dash (top.full "a.x".toList)) = none :=
  C114_unset three_reach three_plain.plain (by decide) adding_no_remove adding_joins new_x f [] S (fun j p x ha hq => by
    match j, ha with
    | 0, _ => rw [hS]; decide +kernel
    | 1, ha => cases ha; exact absurd hq (by decide +kernel)
    | 2, ha => cases ha
    | n + 3, ha => cases ha) hd

example : ∃ t' : Tree Nat, t'.OK ∧
    (∀ p x, .set p x ∈ joining → t'.contents (View.dash (top.full p)) = some (held (View.dash (top.full p)) x (three.contents (View.dash (top.full p))))) ∧
    (∀ q, Gone top three joining q → t'.contents q = none) ∧
    (∀ q, ¬ Gone top three joining q → (∀ p x, .set p x ∈ joining → View.dash (top.full p) ≠ q) → t'.contents q = three.contents q) ∧
    ∀ f S c, (copies three (each top joining) f (List.replicate 60 [0, 1, 2]).flatten S).1 = .done c →
      (c, (copies three (each top joining) f (List.replicate 60 [0, 1, 2]).flatten S).2) = Node.dup f t'.root :=
  C114_after three_reach three_plain.plain (by decide) joining_tidy joining_joins _ (fun k a ha ho => by
    match k, ha with
    | 0, _ => decide +kernel
    | 1, _ => decide +kernel
    | 2, _ => decide +kernel
    | n + 3, ha => cases ha)

/-- The copying goroutine runs beside the two that set. -/
example : (match (copies three (each top adding) 100 [] (List.replicate 40 [none, some 0, some 1, some 0, some 1]).flatten).1 with
    | .done c => (c.nodes []).map fun x => (x.1, x.2.core.hasData, x.2.core.data)
    | _ => []) = [([], false, 0), ("a.".toList, false, 0), ("a.name".toList, true, 1), ("a.log.level".toList, true, 7), ("db.host".toList, true, 3)] := by
  decide +kernel

/-- … and after the one that adds a key. -/
example : (match (copies three (each top adding) 100 (List.replicate 20 0) (List.replicate 40 [none, some 0, some 1, some 0, some 1]).flatten).1 with
    | .done c => (c.nodes []).map fun x => (x.1, x.2.core.hasData, x.2.core.data)
    | _ => []) = [([], false, 0), ("a.".toList, false, 0), ("a.name".toList, true, 1), ("a.log.level".toList, true, 7), ("a.x".toList, true, 9), ("db.host".toList, true, 3)] := by
  decide +kernel

/-- **C114** The copy as a whole is not the trie of any moment: the copying goroutine has the slice of `a.` when `a.x` is added to it; then `a.log.level` is set,
and then read. The copy has the new value of the latter, which was set when `a.x` was there, and not `a.x`. -/
theorem C114_snapshot_fails : ∃ (S : List (Option Nat)) (c : Node Nat), (copies three (each top adding) 100 [] S).1 = .done c ∧
    Tree.contents (⟨c, 200⟩ : Tree Nat) "a.x".toList = none ∧ (Tree.contents (⟨c, 200⟩ : Tree Nat) "a.log.level".toList).map (·.data) = some 7 ∧
    ∀ n, n ≤ S.length → let T : Tree Nat := ⟨Prune.read (runs three (each top adding) ((S.take n).filterMap id)).mem 6 three.root.id, 200⟩
      (T.contents "a.log.level".toList).map (·.data) = some 7 → (T.contents "a.x".toList).map (·.data) = some 9 := by
  let S : List (Option Nat) := List.replicate 10 none ++ List.replicate 30 (some 0) ++ List.replicate 30 (some 1) ++ List.replicate 40 none
  have hd : (match (copies three (each top adding) 100 [] S).1 with
    | .done c => decide ((Tree.contents (⟨c, 200⟩ : Tree Nat) "a.x".toList).isNone = true ∧
        (Tree.contents (⟨c, 200⟩ : Tree Nat) "a.log.level".toList).map (·.data) = some 7)
    | _ => false) = true := by decide +kernel
  have key : (List.range 111).all (fun n =>
      let T : Tree Nat := ⟨Prune.read (runs three (each top adding) ((S.take n).filterMap id)).mem 6 three.root.id, 200⟩
      decide ((T.contents "a.log.level".toList).map (·.data) = some 7 → (T.contents "a.x".toList).map (·.data) = some 9)) = true := by decide +kernel
  split at hd
  · next c e =>
    obtain ⟨h1, h2⟩ := of_decide_eq_true hd
    exact ⟨S, c, e, Option.isNone_iff_eq_none.mp h1, h2,
      fun n hn => of_decide_eq_true (List.all_eq_true.mp key n (List.mem_range.mpr (Nat.lt_succ_of_le hn)))⟩
  · cases hd

/-- **C114** Beside a `Set` that splits a node it fails (`Joins` leaves such calls out): the copying goroutine has read the path `name` of the node when
`Set` shortens it to `n` and gives it two children. The copy has the keys `a.nameame` and `a.nameick`, which nobody has ever set, and `a.nick` is missing,
although the children of the node were read after it had been added. -/
theorem C114_split_fails : ∃ (S : List (Option Nat)) (c : Node Nat), (copies three (each top [.set "a.nick".toList 9]) 100 [] S).1 = .done c ∧
    (Tree.contents (⟨c, 200⟩ : Tree Nat) "a.nameame".toList).map (·.data) = some 1 ∧
    (Tree.contents (⟨c, 200⟩ : Tree Nat) "a.nameick".toList).map (·.data) = some 9 ∧
    Tree.contents (⟨c, 200⟩ : Tree Nat) "a.nick".toList = none ∧
    three.contents "a.nameame".toList = none ∧ three.contents "a.nameick".toList = none ∧
    ((runs three (each top [.set "a.nick".toList 9]) (S.filterMap id)).gs 0).outs ≠ [] := by
  let S : List (Option Nat) := List.replicate 7 none ++ List.replicate 40 (some 0) ++ List.replicate 60 none
  have hd : (match (copies three (each top [.set "a.nick".toList 9]) 100 [] S).1 with
    | .done c => decide ((Tree.contents (⟨c, 200⟩ : Tree Nat) "a.nameame".toList).map (·.data) = some 1 ∧
        (Tree.contents (⟨c, 200⟩ : Tree Nat) "a.nameick".toList).map (·.data) = some 9 ∧
        (Tree.contents (⟨c, 200⟩ : Tree Nat) "a.nick".toList).isNone = true)
    | _ => false) = true := by decide +kernel
  split at hd
  · next c e =>
    obtain ⟨h1, h2, h3⟩ := of_decide_eq_true hd
    exact ⟨S, c, e, h1, h2, Option.isNone_iff_eq_none.mp h3,
      Option.isNone_iff_eq_none.mp (by decide +kernel), Option.isNone_iff_eq_none.mp (by decide +kernel), by decide +kernel⟩
  · cases hd

end examples

end Parts
end Verif

import Verif.Lemmas.RaceDup
import Verif.Spec.RaceDup
import Verif.Props.RaceMixExport
/-
C113: copying the trie beside `Set`.
-/
namespace Verif

namespace Node
variable {α : Type}

theorem nodes_strip (n : Node α) : ∀ u, n.strip.nodes u = (n.nodes u).map fun x => (x.1, x.2.strip) := by
  induction n using Node.ind with
  | h i p c k ih =>
    intro u
    rw [nodes_eq, nodes_eq, List.map_cons]
    simp only [strip_path, strip_kids, nodesL_flatMap, path_mk, kids_mk]
    congr 1
    rw [List.flatMap_map, List.map_flatMap]
    rw [List.flatMap_def, List.flatMap_def]
    exact congrArg _ (List.map_congr_left fun m hm => ih m hm _)

theorem recore_ext {g g' : Nat → Core α → Core α} (n : Node α) : ∀ u, (∀ q m, (q, m) ∈ n.nodes u → g m.id m.core = g' m.id m.core) →
    n.recore g = n.recore g' := by
  induction n using Node.ind with
  | h i p c k ih =>
    intro u h
    have e : g i c = g' i c := h _ _ ((Node.mem_nodes u (.mk i p c k) _).mpr (.inl rfl))
    rw [recore_mk, recore_mk, e]
    congr 1
    exact List.map_congr_left fun m hm => ih m hm (u ++ p) fun q m' hm' =>
      h q m' ((Node.mem_nodes u (.mk i p c k) _).mpr (.inr ⟨m, hm, hm'⟩))

theorem wf_recore {g : Nat → Core α → Core α} (n : Node α) : (n.recore g).WF ↔ n.WF := by
  induction n using Node.ind with
  | h i p c k ih =>
    rw [recore_mk, wf_mk, wf_mk]
    simp only [List.map_map, List.mem_map, forall_exists_index, and_imp, forall_apply_eq_imp_iff₂, recore_path]
    refine and_congr (by simp [Function.comp_def]) (forall₂_congr fun a ha => ?_)
    rw [ih a ha]

end Node

namespace Parts
variable {α : Type} [Inhabited α]
open Prune (Cell Mem)

/-- A trie with the root `n` that is a copy of the tree with other cores. -/
theorem copy_spec {t : Tree α} (h : t.OK) (g : Nat → Core α → Core α) (f : Nat) :
    let T : Tree α := ⟨((t.root.recore g).dup f).1, ((t.root.recore g).dup f).2⟩
    T.OK ∧ (∀ i ∈ T.root.ids, f ≤ i) ∧ (∀ q, T.contents q = none ↔ t.contents q = none) ∧
      ∀ q m, (q, m) ∈ t.root.nodes [] → T.contents q = some (g m.id m.core).strip := by
  obtain ⟨h1, h2, h3, h4, h5, h6⟩ := Node.dup_spec (t.root.recore g) f
  have ok : (⟨((t.root.recore g).dup f).1, ((t.root.recore g).dup f).2⟩ : Tree α).OK := by
    refine ⟨?_, ?_, h4, fun x hx => (h3 _ (Node.id_mem_ids (q := x.1) (m := x.2) hx)).2⟩
    · rw [← Node.wf_strip]
      simp only [h1]
      exact (Node.wf_strip _).mpr ((Node.wf_recore _).mpr h.wf)
    · simp only [h5, Node.recore_path, h.nil]
  have hn : ∀ q c, (∃ m, (q, m) ∈ ((t.root.recore g).dup f).1.nodes [] ∧ m.core.strip = c) ↔
      ∃ m, (q, m) ∈ t.root.nodes [] ∧ (g m.id m.core).strip = c := by
    intro q c
    have e : ∀ n : Node α, (∃ m, (q, m) ∈ n.nodes [] ∧ m.core.strip = c) ↔ ∃ m, (q, m) ∈ n.strip.nodes [] ∧ m.core = c := by
      intro n
      rw [Node.nodes_strip]
      simp only [List.mem_map, Prod.mk.injEq]
      constructor
      · rintro ⟨m, hm, e⟩
        exact ⟨_, ⟨_, hm, rfl, rfl⟩, by rw [Node.strip_core]; exact e⟩
      · rintro ⟨_, ⟨x, hx, rfl, rfl⟩, e⟩
        exact ⟨x.2, hx, by rw [Node.strip_core] at e; exact e⟩
    rw [e, h1, ← e]
    constructor
    · rintro ⟨m, hm, e⟩
      obtain ⟨m', hm', rfl⟩ := Node.mem_recore.mp hm
      exact ⟨m', hm', by rw [Node.recore_core] at e; exact e⟩
    · rintro ⟨m, hm, e⟩
      exact ⟨_, Node.mem_recore.mpr ⟨m, hm, rfl⟩, by rw [Node.recore_core]; exact e⟩
  have clear : ∀ (n : Node α) (f : Nat) (u q : Str) (m : Node α), (q, m) ∈ (n.dup f).1.nodes u → m.core.strip = m.core := by
    intro n
    induction n using Node.ind with
    | h i p c k ih =>
      have hk : ∀ (k' : List (Node α)), (∀ a ∈ k', a ∈ k) → ∀ f, ∀ a ∈ (Node.dupL f k').1, ∀ u q m, (q, m) ∈ a.nodes u → m.core.strip = m.core := by
        intro k'
        induction k' with
        | nil => intro _ f a ha; simp [Node.dupL] at ha
        | cons b k' ihk =>
          intro hs f a ha
          simp only [Node.dupL, List.mem_cons] at ha
          rcases ha with rfl | ha
          · exact ih b (hs b (by simp)) f
          · exact ihk (fun a ha => hs a (by simp [ha])) _ a ha
      intro f u q m hm
      rw [Node.dup, Node.mem_nodes] at hm
      rcases hm with e | ⟨a, ha, hm⟩
      · rw [(Prod.mk.inj e).2]; rfl
      · exact hk k (fun _ h => h) _ a ha _ q m hm
  refine ⟨ok, fun i hi => (h3 i hi).1, fun q => ?_, fun q m hm => ?_⟩
  · constructor
    · intro e
      cases hc : t.contents q with
      | none => rfl
      | some c =>
        obtain ⟨m, hm, _⟩ := (Tree.contents_node h).mp hc
        obtain ⟨m', hm', _⟩ := (hn q _).mpr ⟨m, hm, rfl⟩
        have := (Tree.contents_node ok).mpr ⟨m', hm', rfl⟩
        rw [e] at this; cases this
    · intro e
      cases hc : Tree.contents (⟨((t.root.recore g).dup f).1, ((t.root.recore g).dup f).2⟩ : Tree α) q with
      | none => rfl
      | some c =>
        obtain ⟨m, hm, _⟩ := (Tree.contents_node ok).mp hc
        obtain ⟨m', hm', _⟩ := (hn q _).mp ⟨m, hm, rfl⟩
        have := (Tree.contents_node h).mpr ⟨m', hm', rfl⟩
        rw [e] at this; cases this
  · obtain ⟨m', hm', e⟩ := (hn q _).mpr ⟨m, hm, rfl⟩
    exact (Tree.contents_node ok).mpr ⟨m', hm', (clear _ _ _ _ _ hm').symm.trans e⟩

section
variable {K : Str → Prop} {v : View} {t : Tree α} {as : List (Act α)}

theorem calls_no_remove (hr : ∀ p, .remove p ∉ as) (p : Str) : .remove p ∉ calls as := by
  intro h
  obtain ⟨k, hk⟩ := List.mem_iff_getElem?.mp h
  exact hr p (List.mem_of_getElem? (calls_get hk))

theorem tidy_sets (hr : ∀ p, .remove p ∉ as) : Prune.Tidy v t (calls as) where
  takes p h := absurd h (calls_no_remove hr p)
  apart i j c c' P x P' x' _ hc _ ht _ := by
    obtain ⟨p, _, rfl, _⟩ := ht
    exact absurd (List.mem_of_getElem? hc) (calls_no_remove hr p)
  spares i j c c' P x P' x' q _ hc _ ht _ _ := by
    obtain ⟨p, _, rfl, _⟩ := ht
    exact absurd (List.mem_of_getElem? hc) (calls_no_remove hr p)

theorem plan_none (hr : ∀ p, .remove p ∉ as) (k : Nat) : Prune.planOf v t (calls as) k = none := by
  cases h : Prune.planOf v t (calls as) k with
  | none => rfl
  | some T =>
    obtain ⟨p, _, _, _, h1, _⟩ := Prune.planOf_some h
    exact absurd (List.mem_of_getElem? h1) (calls_no_remove hr p)

theorem mems_sets (h : t.OK) (hr : ∀ p, .remove p ∉ as) {q : Str} {m : Node α} (hm : (q, m) ∈ t.root.nodes []) (s : Nat → Nat) :
    Prune.mems (Prune.start v t (calls as)).mem (Prune.planOf v t (calls as)) s m.id = Prune.cellOf m := by
  rcases Prune.mems_cell (plan := Prune.planOf v t (calls as)) (Prune.start_lays (v := v) h (calls as)) hm with h | ⟨k, T, h, _⟩
  · exact h s
  · rw [plan_none hr] at h; cases h

/-- What the calls of `Set` have made of a node: only the value and the flag. -/
theorem Mixed.flag {B : Nat → Nat} {S S' : List Nat} {g : Nat → Core α → Core α} {W : World α}
    (I : Mixed v t as B S S' g W) (h : t.OK) (hs : Spared v t as) {q : Str} {m : Node α} (hm : (q, m) ∈ t.root.nodes []) :
    g m.id m.core = { m.core with hasData := (g m.id m.core).hasData, data := (g m.id m.core).data } ∧
    ((g m.id m.core).hasData = m.core.hasData ∧
        (∀ (j : Nat) (p : Str) (x : α), as[j]? = some (.set p x) → View.dash (v.full p) = q → (W.gs j).outs = []) ∨
      (g m.id m.core).hasData = true ∧
        ∃ (j : Nat) (p : Str) (x : α), as[j]? = some (.set p x) ∧ View.dash (v.full p) = q ∧ (W.gs j).todo = []) := by
  by_cases hex : ∃ (j : Nat) (p : Str) (x : α), as[j]? = some (.set p x) ∧ View.dash (v.full p) = q
  · obtain ⟨j, p, x, ha, hq⟩ := hex
    have r := I.set j p x ha
    have one : (W.gs j).outs = [] → ∀ (j' : Nat) (p' : Str) (x' : α), as[j']? = some (.set p' x') → View.dash (v.full p') = q → (W.gs j').outs = [] := by
      intro h1 j' p' x' ha' hq'
      rw [hs.apart j' j p' x' p x ha' ha (hq'.trans hq.symm)]
      exact h1
    rw [hq, idAt_mem h hm] at r
    generalize hG : W.gs j = G at r
    rw [hG] at one
    cases r with
    | idle hn hg | finds f b pc hf hn hg =>
      rw [hg]
      exact ⟨rfl, .inl ⟨rfl, one rfl⟩⟩
    | store f hn hg | fin f hn hg | done f hg =>
      rw [hg]
      exact ⟨rfl, .inr ⟨rfl, j, p, x, ha, hq, by rw [hG]⟩⟩
  · have hg : g m.id = fun c => c := by
      refine I.frame _ fun p x hx e => ?_
      obtain ⟨m', hm'⟩ := stored_node h (hs.stored p x hx)
      rw [idAt_mem h hm'] at e
      obtain ⟨j, hj⟩ := List.mem_iff_getElem?.mp hx
      exact hex ⟨j, p, x, hj, (Prod.mk.inj (h.id_inj hm' hm e)).1⟩
    rw [hg]
    exact ⟨rfl, .inl ⟨rfl, fun j p x ha hq => absurd ⟨j, p, x, ha, hq⟩ hex⟩⟩

/-- **C113** Goroutines call `Set` for keys that are in the trie, each for a key of its own, and lookups, and one copies the trie. It may begin at any moment
(`S0`). The copy is complete after finitely many steps of its own. It is a well-formed trie, has none of the nodes of the original (whose identities are
below `f`), and has exactly the keys of the trie. Under each key there are the value that was right at a moment of the copying, and the flag (whether there is a
value) that was right at that moment or an earlier one; the rest is as in the trie, without description, comment and tag. -/
theorem C113_copy (h : Reach K t) (hp : t.Plain v.delim) (hm : v.mode ≠ .up) (hr : ∀ p, .remove p ∉ as) (hs : Spared v t as) :
    ∃ N, ∀ f S0 S, let r := copies t (each v as) f S0 S
      (N ≤ S.count none → ∃ c, r.1 = .done c) ∧ ∀ c, r.1 = .done c → let T : Tree α := ⟨c, r.2⟩
        T.OK ∧ (∀ i ∈ c.ids, f ≤ i) ∧ (∀ q, T.contents q = none ↔ t.contents q = none) ∧
        ∀ q c0, t.contents q = some c0 → ∃ b x S₁ S₂,
          T.contents q = some { c0 with hasData := b, data := x, desc := [], comment := [], tag := none } ∧
          S₁ <+: S₂ ∧ S₂ <+: S.filterMap id ∧ FlagAt v t as q c0.hasData b (S0 ++ S₁) ∧ ValueAt v t as q c0.data x (S0 ++ S₂) := by
  have hok := h.ok
  have ht := tidy_sets (v := v) (t := t) hr
  obtain ⟨B, hR, hM, hT⟩ := mixed_tick hok hp hm ht hs
  obtain ⟨N, hN⟩ := dleads_walk t.root [] hok.ids_nodup
  refine ⟨N, fun f S0 S => ?_⟩
  let T := S0 ++ S.filterMap id
  let Ms := Prune.mems (Prune.start v t (calls as)).mem (Prune.planOf v t (calls as))
  let st : List Nat → Nat → Nat := fun S' => Prune.stages (Prune.planOf v t (calls as)) ((Prune.start v t (calls as)).run v.delim (calls as) S').pcs
  let σ := {x : List Nat × List Nat × (Nat → Core α → Core α) //
    Mixed v t as B x.1 x.2.1 x.2.2 (runs t (each v as) x.1) ∧ S0 <+: x.1 ∧ x.1 <+: T}
  let ms : σ → Mem α := fun x => (runs t (each v as) x.1.1).mem
  let R : σ → σ → Prop := fun a b => a.1.1 <+: b.1.1
  have hms : ∀ x : σ, ms x = over x.1.2.2 (Ms (st x.1.2.1)) := fun x => by
    show (runs t (each v as) x.1.1).mem = _
    rw [x.2.1.mem, hM]
  have hR0 : ∀ a, R a a := fun a => List.prefix_refl _
  have hR1 : ∀ a b c, R a b → R b c → R a c := fun a b c h1 h2 => List.IsPrefix.trans h1 h2
  have hcell : ∀ (x : σ) q m, (q, m) ∈ t.root.nodes [] → ms x m.id = { Prune.cellOf m with core := x.1.2.2 m.id m.core } := by
    intro x q m hm
    have e : Ms (st x.1.2.1) m.id = Prune.cellOf m := mems_sets hok hr hm _
    rw [hms x, over, e]
    rfl
  have hsh : ∀ q m, (q, m) ∈ t.root.nodes [] → DShows ms m := by
    intro q m hm
    refine ⟨fun s => ?_, fun s => ?_, fun s => ?_⟩ <;> rw [hcell s q m hm] <;> simp [Prune.cellOf, List.take_of_length_le]
  have begin : ∃ S' g, Mixed v t as B S0 S' g (runs t (each v as) S0) := by
    have key : ∀ S : List Nat, ∃ S' g, Mixed v t as B S.reverse S' g (runs t (each v as) S.reverse) := by
      intro S
      induction S with
      | nil => exact ⟨[], _, mixed_start⟩
      | cons k S ih =>
        obtain ⟨S', g, I⟩ := ih
        obtain ⟨S'', g', _, I'⟩ := hT _ _ _ _ I k
        have e : runs t (each v as) (S.reverse ++ [k]) = _ := run_snoc _ _ _ _ _
        rw [List.reverse_cons]
        exact ⟨S'', g', e ▸ I'⟩
    have := key S0.reverse
    rwa [List.reverse_reverse] at this
  obtain ⟨S0', g0, I0⟩ := begin
  obtain ⟨h1, h2⟩ := copying_leads (root := t.root.id) (gap := 2 * (each v as).length) (T := T) (R := R) (ms := ms)
    (J := fun L W x => W = runs t (each v as) L ∧ x.1.1 = L) hR0 hR1
    (fun L W x hJ => by rw [hJ.1, ← hJ.2])
    (fun L W x k hJ hLk => by
      obtain ⟨⟨⟨L', S', g⟩, I, h3, h4⟩, rfl⟩ : ∃ y : σ, y = x := ⟨x, rfl⟩
      obtain ⟨rfl, rfl⟩ := hJ
      obtain ⟨S'', g', hS'', I'⟩ := hT _ _ _ _ I k
      have e : runs t (each v as) (L' ++ [k]) = (runs t (each v as) L').tick t.root.id (2 * (each v as).length) k := run_snoc _ _ _ _ _
      exact ⟨⟨(L' ++ [k], S'', g'), e ▸ I', h3.trans (List.prefix_append _ _), hLk⟩, List.prefix_append _ _, e.symm, rfl⟩)
    (fun e he => by obtain ⟨g, _, rfl⟩ := he; exact ⟨_, rfl⟩) S (s := ⟨(S0, S0', g0), I0, List.prefix_refl _, List.prefix_append _ _⟩) ⟨rfl, rfl⟩ rfl
    (hN σ R ms hR0 hR1 hsh _ [] f)
  refine ⟨h1, fun c hd => ?_⟩
  obtain ⟨g, hg, e⟩ := h2 c hd
  have e1 : c = ((t.root.recore g).dup f).1 := by
    have := congrArg Prod.fst e
    rw [show (copying t.root.id (2 * (each v as).length) (runs t (each v as) S0, .visit t.root.id [], f) S).2.1 = _ from hd] at this
    cases this
    rfl
  have e2 : (copies t (each v as) f S0 S).2 = ((t.root.recore g).dup f).2 := congrArg Prod.snd e
  obtain ⟨a1, a2, a3, a4⟩ := copy_spec hok g f
  rw [← e1, ← e2] at a1 a2 a3 a4
  refine ⟨a1, a2, a3, fun q c0 hq => ?_⟩
  obtain ⟨m, hmem, rfl⟩ := (Tree.contents_node hok).mp hq
  obtain ⟨x1, x2, hx, hgm⟩ := hg q m hmem
  rw [hcell x1 q m hmem, hcell x2 q m hmem] at hgm
  obtain ⟨S₁, hS₁⟩ := x1.2.2.1
  obtain ⟨S₂, hS₂⟩ := x2.2.2.1
  have hpre : S₂ <+: S.filterMap id := by
    have := x2.2.2.2
    rw [← hS₂] at this
    exact (List.prefix_append_right_inj _).mp this
  have hpre' : S₁ <+: S₂ := by
    have : x1.1.1 <+: x2.1.1 := hx
    rw [← hS₁, ← hS₂] at this
    exact (List.prefix_append_right_inj _).mp this
  obtain ⟨f1, f2⟩ := x1.2.1.flag hok hs hmem
  obtain ⟨_, _, _, f3⟩ := x2.2.1.core hok hs hmem
  rw [← hS₁] at f2
  rw [← hS₂] at f3
  refine ⟨(x1.1.2.2 m.id m.core).hasData, (x2.1.2.2 m.id m.core).data, S₁, S₂, ?_, hpre', hpre, f2, ?_⟩
  · rw [a4 q m hmem, hgm]
    show some (Core.strip { x1.1.2.2 m.id m.core with data := _ }) = _
    rw [f1]
    rfl
  · rcases f3 with f3 | ⟨j, p, x, k1, k2, k3, k4⟩
    · exact .inl f3
    · exact .inr ⟨j, p, by rw [k3]; exact k1, k2, k4⟩

/-- **C113** … A key that nobody sets has in the copy what it has in the trie. -/
theorem C113_other (h : Reach K t) (hp : t.Plain v.delim) (hm : v.mode ≠ .up) (hr : ∀ p, .remove p ∉ as) (hs : Spared v t as)
    {q : Str} (hq : ∀ p x, .set p x ∈ as → View.dash (v.full p) ≠ q) (f : Nat) (S0 : List Nat) (S : List (Option Nat)) {c : Node α}
    (hd : (copies t (each v as) f S0 S).1 = .done c) :
    Tree.contents (⟨c, (copies t (each v as) f S0 S).2⟩ : Tree α) q =
      (t.contents q).map fun c0 => { c0 with desc := [], comment := [], tag := none } := by
  obtain ⟨N, hN⟩ := C113_copy h hp hm hr hs
  obtain ⟨_, _, h1, h2⟩ := (hN f S0 S).2 c hd
  cases hc : t.contents q with
  | none => exact (h1 q).mpr hc
  | some c0 =>
    obtain ⟨b, x, S₁, S₂, k1, _, _, k2, k3⟩ := h2 q c0 hc
    have hno : ∀ (j : Nat) p x, as[j]? = some (.set p x) → View.dash (v.full p) ≠ q := fun j p x hj => hq p x (List.mem_of_getElem? hj)
    rcases k2 with ⟨rfl, _⟩ | ⟨_, j, p, x, hj, e, _⟩
    · rcases k3 with ⟨rfl, _⟩ | ⟨j, p, hj, e, _⟩
      · exact k1
      · exact absurd e (hno _ _ _ hj)
    · exact absurd e (hno _ _ _ hj)

/-- **C113** … A key whose `Set` has returned before the copying begins has the new value in the copy. -/
theorem C113_set (h : Reach K t) (hp : t.Plain v.delim) (hm : v.mode ≠ .up) (hr : ∀ p, .remove p ∉ as) (hs : Spared v t as)
    {j : Nat} {p : Str} {x : α} (hj : as[j]? = some (.set p x)) (f : Nat) (S0 : List Nat) (ho : ((runs t (each v as) S0).gs j).outs ≠ [])
    (S : List (Option Nat)) {c : Node α} (hd : (copies t (each v as) f S0 S).1 = .done c) :
    Tree.contents (⟨c, (copies t (each v as) f S0 S).2⟩ : Tree α) (View.dash (v.full p)) =
      (t.contents (View.dash (v.full p))).map fun c0 => { c0 with hasData := true, data := x, desc := [], comment := [], tag := none } := by
  obtain ⟨N, hN⟩ := C113_copy h hp hm hr hs
  obtain ⟨_, _, _, h2⟩ := (hN f S0 S).2 c hd
  cases hc : t.contents (View.dash (v.full p)) with
  | none => exact absurd hc (hs.stored p x (List.mem_of_getElem? hj))
  | some c0 =>
    obtain ⟨b, y, S₁, S₂, k1, _, _, k2, k3⟩ := h2 _ c0 hc
    have still : ∀ S', ((runs t (each v as) (S0 ++ S')).gs j).outs ≠ [] := by
      intro S' e
      have := run_outs t.root.id (2 * (each v as).length) j S' (runs t (each v as) S0)
      rw [← runs_append, e] at this
      exact ho (List.prefix_nil.mp this)
    have hb : b = true := by
      rcases k2 with ⟨_, k⟩ | ⟨k, _⟩
      · exact absurd (k j p x hj rfl) (still _)
      · exact k
    have hy : y = x := by
      rcases k3 with ⟨_, k⟩ | ⟨j', p', g1, g2, _⟩
      · exact absurd (k j p x hj rfl) (still _)
      · have := hs.apart j' j p' y p x g1 hj g2
        subst this
        rw [hj] at g1
        cases g1
        rfl
    rw [k1, hb, hy]
    rfl

/-- **C113** A copy that begins when all calls of `Set` have returned is exactly the copy of the trie that the calls leave when they are made one after the
other, node by node, and the identities too. -/
theorem C113_after (h : Reach K t) (hp : t.Plain v.delim) (hm : v.mode ≠ .up) (hr : ∀ p, .remove p ∉ as) (hs : Spared v t as) (f : Nat) (S0 : List Nat)
    (hall : ∀ (k : Nat) p x, as[k]? = some (.set p x) → ((runs t (each v as) S0).gs k).outs ≠ []) (S : List (Option Nat)) {c : Node α}
    (hd : (copies t (each v as) f S0 S).1 = .done c) :
    (c, (copies t (each v as) f S0 S).2) = Node.dup f (sets v t as).root := by
  have hok := h.ok
  have ht := tidy_sets (v := v) (t := t) hr
  obtain ⟨B, _, hB⟩ := mixed hok hp hm ht hs
  obtain ⟨_, e'⟩ := sets_recore (v := v) hok as (T := t) (g := fun _ c => c) hok (Node.recore_self _).symm
    fun p x hx => stored_node hok (hs.stored p x hx)
  let M := over (putAll v t as) (Prune.mems (Prune.start v t (calls as)).mem (Prune.planOf v t (calls as))
      (Prune.ends (Prune.planOf v t (calls as)) (calls as).length))
  have hcell : ∀ q m, (q, m) ∈ t.root.nodes [] → M m.id = { Prune.cellOf m with core := putAll v t as m.id m.core } := by
    intro q m hm
    show over _ _ _ = _
    rw [over, mems_sets hok hr hm]
    rfl
  obtain ⟨N, hN⟩ := dleads_walk t.root [] hok.ids_nodup
  obtain ⟨_, h2⟩ := copying_leads (root := t.root.id) (gap := 2 * (each v as).length) (T := S0 ++ S.filterMap id)
    (R := fun _ _ : Unit => True) (ms := fun _ => M)
    (J := fun L W _ => S0 <+: L ∧ W = runs t (each v as) L) (fun _ => trivial) (fun _ _ _ _ _ => trivial)
    (fun L W _ hJ => by
      obtain ⟨⟨L', rfl⟩, rfl⟩ := hJ
      obtain ⟨S', g, I⟩ := hB (S0 ++ L')
      refine mixed_end hok hp hm ht hs I fun k a ha ho e => ?_
      cases a with
      | get p => exact ho rfl
      | remove p => exact hr p (List.mem_of_getElem? ha)
      | set p x =>
        have := run_outs t.root.id (2 * (each v as).length) k L' (runs t (each v as) S0)
        rw [← runs_append, e] at this
        exact hall k p x ha (List.prefix_nil.mp this))
    (fun L W _ k hJ _ => by
      obtain ⟨h3, rfl⟩ := hJ
      exact ⟨(), trivial, h3.trans (List.prefix_append _ _), (run_snoc _ _ _ _ _).symm⟩)
    (fun e he => by obtain ⟨g, _, rfl⟩ := he; exact ⟨_, rfl⟩) S (s := ()) ⟨List.prefix_refl _, rfl⟩ rfl
    (hN Unit _ _ (fun _ => trivial) (fun _ _ _ _ _ => trivial)
      (fun q m hm => ⟨fun _ => by rw [hcell q m hm]; simp [Prune.cellOf], fun _ => by rw [hcell q m hm]; simp [Prune.cellOf, List.take_of_length_le],
        fun _ => by rw [hcell q m hm]; simp [Prune.cellOf]⟩) () [] f)
  obtain ⟨g, hg, e⟩ := h2 c hd
  have eg : t.root.recore g = (sets v t as).root := by
    rw [e']
    refine Node.recore_ext t.root [] fun q m hm => ?_
    obtain ⟨_, _, _, k⟩ := hg q m hm
    exact k.trans (congrArg Cell.core (hcell q m hm))
  rw [eg] at e
  have e1 : Dp.done c = Dp.done (Node.dup f (sets v t as).root).1 := hd.symm.trans (congrArg Prod.fst e)
  have e2 : (copies t (each v as) f S0 S).2 = (Node.dup f (sets v t as).root).2 := congrArg Prod.snd e
  cases e1
  rw [e2]

end

section examples
open Race (top three three_reach three_plain)

/-- Two goroutines set a key with a value and one without, and a third looks up. -/
def fills : List (Act Nat) := [.set "a.log.level".toList 9, .set "a.".toList 7, .get "a.name".toList]

theorem fills_set {p : Str} {x : Nat} (h : .set p x ∈ fills) : p = "a.log.level".toList ∨ p = "a.".toList := by
  rcases List.mem_cons.mp h with e | h
  · exact .inl (Act.set.inj e).1
  · rcases List.mem_cons.mp h with e | h
    · exact .inr (Act.set.inj e).1
    · rcases List.mem_cons.mp h with e | h
      · cases e
      · cases h

theorem fills_no_remove (p : Str) : Act.remove p ∉ fills := by
  intro h
  rcases List.mem_cons.mp h with e | h
  · cases e
  · rcases List.mem_cons.mp h with e | h
    · cases e
    · rcases List.mem_cons.mp h with e | h
      · cases e
      · cases h

theorem fills_spared : Spared top three fills := by
  refine ⟨fun p x h => ?_, fun i j p x p' x' hi hj e => ?_, fun c P y p x hc htk hx => ?_⟩
  · rcases fills_set h with rfl | rfl
    · exact (by decide +kernel : (three.contents (View.dash (top.full "a.log.level".toList))).isSome = true) |> Option.isSome_iff_ne_none.mp
    · exact (by decide +kernel : (three.contents (View.dash (top.full "a.".toList))).isSome = true) |> Option.isSome_iff_ne_none.mp
  · match i, j, hi, hj with
    | 0, 0, _, _ => rfl
    | 1, 1, _, _ => rfl
    | 0, 1, hi, hj => cases hi; cases hj; exact absurd e (by decide +kernel)
    | 1, 0, hi, hj => cases hi; cases hj; exact absurd e (by decide +kernel)
    | 2, _, hi, _ => cases hi
    | n + 3, _, hi, _ => cases hi
    | 0, 2, _, hj => cases hj
    | 1, 2, _, hj => cases hj
    | 0, n + 3, _, hj => cases hj
    | 1, n + 3, _, hj => cases hj
  · obtain ⟨p', _, rfl, _⟩ := htk
    exact absurd hc (calls_no_remove fills_no_remove p')

example : ∃ N, ∀ f S0 S, let r := copies three (each top fills) f S0 S
    (N ≤ S.count none → ∃ c, r.1 = .done c) ∧ ∀ c, r.1 = .done c → let T : Tree Nat := ⟨c, r.2⟩
      T.OK ∧ (∀ i ∈ c.ids, f ≤ i) ∧ (∀ q, T.contents q = none ↔ three.contents q = none) ∧
      ∀ q c0, three.contents q = some c0 → ∃ b x S₁ S₂,
        T.contents q = some { c0 with hasData := b, data := x, desc := [], comment := [], tag := none } ∧
        S₁ <+: S₂ ∧ S₂ <+: S.filterMap id ∧ FlagAt top three fills q c0.hasData b (S0 ++ S₁) ∧ ValueAt top three fills q c0.data x (S0 ++ S₂) :=
  C113_copy three_reach three_plain.plain (by decide) fills_no_remove fills_spared

example (f : Nat) (S0 : List Nat) (S : List (Option Nat)) {c : Node Nat} (hd : (copies three (each top fills) f S0 S).1 = .done c) :
    Tree.contents (⟨c, (copies three (each top fills) f S0 S).2⟩ : Tree Nat) "a.name".toList =
      (three.contents "a.name".toList).map fun c0 => { c0 with desc := [], comment := [], tag := none } :=
  C113_other three_reach three_plain.plain (by decide) fills_no_remove fills_spared (fun p x h => by
    rcases fills_set h with rfl | rfl <;> decide +kernel) f S0 S hd

example (f : Nat) (S : List (Option Nat)) {c : Node Nat} (hd : (copies three (each top fills) f (List.replicate 60 1) S).1 = .done c) :
    Tree.contents (⟨c, (copies three (each top fills) f (List.replicate 60 1) S).2⟩ : Tree Nat) "a.".toList =
      (three.contents "a.".toList).map fun c0 => { c0 with hasData := true, data := 7, desc := [], comment := [], tag := none } :=
  C113_set (j := 1) (p := "a.".toList) (x := 7) three_reach three_plain.plain (by decide) fills_no_remove fills_spared rfl f _ (by decide +kernel) S hd

example (f : Nat) (S : List (Option Nat)) {c : Node Nat} (hd : (copies three (each top fills) f (List.replicate 60 [0, 1]).flatten S).1 = .done c) :
    (c, (copies three (each top fills) f (List.replicate 60 [0, 1]).flatten S).2) = Node.dup f (sets top three fills).root :=
  C113_after three_reach three_plain.plain (by decide) fills_no_remove fills_spared f _ (fun k p x ha => by
    match k, ha with
    | 0, _ => decide +kernel
    | 1, _ => decide +kernel
    | 2, ha => cases ha
    | n + 3, ha => cases ha) S hd

/-- The copying goroutine runs beside the two that set. -/
example : (match (copies three (each top fills) 100 [] (List.replicate 40 [none, some 0, some 1, some 0, some 1]).flatten).1 with
    | .done c => (c.nodes []).map fun x => (x.1, x.2.core.hasData, x.2.core.data)
    | _ => []) = [([], false, 0), ("a.".toList, true, 7), ("a.name".toList, true, 1), ("a.log.level".toList, true, 9), ("db.host".toList, true, 3)] := by
  decide +kernel

/-- The trie of the failing runs. -/
def xyz : Tree Nat := (top.set (top.set (top.set Tree.new "a.x".toList 1).1 "a.y".toList 2).1 "a.z".toList 3).1

theorem xyz_reach : Reach (fun _ => True) xyz :=
  .step (.set top "a.z".toList 3) (.step (.set top "a.y".toList 2)
    (.step (.set top "a.x".toList 1) .new (fun _ _ => trivial) rfl) (fun _ _ => trivial) rfl) (fun _ _ => trivial) rfl

/-- **C113** Value and flag are not from one moment: the flag of `a.` is read before the `Set`, and its data after it. The copy says that `a.` has no value, but
holds the new one; the trie never was like that, neither before nor after (in the code the flag is set first). -/
theorem C113_flag_fails : ∃ (S : List (Option Nat)) (c : Node Nat), (copies xyz (each top [.set "a.".toList 9]) 100 [] S).1 = .done c ∧
    (Tree.contents (⟨c, 200⟩ : Tree Nat) "a.".toList).map (fun c => (c.hasData, c.data)) = some (false, 9) ∧
    ∀ n, n ≤ S.length → (Tree.contents (⟨Prune.read (runs xyz (each top [.set "a.".toList 9]) ((S.take n).filterMap id)).mem 6 xyz.root.id, 200⟩ : Tree Nat)
      "a.".toList).map (fun c => (c.hasData, c.data)) ≠ some (false, 9) := by
  let S : List (Option Nat) := List.replicate 4 none ++ List.replicate 40 (some 0) ++ List.replicate 60 none
  have hd : (match (copies xyz (each top [.set "a.".toList 9]) 100 [] S).1 with
    | .done c => decide ((Tree.contents (⟨c, 200⟩ : Tree Nat) "a.".toList).map (fun c => (c.hasData, c.data)) = some (false, 9))
    | _ => false) = true := by decide +kernel
  have key : (List.range 105).all (fun n => decide ((Tree.contents (⟨Prune.read (runs xyz (each top [.set "a.".toList 9]) ((S.take n).filterMap id)).mem 6
      xyz.root.id, 200⟩ : Tree Nat) "a.".toList).map (fun c => (c.hasData, c.data)) ≠ some (false, 9))) = true := by decide +kernel
  split at hd
  · next c e => exact ⟨S, c, e, of_decide_eq_true hd, fun n hn => of_decide_eq_true (List.all_eq_true.mp key n (List.mem_range.mpr (Nat.lt_succ_of_le hn)))⟩
  · cases hd

/-- **C113** Beside `Remove` it fails. `Remove` shifts the slice of children while the copying goroutine runs over it with the old length: the copy has
`a.z` twice and is not a well-formed trie, and `a.y`, which nobody removes, is missing. After `a.z` has been removed from the copy, it is still there. -/
theorem C113_remove_fails : ∃ (S : List (Option Nat)) (c : Node Nat), (copies xyz (each top [.remove "a.x".toList]) 100 [] S).1 = .done c ∧
    (c.nodes []).map (·.1) = [[], "a.".toList, "a.x".toList, "a.z".toList, "a.z".toList] ∧ ¬ (⟨c, 200⟩ : Tree Nat).OK ∧
    Tree.contents (⟨c, 200⟩ : Tree Nat) "a.y".toList = none ∧ (xyz.contents "a.y".toList).isSome = true ∧
    ∃ T b, top.remove (⟨c, 200⟩ : Tree Nat) "a.z".toList = .ok (T, b) ∧ top.has T "a.z".toList = .ok true := by
  let S : List (Option Nat) := List.replicate 6 none ++ List.replicate 30 (some 0) ++ List.replicate 60 none
  have hd : (match (copies xyz (each top [.remove "a.x".toList]) 100 [] S).1 with
    | .done c => decide ((c.nodes []).map (·.1) = [[], "a.".toList, "a.x".toList, "a.z".toList, "a.z".toList] ∧
        (Tree.contents (⟨c, 200⟩ : Tree Nat) "a.y".toList).isNone = true ∧
        (match top.remove (⟨c, 200⟩ : Tree Nat) "a.z".toList with
          | .ok (T, _) => (match top.has T "a.z".toList with | .ok b => b | .error _ => false)
          | .error _ => false) = true)
    | _ => false) = true := by decide +kernel
  split at hd
  · next c e =>
    obtain ⟨h1, h2, h3⟩ := of_decide_eq_true hd
    refine ⟨S, c, e, h1, fun ok => ?_, Option.isNone_iff_eq_none.mp h2, by decide +kernel, ?_⟩
    · have := Node.keys_nodup ok.wf []
      rw [Node.keys] at this
      have h1' : (c.nodes []).map (·.1) = _ := h1
      rw [show ((⟨c, 200⟩ : Tree Nat).root.nodes []).map (·.1) = _ from h1'] at this
      exact absurd this (by decide +kernel)
    · split at h3
      · next T b e1 =>
        split at h3
        · next b' e2 => exact ⟨T, b, e1, by rw [e2, h3]⟩
        · cases h3
      · cases h3
  · cases hd

end examples

end Parts
end Verif

import Verif.Lemmas.RaceMixExport
import Verif.Lemmas.RaceLeafGet
/-
An export beside `Set` for new keys and `Remove`: the tree with all leaves that the calls of `Set` may add.
-/
namespace Verif
namespace Prune
variable {α : Type} [Inhabited α]

theorem Way.snoc {σ : Type} {R : σ → σ → Prop} {ms : σ → Mem α} {n m c : Node α} (h : Way R ms n m) (hc : c ∈ m.kids) (hs : ESure R ms m c) :
    Way R ms n c := by
  induction h with
  | here n => exact .down hc hs (.here c)
  | down h1 h2 _ ih => exact .down h1 h2 (ih hc hs)

end Prune

namespace Parts
variable {α : Type} [Inhabited α]
open Prune (Cell Mem Pc Call Up Task)

section
variable {v : View} {t : Tree α} {as : List (Act α)} {base : Mem α} {plan : Nat → Option Task} {site : Site α} {B : Nat → Nat}
  {S : List Nat} {s : Nat → Nat} {ext : Nat → List Nat} {g : Nat → Core α → Core α} {W : World α}

/-- The leaf that goroutine `k` adds. -/
def leafOf (v : View) (t : Tree α) (k : Nat) (p : Str) (x : α) (w : Str) : Node α :=
  .mk (t.next + 2 * k + 1) w (leafCell w (jobOf v t k p x)).core []

/-- `ex` gives to each node the leaf that is to be added to it. -/
structure Adds (v : View) (t : Tree α) (as : List (Act α)) (site : Site α) (ex : Nat → List (Node α)) : Prop where
  one : ∀ i, ex i = [] ∨ ∃ k A w p x, as[k]? = some (.set p x) ∧ site k = some (A, w) ∧ A.id = i ∧ ex i = [leafOf v t k p x w]
  all : ∀ (k : Nat) A w p x, as[k]? = some (.set p x) → site k = some (A, w) → ex A.id = [leafOf v t k p x w]

omit [Inhabited α] in
theorem adds [Inhabited α] (X : Setting v t as base plan site B) : ∃ ex, Adds v t as site ex := by
  have : ∀ i : Nat, ∃ l : List (Node α), (l = [] ∨ ∃ k A w p x, as[k]? = some (.set p x) ∧ site k = some (A, w) ∧ A.id = i ∧ l = [leafOf v t k p x w]) ∧
      ∀ (k : Nat) A w p x, as[k]? = some (.set p x) → site k = some (A, w) → A.id = i → l = [leafOf v t k p x w] := by
    intro i
    by_cases h : ∃ k A w p x, as[k]? = some (.set p x) ∧ site k = some (A, w) ∧ A.id = i
    · obtain ⟨k, A, w, p, x, h1, h2, h3⟩ := h
      refine ⟨[leafOf v t k p x w], .inr ⟨k, A, w, p, x, h1, h2, h3, rfl⟩, fun k' A' w' p' x' h1' h2' h3' => ?_⟩
      have := X.sites k k' A w A' w' h2 h2' (h3.trans h3'.symm)
      subst this
      rw [h1] at h1'
      rw [h2] at h2'
      cases h1'
      cases h2'
      rfl
    · exact ⟨[], .inl rfl, fun k A w p x h1 h2 h3 => absurd ⟨k, A, w, p, x, h1, h2, h3⟩ h⟩
  exact ⟨fun i => (this i).choose, ⟨fun i => (this i).choose_spec.1, fun k A w p x h1 h2 => (this A.id).choose_spec.2 k A w p x h1 h2 rfl⟩⟩

/-- The tree with all leaves. -/
abbrev full (t : Tree α) (ex : Nat → List (Node α)) : Node α := t.root.deck (fun _ c => c) ex

theorem full_nodup (h : t.OK) {ex : Nat → List (Node α)} (E : Adds v t as site ex) : (full t ex).ids.Nodup := by
  have hx : ∀ {i x}, x ∈ (ex i).flatMap Node.ids → ∃ k A w, site k = some (A, w) ∧ A.id = i ∧ x = t.next + 2 * k + 1 := by
    intro i x hx
    rcases E.one i with e | ⟨k, A, w, p, y, h1, h2, h3, e⟩
    · rw [e] at hx; cases hx
    · rw [e] at hx
      refine ⟨k, A, w, h2, h3, ?_⟩
      simpa [leafOf, Node.ids_mk] using hx
  refine Node.deck_nodup _ ex t.next (fun j x h => ?_) (fun j => ?_) (fun i j x hi hj => ?_) t.root h.ids_nodup fun x hx => ?_
  · obtain ⟨k, A, w, _, _, rfl⟩ := hx h
    omega
  · rcases E.one j with e | ⟨k, A, w, p, y, h1, h2, h3, e⟩
    · rw [e]; exact List.nodup_nil
    · rw [e]; simp [leafOf, Node.ids_mk]
  · obtain ⟨k, A, w, h1, h2, h3⟩ := hx hi
    obtain ⟨k', A', w', h1', h2', h3'⟩ := hx hj
    obtain rfl : k = k' := by omega
    rw [h1] at h1'
    cases h1'
    exact h2.symm.trans h2'
  · rw [← Node.ids_eq [], List.mem_map] at hx
    obtain ⟨⟨q, m⟩, hm, rfl⟩ := hx
    exact h.lt _ hm

/-- The nodes of the tree with all leaves. -/
theorem mem_full {ex : Nat → List (Node α)} (E : Adds v t as site ex) {q : Str} {M : Node α} (h : (q, M) ∈ (full t ex).nodes []) :
    (∃ m, (q, m) ∈ t.root.nodes [] ∧ M = m.deck (fun _ c => c) ex) ∨
    ∃ k A w p x, as[k]? = some (.set p x) ∧ site k = some (A, w) ∧ M = leafOf v t k p x w := by
  rcases (Node.mem_deck _ ex t.root [] q M).mp h with h | ⟨a, m, l, h1, h2, h3⟩
  · exact .inl h
  · rcases E.one m.id with e | ⟨k, A, w, p, x, e1, e2, e3, e⟩
    · rw [e] at h2; cases h2
    · rw [e] at h2
      obtain rfl := List.mem_singleton.mp h2
      refine .inr ⟨k, A, w, p, x, e1, e2, ?_⟩
      rw [Node.mem_nodes] at h3
      rcases h3 with h3 | ⟨c, hc, _⟩
      · exact (Prod.mk.inj h3).2
      · cases hc

/-- Calls of `Set` change nothing but the value and the mark beside it. -/
theorem Blend.path (I : Blend v t as base plan site B S s ext g W) (i : Nat) (c : Core α) : (g i c).pathS = c.pathS ∧ (g i c).leaf = c.leaf := by
  by_cases hex : ∃ (k : Nat) (p : Str) (x : α), as[k]? = some (.set p x) ∧ site k = none ∧ idAt t (View.dash (v.full p)) = i
  · obtain ⟨k, p, x, h1, h2, rfl⟩ := hex
    have r := (I.all k).set p x h1 h2
    generalize W.gs k = G at r
    cases r with
    | idle hn hg | finds f b pc hf hn hg | store f hn hg | fin f hn hg | done f hg => rw [hg]; exact ⟨rfl, rfl⟩
  · rw [I.cores i fun k p x h1 h2 e => hex ⟨k, p, x, h1, h2, e⟩]
    exact ⟨rfl, rfl⟩

/-- What has been added to a node. -/
theorem Blend.added (X : Setting v t as base plan site B) (I : Blend v t as base plan site B S s ext g W) (i : Nat) :
    ext i = [] ∨ ∃ k A w p x, as[k]? = some (.set p x) ∧ site k = some (A, w) ∧ A.id = i ∧ ext i = [t.next + 2 * k + 1] ∧
      (W.gs k).todo = [] ∧ W.mem (t.next + 2 * k + 1) = leafCell w (jobOf v t k p x) := by
  by_cases e : ext i = []
  · exact .inl e
  · obtain ⟨k, A, w, _, h1, rfl⟩ := I.exts i e
    obtain ⟨p, x, ha, _⟩ := X.sited.new k A w h1
    rcases I.leaf X ha h1 with ⟨_, h2, _⟩ | ⟨_, h2, h3, h4⟩
    · exact absurd h2 e
    · exact .inr ⟨k, A, w, p, x, ha, h1, rfl, h2, h3, h4⟩

/-- The nodes that have been made. -/
def Made (t : Tree α) (site : Site α) (ext : Nat → List Nat) (i : Nat) : Prop :=
  (∃ q m, (q, m) ∈ t.root.nodes [] ∧ m.id = i) ∨ ∃ (k : Nat) (A : Node α) (w : Str), site k = some (A, w) ∧ i = t.next + 2 * k + 1 ∧ ext A.id = [i]

/-- What the memory has at a node to which a leaf may be added. -/
theorem Blend.joined (X : Setting v t as base plan site B) (I : Blend v t as base plan site B S s ext g W) {k : Nat} {A : Node α} {w : Str}
    (hk : site k = some (A, w)) : (W.mem A.id).arr = A.kids.map Node.id ++ ext A.id ∧ (W.mem A.id).len = A.kids.length + (ext A.id).length := by
  obtain ⟨p, x, _, a, hA, _⟩ := X.sited.new k A w hk
  rw [I.grown a A hA, mems_still X.lays hA (fun l T hT => X.still l T k A w hT hk) s]
  exact ⟨rfl, rfl⟩

/-- What all memories have in common with the tree with all leaves. -/
theorem blend_shows (X : Setting v t as base plan site B) {ex : Nat → List (Node α)} (E : Adds v t as site ex) {σ : Type} {R : σ → σ → Prop}
    {ls : σ → List Nat} {ss : σ → Nat → Nat} {es : σ → Nat → List Nat} {gs : σ → Nat → Core α → Core α} {ws : σ → World α}
    (hI : ∀ x, Blend v t as base plan site B (ls x) (ss x) (es x) (gs x) (ws x)) (hR : ∀ x y, R x y → Up (ss x) (ss y) ∧ ∀ i, es x i ≠ [] → es y i = es x i)
    {q : Str} {M : Node α} (hM : (q, M) ∈ (full t ex).nodes []) :
    Prune.VShows R (fun x => (ws x).mem) (fun x => Made t site (es x)) M := by
  rcases mem_full E hM with ⟨m, hm, rfl⟩ | ⟨k, A, w, p, y, h1, h2, rfl⟩
  · have sh := Prune.mems_shows (plan := plan) X.lays hm
    have kids : (m.deck (fun _ c => c) ex).kids = m.kids.map (Node.deck (fun _ c => c) ex) ++ ex m.id := Node.deck_kids _ _ _
    refine ⟨fun x _ => ?_, fun x _ => ?_, fun x _ => ?_, fun x y k _ hxy hk => ?_⟩
    · rw [Node.deck_id, Node.deck_core, (hI x).grown q m hm]; exact ((hI x).path _ _).1
    · rw [Node.deck_id, Node.deck_core, (hI x).grown q m hm]; exact ((hI x).path _ _).2
    · rw [Node.deck_id, kids, (hI x).grown q m hm, List.length_append, List.length_map]
      have := sh.len (ss x)
      rcases (hI x).added X m.id with e | ⟨k, A, w, p, z, e1, e2, e3, e4, _⟩
      · show _ + (es x m.id).length ≤ _
        rw [e]
        exact Nat.le_trans this (Nat.le_add_right _ _)
      · show _ + (es x m.id).length ≤ _
        rw [e4, ← e3, E.all k A w p z e1 e2, e3]
        exact Nat.add_le_add_right this 1
    · rw [Node.deck_id] at hk ⊢
      rw [kids]
      obtain ⟨hup, hext⟩ := hR x y hxy
      rw [(hI x).grown q m hm] at hk
      rw [(hI y).grown q m hm]
      have hk : k < (Prune.mems base plan (ss x) m.id).len + (es x m.id).length := hk
      by_cases hlt : k < (Prune.mems base plan (ss x) m.id).len
      · obtain ⟨c, c1, c2⟩ := sh.elts (ss x) (ss y) k hup hlt
        have hlen : k < (Prune.mems base plan (ss y) m.id).arr.length := by
          have h1 := (like_looks (plan := plan) (X := fun _ => True) X.lays hm).same (ss x) (ss y)
          have h2 := mems_len (plan := plan) X.lays hm (ss x)
          omega
        refine ⟨c.deck (fun _ c => c) ex, List.mem_append_left _ (List.mem_map.mpr ⟨c, c1, rfl⟩), ?_, .inl ?_⟩
        · rw [Node.deck_id, ← c2]
          simp only [List.getD_eq_getElem?_getD, List.getElem?_append_left hlen]
        · rw [Node.deck_id]
          exact ⟨q ++ c.path, c, Node.nodes_trans hm (by rw [Node.mem_nodesL]; exact ⟨c, c1, by rw [Node.mem_nodes]; simp⟩), rfl⟩
      · rcases (hI x).added X m.id with e | ⟨j, A, w, p, z, e1, e2, e3, e4, _⟩
        · rw [e] at hk; simp at hk; omega
        · obtain ⟨_, _, _, a, hA, _⟩ := X.sited.new j A w e2
          obtain ⟨rfl, rfl⟩ := Prod.mk.inj (X.ok.id_inj hA hm e3)
          have hst := mems_still (plan := plan) X.lays hA (fun l T hT => X.still l T j A w hT e2)
          rw [hst (ss x)] at hlt hk
          rw [hst (ss y)]
          have hy : es y A.id = [t.next + 2 * j + 1] := (hext _ (by rw [e4]; simp)).trans e4
          have hkl : k = A.kids.length := by
            rw [e4] at hk
            have h1 : ¬ k < A.kids.length := hlt
            have h2 : k < A.kids.length + 1 := hk
            omega
          refine ⟨leafOf v t j p z w, ?_, ?_, .inr ⟨j, A, w, e2, rfl, hy⟩⟩
          · rw [E.all j A w p z e1 e2]; simp
          · show (A.kids.map Node.id ++ es y A.id).getD k 0 = t.next + 2 * j + 1
            rw [hy, hkl]
            simp [List.getD_eq_getElem?_getD]
  · have hcell : ∀ x, Made t site (es x) (t.next + 2 * k + 1) → (ws x).mem (t.next + 2 * k + 1) = leafCell w (jobOf v t k p y) := by
      rintro x (⟨q', m, hm, e⟩ | ⟨k', A', w', e1, e2, e3⟩)
      · have := X.ok.lt _ hm
        simp only at this
        omega
      · obtain rfl : k = k' := by omega
        rw [h2] at e1
        cases e1
        rcases (hI x).leaf X h1 h2 with ⟨_, e, _⟩ | ⟨_, _, _, e⟩
        · rw [e] at e3; cases e3
        · exact e
    refine ⟨fun x hx => ?_, fun x hx => ?_, fun x hx => ?_, fun x y' j hx _ hj => ?_⟩
    · show ((ws x).mem (t.next + 2 * k + 1)).core.pathS = _
      rw [hcell x hx]; rfl
    · show ((ws x).mem (t.next + 2 * k + 1)).core.leaf = _
      rw [hcell x hx]; rfl
    · show ((ws x).mem (t.next + 2 * k + 1)).len ≤ _
      rw [hcell x hx]; exact Nat.zero_le _
    · have hj : j < ((ws x).mem (t.next + 2 * k + 1)).len := hj
      rw [hcell x hx] at hj
      exact absurd hj (Nat.not_lt_zero _)
end

end Parts
end Verif

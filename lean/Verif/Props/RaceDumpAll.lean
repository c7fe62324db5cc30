import Verif.Lemmas.RaceDumpAll
import Verif.Props.RaceDumpNew
import Verif.Props.RaceVisit
/-
C118: dumping the trie beside `Set`, for new keys too, and `Remove`.
-/
namespace Verif
namespace Parts
variable {α : Type} [Inhabited α]
open Prune (Cell Mem Up Call)

/-- What a line of `Dump` may say, if it begins when the goroutines have run as in `S0`, and they run as in `L` meanwhile. It is about a node of the trie, with its fragment, the value that was right at a moment
of the dumping, the flag that was right at that moment or an earlier one, and the rest as in the trie. Or it is about a new key whose `Set` had begun at a moment of the dumping, as that `Set` stores it,
and with what is missing at a node of the trie as fragment. The line is indented as it is right for the level of the node. In either case it is not about anything that a `Remove` had taken away that had returned when the dumping began. -/
def LineOf (v : View) (t : Tree α) (as : List (Act α)) (S0 L : List Nat) (l : Nat) (x : Node α) : Prop :=
  (∃ q m b y S₁ S₂, (q, m) ∈ t.root.nodes [] ∧ t.root.Deep l m ∧ x = .mk m.id m.path { m.core with hasData := b, data := y } [] ∧ S₁ <+: S₂ ∧ S₂ <+: L ∧
    FlagAt v t as q m.core.hasData b (S0 ++ S₁) ∧ ValueAt v t as q m.core.data y (S0 ++ S₂) ∧ ¬ Fell v t as (fun k => ((runs t (each v as) S0).gs k).outs ≠ []) q) ∨
  ∃ q y S₁, S₁ <+: L ∧ NewAt v t as q y (S0 ++ S₁) ∧ ¬ Fell v t as (fun k => ((runs t (each v as) S0).gs k).outs ≠ []) q ∧
    x.core = held q y none ∧ (∃ a A d, (a, A) ∈ t.root.nodes [] ∧ t.root.Deep d A ∧ l = d + 1 ∧ q = a ++ x.path) ∧ x.kids = [] ∧ t.next ≤ x.id

section
variable {K : Str → Prop} {v : View} {t : Tree α} {as : List (Act α)}

/-- **C118** Goroutines call `Remove`, `Set` for keys that are in the trie and for new ones, as in C109, and lookups, and one calls `Dump`, at any moment (`S0`). It returns after finitely many steps of its own.
The text consists of lines of nodes; each says what `LineOf` allows. There is a line for every node of the trie such that no removal gets into the way to it, and one for every new key whose `Set` had
returned when the dumping began, with its value. -/
theorem C118_dump (F : DumpFmt α) (nc : Bool) (h : Reach K t) (hp : t.Plain v.delim) (hm : v.mode ≠ .up) (ht : Prune.Tidy v t (calls as)) (hj : Joins v t as) :
    ∃ N, ∀ S0 S, let r := dumps F nc t (each v as) S0 S
      (N ≤ S.count none → r.1 = .done) ∧ (r.1 = .done → ∃ rows : List (Nat × Node α), r.2 = (rows.flatMap fun x => dumpLine F nc x.1 x.2) ∧
        (∀ x ∈ rows, LineOf v t as S0 (S.filterMap id) x.1 x.2) ∧
        (∀ q m, (q, m) ∈ t.root.nodes [] → (∀ c P x, c ∈ calls as → Prune.Takes v t c P x → Prune.Spares t P x q) → ∃ x ∈ rows, x.2.id = m.id) ∧
        ∀ (j : Nat) p x, as[j]? = some (.set p x) → t.contents (View.dash (v.full p)) = none → ((runs t (each v as) S0).gs j).outs ≠ [] →
          ∃ y ∈ rows, y.2.core = held (View.dash (v.full p)) x none) := by
  have hok := h.ok
  obtain ⟨site, B, X, hB⟩ := blended hok hp hm ht hj
  obtain ⟨ex, E⟩ := adds X
  obtain ⟨N, hN⟩ := rleads_all F nc (full_nodup hok E)
  refine ⟨N, fun S0 S => ?_⟩
  let T := S0 ++ S.filterMap id
  have hrem : ∀ (k : Nat) p, as[k]? = some (.remove p) → ∃ T, Prune.planOf v t (calls as) k = some T := fun k p ha => by
    obtain ⟨P, x, htk⟩ := ht.takes p (List.mem_of_getElem? (get_calls ha))
    exact ⟨_, Prune.planOf_takes (get_calls ha) htk⟩
  obtain ⟨s0, ext0, g0, I0⟩ := hB S0
  let σ := {x : List Nat × (Nat → Nat) × (Nat → List Nat) × (Nat → Core α → Core α) //
    Blend v t as (Prune.start v t (calls as)).mem (Prune.planOf v t (calls as)) site B x.1 x.2.1 x.2.2.1 x.2.2.2 (runs t (each v as) x.1) ∧
      (∀ i, ext0 i ≠ [] → x.2.2.1 i = ext0 i) ∧ S0 <+: x.1 ∧ x.1 <+: T}
  let ms : σ → Mem α := fun x => (runs t (each v as) x.1.1).mem
  let R : σ → σ → Prop := fun a b => (Up a.1.2.1 b.1.2.1 ∧ ∀ i, a.1.2.2.1 i ≠ [] → b.1.2.2.1 i = a.1.2.2.1 i) ∧ a.1.1 <+: b.1.1
  let D : Nat → Prop := fun k => ((runs t (each v as) S0).gs k).outs ≠ []
  let L : σ → Nat → Prop := fun x i => Made t site x.1.2.2.1 i ∧ ¬ Dead v t as D i
  have hD : ∀ (x : σ) k, D k → ((runs t (each v as) x.1.1).gs k).outs ≠ [] := by
    intro x k hk e
    obtain ⟨S₁, hS₁⟩ := x.2.2.2.1
    have := run_outs t.root.id (2 * (each v as).length) k S₁ (runs t (each v as) S0)
    rw [← runs_append, hS₁, e] at this
    exact hk (List.prefix_nil.mp this)
  have hR0 : ∀ a, R a a := fun a => ⟨⟨Up.refl _, fun _ _ => rfl⟩, List.prefix_refl _⟩
  have hR1 : ∀ a b c, R a b → R b c → R a c := fun a b c h1 h2 =>
    ⟨⟨h1.1.1.trans h2.1.1, fun i hi => (h2.1.2 i (by rw [h1.1.2 i hi]; exact hi)).trans (h1.1.2 i hi)⟩, h1.2.trans h2.2⟩
  have hL : ∀ a b i, R a b → L a i → L b i := by
    rintro a b i hab ⟨h1 | ⟨k, A, w, h1, h2, h3⟩, h4⟩
    · exact ⟨.inl h1, h4⟩
    · exact ⟨.inr ⟨k, A, w, h1, h2, (hab.1.2 _ (by rw [h3]; simp)).trans h3⟩, h4⟩
  have hleaf : ∀ (x : σ) {k : Nat} {A : Node α} {w : Str} {p : Str} {y : α}, as[k]? = some (.set p y) → site k = some (A, w) → L x (t.next + 2 * k + 1) →
      ms x (t.next + 2 * k + 1) = leafCell w (jobOf v t k p y) ∧ ((runs t (each v as) x.1.1).gs k).todo = [] := by
    rintro x k A w p y g1 g2 ⟨⟨q', m, hm', e⟩ | ⟨k', A', w', e1, e2, e3⟩, _⟩
    · have := X.ok.lt _ hm'
      simp only at this e
      omega
    · obtain rfl : k = k' := by omega
      rw [g2] at e1
      cases e1
      rcases x.2.1.leaf X g1 g2 with ⟨_, e, _⟩ | ⟨_, _, e', e⟩
      · rw [e] at e3; cases e3
      · exact ⟨e, e'⟩
  have hsh : ∀ q m, (q, m) ∈ (full t ex).nodes [] → Prune.VShows R ms L m ∧ ∀ s, L s m.id → (ms s m.id).path = m.path := fun q m hmem => by
    refine ⟨gone_shows hp hm X E (ls := fun x : σ => x.1.1) (ss := fun x => x.1.2.1) (es := fun x => x.1.2.2.1) (gs := fun x => x.1.2.2.2)
      (ws := fun x => runs t (each v as) x.1.1) (fun x => x.2.1) hD hmem
      (blend_shows X E (ls := fun x : σ => x.1.1) (ss := fun x => x.1.2.1) (es := fun x => x.1.2.2.1) (gs := fun x => x.1.2.2.2)
        (ws := fun x => runs t (each v as) x.1.1) (fun x => x.2.1) (fun _ _ hxy => hxy.1) hmem), fun s hs => ?_⟩
    rcases mem_full E hmem with ⟨m, hm', rfl⟩ | ⟨k, A, w, p, z, g1, g2, rfl⟩
    · rw [Node.deck_id, Node.deck_path]
      show ((runs t (each v as) s.1.1).mem m.id).path = _
      rw [s.2.1.grown q m hm']
    · have := (hleaf s g1 g2 hs).1
      show (ms s (t.next + 2 * k + 1)).path = _
      rw [this]; rfl
  have hroot : ∀ x, L x (full t ex).id := fun x => ⟨.inl ⟨t.root.path, t.root, (by rw [Node.mem_nodes]; simp), (Node.deck_id _ _ _).symm⟩,
    (by rw [Node.deck_id]; exact root_alive hok hp hm D)⟩
  have hrid : (full t ex).id = t.root.id := Node.deck_id _ _ _
  obtain ⟨h1, h2⟩ := dumping_leads (F := F) (nc := nc) (root := t.root.id) (gap := 2 * (each v as).length) (T := T) (R := R) (ms := ms)
    (Q := fun r => r.1 = .done ∧ ∃ new, r.2 = rowsText F nc new ∧ Rows R ms L 0 (full t ex) [] new)
    (J := fun L W x => W = runs t (each v as) L ∧ x.1.1 = L) hR0 hR1
    (fun L W x hJ => by rw [hJ.1, ← hJ.2])
    (fun L W x k hJ hLk => by
      obtain ⟨⟨⟨L', s', ext', g'⟩, I, h3, h4, h5⟩, rfl⟩ : ∃ y : σ, y = x := ⟨x, rfl⟩
      obtain ⟨rfl, rfl⟩ := hJ
      obtain ⟨s'', ext'', g'', hs, he, I'⟩ := I.tick X hrem (2 * (each v as).length) k
      have e : runs t (each v as) (L' ++ [k]) = (runs t (each v as) L').tick t.root.id (2 * (each v as).length) k := run_snoc _ _ _ _ _
      exact ⟨⟨(L' ++ [k], s'', ext'', g''), e ▸ I', fun i hi => (he i (by show ext' i ≠ []; rw [show ext' i = ext0 i from h3 i hi]; exact hi)).trans (h3 i hi),
        h4.trans (List.prefix_append _ _), hLk⟩, ⟨⟨hs, he⟩, List.prefix_append _ _⟩, e.symm, rfl⟩)
    (fun e he => he.1) S
    (s := ⟨(S0, s0, ext0, g0), I0, fun _ _ => rfl, List.prefix_refl _, List.prefix_append _ _⟩) ⟨rfl, rfl⟩ rfl
    (by have := hN σ R ms L hR0 hR1 hL hsh ⟨(S0, s0, ext0, g0), I0, fun _ _ => rfl, List.prefix_refl _, List.prefix_append _ _⟩ (hroot _); rwa [hrid] at this)
  refine ⟨h1, fun hd => ?_⟩
  obtain ⟨_, rows, e, a1, a2⟩ := h2 hd
  -- the way to the nodes of the tree
  have way : ∀ {q m}, (q, m) ∈ t.root.nodes [] → ∀ {q'}, q <+: q' → (∀ c P x, c ∈ calls as → Prune.Takes v t c P x → Prune.Spares t P x q') →
      Prune.Way R ms (full t ex) (m.deck (fun _ c => c) ex) := by
    intro q m hmem q' hqq hsp
    have way : ∀ (n : Node α) (u : Str), (∀ q' m', (q', m') ∈ n.nodes u → (q', m') ∈ t.root.nodes []) → (q, m) ∈ n.nodes u →
        Prune.Way R ms (n.deck (fun _ c => c) ex) (m.deck (fun _ c => c) ex) := by
      intro n
      induction n using Node.ind with
      | h i p c k ih =>
        intro u hsub hin
        rw [Node.mem_nodes] at hin
        rcases hin with e | ⟨e, he, hin⟩
        · rw [(Prod.mk.inj e).2]; exact .here _
        · have hi := hsub _ _ ((Node.mem_nodes u (.mk i p c k) _).mpr (.inl rfl))
          refine .down (c := e.deck (fun _ c => c) ex) (by rw [Node.deck_kids]; exact List.mem_append_left _ (List.mem_map.mpr ⟨e, he, rfl⟩)) (fun s => ?_)
            (ih e he _ (fun q' m' hm' => hsub q' m' ((Node.mem_nodes u (.mk i p c k) _).mpr (.inr ⟨e, he, hm'⟩))) hin)
          obtain ⟨j, j1, j2⟩ := Prune.spares_sure (R := fun _ => False) hok hp hm (fun l c P y _ hc hy => hsp c P y (List.mem_of_getElem? hc) hy)
            (fun l T hT => ⟨id, hT⟩) X.lays (u := u ++ p) hi he ((Node.prefix_of_mem_nodes hin).trans hqq) s.1.2.1
          refine ⟨j, ?_, fun s' hs' => ?_⟩
          · show j < ((runs t (each v as) s.1.1).mem (Node.mk i p c k).id).len
            rw [s.2.1.grown _ _ hi]
            exact Nat.lt_of_lt_of_le j1 (Nat.le_add_right _ _)
          · show ((runs t (each v as) s'.1.1).mem (Node.mk i p c k).id).arr.getD j 0 = _
            rw [s'.2.1.grown _ _ hi, Node.deck_id, ← j2 _ hs'.1.1]
            have hlen : j < (Prune.mems (Prune.start v t (calls as)).mem (Prune.planOf v t (calls as)) s'.1.2.1 i).arr.length := by
              have l1 := (like_looks (plan := Prune.planOf v t (calls as)) (X := fun _ => True) X.lays hi).same s.1.2.1 s'.1.2.1
              have l2 := mems_len (plan := Prune.planOf v t (calls as)) X.lays hi s.1.2.1
              simp only [Node.id_mk] at l1 l2 j1
              omega
            simp only [Node.id_mk, List.getD_eq_getElem?_getD, List.getElem?_append_left hlen]
    exact way t.root [] (fun _ _ h => h) hmem
  have hpre : ∀ x : σ, ∃ S₁, S0 ++ S₁ = x.1.1 ∧ S₁ <+: S.filterMap id := by
    intro x
    obtain ⟨S₁, hS₁⟩ := x.2.2.2.1
    refine ⟨S₁, hS₁, ?_⟩
    have := x.2.2.2.2
    rw [← hS₁] at this
    exact (List.prefix_append_right_inj _).mp this
  have name : ∀ {k A w p z}, as[k]? = some (.set p z) → site k = some (A, w) → ∀ x ∈ rows, x.2.id = (leafOf v t k p z w).id →
      x.2.core = held (View.dash (v.full p)) z none := by
    intro k A w p z g1 g2 x hx e
    obtain ⟨q, M, _, hM, _, _, y1, y2, _, l1, l2, hrow⟩ := a1 x hx
    rw [hrow, Node.id_mk] at e
    have hin : (A.deck (fun _ c => c) ex).id = A.id := Node.deck_id _ _ _
    obtain ⟨p', z', g1', a, hA, hkey, _⟩ := X.sited.new k A w g2
    rw [g1] at g1'
    cases g1'
    have hin : (View.dash (v.full p), leafOf v t k p z w) ∈ (full t ex).nodes [] := by
      refine (Node.mem_deck _ _ _ _ _ _).mpr (.inr ⟨a, A, leafOf v t k p z w, hA, by rw [E.all k A w p z g1 g2]; simp, ?_⟩)
      rw [Node.mem_nodes]
      exact .inl (by rw [hkey]; rfl)
    obtain ⟨rfl, rfl⟩ := Prod.mk.inj (Node.node_inj (full_nodup hok E) hM hin e)
    have c1 : ms y1 (leafOf v t k p z w).id = _ := (hleaf y1 g1 g2 l1).1
    have c2 : ms y2 (leafOf v t k p z w).id = _ := (hleaf y2 g1 g2 l2).1
    rw [hrow, c1, c2]
    rfl
  have below : ∀ {A l M : Node α} {d : Nat}, l ∈ ex A.id → l.Deep d M → ∃ k A' w p y, as[k]? = some (.set p y) ∧ site k = some (A', w) ∧ M = leafOf v t k p y w ∧ A'.id = A.id ∧ d = 0 := by
    intro A l M d hl hM
    rcases E.one A.id with e | ⟨k, A', w, p, y, g1, g2, g3, e⟩
    · rw [e] at hl; cases hl
    · rw [e] at hl
      obtain rfl := List.mem_singleton.mp hl
      generalize hN : leafOf v t k p y w = N at hM
      cases hM with
      | here => exact ⟨k, A', w, p, y, g1, g2, hN.symm, g3, rfl⟩
      | down he _ => rw [← hN] at he; cases he
  refine ⟨rows, e, fun x hx => ?_, fun q m hmem hsp => ?_, fun j p x ha hc ho => ?_⟩
  · obtain ⟨q, M, d, hM, hdeep, hlvl, x1, x2, hx12, l1, l2, hrow⟩ := a1 x hx
    rw [Nat.zero_add] at hlvl
    obtain ⟨S₁, hS₁, hpre1⟩ := hpre x1
    obtain ⟨S₂, hS₂, hpre2⟩ := hpre x2
    have hpre' : S₁ <+: S₂ := by
      have : x1.1.1 <+: x2.1.1 := hx12.2
      rw [← hS₁, ← hS₂] at this
      exact (List.prefix_append_right_inj _).mp this
    rcases mem_full E hM with ⟨m, hmem, rfl⟩ | ⟨k, A, w, p, z, g1, g2, rfl⟩
    · have hcell : ∀ x : σ, (ms x m.id).core = x.1.2.2.2 m.id m.core := fun x => by
        show ((runs t (each v as) x.1.1).mem m.id).core = _
        rw [x.2.1.grown q m hmem]
      rw [Node.deck_id, hcell x1, hcell x2, Node.deck_path, Node.deck_core] at hrow
      obtain ⟨f1, f2⟩ := x1.2.1.flag X hj hmem
      obtain ⟨f4, _⟩ := x2.2.1.flag X hj hmem
      obtain ⟨_, _, _, f3⟩ := x2.2.1.core X hj hmem
      rw [← hS₁] at f2
      rw [← hS₂] at f3
      have hd' : t.root.Deep x.1 m := by
        rw [hlvl]
        rcases Node.deep_deck _ hdeep with ⟨m', k1, k2⟩ | ⟨A, l, d1, d2, k1, k2, k3, k4⟩
        · obtain ⟨q', k3⟩ := k1.mem []
          have := congrArg Node.id k2
          rw [Node.deck_id, Node.deck_id] at this
          rw [(Prod.mk.inj (hok.id_inj hmem k3 this)).2]
          exact k1
        · exfalso
          obtain ⟨k, _, _, _, _, _, _, e, _⟩ := below k2 k3
          have := congrArg Node.id e
          rw [Node.deck_id] at this
          have h' := hok.lt _ hmem
          simp only [leafOf, Node.id_mk] at this h'
          omega
      refine .inl ⟨q, m, (x1.1.2.2.2 m.id m.core).hasData, (x2.1.2.2.2 m.id m.core).data, S₁, S₂, hmem, hd', ?_, hpre', hpre2, f2, ?_,
        alive_path hok hp hm hj (.inl ⟨m, hmem, by have := l1.2; rw [Node.deck_id] at this; exact this⟩)⟩
      · rw [hrow, f4]
      · rcases f3 with f3 | ⟨j, p, x, k1, k2, k3, k4⟩
        · exact .inl f3
        · exact .inr ⟨j, p, by rw [k3]; exact k1, k2, k4⟩
    · obtain ⟨p', z', g1', a, hA, hkey, hL'⟩ := X.sited.new k A w g2
      have hg := g1
      rw [g1] at g1'
      cases g1'
      have hk : runes (leafOf v t k p z w).core.pathS = View.dash (v.full p) := runes_utf8 _
      refine .inr ⟨View.dash (v.full p), z, S₁, hpre1, ⟨Leaves.none hok ⟨a, hA, hkey, hL'⟩, k, p, hg, rfl, by rw [hS₁]; exact (hleaf x1 hg g2 l1).2⟩,
        alive_path hok hp hm hj (.inr ⟨k, p, z, hg, rfl⟩), name hg g2 x hx (by rw [hrow]; rfl), ?_, by rw [hrow]; rfl, ?_⟩
      · rcases Node.deep_deck _ hdeep with ⟨m', k1, k2⟩ | ⟨A', l, d1, d2, k1, k2, k3, k4⟩
        · exfalso
          obtain ⟨q', k3⟩ := k1.mem []
          have := congrArg Node.id k2
          rw [Node.deck_id] at this
          have h' := hok.lt _ k3
          simp only [leafOf, Node.id_mk] at this h'
          omega
        · obtain ⟨k', B', w', p', y', g3, g4, e, g5, rfl⟩ := below k2 k3
          have ek : k = k' := by
            have := congrArg Node.id e
            simp only [leafOf, Node.id_mk] at this
            omega
          subst ek
          rw [g2] at g4
          cases g4
          obtain ⟨q', k5⟩ := k1.mem []
          have eA := (Prod.mk.inj (hok.id_inj hA k5 g5)).2
          subst eA
          exact ⟨a, A, d1, hA, k1, by omega, by rw [hrow]; exact hkey⟩
      · rw [hrow]
        show t.next ≤ t.next + 2 * k + 1
        omega
  · obtain ⟨x, hx, e⟩ := a2 _ (way hmem (List.prefix_refl q) hsp)
    exact ⟨x, hx, by rw [e, Node.deck_id]⟩
  · cases hsk : site j with
    | none =>
      obtain ⟨m, hm'⟩ := X.sited.old j p x ha hsk
      exact absurd hm' (Tree.contents_none.mp hc m)
    | some y =>
      obtain ⟨A, w⟩ := y
      obtain ⟨p', z', g1', a, hA, hq, _⟩ := X.sited.new j A w hsk
      rw [ha] at g1'
      cases g1'
      have hext0 : ext0 A.id = [t.next + 2 * j + 1] := by
        rcases I0.leaf X ha hsk with ⟨_, _, e⟩ | ⟨_, e, _⟩
        · exact absurd e ho
        · exact e
      have hin : leafOf v t j p x w ∈ (A.deck (fun _ c => c) ex).kids := by
        rw [Node.deck_kids, E.all j A w p x ha hsk]; simp
      have hw := (way hA (q' := View.dash (v.full p)) ⟨w, hq.symm⟩ fun c P y hc hy => hj.spares c P y p x hc hy (List.mem_of_getElem? ha)).snoc hin (fun s => by
        have he' : ∀ s' : σ, s'.1.2.2.1 A.id = [t.next + 2 * j + 1] := fun s' => (s'.2.2.1 _ (by rw [hext0]; simp)).trans hext0
        refine ⟨A.kids.length, ?_, fun s' _ => ?_⟩
        · rw [Node.deck_id]
          show _ < ((runs t (each v as) s.1.1).mem A.id).len
          rw [(s.2.1.joined X hsk).2, he']
          simp
        · rw [Node.deck_id]
          show ((runs t (each v as) s'.1.1).mem A.id).arr.getD _ 0 = _
          rw [(s'.2.1.joined X hsk).1, he']
          simp [leafOf, List.getD_eq_getElem?_getD, Node.id_mk])
      obtain ⟨y, hy, e⟩ := a2 _ hw
      exact ⟨y, hy, name ha hsk y hy e⟩

/-- **C118** … A key whose `Set` has returned before the dumping begins, new or not, has a line, as that `Set` stores it; and if it is not new, every line for its node is so. -/
theorem C118_set (F : DumpFmt α) (nc : Bool) (h : Reach K t) (hp : t.Plain v.delim) (hm : v.mode ≠ .up) (ht : Prune.Tidy v t (calls as)) (hs : Joins v t as)
    {j : Nat} {p : Str} {x : α} (hj : as[j]? = some (.set p x)) (S0 : List Nat) (ho : ((runs t (each v as) S0).gs j).outs ≠ [])
    (S : List (Option Nat)) (hd : (dumps F nc t (each v as) S0 S).1 = .done) :
    ∃ rows : List (Nat × Node α), (dumps F nc t (each v as) S0 S).2 = (rows.flatMap fun x => dumpLine F nc x.1 x.2) ∧ (∀ x ∈ rows, LineOf v t as S0 (S.filterMap id) x.1 x.2) ∧
      (∃ y ∈ rows, y.2.core = held (View.dash (v.full p)) x (t.contents (View.dash (v.full p)))) ∧
      ∀ m, (View.dash (v.full p), m) ∈ t.root.nodes [] → ∀ y ∈ rows, y.2.id = m.id →
        y.2.path = m.path ∧ y.2.core = held (View.dash (v.full p)) x (t.contents (View.dash (v.full p))) := by
  obtain ⟨N, hN⟩ := C118_dump F nc h hp hm ht hs
  obtain ⟨rows, e, h1, h2, h3⟩ := (hN S0 S).2 hd
  have still : ∀ S', ((runs t (each v as) (S0 ++ S')).gs j).outs ≠ [] := by
    intro S' e
    have := run_outs t.root.id (2 * (each v as).length) j S' (runs t (each v as) S0)
    rw [← runs_append, e] at this
    exact ho (List.prefix_nil.mp this)
  have all : ∀ m, (View.dash (v.full p), m) ∈ t.root.nodes [] → ∀ y ∈ rows, y.2.id = m.id →
      y.2.path = m.path ∧ y.2.core = held (View.dash (v.full p)) x (t.contents (View.dash (v.full p))) := by
    intro m hmem y hy ey
    have hc : t.contents (View.dash (v.full p)) = some m.core := (Tree.contents_node h.ok).mpr ⟨m, hmem, rfl⟩
    rcases h1 y hy with ⟨q, m', b, z, S₁, S₂, k0, _, k1, _, _, k2, k3, _⟩ | ⟨q, z, S₁, _, _, _, _, _, _, k⟩
    · rw [k1, Node.id_mk] at ey
      obtain ⟨rfl, rfl⟩ := Prod.mk.inj (h.ok.id_inj k0 hmem ey)
      have hb : b = true := by
        rcases k2 with ⟨_, k⟩ | ⟨k, _⟩
        · exact absurd (k j p x hj rfl) (still _)
        · exact k
      have hz : z = x := by
        rcases k3 with ⟨_, k⟩ | ⟨j', p', g1, g2, _⟩
        · exact absurd (k j p x hj rfl) (still _)
        · have := hs.apart j' j p' z p x g1 hj g2
          subst this
          rw [hj] at g1
          cases g1
          rfl
      rw [k1, hc, hb, hz]
      exact ⟨rfl, rfl⟩
    · have := h.ok.lt _ hmem
      simp only at this
      omega
  refine ⟨rows, e, h1, ?_, all⟩
  cases hc : t.contents (View.dash (v.full p)) with
  | none => exact h3 j p x hj hc ho
  | some c0 =>
    obtain ⟨m, hmem, rfl⟩ := (Tree.contents_node h.ok).mp hc
    obtain ⟨y, hy, ey⟩ := h2 _ m hmem fun c P y hc hy => hs.spares c P y p x hc hy (List.mem_of_getElem? hj)
    exact ⟨y, hy, by rw [← hc]; exact (all m hmem y hy ey).2⟩

/-- **C118** … What is said about a node whose key nobody sets is as in the trie. -/
theorem C118_other (F : DumpFmt α) (nc : Bool) (h : Reach K t) (hp : t.Plain v.delim) (hm : v.mode ≠ .up) (ht : Prune.Tidy v t (calls as)) (hj : Joins v t as)
    (S0 : List Nat) (S : List (Option Nat)) (hd : (dumps F nc t (each v as) S0 S).1 = .done) :
    ∃ rows : List (Nat × Node α), (dumps F nc t (each v as) S0 S).2 = (rows.flatMap fun x => dumpLine F nc x.1 x.2) ∧ (∀ x ∈ rows, LineOf v t as S0 (S.filterMap id) x.1 x.2) ∧
      ∀ q m, (q, m) ∈ t.root.nodes [] → (∀ p x, .set p x ∈ as → View.dash (v.full p) ≠ q) → ∀ y ∈ rows, y.2.id = m.id → y.2 = .mk m.id m.path m.core [] := by
  obtain ⟨N, hN⟩ := C118_dump F nc h hp hm ht hj
  obtain ⟨rows, e, h1, _⟩ := (hN S0 S).2 hd
  refine ⟨rows, e, h1, fun q m hmem hq y hy ey => ?_⟩
  have hno : ∀ (j : Nat) p x, as[j]? = some (.set p x) → View.dash (v.full p) ≠ q := fun j p x hj => hq p x (List.mem_of_getElem? hj)
  rcases h1 y hy with ⟨q', m', b, z, S₁, S₂, k0, _, k1, _, _, k2, k3, _⟩ | ⟨q', z, S₁, _, _, _, _, _, _, k⟩
  · rw [k1, Node.id_mk] at ey
    obtain ⟨rfl, rfl⟩ := Prod.mk.inj (h.ok.id_inj k0 hmem ey)
    rcases k2 with ⟨rfl, _⟩ | ⟨_, j, p, x, hj, e, _⟩
    · rcases k3 with ⟨rfl, _⟩ | ⟨j, p, hj, e, _⟩
      · exact k1
      · exact absurd e (hno _ _ _ hj)
    · exact absurd e (hno _ _ _ hj)
  · have := h.ok.lt _ hmem
    simp only at this
    omega

/-- **C118** … No line is that of a node at or below a key whose `Remove` has returned before the dumping begins. -/
theorem C118_removed (F : DumpFmt α) (nc : Bool) (h : Reach K t) (hp : t.Plain v.delim) (hm : v.mode ≠ .up) (ht : Prune.Tidy v t (calls as)) (hj : Joins v t as)
    {k : Nat} {p : Str} (hk : as[k]? = some (.remove p)) (S0 : List Nat) (ho : ((runs t (each v as) S0).gs k).outs ≠ [])
    (S : List (Option Nat)) (hd : (dumps F nc t (each v as) S0 S).1 = .done) {r : Str} {y : Core α} (hr : resolve v.delim t.contents (v.full p) = some (r, y)) :
    ∃ rows : List (Nat × Node α), (dumps F nc t (each v as) S0 S).2 = (rows.flatMap fun x => dumpLine F nc x.1 x.2) ∧
      (∀ x ∈ rows, LineOf v t as S0 (S.filterMap id) x.1 x.2) ∧ ∀ q m, r <+: q → (q, m) ∈ t.root.nodes [] → ∀ x ∈ rows, x.2.id ≠ m.id := by
  obtain ⟨N, hN⟩ := C118_dump F nc h hp hm ht hj
  obtain ⟨rows, e, h1, _⟩ := (hN S0 S).2 hd
  refine ⟨rows, e, h1, fun q m hq hmem x hin hid => ?_⟩
  obtain ⟨P, z, htk⟩ := ht.takes p (List.mem_of_getElem? (get_calls hk))
  have htk' := htk
  obtain ⟨p', t', e, hrm⟩ := htk
  cases e
  obtain ⟨_, _, u, hP, _, _, hres⟩ := Prune.takes_spec h.ok hp hm hrm
  rw [resolve_contents h.ok, hres] at hr
  obtain ⟨rfl, _⟩ := Prod.mk.inj (Option.some.inj hr)
  rcases h1 x hin with ⟨q', m', b, z, S₁, S₂, hm', _, k1, _, _, _, _, hf⟩ | ⟨_, _, _, _, _, _, _, _, _, hlt⟩
  · rw [k1, Node.id_mk] at hid
    obtain ⟨rfl, rfl⟩ := Prod.mk.inj (Node.node_inj h.ok.nodup hm' hmem hid)
    exact hf ⟨k, p, P, _, u, ho, hk, htk', hP, hq⟩
  · have := h.ok.lt _ hmem
    simp only at this
    omega

/-- **C118** … A new key whose `Set` has not begun when the dumping ends has no line: each with that path is the line of a node of the trie. -/
theorem C118_unset (F : DumpFmt α) (nc : Bool) (h : Reach K t) (hp : t.Plain v.delim) (hm : v.mode ≠ .up) (ht : Prune.Tidy v t (calls as)) (hj : Joins v t as)
    (S0 : List Nat) (S : List (Option Nat)) {q : Str}
    (hno : ∀ (j : Nat) p y, as[j]? = some (.set p y) → View.dash (v.full p) = q → ((runs t (each v as) (S0 ++ S.filterMap id)).gs j).todo ≠ [])
    (hd : (dumps F nc t (each v as) S0 S).1 = .done) :
    ∃ rows : List (Nat × Node α), (dumps F nc t (each v as) S0 S).2 = (rows.flatMap fun x => dumpLine F nc x.1 x.2) ∧
      (∀ x ∈ rows, LineOf v t as S0 (S.filterMap id) x.1 x.2) ∧ ∀ x ∈ rows, runes x.2.core.pathS = q → ∃ r m, (r, m) ∈ t.root.nodes [] ∧ x.2.id = m.id := by
  obtain ⟨N, hN⟩ := C118_dump F nc h hp hm ht hj
  obtain ⟨rows, e, h1, _⟩ := (hN S0 S).2 hd
  refine ⟨rows, e, h1, fun x hx hq => ?_⟩
  rcases h1 x hx with ⟨r, m, _, _, _, _, k0, _, k1, _⟩ | ⟨r, y, S₁, ⟨S₂, k2⟩, ⟨_, j, p, g1, g2, g3⟩, _, k1, _⟩
  · exact ⟨r, m, k0, by rw [k1, Node.id_mk]⟩
  · have hr : runes x.2.core.pathS = r := by rw [k1]; exact runes_utf8 _
    refine absurd ?_ (hno j p y g1 (g2.trans (hr.symm.trans hq)))
    rw [← k2, ← List.append_assoc, runs_append]
    exact run_todo _ _ _ _ _ g3

end

section examples
open Race (top three three_reach three_plain)

/-- Goroutines set `a.x` and `a.log.level` and remove `db.host`. -/
example : ∃ N, ∀ S0 S, let r := dumps plainFmt true three (each top joining) S0 S
    (N ≤ S.count none → r.1 = .done) ∧ (r.1 = .done → ∃ rows : List (Nat × Node Nat), r.2 = (rows.flatMap fun x => dumpLine plainFmt true x.1 x.2) ∧
      (∀ x ∈ rows, LineOf top three joining S0 (S.filterMap id) x.1 x.2) ∧
      (∀ q m, (q, m) ∈ three.root.nodes [] → (∀ c P x, c ∈ calls joining → Prune.Takes top three c P x → Prune.Spares three P x q) → ∃ x ∈ rows, x.2.id = m.id) ∧
      ∀ (j : Nat) p x, joining[j]? = some (.set p x) → three.contents (View.dash (top.full p)) = none → ((runs three (each top joining) S0).gs j).outs ≠ [] →
        ∃ y ∈ rows, y.2.core = held (View.dash (top.full p)) x none) :=
  C118_dump _ _ three_reach three_plain.plain (by decide) joining_tidy joining_joins

/-- `a.x` is set first. -/
example (S : List (Option Nat)) (hd : (dumps plainFmt true three (each top joining) (List.replicate 60 0) S).1 = .done) :
    ∃ rows : List (Nat × Node Nat), (dumps plainFmt true three (each top joining) (List.replicate 60 0) S).2 = (rows.flatMap fun x => dumpLine plainFmt true x.1 x.2) ∧
      (∀ x ∈ rows, LineOf top three joining (List.replicate 60 0) (S.filterMap id) x.1 x.2) ∧
      (∃ y ∈ rows, y.2.core = held (View.dash (top.full "a.x".toList)) 9 (three.contents (View.dash (top.full "a.x".toList)))) ∧
      ∀ m, (View.dash (top.full "a.x".toList), m) ∈ three.root.nodes [] → ∀ y ∈ rows, y.2.id = m.id →
        y.2.path = m.path ∧ y.2.core = held (View.dash (top.full "a.x".toList)) 9 (three.contents (View.dash (top.full "a.x".toList))) :=
  C118_set (j := 0) _ _ three_reach three_plain.plain (by decide) joining_tidy joining_joins rfl _ (by decide +kernel) S hd

/-- Nobody sets `a.name`. -/
example (S0 : List Nat) (S : List (Option Nat)) (hd : (dumps plainFmt true three (each top joining) S0 S).1 = .done) :
    ∃ rows : List (Nat × Node Nat), (dumps plainFmt true three (each top joining) S0 S).2 = (rows.flatMap fun x => dumpLine plainFmt true x.1 x.2) ∧
      ∀ m, ("a.name".toList, m) ∈ three.root.nodes [] → ∀ y ∈ rows, y.2.id = m.id → y.2 = .mk m.id m.path m.core [] := by
  obtain ⟨rows, e, _, h⟩ := C118_other _ _ three_reach three_plain.plain (by decide) joining_tidy joining_joins S0 S hd
  exact ⟨rows, e, fun m hm => h _ m hm fun p x h => by
    rcases List.mem_cons.mp h with e | h
    · rw [(Act.set.inj e).1]; decide +kernel
    · rcases List.mem_cons.mp h with e | h
      · rw [(Act.set.inj e).1]; decide +kernel
      · rcases List.mem_cons.mp h with e | h
        · cases e
        · cases h⟩

/-- `db.host` is removed first. -/
example (S : List (Option Nat)) (hd : (dumps plainFmt true three (each top joining) (List.replicate 60 2) S).1 = .done) :
    ∃ rows : List (Nat × Node Nat), (dumps plainFmt true three (each top joining) (List.replicate 60 2) S).2 = (rows.flatMap fun x => dumpLine plainFmt true x.1 x.2) ∧
      (∀ x ∈ rows, LineOf top three joining (List.replicate 60 2) (S.filterMap id) x.1 x.2) ∧
      ∀ q m, "db.host".toList <+: q → (q, m) ∈ three.root.nodes [] → ∀ x ∈ rows, x.2.id ≠ m.id := by
  obtain ⟨y, hy⟩ := host_resolves
  exact C118_removed (k := 2) (v := top) _ _ three_reach three_plain.plain (by decide) joining_tidy joining_joins rfl _ (by decide +kernel) S hd hy

/-- Nobody has begun to set `a.x`. -/
example (S : List (Option Nat)) (hS : S.filterMap id = List.replicate 30 2) (hd : (dumps plainFmt true three (each top joining) [] S).1 = .done) :
    ∃ rows : List (Nat × Node Nat), (dumps plainFmt true three (each top joining) [] S).2 = (rows.flatMap fun x => dumpLine plainFmt true x.1 x.2) ∧
      (∀ x ∈ rows, LineOf top three joining [] (S.filterMap id) x.1 x.2) ∧
      ∀ x ∈ rows, runes x.2.core.pathS = View.dash (top.full "a.x".toList) → ∃ r m, (r, m) ∈ three.root.nodes [] ∧ x.2.id = m.id :=
  C118_unset _ _ three_reach three_plain.plain (by decide) joining_tidy joining_joins [] S (fun j p y ha hq => by
    match j, ha with
    | 0, _ => rw [hS]; decide +kernel
    | 1, ha => cases ha; exact absurd hq (by decide +kernel)
    | 2, ha => cases ha
    | n + 3, ha => cases ha) hd

end examples
end Parts
end Verif

import Verif.Lemmas.RaceVisit
import Verif.Props.RaceDupAll
/-
C116: walking over the trie beside `Set`, for new keys too, and `Remove`.
-/
namespace Verif
namespace Parts
variable {α : Type} [Inhabited α]
open Prune (Cell Mem Up Call)

/-- What `Walk` may tell in a call of `cb`, if it begins when the goroutines have run as in `S0`, and they run as in `L` meanwhile: it is about a node of the trie; or about a node that is not in the trie,
which is made for a key whose `Set` has begun, with that key as path and an end of it as fragment. In either case it is not about anything that a `Remove` had taken away that had returned
when the walk began. -/
def CallOf (v : View) (t : Tree α) (as : List (Act α)) (S0 L : List Nat) (x : Str × Str × Nat) : Prop :=
  (∃ q m, (q, m) ∈ t.root.nodes [] ∧ x = shownAs m ∧ ¬ Fell v t as (fun k => ((runs t (each v as) S0).gs k).outs ≠ []) q) ∨
  ∃ y S₁, S₁ <+: L ∧ NewAt v t as x.1 y (S0 ++ S₁) ∧ ¬ Fell v t as (fun k => ((runs t (each v as) S0).gs k).outs ≠ []) x.1 ∧ x.2.1 <:+ x.1 ∧ t.next ≤ x.2.2

section
variable {K : Str → Prop} {v : View} {t : Tree α} {as : List (Act α)}

/-- **C116** Goroutines call `Remove`, `Set` for keys that are in the trie and for new ones, as in C109, and lookups, and one calls `Walk("", cb)`, at any moment (`S0`). The walk ends after finitely many steps
of its own. All calls of `cb` are about nodes of the trie, with their path and their fragment, or about new keys whose `Set` has begun, and none is about what had been removed when the walk began.
There is a call for every node of the trie such that no removal gets into the way to it, and one for every new key whose `Set` had returned when the walk began. -/
theorem C116_walk (h : Reach K t) (hp : t.Plain v.delim) (hm : v.mode ≠ .up) (ht : Prune.Tidy v t (calls as)) (hj : Joins v t as) :
    ∃ N, ∀ S0 S, let r := walks t (each v as) S0 S
      (N ≤ S.count none → r.1 = .done) ∧ (r.1 = .done →
        (∀ x ∈ r.2, CallOf v t as S0 (S.filterMap id) x) ∧
        (∀ q m, (q, m) ∈ t.root.nodes [] → (∀ c P x, c ∈ calls as → Prune.Takes v t c P x → Prune.Spares t P x q) → shownAs m ∈ r.2) ∧
        ∀ (j : Nat) p x, as[j]? = some (.set p x) → t.contents (View.dash (v.full p)) = none → ((runs t (each v as) S0).gs j).outs ≠ [] →
          ∃ y, (View.dash (v.full p), y) ∈ r.2) := by
  have hok := h.ok
  obtain ⟨site, B, X, hB⟩ := blended hok hp hm ht hj
  obtain ⟨ex, E⟩ := adds X
  obtain ⟨N, hN⟩ := wleads_all (full_nodup hok E)
  refine ⟨N, fun S0 S => ?_⟩
  let T := S0 ++ S.filterMap id
  have hrem : ∀ (k : Nat) p, as[k]? = some (.remove p) → ∃ T, Prune.planOf v t (calls as) k = some T := fun k p ha => by
    obtain ⟨P, x, htk⟩ := ht.takes p (List.mem_of_getElem? (get_calls ha))
    exact ⟨_, Prune.planOf_takes (get_calls ha) htk⟩
  obtain ⟨s0, ext0, g0, I0⟩ := hB S0
  let σ := {x : List Nat × (Nat → Nat) × (Nat → List Nat) × (Nat → Core α → Core α) //
    Blend v t as (Prune.start v t (calls as)).mem (Prune.planOf v t (calls as)) site B x.1 x.2.1 x.2.2.1 x.2.2.2 (runs t (each v as) x.1) ∧
      (∀ i, ext0 i ≠ [] → x.2.2.1 i = ext0 i) ∧ S0 <+: x.1 ∧ x.1 <+: T}
  let ms : σ → Mem α := fun x => (runs t (each v as) x.1.1).mem
  let R : σ → σ → Prop := fun a b => (Up a.1.2.1 b.1.2.1 ∧ ∀ i, a.1.2.2.1 i ≠ [] → b.1.2.2.1 i = a.1.2.2.1 i) ∧ a.1.1 <+: b.1.1
  let D : Nat → Prop := fun k => ((runs t (each v as) S0).gs k).outs ≠ []
  let L : σ → Nat → Prop := fun x i => Made t site x.1.2.2.1 i ∧ ¬ Dead v t as D i
  have hD : ∀ (x : σ) k, D k → ((runs t (each v as) x.1.1).gs k).outs ≠ [] := by
    intro x k hk e
    obtain ⟨S₁, hS₁⟩ := x.2.2.2.1
    have := run_outs t.root.id (2 * (each v as).length) k S₁ (runs t (each v as) S0)
    rw [← runs_append, hS₁, e] at this
    exact hk (List.prefix_nil.mp this)
  have hR0 : ∀ a, R a a := fun a => ⟨⟨Up.refl _, fun _ _ => rfl⟩, List.prefix_refl _⟩
  have hR1 : ∀ a b c, R a b → R b c → R a c := fun a b c h1 h2 =>
    ⟨⟨h1.1.1.trans h2.1.1, fun i hi => (h2.1.2 i (by rw [h1.1.2 i hi]; exact hi)).trans (h1.1.2 i hi)⟩, h1.2.trans h2.2⟩
  have hL : ∀ a b i, R a b → L a i → L b i := by
    rintro a b i hab ⟨h1 | ⟨k, A, w, h1, h2, h3⟩, h4⟩
    · exact ⟨.inl h1, h4⟩
    · exact ⟨.inr ⟨k, A, w, h1, h2, (hab.1.2 _ (by rw [h3]; simp)).trans h3⟩, h4⟩
  have hleaf : ∀ (x : σ) {k : Nat} {A : Node α} {w : Str} {p : Str} {y : α}, as[k]? = some (.set p y) → site k = some (A, w) → L x (t.next + 2 * k + 1) →
      ms x (t.next + 2 * k + 1) = leafCell w (jobOf v t k p y) ∧ ((runs t (each v as) x.1.1).gs k).todo = [] := by
    rintro x k A w p y g1 g2 ⟨⟨q', m, hm', e⟩ | ⟨k', A', w', e1, e2, e3⟩, _⟩
    · have := X.ok.lt _ hm'
      simp only at this e
      omega
    · obtain rfl : k = k' := by omega
      rw [g2] at e1
      cases e1
      rcases x.2.1.leaf X g1 g2 with ⟨_, e, _⟩ | ⟨_, _, e', e⟩
      · rw [e] at e3; cases e3
      · exact ⟨e, e'⟩
  have hsh : ∀ q m, (q, m) ∈ (full t ex).nodes [] → Prune.VShows R ms L m ∧ ∀ s, L s m.id → (ms s m.id).path = m.path := fun q m hmem => by
    refine ⟨gone_shows hp hm X E (ls := fun x : σ => x.1.1) (ss := fun x => x.1.2.1) (es := fun x => x.1.2.2.1) (gs := fun x => x.1.2.2.2)
      (ws := fun x => runs t (each v as) x.1.1) (fun x => x.2.1) hD hmem
      (blend_shows X E (ls := fun x : σ => x.1.1) (ss := fun x => x.1.2.1) (es := fun x => x.1.2.2.1) (gs := fun x => x.1.2.2.2)
        (ws := fun x => runs t (each v as) x.1.1) (fun x => x.2.1) (fun _ _ hxy => hxy.1) hmem), fun s hs => ?_⟩
    rcases mem_full E hmem with ⟨m, hm', rfl⟩ | ⟨k, A, w, p, z, g1, g2, rfl⟩
    · rw [Node.deck_id, Node.deck_path]
      show ((runs t (each v as) s.1.1).mem m.id).path = _
      rw [s.2.1.grown q m hm']
    · have := (hleaf s g1 g2 hs).1
      show (ms s (t.next + 2 * k + 1)).path = _
      rw [this]; rfl
  have hroot : ∀ x, L x (full t ex).id := fun x => ⟨.inl ⟨t.root.path, t.root, (by rw [Node.mem_nodes]; simp), (Node.deck_id _ _ _).symm⟩,
    (by rw [Node.deck_id]; exact root_alive hok hp hm D)⟩
  have hrid : (full t ex).id = t.root.id := Node.deck_id _ _ _
  obtain ⟨h1, h2⟩ := walking_leads (root := t.root.id) (gap := 2 * (each v as).length) (T := T) (R := R) (ms := ms)
    (Q := fun r => r.1 = .done ∧ WAdds R ms L (full t ex) [] r.2)
    (J := fun L W x => W = runs t (each v as) L ∧ x.1.1 = L) hR0 hR1
    (fun L W x hJ => by rw [hJ.1, ← hJ.2])
    (fun L W x k hJ hLk => by
      obtain ⟨⟨⟨L', s', ext', g'⟩, I, h3, h4, h5⟩, rfl⟩ : ∃ y : σ, y = x := ⟨x, rfl⟩
      obtain ⟨rfl, rfl⟩ := hJ
      obtain ⟨s'', ext'', g'', hs, he, I'⟩ := I.tick X hrem (2 * (each v as).length) k
      have e : runs t (each v as) (L' ++ [k]) = (runs t (each v as) L').tick t.root.id (2 * (each v as).length) k := run_snoc _ _ _ _ _
      exact ⟨⟨(L' ++ [k], s'', ext'', g''), e ▸ I', fun i hi => (he i (by show ext' i ≠ []; rw [show ext' i = ext0 i from h3 i hi]; exact hi)).trans (h3 i hi),
        h4.trans (List.prefix_append _ _), hLk⟩, ⟨⟨hs, he⟩, List.prefix_append _ _⟩, e.symm, rfl⟩)
    (fun e he => he.1) S
    (s := ⟨(S0, s0, ext0, g0), I0, fun _ _ => rfl, List.prefix_refl _, List.prefix_append _ _⟩) ⟨rfl, rfl⟩ rfl
    (by have := hN σ R ms L hR0 hR1 hL hsh ⟨(S0, s0, ext0, g0), I0, fun _ _ => rfl, List.prefix_refl _, List.prefix_append _ _⟩ (hroot _); rwa [hrid] at this)
  refine ⟨h1, fun hd => ?_⟩
  obtain ⟨_, a1, a2⟩ := h2 hd
  -- the way to the nodes of the tree
  have way : ∀ {q m}, (q, m) ∈ t.root.nodes [] → ∀ {q'}, q <+: q' → (∀ c P x, c ∈ calls as → Prune.Takes v t c P x → Prune.Spares t P x q') →
      Prune.Way R ms (full t ex) (m.deck (fun _ c => c) ex) := by
    intro q m hmem q' hqq hsp
    have way : ∀ (n : Node α) (u : Str), (∀ q' m', (q', m') ∈ n.nodes u → (q', m') ∈ t.root.nodes []) → (q, m) ∈ n.nodes u →
        Prune.Way R ms (n.deck (fun _ c => c) ex) (m.deck (fun _ c => c) ex) := by
      intro n
      induction n using Node.ind with
      | h i p c k ih =>
        intro u hsub hin
        rw [Node.mem_nodes] at hin
        rcases hin with e | ⟨e, he, hin⟩
        · rw [(Prod.mk.inj e).2]; exact .here _
        · have hi := hsub _ _ ((Node.mem_nodes u (.mk i p c k) _).mpr (.inl rfl))
          refine .down (c := e.deck (fun _ c => c) ex) (by rw [Node.deck_kids]; exact List.mem_append_left _ (List.mem_map.mpr ⟨e, he, rfl⟩)) (fun s => ?_)
            (ih e he _ (fun q' m' hm' => hsub q' m' ((Node.mem_nodes u (.mk i p c k) _).mpr (.inr ⟨e, he, hm'⟩))) hin)
          obtain ⟨j, j1, j2⟩ := Prune.spares_sure (R := fun _ => False) hok hp hm (fun l c P y _ hc hy => hsp c P y (List.mem_of_getElem? hc) hy)
            (fun l T hT => ⟨id, hT⟩) X.lays (u := u ++ p) hi he ((Node.prefix_of_mem_nodes hin).trans hqq) s.1.2.1
          refine ⟨j, ?_, fun s' hs' => ?_⟩
          · show j < ((runs t (each v as) s.1.1).mem (Node.mk i p c k).id).len
            rw [s.2.1.grown _ _ hi]
            exact Nat.lt_of_lt_of_le j1 (Nat.le_add_right _ _)
          · show ((runs t (each v as) s'.1.1).mem (Node.mk i p c k).id).arr.getD j 0 = _
            rw [s'.2.1.grown _ _ hi, Node.deck_id, ← j2 _ hs'.1.1]
            have hlen : j < (Prune.mems (Prune.start v t (calls as)).mem (Prune.planOf v t (calls as)) s'.1.2.1 i).arr.length := by
              have l1 := (like_looks (plan := Prune.planOf v t (calls as)) (X := fun _ => True) X.lays hi).same s.1.2.1 s'.1.2.1
              have l2 := mems_len (plan := Prune.planOf v t (calls as)) X.lays hi s.1.2.1
              simp only [Node.id_mk] at l1 l2 j1
              omega
            simp only [Node.id_mk, List.getD_eq_getElem?_getD, List.getElem?_append_left hlen]
    exact way t.root [] (fun _ _ h => h) hmem
  refine ⟨fun x hx => ?_, fun q m hmem hsp => ?_, fun j p x ha hc ho => ?_⟩
  · obtain ⟨q, M, y, hM, rfl, hmade, hal⟩ := a1 x hx
    obtain ⟨S₁, hS₁⟩ := y.2.2.2.1
    have hpre : S₁ <+: S.filterMap id := by
      have := y.2.2.2.2
      rw [← hS₁] at this
      exact (List.prefix_append_right_inj _).mp this
    rcases mem_full E hM with ⟨m, hmem, rfl⟩ | ⟨k, A, w, p, z, g1, g2, rfl⟩
    · refine .inl ⟨q, m, hmem, ?_, alive_path hok hp hm hj (.inl ⟨m, hmem, by rw [Node.deck_id] at hal; exact hal⟩)⟩
      simp only [shownAs, Node.deck_core, Node.deck_path, Node.deck_id]
    · obtain ⟨p', z', g1', a, hA, hkey, hL'⟩ := X.sited.new k A w g2
      rw [g1] at g1'
      cases g1'
      have l1 := hleaf y g1 g2 ⟨hmade, hal⟩
      have hk : runes (leafOf v t k p z w).core.pathS = View.dash (v.full p) := runes_utf8 _
      refine .inr ⟨z, S₁, hpre, ?_, alive_path hok hp hm hj (.inr ⟨k, p, z, g1, hk⟩), ?_, ?_⟩
      · show NewAt v t as (runes (leafOf v t k p z w).core.pathS) z _
        rw [hk]
        exact ⟨Leaves.none hok ⟨a, hA, hkey, hL'⟩, k, p, g1, rfl, by rw [hS₁]; exact l1.2⟩
      · show w <:+ runes (leafOf v t k p z w).core.pathS
        rw [hk]
        exact ⟨a, hkey.symm⟩
      · show t.next ≤ t.next + 2 * k + 1
        omega
  · have := a2 _ (way hmem (List.prefix_refl q) hsp)
    simp only [shownAs, Node.deck_core, Node.deck_path, Node.deck_id] at this ⊢
    exact this
  · cases hsk : site j with
    | none =>
      obtain ⟨m, hm'⟩ := X.sited.old j p x ha hsk
      exact absurd hm' (Tree.contents_none.mp hc m)
    | some y =>
      obtain ⟨A, w⟩ := y
      obtain ⟨p', z', g1', a, hA, hq, _⟩ := X.sited.new j A w hsk
      rw [ha] at g1'
      cases g1'
      have hext0 : ext0 A.id = [t.next + 2 * j + 1] := by
        rcases I0.leaf X ha hsk with ⟨_, _, e⟩ | ⟨_, e, _⟩
        · exact absurd e ho
        · exact e
      have hin : leafOf v t j p x w ∈ (A.deck (fun _ c => c) ex).kids := by
        rw [Node.deck_kids, E.all j A w p x ha hsk]; simp
      have hw := (way hA (q' := View.dash (v.full p)) ⟨w, hq.symm⟩ fun c P y hc hy => hj.spares c P y p x hc hy (List.mem_of_getElem? ha)).snoc hin (fun s => by
        have he' : ∀ s' : σ, s'.1.2.2.1 A.id = [t.next + 2 * j + 1] := fun s' => (s'.2.2.1 _ (by rw [hext0]; simp)).trans hext0
        refine ⟨A.kids.length, ?_, fun s' _ => ?_⟩
        · rw [Node.deck_id]
          show _ < ((runs t (each v as) s.1.1).mem A.id).len
          rw [(s.2.1.joined X hsk).2, he']
          simp
        · rw [Node.deck_id]
          show ((runs t (each v as) s'.1.1).mem A.id).arr.getD _ 0 = _
          rw [(s'.2.1.joined X hsk).1, he']
          simp [leafOf, List.getD_eq_getElem?_getD, Node.id_mk])
      have hk : runes (leafOf v t j p x w).core.pathS = View.dash (v.full p) := runes_utf8 _
      have := a2 _ hw
      rw [shownAs, hk] at this
      exact ⟨_, this⟩

/-- **C116** … A key whose `Set` has returned before the walk begins, new or not, is the path of a call of `cb` (but if it is that of a branch, the path is what the branch has as such). -/
theorem C116_set (h : Reach K t) (hp : t.Plain v.delim) (hm : v.mode ≠ .up) (ht : Prune.Tidy v t (calls as)) (hs : Joins v t as)
    {j : Nat} {p : Str} {x : α} (hj : as[j]? = some (.set p x)) (hb : ∀ c, t.contents (View.dash (v.full p)) = some c → c.leaf = true)
    (S0 : List Nat) (ho : ((runs t (each v as) S0).gs j).outs ≠ []) (S : List (Option Nat)) (hd : (walks t (each v as) S0 S).1 = .done) :
    ∃ y, (View.dash (v.full p), y) ∈ (walks t (each v as) S0 S).2 := by
  obtain ⟨N, hN⟩ := C116_walk h hp hm ht hs
  obtain ⟨_, h1, h2⟩ := (hN S0 S).2 hd
  cases hc : t.contents (View.dash (v.full p)) with
  | none => exact h2 j p x hj hc ho
  | some c =>
    obtain ⟨m, hmem, rfl⟩ := (Tree.contents_node h.ok).mp hc
    have := h1 _ m hmem fun c P y hc hy => hs.spares c P y p x hc hy (List.mem_of_getElem? hj)
    rw [shownAs, Race.named h _ m hmem (hb _ hc), runes_utf8] at this
    exact ⟨_, this⟩

/-- **C116** … No call of `cb` is about a node at or below a key whose `Remove` has returned before the walk begins. -/
theorem C116_removed (h : Reach K t) (hp : t.Plain v.delim) (hm : v.mode ≠ .up) (ht : Prune.Tidy v t (calls as)) (hj : Joins v t as)
    {k : Nat} {p : Str} (hk : as[k]? = some (.remove p)) (S0 : List Nat) (ho : ((runs t (each v as) S0).gs k).outs ≠ [])
    (S : List (Option Nat)) (hd : (walks t (each v as) S0 S).1 = .done) {r : Str} {y : Core α}
    (hr : resolve v.delim t.contents (v.full p) = some (r, y)) {q : Str} (hq : r <+: q) {m : Node α} (hmem : (q, m) ∈ t.root.nodes []) :
    ∀ x ∈ (walks t (each v as) S0 S).2, x.2.2 ≠ m.id := by
  intro x hin hid
  obtain ⟨N, hN⟩ := C116_walk h hp hm ht hj
  obtain ⟨h1, _⟩ := (hN S0 S).2 hd
  obtain ⟨P, z, htk⟩ := ht.takes p (List.mem_of_getElem? (get_calls hk))
  have htk' := htk
  obtain ⟨p', t', e, hrm⟩ := htk
  cases e
  obtain ⟨_, _, u, hP, _, _, hres⟩ := Prune.takes_spec h.ok hp hm hrm
  rw [resolve_contents h.ok, hres] at hr
  obtain ⟨rfl, _⟩ := Prod.mk.inj (Option.some.inj hr)
  rcases h1 x hin with ⟨q', m', hm', rfl, hf⟩ | ⟨_, _, _, _, _, _, hlt⟩
  · obtain ⟨rfl, rfl⟩ := Prod.mk.inj (Node.node_inj h.ok.nodup hm' hmem hid)
    exact hf ⟨k, p, P, z, u, ho, hk, htk', hP, hq⟩
  · have := h.ok.lt _ hmem
    simp only at this
    omega

/-- **C116** … A new key whose `Set` has not begun when the walk ends is told of in no call of `cb`: each is about a node of the trie. -/
theorem C116_unset (h : Reach K t) (hp : t.Plain v.delim) (hm : v.mode ≠ .up) (ht : Prune.Tidy v t (calls as)) (hj : Joins v t as)
    (S0 : List Nat) (S : List (Option Nat)) {x : Str × Str × Nat}
    (hno : ∀ (j : Nat) p y, as[j]? = some (.set p y) → View.dash (v.full p) = x.1 → ((runs t (each v as) (S0 ++ S.filterMap id)).gs j).todo ≠ [])
    (hd : (walks t (each v as) S0 S).1 = .done) (hx : x ∈ (walks t (each v as) S0 S).2) : ∃ q m, (q, m) ∈ t.root.nodes [] ∧ x = shownAs m := by
  obtain ⟨N, hN⟩ := C116_walk h hp hm ht hj
  obtain ⟨h1, _⟩ := (hN S0 S).2 hd
  rcases h1 x hx with ⟨q, m, k1, k2, _⟩ | ⟨y, S₁, ⟨S₂, k2⟩, ⟨_, j, p, g1, g2, g3⟩, _⟩
  · exact ⟨q, m, k1, k2⟩
  · refine absurd ?_ (hno j p y g1 g2)
    rw [← k2, ← List.append_assoc, runs_append]
    exact run_todo _ _ _ _ _ g3

end

section witnesses
open Race (top three three_reach three_plain)

/-- `a`, `b` and `c`. -/
def abc : Tree Nat := (top.set (top.set (top.set Tree.new "a".toList 1).1 "b".toList 2).1 "c".toList 3).1

theorem abc_reach : Reach (fun _ => True) abc :=
  .step (.set top "c".toList 3) (.step (.set top "b".toList 2)
    (.step (.set top "a".toList 1) .new (fun _ _ => trivial) rfl) (fun _ _ => trivial) rfl) (fun _ _ => trivial) rfl

/-- **C116** That every node is told of once is false, even for nodes that nobody touches: `a` is removed when the walk has been there. It moves `b` and `c` to the left, under the running loop,
which goes on to find `c` in two places. So `cb` is called twice for `c`, and never for `b`. -/
theorem C116_twice_fails : ∃ S, walks abc (each top [.remove "a".toList]) [] S = (.done, [([], [], 0), ("a".toList, "a".toList, 2), ("c".toList, "c".toList, 6), ("c".toList, "c".toList, 6)]) :=
  ⟨List.replicate 5 none ++ List.replicate 40 (some 0) ++ List.replicate 30 none, by decide +kernel⟩

example : ∃ N, ∀ S0 S, let r := walks three (each top joining) S0 S
    (N ≤ S.count none → r.1 = .done) ∧ (r.1 = .done →
      (∀ x ∈ r.2, CallOf top three joining S0 (S.filterMap id) x) ∧
      (∀ q m, (q, m) ∈ three.root.nodes [] → (∀ c P x, c ∈ calls joining → Prune.Takes top three c P x → Prune.Spares three P x q) → shownAs m ∈ r.2) ∧
      ∀ (j : Nat) p x, joining[j]? = some (.set p x) → three.contents (View.dash (top.full p)) = none → ((runs three (each top joining) S0).gs j).outs ≠ [] →
        ∃ y, (View.dash (top.full p), y) ∈ r.2) :=
  C116_walk three_reach three_plain.plain (by decide) joining_tidy joining_joins

/-- `a.x` is set first. -/
example (S : List (Option Nat)) (hd : (walks three (each top joining) (List.replicate 60 0) S).1 = .done) :
    ∃ y, (View.dash (top.full "a.x".toList), y) ∈ (walks three (each top joining) (List.replicate 60 0) S).2 :=
  C116_set (j := 0) (x := 9) three_reach three_plain.plain (by decide) joining_tidy joining_joins rfl (fun c hc => by rw [new_x] at hc; cases hc) _ (by decide +kernel) S hd

/-- `db.host` is removed first. -/
example (S : List (Option Nat)) (hd : (walks three (each top joining) (List.replicate 60 2) S).1 = .done) {m : Node Nat} (hm : ("db.host".toList, m) ∈ three.root.nodes []) :
    ∀ x ∈ (walks three (each top joining) (List.replicate 60 2) S).2, x.2.2 ≠ m.id := by
  obtain ⟨y, hy⟩ := host_resolves
  exact C116_removed (k := 2) (v := top) three_reach three_plain.plain (by decide) joining_tidy joining_joins rfl _ (by decide +kernel) S hd hy (List.prefix_refl _) hm

/-- Nobody has begun to set `a.x`. -/
example (S : List (Option Nat)) (hS : S.filterMap id = List.replicate 30 2) {x : Str × Str × Nat} (hd : (walks three (each top joining) [] S).1 = .done)
    (hx : x ∈ (walks three (each top joining) [] S).2) (hkey : x.1 = View.dash (top.full "a.x".toList)) : ∃ q m, (q, m) ∈ three.root.nodes [] ∧ x = shownAs m :=
  C116_unset three_reach three_plain.plain (by decide) joining_tidy joining_joins [] S (fun j p y ha hq => by
    match j, ha with
    | 0, _ => rw [hS]; decide +kernel
    | 1, ha => cases ha; rw [hkey] at hq; exact absurd hq (by decide +kernel)
    | 2, ha => cases ha
    | n + 3, ha => cases ha) hd hx

end witnesses

end Parts
end Verif

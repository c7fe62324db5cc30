import Verif.Lemmas.RaceDupAll
import Verif.Lemmas.RaceGone
import Verif.Props.RaceDupNew
/-
C115: copying the trie beside `Set`, for new keys too, and `Remove`.
-/
namespace Verif
namespace Parts
variable {α : Type} [Inhabited α]
open Prune (Cell Mem Up Call)

/-- What may be under the key `q` in a copy that begins when the goroutines have run as in `S0`, while they run as in `L`: what is there in the trie, with a value that was
right at a moment of the copying, and a flag that was right at that moment or an earlier one, but without description, comment and tag; or a new leaf, if a
`Set` for that key had begun. -/
def CopyOf (v : View) (t : Tree α) (as : List (Act α)) (S0 L : List Nat) (q : Str) (c : Core α) : Prop :=
  (∃ c0 b x S₁ S₂, t.contents q = some c0 ∧ c = { c0 with hasData := b, data := x, desc := [], comment := [], tag := none } ∧
    S₁ <+: S₂ ∧ S₂ <+: L ∧ FlagAt v t as q c0.hasData b (S0 ++ S₁) ∧ ValueAt v t as q c0.data x (S0 ++ S₂)) ∨
  ∃ x S₁, c = held q x none ∧ S₁ <+: L ∧ NewAt v t as q x (S0 ++ S₁)

section
variable {K : Str → Prop} {v : View} {t : Tree α} {as : List (Act α)}

/-- **C115** Goroutines call `Remove`, `Set` for keys that are in the trie and for new ones, as in C109, and lookups, and one copies the trie. It may begin at any
moment (`S0`). The copy is complete after finitely many steps of its own, and has none of the nodes of the original (whose identities are below `f`). Whatever is
in it is right for a moment of the copying. A key of the trie is in it if no removal gets into the way to it, and so is a new key whose `Set` had returned
when the copying began. Nothing is in it that a `Remove` had taken away that had returned when the copying began (`Fell`). -/
theorem C115_copy (h : Reach K t) (hp : t.Plain v.delim) (hm : v.mode ≠ .up) (ht : Prune.Tidy v t (calls as)) (hj : Joins v t as) :
    ∃ N, ∀ f S0 S, let r := copies t (each v as) f S0 S
      (N ≤ S.count none → ∃ c, r.1 = .done c) ∧ ∀ c, r.1 = .done c →
        c.ids.Nodup ∧ (∀ i ∈ c.ids, f ≤ i ∧ i < r.2) ∧
        (∀ q m, (q, m) ∈ c.nodes [] → CopyOf v t as S0 (S.filterMap id) q m.core) ∧
        (∀ q, t.contents q ≠ none → (∀ c P x, c ∈ calls as → Prune.Takes v t c P x → Prune.Spares t P x q) → ∃ m, (q, m) ∈ c.nodes []) ∧
        (∀ (j : Nat) p x, as[j]? = some (.set p x) → t.contents (View.dash (v.full p)) = none → ((runs t (each v as) S0).gs j).outs ≠ [] →
          ∃ m, (View.dash (v.full p), m) ∈ c.nodes []) ∧
        ∀ q m, (q, m) ∈ c.nodes [] → ¬ Fell v t as (fun k => ((runs t (each v as) S0).gs k).outs ≠ []) q := by
  have hok := h.ok
  obtain ⟨site, B, X, hB⟩ := blended hok hp hm ht hj
  obtain ⟨ex, E⟩ := adds X
  obtain ⟨N, hN⟩ := bleads_walk (full t ex) [] (full_nodup hok E)
  refine ⟨N, fun f S0 S => ?_⟩
  let T := S0 ++ S.filterMap id
  have hrem : ∀ (k : Nat) p, as[k]? = some (.remove p) → ∃ T, Prune.planOf v t (calls as) k = some T := fun k p ha => by
    obtain ⟨P, x, htk⟩ := ht.takes p (List.mem_of_getElem? (get_calls ha))
    exact ⟨_, Prune.planOf_takes (get_calls ha) htk⟩
  obtain ⟨s0, ext0, g0, I0⟩ := hB S0
  let σ := {x : List Nat × (Nat → Nat) × (Nat → List Nat) × (Nat → Core α → Core α) //
    Blend v t as (Prune.start v t (calls as)).mem (Prune.planOf v t (calls as)) site B x.1 x.2.1 x.2.2.1 x.2.2.2 (runs t (each v as) x.1) ∧
      (∀ i, ext0 i ≠ [] → x.2.2.1 i = ext0 i) ∧ S0 <+: x.1 ∧ x.1 <+: T}
  let ms : σ → Mem α := fun x => (runs t (each v as) x.1.1).mem
  let R : σ → σ → Prop := fun a b => (Up a.1.2.1 b.1.2.1 ∧ ∀ i, a.1.2.2.1 i ≠ [] → b.1.2.2.1 i = a.1.2.2.1 i) ∧ a.1.1 <+: b.1.1
  let D : Nat → Prop := fun k => ((runs t (each v as) S0).gs k).outs ≠ []
  let L : σ → Nat → Prop := fun x i => Made t site x.1.2.2.1 i ∧ ¬ Dead v t as D i
  have hD : ∀ (x : σ) k, D k → ((runs t (each v as) x.1.1).gs k).outs ≠ [] := by
    intro x k hk e
    obtain ⟨S₁, hS₁⟩ := x.2.2.2.1
    have := run_outs t.root.id (2 * (each v as).length) k S₁ (runs t (each v as) S0)
    rw [← runs_append, hS₁, e] at this
    exact hk (List.prefix_nil.mp this)
  have hR0 : ∀ a, R a a := fun a => ⟨⟨Up.refl _, fun _ _ => rfl⟩, List.prefix_refl _⟩
  have hR1 : ∀ a b c, R a b → R b c → R a c := fun a b c h1 h2 =>
    ⟨⟨h1.1.1.trans h2.1.1, fun i hi => (h2.1.2 i (by rw [h1.1.2 i hi]; exact hi)).trans (h1.1.2 i hi)⟩, h1.2.trans h2.2⟩
  have hL : ∀ a b i, R a b → L a i → L b i := by
    rintro a b i hab ⟨h1 | ⟨k, A, w, h1, h2, h3⟩, h4⟩
    · exact ⟨.inl h1, h4⟩
    · exact ⟨.inr ⟨k, A, w, h1, h2, (hab.1.2 _ (by rw [h3]; simp)).trans h3⟩, h4⟩
  have hleaf : ∀ (x : σ) {k : Nat} {A : Node α} {w : Str} {p : Str} {y : α}, as[k]? = some (.set p y) → site k = some (A, w) → L x (t.next + 2 * k + 1) →
      ms x (t.next + 2 * k + 1) = leafCell w (jobOf v t k p y) ∧ ((runs t (each v as) x.1.1).gs k).todo = [] := by
    rintro x k A w p y g1 g2 ⟨⟨q', m, hm', e⟩ | ⟨k', A', w', e1, e2, e3⟩, _⟩
    · have := X.ok.lt _ hm'
      simp only at this e
      omega
    · obtain rfl : k = k' := by omega
      rw [g2] at e1
      cases e1
      rcases x.2.1.leaf X g1 g2 with ⟨_, e, _⟩ | ⟨_, _, e', e⟩
      · rw [e] at e3; cases e3
      · exact ⟨e, e'⟩
  have hsh : ∀ q m, (q, m) ∈ (full t ex).nodes [] → Prune.VShows R ms L m ∧ ∀ s, L s m.id → (ms s m.id).path = m.path := fun q m hmem => by
    refine ⟨gone_shows hp hm X E (ls := fun x : σ => x.1.1) (ss := fun x => x.1.2.1) (es := fun x => x.1.2.2.1) (gs := fun x => x.1.2.2.2)
      (ws := fun x => runs t (each v as) x.1.1) (fun x => x.2.1) hD hmem
      (blend_shows X E (ls := fun x : σ => x.1.1) (ss := fun x => x.1.2.1) (es := fun x => x.1.2.2.1) (gs := fun x => x.1.2.2.2)
        (ws := fun x => runs t (each v as) x.1.1) (fun x => x.2.1) (fun _ _ hxy => hxy.1) hmem), fun s hs => ?_⟩
    rcases mem_full E hmem with ⟨m, hm', rfl⟩ | ⟨k, A, w, p, z, g1, g2, rfl⟩
    · rw [Node.deck_id, Node.deck_path]
      show ((runs t (each v as) s.1.1).mem m.id).path = _
      rw [s.2.1.grown q m hm']
    · have := (hleaf s g1 g2 hs).1
      show (ms s (t.next + 2 * k + 1)).path = _
      rw [this]; rfl
  have hroot : ∀ x, L x (full t ex).id := fun x => ⟨.inl ⟨t.root.path, t.root, (by rw [Node.mem_nodes]; simp), (Node.deck_id _ _ _).symm⟩,
    (by rw [Node.deck_id]; exact root_alive hok hp hm D)⟩
  have hrid : (full t ex).id = t.root.id := Node.deck_id _ _ _
  obtain ⟨h1, h2⟩ := copying_leads (root := t.root.id) (gap := 2 * (each v as).length) (T := T) (R := R) (ms := ms)
    (Q := fun r => ∃ n' f', r = (Dp.push n' [], f') ∧ Bits R ms L [] (full t ex) n' f f')
    (J := fun L W x => W = runs t (each v as) L ∧ x.1.1 = L) hR0 hR1
    (fun L W x hJ => by rw [hJ.1, ← hJ.2])
    (fun L W x k hJ hLk => by
      obtain ⟨⟨⟨L', s', ext', g'⟩, I, h3, h4, h5⟩, rfl⟩ : ∃ y : σ, y = x := ⟨x, rfl⟩
      obtain ⟨rfl, rfl⟩ := hJ
      obtain ⟨s'', ext'', g'', hs, he, I'⟩ := I.tick X hrem (2 * (each v as).length) k
      have e : runs t (each v as) (L' ++ [k]) = (runs t (each v as) L').tick t.root.id (2 * (each v as).length) k := run_snoc _ _ _ _ _
      exact ⟨⟨(L' ++ [k], s'', ext'', g''), e ▸ I', fun i hi => (he i (by show ext' i ≠ []; rw [show ext' i = ext0 i from h3 i hi]; exact hi)).trans (h3 i hi),
        h4.trans (List.prefix_append _ _), hLk⟩, ⟨⟨hs, he⟩, List.prefix_append _ _⟩, e.symm, rfl⟩)
    (fun e he => by obtain ⟨n', f', rfl, _⟩ := he; exact ⟨_, rfl⟩) S
    (s := ⟨(S0, s0, ext0, g0), I0, fun _ _ => rfl, List.prefix_refl _, List.prefix_append _ _⟩) ⟨rfl, rfl⟩ rfl
    (by have := hN σ R ms L hR0 hR1 hL hsh ⟨(S0, s0, ext0, g0), I0, fun _ _ => rfl, List.prefix_refl _, List.prefix_append _ _⟩ [] f (hroot _); rwa [hrid] at this)
  refine ⟨h1, fun c hd => ?_⟩
  obtain ⟨n', f', e, b⟩ := h2 c hd
  have e1 : c = n' := by
    have := congrArg Prod.fst e
    rw [show (copying t.root.id (2 * (each v as).length) (runs t (each v as) S0, .visit t.root.id [], f) S).2.1 = _ from hd] at this
    cases this
    rfl
  have e2 : (copies t (each v as) f S0 S).2 = f' := congrArg Prod.snd e
  subst e1
  -- the way to the nodes of the tree
  have way : ∀ {q m}, (q, m) ∈ t.root.nodes [] → ∀ {q'}, q <+: q' → (∀ c P x, c ∈ calls as → Prune.Takes v t c P x → Prune.Spares t P x q') →
      Track R ms [] (full t ex) q (m.deck (fun _ c => c) ex) := by
    intro q m hmem q' hqq hsp
    have way : ∀ (n : Node α) (u : Str), (∀ q' m', (q', m') ∈ n.nodes u → (q', m') ∈ t.root.nodes []) → (q, m) ∈ n.nodes u →
        Track R ms u (n.deck (fun _ c => c) ex) q (m.deck (fun _ c => c) ex) := by
      intro n
      induction n using Node.ind with
      | h i p c k ih =>
        intro u hsub hin
        rw [Node.mem_nodes] at hin
        rcases hin with e | ⟨e, he, hin⟩
        · obtain ⟨rfl, rfl⟩ := Prod.mk.inj e
          have := Track.here (R := R) (ms := ms) u (Node.deck (fun _ c => c) ex (.mk i p c k))
          rwa [Node.deck_path] at this
        · have hi := hsub _ _ ((Node.mem_nodes u (.mk i p c k) _).mpr (.inl rfl))
          refine .down (c := e.deck (fun _ c => c) ex) (by rw [Node.deck_kids]; exact List.mem_append_left _ (List.mem_map.mpr ⟨e, he, rfl⟩)) (fun s => ?_)
            (by rw [Node.deck_path]; exact ih e he _ (fun q' m' hm' => hsub q' m' ((Node.mem_nodes u (.mk i p c k) _).mpr (.inr ⟨e, he, hm'⟩))) hin)
          obtain ⟨j, j1, j2⟩ := Prune.spares_sure (R := fun _ => False) hok hp hm (fun l c P y _ hc hy => hsp c P y (List.mem_of_getElem? hc) hy)
            (fun l T hT => ⟨id, hT⟩) X.lays (u := u ++ p) hi he ((Node.prefix_of_mem_nodes hin).trans hqq) s.1.2.1
          refine ⟨j, ?_, fun s' hs' => ?_⟩
          · show j < ((runs t (each v as) s.1.1).mem (Node.mk i p c k).id).len
            rw [s.2.1.grown _ _ hi]
            exact Nat.lt_of_lt_of_le j1 (Nat.le_add_right _ _)
          · show ((runs t (each v as) s'.1.1).mem (Node.mk i p c k).id).arr.getD j 0 = _
            rw [s'.2.1.grown _ _ hi, Node.deck_id, ← j2 _ hs'.1.1]
            have hlen : j < (Prune.mems (Prune.start v t (calls as)).mem (Prune.planOf v t (calls as)) s'.1.2.1 i).arr.length := by
              have l1 := (like_looks (plan := Prune.planOf v t (calls as)) (X := fun _ => True) X.lays hi).same s.1.2.1 s'.1.2.1
              have l2 := mems_len (plan := Prune.planOf v t (calls as)) X.lays hi s.1.2.1
              simp only [Node.id_mk] at l1 l2 j1
              omega
            simp only [Node.id_mk, List.getD_eq_getElem?_getD, List.getElem?_append_left hlen]
    exact way t.root [] (fun _ _ h => h) hmem
  have hkeys : ∀ {q k A w p z}, (q, leafOf v t k p z w) ∈ (full t ex).nodes [] → as[k]? = some (.set p z) → site k = some (A, w) → q = View.dash (v.full p) := by
    intro q k A w p z hM g1 g2
    obtain ⟨p', z', g1', a, hA, hkey, hL'⟩ := X.sited.new k A w g2
    rw [g1] at g1'
    cases g1'
    have hin : (View.dash (v.full p), leafOf v t k p z w) ∈ (full t ex).nodes [] := by
      refine (Node.mem_deck _ _ _ _ _ _).mpr (.inr ⟨a, A, leafOf v t k p z w, hA, by rw [E.all k A w p z g1 g2]; simp, ?_⟩)
      rw [Node.mem_nodes]
      exact .inl (by rw [hkey]; rfl)
    exact (Prod.mk.inj (Node.node_inj (full_nodup hok E) hM hin rfl)).1
  refine ⟨b.nodup, fun i hi => by rw [e2]; exact b.ids i hi, fun q m' hm' => ?_, fun q hq hsp => ?_, fun j p x ha hc ho => ?_, fun q m' hm' => ?_⟩
  · obtain ⟨M, hM, x1, x2, hx, hmade, hc⟩ := b.sound q m' hm'
    have hpre : ∀ x : σ, ∃ S₁, S0 ++ S₁ = x.1.1 ∧ S₁ <+: S.filterMap id := by
      intro x
      obtain ⟨S₁, hS₁⟩ := x.2.2.2.1
      refine ⟨S₁, hS₁, ?_⟩
      have := x.2.2.2.2
      rw [← hS₁] at this
      exact (List.prefix_append_right_inj _).mp this
    obtain ⟨S₁, hS₁, hpre1⟩ := hpre x1
    obtain ⟨S₂, hS₂, hpre2⟩ := hpre x2
    have hpre' : S₁ <+: S₂ := by
      have : x1.1.1 <+: x2.1.1 := hx.2
      rw [← hS₁, ← hS₂] at this
      exact (List.prefix_append_right_inj _).mp this
    rcases mem_full E hM with ⟨m, hmem, rfl⟩ | ⟨k, A, w, p, z, g1, g2, rfl⟩
    · have hcell : ∀ x : σ, (ms x m.id).core = x.1.2.2.2 m.id m.core := fun x => by
        show ((runs t (each v as) x.1.1).mem m.id).core = _
        rw [x.2.1.grown q m hmem]
      rw [Node.deck_id, hcell x1, hcell x2] at hc
      obtain ⟨f1, f2⟩ := x1.2.1.flag X hj hmem
      obtain ⟨_, _, _, f3⟩ := x2.2.1.core X hj hmem
      rw [← hS₁] at f2
      rw [← hS₂] at f3
      refine .inl ⟨m.core, (x1.1.2.2.2 m.id m.core).hasData, (x2.1.2.2.2 m.id m.core).data, S₁, S₂, (Tree.contents_node hok).mpr ⟨m, hmem, rfl⟩, ?_, hpre', hpre2, f2, ?_⟩
      · rw [hc, f1]
      · rcases f3 with f3 | ⟨j, p, x, k1, k2, k3, k4⟩
        · exact .inl f3
        · exact .inr ⟨j, p, by rw [k3]; exact k1, k2, k4⟩
    · obtain ⟨p', z', g1', a, hA, hkey, hL'⟩ := X.sited.new k A w g2
      rw [g1] at g1'
      cases g1'
      have l1 := hleaf x1 g1 g2 hmade
      have l2 := hleaf x2 g1 g2 (hL _ _ _ hx hmade)
      obtain rfl := hkeys hM g1 g2
      refine .inr ⟨z, S₁, ?_, hpre1, Leaves.none hok ⟨a, hA, hkey, hL'⟩, k, p, g1, rfl, by rw [hS₁]; exact l1.2⟩
      rw [hc]
      show ({ (ms x1 (t.next + 2 * k + 1)).core with data := (ms x2 (t.next + 2 * k + 1)).core.data, desc := [], comment := [], tag := none } : Core α) = _
      rw [l1.1, l2.1]
      rfl
  · cases hc : t.contents q with
    | none => exact absurd hc hq
    | some c0 =>
      obtain ⟨m, hmem, _⟩ := (Tree.contents_node hok).mp hc
      obtain ⟨m', hm', _⟩ := b.sure q _ (way hmem (List.prefix_refl q) hsp)
      exact ⟨m', hm'⟩
  · cases hsk : site j with
    | none =>
      obtain ⟨m, hm'⟩ := X.sited.old j p x ha hsk
      exact absurd hm' (Tree.contents_none.mp hc m)
    | some y =>
      obtain ⟨A, w⟩ := y
      obtain ⟨p', z', g1', a, hA, hq, _⟩ := X.sited.new j A w hsk
      rw [ha] at g1'
      cases g1'
      have hext0 : ext0 A.id = [t.next + 2 * j + 1] := by
        rcases I0.leaf X ha hsk with ⟨_, _, e⟩ | ⟨_, e, _⟩
        · exact absurd e ho
        · exact e
      have hin : leafOf v t j p x w ∈ (A.deck (fun _ c => c) ex).kids := by
        rw [Node.deck_kids, E.all j A w p x ha hsk]; simp
      have hw := (way hA (q' := View.dash (v.full p)) ⟨w, hq.symm⟩ fun c P y hc hy => hj.spares c P y p x hc hy (List.mem_of_getElem? ha)).snoc hin (fun s => by
        have he' : ∀ s' : σ, s'.1.2.2.1 A.id = [t.next + 2 * j + 1] := fun s' => (s'.2.2.1 _ (by rw [hext0]; simp)).trans hext0
        refine ⟨A.kids.length, ?_, fun s' _ => ?_⟩
        · rw [Node.deck_id]
          show _ < ((runs t (each v as) s.1.1).mem A.id).len
          rw [(s.2.1.joined X hsk).2, he']
          simp
        · rw [Node.deck_id]
          show ((runs t (each v as) s'.1.1).mem A.id).arr.getD _ 0 = _
          rw [(s'.2.1.joined X hsk).1, he']
          simp [leafOf, List.getD_eq_getElem?_getD, Node.id_mk])
      obtain ⟨m', hm', _⟩ := b.sure _ _ hw
      exact ⟨m', by rw [hq]; exact hm'⟩
  · obtain ⟨M, hM, x1, _, _, ⟨_, hal⟩, _⟩ := b.sound q m' hm'
    refine alive_path hok hp hm hj ?_
    rcases mem_full E hM with ⟨m, hmem, rfl⟩ | ⟨k, A, w, p, z, g1, g2, rfl⟩
    · exact .inl ⟨m, hmem, by rw [Node.deck_id] at hal; exact hal⟩
    · exact .inr ⟨k, p, z, g1, hkeys hM g1 g2⟩

/-- **C115** … A key that nobody sets is in the copy only if it is in the trie, and everything that is under it there is as in the trie, but without description,
comment and tag. -/
theorem C115_other (h : Reach K t) (hp : t.Plain v.delim) (hm : v.mode ≠ .up) (ht : Prune.Tidy v t (calls as)) (hj : Joins v t as)
    {q : Str} (hq : ∀ p x, .set p x ∈ as → View.dash (v.full p) ≠ q) (f : Nat) (S0 : List Nat) (S : List (Option Nat)) {c : Node α}
    (hd : (copies t (each v as) f S0 S).1 = .done c) {m : Node α} (hin : (q, m) ∈ c.nodes []) :
    ∃ c0, t.contents q = some c0 ∧ m.core = { c0 with desc := [], comment := [], tag := none } := by
  obtain ⟨N, hN⟩ := C115_copy h hp hm ht hj
  obtain ⟨_, _, h1, _⟩ := (hN f S0 S).2 c hd
  have hno : ∀ (j : Nat) p x, as[j]? = some (.set p x) → View.dash (v.full p) ≠ q := fun j p x hj => hq p x (List.mem_of_getElem? hj)
  rcases h1 q m hin with ⟨c0, b, x, S₁, S₂, k0, k1, _, _, k2, k3⟩ | ⟨x, S₁, _, _, _, j, p, k1, k2, _⟩
  · refine ⟨c0, k0, ?_⟩
    rcases k2 with ⟨rfl, _⟩ | ⟨_, j, p, x, hj, e, _⟩
    · rcases k3 with ⟨rfl, _⟩ | ⟨j, p, hj, e, _⟩
      · exact k1
      · exact absurd e (hno _ _ _ hj)
    · exact absurd e (hno _ _ _ hj)
  · exact absurd k2 (hno _ _ _ k1)

/-- **C115** … A key whose `Set` has returned before the copying begins, new or not, is in the copy, and everything that is under it there is as that `Set` stores
it. -/
theorem C115_set (h : Reach K t) (hp : t.Plain v.delim) (hm : v.mode ≠ .up) (ht : Prune.Tidy v t (calls as)) (hs : Joins v t as)
    {j : Nat} {p : Str} {x : α} (hj : as[j]? = some (.set p x)) (f : Nat) (S0 : List Nat) (ho : ((runs t (each v as) S0).gs j).outs ≠ [])
    (S : List (Option Nat)) {c : Node α} (hd : (copies t (each v as) f S0 S).1 = .done c) :
    (∃ m, (View.dash (v.full p), m) ∈ c.nodes []) ∧ ∀ m, (View.dash (v.full p), m) ∈ c.nodes [] →
      m.core = { held (View.dash (v.full p)) x (t.contents (View.dash (v.full p))) with desc := [], comment := [], tag := none } := by
  obtain ⟨N, hN⟩ := C115_copy h hp hm ht hs
  obtain ⟨_, _, h1, h2, h3, _⟩ := (hN f S0 S).2 c hd
  refine ⟨?_, fun m hin => ?_⟩
  · cases hc : t.contents (View.dash (v.full p)) with
    | none => exact h3 j p x hj hc ho
    | some c0 => exact h2 _ (by rw [hc]; nofun) fun c P y hc hy => hs.spares c P y p x hc hy (List.mem_of_getElem? hj)
  · have still : ∀ S', ((runs t (each v as) (S0 ++ S')).gs j).outs ≠ [] := by
      intro S' e
      have := run_outs t.root.id (2 * (each v as).length) j S' (runs t (each v as) S0)
      rw [← runs_append, e] at this
      exact ho (List.prefix_nil.mp this)
    have one : ∀ {j' : Nat} {p' : Str} {y : α}, as[j']? = some (.set p' y) → View.dash (v.full p') = View.dash (v.full p) → y = x := by
      intro j' p' y g1 g2
      have := hs.apart j' j p' y p x g1 hj g2
      subst this
      rw [hj] at g1
      cases g1
      rfl
    rcases h1 _ m hin with ⟨c0, b, y, S₁, S₂, k0, k1, _, _, k2, k3⟩ | ⟨y, S₁, k1, _, k0, j', p', g1, g2, _⟩
    · have hb : b = true := by
        rcases k2 with ⟨_, k⟩ | ⟨k, _⟩
        · exact absurd (k j p x hj rfl) (still _)
        · exact k
      have hy : y = x := by
        rcases k3 with ⟨_, k⟩ | ⟨j', p', g1, g2, _⟩
        · exact absurd (k j p x hj rfl) (still _)
        · exact one g1 g2
      rw [k1, k0, hb, hy]
      rfl
    · rw [k1, k0, one g1 g2]
      rfl

/-- **C115** … Nothing is in the copy at or below a key whose `Remove` has returned before the copying begins. -/
theorem C115_removed (h : Reach K t) (hp : t.Plain v.delim) (hm : v.mode ≠ .up) (ht : Prune.Tidy v t (calls as)) (hj : Joins v t as)
    {k : Nat} {p : Str} (hk : as[k]? = some (.remove p)) (f : Nat) (S0 : List Nat) (ho : ((runs t (each v as) S0).gs k).outs ≠ [])
    (S : List (Option Nat)) {c : Node α} (hd : (copies t (each v as) f S0 S).1 = .done c) {r : Str} {y : Core α}
    (hr : resolve v.delim t.contents (v.full p) = some (r, y)) {q : Str} (hq : r <+: q) (m : Node α) : (q, m) ∉ c.nodes [] := by
  intro hin
  obtain ⟨N, hN⟩ := C115_copy h hp hm ht hj
  obtain ⟨_, _, _, _, _, h1⟩ := (hN f S0 S).2 c hd
  obtain ⟨P, x, htk⟩ := ht.takes p (List.mem_of_getElem? (get_calls hk))
  have htk' := htk
  obtain ⟨p', t', e, hrm⟩ := htk
  cases e
  obtain ⟨_, _, u, hP, _, _, hres⟩ := Prune.takes_spec h.ok hp hm hrm
  refine h1 q m hin ⟨k, p, P, x, u, ho, hk, htk', hP, ?_⟩
  rw [resolve_contents h.ok, hres] at hr
  obtain ⟨rfl, _⟩ := Prod.mk.inj (Option.some.inj hr)
  exact hq

/-- **C115** … A new key whose `Set` has not begun when the copying ends is not in the copy. -/
theorem C115_unset (h : Reach K t) (hp : t.Plain v.delim) (hm : v.mode ≠ .up) (ht : Prune.Tidy v t (calls as)) (hj : Joins v t as)
    {q : Str} (hq : t.contents q = none) (f : Nat) (S0 : List Nat) (S : List (Option Nat))
    (hno : ∀ (j : Nat) p x, as[j]? = some (.set p x) → View.dash (v.full p) = q → ((runs t (each v as) (S0 ++ S.filterMap id)).gs j).todo ≠ [])
    {c : Node α} (hd : (copies t (each v as) f S0 S).1 = .done c) (m : Node α) : (q, m) ∉ c.nodes [] := by
  intro hin
  obtain ⟨N, hN⟩ := C115_copy h hp hm ht hj
  obtain ⟨_, _, h1, _⟩ := (hN f S0 S).2 c hd
  rcases h1 q m hin with ⟨c0, _, _, _, _, k0, _⟩ | ⟨x, S₁, _, ⟨S₂, k2⟩, _, j, p, g1, g2, g3⟩
  · rw [hq] at k0; cases k0
  · refine absurd ?_ (hno j p x g1 g2)
    rw [← k2, ← List.append_assoc, runs_append]
    exact run_todo _ _ _ _ _ g3

end

section examples
open Race (top three three_reach three_plain)

example : ∃ N, ∀ f S0 S, let r := copies three (each top joining) f S0 S
    (N ≤ S.count none → ∃ c, r.1 = .done c) ∧ ∀ c, r.1 = .done c →
      c.ids.Nodup ∧ (∀ i ∈ c.ids, f ≤ i ∧ i < r.2) ∧
      (∀ q m, (q, m) ∈ c.nodes [] → CopyOf top three joining S0 (S.filterMap id) q m.core) ∧
      (∀ q, three.contents q ≠ none → (∀ c P x, c ∈ calls joining → Prune.Takes top three c P x → Prune.Spares three P x q) → ∃ m, (q, m) ∈ c.nodes []) ∧
      (∀ (j : Nat) p x, joining[j]? = some (.set p x) → three.contents (View.dash (top.full p)) = none → ((runs three (each top joining) S0).gs j).outs ≠ [] →
        ∃ m, (View.dash (top.full p), m) ∈ c.nodes []) ∧
      ∀ q m, (q, m) ∈ c.nodes [] → ¬ Fell top three joining (fun k => ((runs three (each top joining) S0).gs k).outs ≠ []) q :=
  C115_copy three_reach three_plain.plain (by decide) joining_tidy joining_joins

/-- `a.log.level` is in the copy: the removal of `db.host` does not get into its way. -/
example (f : Nat) (S0 : List Nat) (S : List (Option Nat)) {c : Node Nat} (hd : (copies three (each top joining) f S0 S).1 = .done c) :
    ∃ m, ("a.log.level".toList, m) ∈ c.nodes [] := by
  obtain ⟨N, hN⟩ := C115_copy (v := top) three_reach three_plain.plain (by decide) joining_tidy joining_joins
  exact ((hN f S0 S).2 c hd).2.2.2.1 _ (by decide +kernel) joining_spare

example (f : Nat) (S0 : List Nat) (S : List (Option Nat)) {c : Node Nat} (hd : (copies three (each top joining) f S0 S).1 = .done c) {m : Node Nat}
    (hin : ("a.name".toList, m) ∈ c.nodes []) :
    ∃ c0, three.contents "a.name".toList = some c0 ∧ m.core = { c0 with desc := [], comment := [], tag := none } :=
  C115_other three_reach three_plain.plain (by decide) joining_tidy joining_joins (fun p x h => by
    rcases List.mem_cons.mp h with e | h
    · rw [(Act.set.inj e).1]; decide +kernel
    · rcases List.mem_cons.mp h with e | h
      · rw [(Act.set.inj e).1]; decide +kernel
      · rcases List.mem_cons.mp h with e | h
        · cases e
        · cases h) f S0 S hd hin

/-- `a.x` is set first. -/
example (f : Nat) (S : List (Option Nat)) {c : Node Nat} (hd : (copies three (each top joining) f (List.replicate 60 0) S).1 = .done c) :
    (∃ m, (View.dash (top.full "a.x".toList), m) ∈ c.nodes []) ∧ ∀ m, (View.dash (top.full "a.x".toList), m) ∈ c.nodes [] →
      m.core = { held (View.dash (top.full "a.x".toList)) 9 (three.contents (View.dash (top.full "a.x".toList))) with desc := [], comment := [], tag := none } :=
  C115_set (j := 0) three_reach three_plain.plain (by decide) joining_tidy joining_joins rfl f _ (by decide +kernel) S hd

/-- `db.host` is removed first. -/
example (f : Nat) (S : List (Option Nat)) {c : Node Nat} (hd : (copies three (each top joining) f (List.replicate 60 2) S).1 = .done c) (m : Node Nat) :
    ("db.host".toList, m) ∉ c.nodes [] := by
  obtain ⟨y, hy⟩ := host_resolves
  exact C115_removed (k := 2) (v := top) three_reach three_plain.plain (by decide) joining_tidy joining_joins rfl f _ (by decide +kernel) S hd hy (List.prefix_refl _) m

/-- Nobody has begun to set `a.x`. -/
example (f : Nat) (S : List (Option Nat)) (hS : S.filterMap id = List.replicate 30 2) {c : Node Nat} (hd : (copies three (each top joining) f [] S).1 = .done c)
    (m : Node Nat) : (View.dash (top.full "a.x".toList), m) ∉ c.nodes [] :=
  C115_unset three_reach three_plain.plain (by decide) joining_tidy joining_joins new_x f [] S (fun j p x ha hq => by
    match j, ha with
    | 0, _ => rw [hS]; decide +kernel
    | 1, ha => cases ha; exact absurd hq (by decide +kernel)
    | 2, ha => cases ha
    | n + 3, ha => cases ha) hd m

end examples

end Parts
end Verif

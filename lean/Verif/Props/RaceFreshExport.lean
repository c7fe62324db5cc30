import Verif.Lemmas.RaceFreshExport
import Verif.Lemmas.RaceGone
import Verif.Props.RaceFreshGet
import Verif.Props.RaceMixExport
/-
C111: exporting the trie beside `Set` for new keys and `Remove`.
-/
namespace Verif
namespace Parts
variable {α : Type} [Inhabited α]
open Prune (Cell Mem Pc Call Up)

/-- When the goroutines have run as in `S`, the value `x` is right for the key `q`, which is not in the trie: it is the value of a `Set` for that key that has begun. -/
def NewAt (v : View) (t : Tree α) (as : List (Act α)) (q : Str) (x : α) (S : List Nat) : Prop :=
  t.contents q = none ∧ ∃ (j : Nat) (p : Str), as[j]? = some (.set p x) ∧ View.dash (v.full p) = q ∧ ((runs t (each v as) S).gs j).todo = []

section
variable {K : Str → Prop} {v : View} {t : Tree α} {as : List (Act α)}

/-- The export, step by step. -/
theorem fresh_gather (h : Reach K t) (hp : t.Plain v.delim) (hm : v.mode ≠ .up) (ht : Prune.Tidy v t (calls as)) (hj : Joins v t as) :
    ∃ N, ∀ S0 S, let s := gathers v t (each v as) S0 S
      (N ≤ S.count none → s.1 = .done) ∧ (s.1 = .done →
        (∀ e ∈ s.2, endsW v.delim e.1 = false ∧ ∃ S₁, S₁ <+: S.filterMap id ∧
          ((∃ y, Race.Exported v.delim t e.1 y ∧ ValueAt v t as e.1 y e.2 (S0 ++ S₁)) ∨ NewAt v t as e.1 e.2 (S0 ++ S₁))) ∧
        (∀ q y, Race.Exported v.delim t q y → (∀ c P x, c ∈ calls as → Prune.Takes v t c P x → Prune.Spares t P x q) → ∃ x, (q, x) ∈ s.2) ∧
        (∀ (j : Nat) p x, as[j]? = some (.set p x) → t.contents (View.dash (v.full p)) = none → endsW v.delim (View.dash (v.full p)) = false →
          ((runs t (each v as) S0).gs j).outs ≠ [] → ∃ x, (View.dash (v.full p), x) ∈ s.2) ∧
        ∀ e ∈ s.2, ¬ Fell v t as (fun k => ((runs t (each v as) S0).gs k).outs ≠ []) e.1) := by
  have hok := h.ok
  have hn := Race.named h
  obtain ⟨site, B, X, hB⟩ := blended hok hp hm ht hj
  obtain ⟨ex, E⟩ := adds X
  obtain ⟨N, hN⟩ := Prune.vleads_all (α := α) v.delim (full_nodup hok E) []
  refine ⟨N, fun S0 S => ?_⟩
  let T := S0 ++ S.filterMap id
  have hrem : ∀ (k : Nat) p, as[k]? = some (.remove p) → ∃ T, Prune.planOf v t (calls as) k = some T := fun k p ha => by
    obtain ⟨P, x, htk⟩ := ht.takes p (List.mem_of_getElem? (get_calls ha))
    exact ⟨_, Prune.planOf_takes (get_calls ha) htk⟩
  obtain ⟨s0, ext0, g0, I0⟩ := hB S0
  let σ := {x : List Nat × (Nat → Nat) × (Nat → List Nat) × (Nat → Core α → Core α) //
    Blend v t as (Prune.start v t (calls as)).mem (Prune.planOf v t (calls as)) site B x.1 x.2.1 x.2.2.1 x.2.2.2 (runs t (each v as) x.1) ∧
      (∀ i, ext0 i ≠ [] → x.2.2.1 i = ext0 i) ∧ S0 <+: x.1 ∧ x.1 <+: T}
  let ms : σ → Mem α := fun x => (runs t (each v as) x.1.1).mem
  let R : σ → σ → Prop := fun a b => Up a.1.2.1 b.1.2.1 ∧ ∀ i, a.1.2.2.1 i ≠ [] → b.1.2.2.1 i = a.1.2.2.1 i
  let D : Nat → Prop := fun k => ((runs t (each v as) S0).gs k).outs ≠ []
  let L : σ → Nat → Prop := fun x i => Made t site x.1.2.2.1 i ∧ ¬ Dead v t as D i
  have hD : ∀ (x : σ) k, D k → ((runs t (each v as) x.1.1).gs k).outs ≠ [] := by
    intro x k hk e
    obtain ⟨S₁, hS₁⟩ := x.2.2.2.1
    have := run_outs t.root.id (2 * (each v as).length) k S₁ (runs t (each v as) S0)
    rw [← runs_append, hS₁, e] at this
    exact hk (List.prefix_nil.mp this)
  have hR0 : ∀ a, R a a := fun a => ⟨Up.refl _, fun _ _ => rfl⟩
  have hR1 : ∀ a b c, R a b → R b c → R a c := fun a b c h1 h2 =>
    ⟨h1.1.trans h2.1, fun i hi => (h2.2 i (by rw [h1.2 i hi]; exact hi)).trans (h1.2 i hi)⟩
  have hL : ∀ a b i, R a b → L a i → L b i := by
    rintro a b i hab ⟨h1 | ⟨k, A, w, h1, h2, h3⟩, h4⟩
    · exact ⟨.inl h1, h4⟩
    · exact ⟨.inr ⟨k, A, w, h1, h2, (hab.2 _ (by rw [h3]; simp)).trans h3⟩, h4⟩
  have hsh : ∀ q m, (q, m) ∈ (full t ex).nodes [] → Prune.VShows R ms L m := fun q m hmem =>
    gone_shows hp hm X E (ls := fun x : σ => x.1.1) (ss := fun x => x.1.2.1) (es := fun x => x.1.2.2.1) (gs := fun x => x.1.2.2.2)
      (ws := fun x => runs t (each v as) x.1.1) (fun x => x.2.1) hD hmem
      (blend_shows X E (ls := fun x : σ => x.1.1) (ss := fun x => x.1.2.1) (es := fun x => x.1.2.2.1) (gs := fun x => x.1.2.2.2)
        (ws := fun x => runs t (each v as) x.1.1) (fun x => x.2.1) (fun _ _ hxy => hxy) hmem)
  have hroot : ∀ x, L x (full t ex).id := fun x => ⟨.inl ⟨t.root.path, t.root, (by rw [Node.mem_nodes]; simp), (Node.deck_id _ _ _).symm⟩,
    (by rw [Node.deck_id]; exact root_alive hok hp hm D)⟩
  have hrid : (full t ex).id = t.root.id := Node.deck_id _ _ _
  have hN' := hN σ R ms L hR0 hR1 hL hsh
  obtain ⟨h1, h2⟩ := gather_leads (d := v.delim) (root := t.root.id) (gap := 2 * (each v as).length) (T := T) (R := R) (ms := ms)
    (Q := fun r => r.1 = .done ∧ Prune.VAdds v.delim R ms L (full t ex) [] r.2)
    (J := fun L W x => W = runs t (each v as) L ∧ x.1.1 = L) hR0 hR1
    (fun L W x hJ => by rw [hJ.1, ← hJ.2])
    (fun L W x k hJ hLk => by
      obtain ⟨⟨⟨L', s', ext', g'⟩, I, h3, h4, h5⟩, rfl⟩ : ∃ y : σ, y = x := ⟨x, rfl⟩
      obtain ⟨rfl, rfl⟩ := hJ
      obtain ⟨s'', ext'', g'', hs, he, I'⟩ := I.tick X hrem (2 * (each v as).length) k
      have e : runs t (each v as) (L' ++ [k]) = (runs t (each v as) L').tick t.root.id (2 * (each v as).length) k := run_snoc _ _ _ _ _
      exact ⟨⟨(L' ++ [k], s'', ext'', g''), e ▸ I', fun i hi => (he i (by show ext' i ≠ []; rw [show ext' i = ext0 i from h3 i hi]; exact hi)).trans (h3 i hi),
        h4.trans (List.prefix_append _ _), hLk⟩, ⟨hs, he⟩, e.symm, rfl⟩)
    (fun e he => he.1) S (s := ⟨(S0, s0, ext0, g0), I0, fun _ _ => rfl, List.prefix_refl _, List.prefix_append _ _⟩) ⟨rfl, rfl⟩ rfl
    (by have := hN' ⟨(S0, s0, ext0, g0), I0, fun _ _ => rfl, List.prefix_refl _, List.prefix_append _ _⟩ (hroot _); rwa [hrid] at this)
  refine ⟨h1, fun hd => ?_⟩
  obtain ⟨_, a1, a2⟩ := h2 hd
  -- the way to the nodes of the tree
  have way : ∀ {q m}, (q, m) ∈ t.root.nodes [] → ∀ {q'}, q <+: q' → (∀ c P x, c ∈ calls as → Prune.Takes v t c P x → Prune.Spares t P x q') →
      Prune.Way R ms (full t ex) (m.deck (fun _ c => c) ex) := by
    intro q m hmem q' hqq hsp
    have way : ∀ (n : Node α) (u : Str), (∀ q' m', (q', m') ∈ n.nodes u → (q', m') ∈ t.root.nodes []) → (q, m) ∈ n.nodes u →
        Prune.Way R ms (n.deck (fun _ c => c) ex) (m.deck (fun _ c => c) ex) := by
      intro n
      induction n using Node.ind with
      | h i p c k ih =>
        intro u hsub hin
        rw [Node.mem_nodes] at hin
        rcases hin with e | ⟨e, he, hin⟩
        · rw [(Prod.mk.inj e).2]; exact .here _
        · have hi := hsub _ _ ((Node.mem_nodes u (.mk i p c k) _).mpr (.inl rfl))
          refine .down (c := e.deck (fun _ c => c) ex) (by rw [Node.deck_kids]; exact List.mem_append_left _ (List.mem_map.mpr ⟨e, he, rfl⟩)) (fun s => ?_)
            (ih e he _ (fun q' m' hm' => hsub q' m' ((Node.mem_nodes u (.mk i p c k) _).mpr (.inr ⟨e, he, hm'⟩))) hin)
          obtain ⟨j, j1, j2⟩ := Prune.spares_sure (R := fun _ => False) hok hp hm (fun l c P y _ hc hy => hsp c P y (List.mem_of_getElem? hc) hy)
            (fun l T hT => ⟨id, hT⟩) X.lays (u := u ++ p) hi he ((Node.prefix_of_mem_nodes hin).trans hqq) s.1.2.1
          refine ⟨j, ?_, fun s' hs' => ?_⟩
          · show j < ((runs t (each v as) s.1.1).mem (Node.mk i p c k).id).len
            rw [s.2.1.grown _ _ hi]
            exact Nat.lt_of_lt_of_le j1 (Nat.le_add_right _ _)
          · show ((runs t (each v as) s'.1.1).mem (Node.mk i p c k).id).arr.getD j 0 = _
            rw [s'.2.1.grown _ _ hi, Node.deck_id, ← j2 _ hs'.1]
            have hlen : j < (Prune.mems (Prune.start v t (calls as)).mem (Prune.planOf v t (calls as)) s'.1.2.1 i).arr.length := by
              have l1 := (like_looks (plan := Prune.planOf v t (calls as)) (X := fun _ => True) X.lays hi).same s.1.2.1 s'.1.2.1
              have l2 := mems_len (plan := Prune.planOf v t (calls as)) X.lays hi s.1.2.1
              simp only [Node.id_mk] at l1 l2 j1
              omega
            simp only [Node.id_mk, List.getD_eq_getElem?_getD, List.getElem?_append_left hlen]
    exact way t.root [] (fun _ _ h => h) hmem
  refine ⟨fun e he => ?_, fun q y hq hsp => ?_, fun j p x ha hc he ho => ?_, fun e he => ?_⟩
  · obtain ⟨q, m, x, hmem, hsw, rfl, hmade⟩ := a1 e he
    obtain ⟨S₁, hS₁⟩ := x.2.2.2.1
    have hpre : S₁ <+: S.filterMap id := by
      have := x.2.2.2.2
      rw [← hS₁] at this
      exact (List.prefix_append_right_inj _).mp this
    have hx : runs t (each v as) x.1.1 = runs t (each v as) (S0 ++ S₁) := by rw [hS₁]
    rcases mem_full E hmem with ⟨m, hm', rfl⟩ | ⟨k, A, w, p, z, g1, g2, rfl⟩
    · rw [Node.deck_core] at hsw
      obtain ⟨k1, k2⟩ := shown_key hok hn hm' hsw
      have hends : endsW v.delim q = false := by obtain ⟨_, _, _, h3, _⟩ := k2; exact h3
      rw [Node.deck_core, Node.deck_id]
      show endsW v.delim (runes m.core.pathS) = false ∧ _
      rw [k1]
      refine ⟨hends, S₁, hpre, .inl ⟨_, k2, ?_⟩⟩
      obtain ⟨_, _, _, c4⟩ := x.2.1.core X hj hm'
      have hv : (ms x m.id).core = x.1.2.2.2 m.id m.core := by
        show ((runs t (each v as) x.1.1).mem m.id).core = _
        rw [x.2.1.grown q m hm']
      rw [← hv, hx] at c4
      rcases c4 with c4 | ⟨j, p, z, g1, g2, g3, g4⟩
      · exact .inl c4
      · exact .inr ⟨j, p, by rw [g3]; exact g1, g2, g4⟩
    · obtain ⟨p', z', g1', hL'⟩ := X.sited.new k A w g2
      rw [g1] at g1'
      cases g1'
      have hkey : runes (leafOf v t k p z w).core.pathS = View.dash (v.full p) := runes_utf8 _
      have hends : endsW v.delim (View.dash (v.full p)) = false := by
        have := Race.shown_eq (d := v.delim) (q := View.dash (v.full p)) (c := (leafOf v t k p z w).core) (fun _ => rfl)
        rw [hsw] at this
        simpa [leafOf, leafCell, Node.core] using this.symm
      have hcell : (runs t (each v as) x.1.1).mem (t.next + 2 * k + 1) = leafCell w (jobOf v t k p z) ∧ ((runs t (each v as) x.1.1).gs k).todo = [] := by
        rcases hmade.1 with ⟨q', m, hm', e⟩ | ⟨k', A', w', e1, e2, e3⟩
        · have := X.ok.lt _ hm'
          simp only [leafOf, Node.id_mk] at this e
          omega
        · obtain rfl : k = k' := by simp only [leafOf, Node.id_mk] at e2; omega
          rw [g2] at e1
          cases e1
          rcases x.2.1.leaf X g1 g2 with ⟨_, e, _⟩ | ⟨_, _, e', e⟩
          · rw [e] at e3; cases e3
          · exact ⟨e, e'⟩
      have hdata : (ms x (leafOf v t k p z w).id).core.data = z := by
        show ((runs t (each v as) x.1.1).mem (t.next + 2 * k + 1)).core.data = z
        rw [hcell.1]; rfl
      rw [hkey, hdata]
      exact ⟨hends, S₁, hpre, .inr ⟨hL'.none hok, k, p, g1, rfl, by rw [← hx]; exact hcell.2⟩⟩
  · obtain ⟨m, hmem, hx⟩ := (Prune.exported_iff hok hn).mp hq
    have hsw : Race.shown v.delim m.core = true := by
      rw [Prune.entryOf] at hx
      split at hx
      · assumption
      · cases hx
    obtain ⟨k1, _⟩ := shown_key hok hn hmem hsw
    rw [← k1]
    have := a2 (m.deck (fun _ c => c) ex) (way hmem (List.prefix_refl q) hsp) (by rw [Node.deck_core]; exact hsw)
    rwa [Node.deck_core] at this
  · cases hsk : site j with
    | none =>
      obtain ⟨m, hm'⟩ := X.sited.old j p x ha hsk
      exact absurd hm' (Tree.contents_none.mp hc m)
    | some y =>
      obtain ⟨A, w⟩ := y
      obtain ⟨p', z', g1', a, hA, hq, _⟩ := X.sited.new j A w hsk
      rw [ha] at g1'
      cases g1'
      have hext0 : ext0 A.id = [t.next + 2 * j + 1] := by
        rcases I0.leaf X ha hsk with ⟨_, _, e⟩ | ⟨_, e, _⟩
        · exact absurd e ho
        · exact e
      have hin : leafOf v t j p x w ∈ (A.deck (fun _ c => c) ex).kids := by
        rw [Node.deck_kids, E.all j A w p x ha hsk]; simp
      have hw := (way hA (q' := View.dash (v.full p)) ⟨w, hq.symm⟩ fun c P y hc hy => hj.spares c P y p x hc hy (List.mem_of_getElem? ha)).snoc hin (fun s => by
        have he' : ∀ s' : σ, s'.1.2.2.1 A.id = [t.next + 2 * j + 1] := fun s' => (s'.2.2.1 _ (by rw [hext0]; simp)).trans hext0
        refine ⟨A.kids.length, ?_, fun s' _ => ?_⟩
        · rw [Node.deck_id]
          show _ < ((runs t (each v as) s.1.1).mem A.id).len
          rw [(s.2.1.joined X hsk).2, he']
          simp
        · rw [Node.deck_id]
          show ((runs t (each v as) s'.1.1).mem A.id).arr.getD _ 0 = _
          rw [(s'.2.1.joined X hsk).1, he']
          simp [leafOf, List.getD_eq_getElem?_getD, Node.id_mk])
      have hkey : runes (leafOf v t j p x w).core.pathS = View.dash (v.full p) := runes_utf8 _
      have := a2 _ hw (by
        rw [Race.shown_eq (d := v.delim) (q := View.dash (v.full p)) (c := (leafOf v t j p x w).core) (fun _ => rfl), he]
        rfl)
      rwa [hkey] at this
  · obtain ⟨q, m, x, hmem, hsw, rfl, _, hal⟩ := a1 e he
    refine alive_path hok hp hm hj ?_
    rcases mem_full E hmem with ⟨m, hm', rfl⟩ | ⟨k, A, w, p, z, g1, g2, rfl⟩
    · rw [Node.deck_core] at hsw
      obtain ⟨k1, _⟩ := shown_key hok hn hm' hsw
      rw [Node.deck_core]
      exact .inl ⟨m, (by show (runes m.core.pathS, m) ∈ _; rw [k1]; exact hm'), by rw [Node.deck_id] at hal; exact hal⟩
    · exact .inr ⟨k, p, z, g1, runes_utf8 _⟩
/-- **C111** Goroutines call `Remove`, `Set` for keys that are in the trie and for new ones, as in C109, and `Query`, each once, and one exports the trie.
It may begin at any moment (`S0`). The export ends after finitely many steps of its own. All that it has put into the map are keys that the export of
the trie has too, each with a value that is right for a moment of the export, and new keys, each with the value of its `Set`, which had begun at a
moment of the export. -/
theorem C111_sound (h : Reach K t) (hp : t.Plain v.delim) (hm : v.mode ≠ .up) (ht : Prune.Tidy v t (calls as)) (hj : Joins v t as) :
    ∃ N, ∀ S0 S, let s := gathers v t (each v as) S0 S
      (N ≤ S.count none → s.1 = .done) ∧ (s.1 = .done → ∀ e ∈ s.2, endsW v.delim e.1 = false ∧ ∃ S₁, S₁ <+: S.filterMap id ∧
        ((∃ y, Race.Exported v.delim t e.1 y ∧ ValueAt v t as e.1 y e.2 (S0 ++ S₁)) ∨ NewAt v t as e.1 e.2 (S0 ++ S₁))) := by
  obtain ⟨N, hN⟩ := fresh_gather h hp hm ht hj
  exact ⟨N, fun S0 S => ⟨(hN S0 S).1, fun hd => ((hN S0 S).2 hd).1⟩⟩

/-- **C111** … A key of the trie is in the map if no removal gets into the way to it. -/
theorem C111_kept (h : Reach K t) (hp : t.Plain v.delim) (hm : v.mode ≠ .up) (ht : Prune.Tidy v t (calls as)) (hj : Joins v t as)
    {q : Str} {y : α} (hq : Race.Exported v.delim t q y) (hw : ∀ c P x, c ∈ calls as → Prune.Takes v t c P x → Prune.Spares t P x q)
    (S0 : List Nat) (S : List (Option Nat)) : let s := gathers v t (each v as) S0 S
      s.1 = .done → ∃ x S₁, (q, x) ∈ s.2 ∧ S₁ <+: S.filterMap id ∧ ValueAt v t as q y x (S0 ++ S₁) := by
  obtain ⟨N, hN⟩ := fresh_gather h hp hm ht hj
  intro s hd
  obtain ⟨h1, h2, _⟩ := (hN S0 S).2 hd
  obtain ⟨x, hx⟩ := h2 q y hq hw
  obtain ⟨_, S₁, k2, ⟨y', k1, k3⟩ | ⟨k, _⟩⟩ := h1 _ hx
  · obtain ⟨c, c1, _, _, rfl⟩ := hq
    obtain ⟨c', c1', _, _, rfl⟩ := k1
    rw [show t.contents q = some c' from c1'] at c1
    cases c1
    exact ⟨x, S₁, hx, k2, k3⟩
  · obtain ⟨c, c1, _⟩ := hq
    rw [show t.contents q = none from k] at c1
    cases c1

/-- **C111** A key whose `Set` has returned before the export begins is in the map, with the value of that `Set` and no other, be it
new or not (but not if the export would leave it out anyway: if it ends with the delimiter or is that of a branch). -/
theorem C111_set (h : Reach K t) (hp : t.Plain v.delim) (hm : v.mode ≠ .up) (ht : Prune.Tidy v t (calls as)) (hj : Joins v t as)
    {j : Nat} {p : Str} {x : α} (ha : as[j]? = some (.set p x)) (he : endsW v.delim (View.dash (v.full p)) = false)
    (hb : ∀ c, t.contents (View.dash (v.full p)) = some c → c.leaf = true)
    (S0 : List Nat) (ho : ((runs t (each v as) S0).gs j).outs ≠ []) (S : List (Option Nat)) : let s := gathers v t (each v as) S0 S
      s.1 = .done → (View.dash (v.full p), x) ∈ s.2 ∧ ∀ z, (View.dash (v.full p), z) ∈ s.2 → z = x := by
  intro s hd
  obtain ⟨N, hN⟩ := fresh_gather h hp hm ht hj
  obtain ⟨h1, h2, h3, _⟩ := (hN S0 S).2 hd
  have one : ∀ z, (View.dash (v.full p), z) ∈ s.2 → z = x := by
    intro z hz
    have same : ∀ (j' : Nat) p', as[j']? = some (.set p' z) → View.dash (v.full p') = View.dash (v.full p) → z = x := by
      intro j' p' g1 g2
      have := hj.apart j' j p' z p x g1 ha g2
      subst this
      rw [ha] at g1
      cases g1
      rfl
    obtain ⟨_, S₁, _, ⟨_, _, ⟨_, k⟩ | ⟨j', p', g1, g2, _⟩⟩ | ⟨_, j', p', g1, g2, _⟩⟩ := h1 _ hz
    · have := run_outs t.root.id (2 * (each v as).length) j S₁ (runs t (each v as) S0)
      rw [← runs_append, k j p x ha rfl] at this
      exact absurd (List.prefix_nil.mp this) ho
    · exact same j' p' g1 g2
    · exact same j' p' g1 g2
  have some' : ∃ z, (View.dash (v.full p), z) ∈ s.2 := by
    cases hc : t.contents (View.dash (v.full p)) with
    | none => exact h3 j p x ha hc he ho
    | some c => exact h2 _ c.data ⟨c, hc, hb c hc, he, rfl⟩ fun c P y hc hy => hj.spares c P y p x hc hy (List.mem_of_getElem? ha)
  obtain ⟨z, hz⟩ := some'
  obtain rfl := one z hz
  exact ⟨hz, one⟩

omit [Inhabited α] in
theorem step_todo [Inhabited α] (root gap : Nat) (M : Mem α) (G : Gor α) (h : G.todo = []) : (G.step root gap M).2.todo = [] := by
  obtain ⟨v, todo, d, outs, f⟩ := G
  simp only at h
  subst h
  cases d with
  | idle => rfl
  | asks c pc => cases pc <;> rfl
  | sets J pc => cases pc <;> rfl

theorem run_todo (root gap k : Nat) (S : List Nat) : ∀ W : World α, (W.gs k).todo = [] → ((W.run root gap S).gs k).todo = [] := by
  induction S with
  | nil => exact fun W h => h
  | cons l S ih =>
    intro W h
    refine ih (W.tick root gap l) ?_
    by_cases e : k = l
    · subst e
      rw [show (W.tick root gap k).gs k = ((W.gs k).step root gap W.mem).2 from if_pos rfl]
      exact step_todo _ _ _ _ h
    · rw [show (W.tick root gap l).gs k = W.gs k from if_neg e]
      exact h

/-- **C111** Nothing is in the map at or below a key whose `Remove` has returned before the export begins. -/
theorem C111_removed (h : Reach K t) (hp : t.Plain v.delim) (hm : v.mode ≠ .up) (ht : Prune.Tidy v t (calls as)) (hj : Joins v t as)
    {k : Nat} {p : Str} (hk : as[k]? = some (.remove p)) (S0 : List Nat) (ho : ((runs t (each v as) S0).gs k).outs ≠ []) (S : List (Option Nat))
    (hd : (gathers v t (each v as) S0 S).1 = .done) {r : Str} {y : Core α} (hr : resolve v.delim t.contents (v.full p) = some (r, y)) {q : Str} (hq : r <+: q) (x : α) :
    (q, x) ∉ (gathers v t (each v as) S0 S).2 := by
  intro hin
  obtain ⟨N, hN⟩ := fresh_gather h hp hm ht hj
  obtain ⟨_, _, _, h1⟩ := (hN S0 S).2 hd
  obtain ⟨P, z, htk⟩ := ht.takes p (List.mem_of_getElem? (get_calls hk))
  have htk' := htk
  obtain ⟨p', t', e, hrm⟩ := htk
  cases e
  obtain ⟨_, _, u, hP, _, _, hres⟩ := Prune.takes_spec h.ok hp hm hrm
  refine h1 _ hin ⟨k, p, P, z, u, ho, hk, htk', hP, ?_⟩
  rw [resolve_contents h.ok, hres] at hr
  obtain ⟨rfl, _⟩ := Prod.mk.inj (Option.some.inj hr)
  exact hq

/-- **C111** A new key whose `Set` has not begun when the export ends is not in the map. -/
theorem C111_unset (h : Reach K t) (hp : t.Plain v.delim) (hm : v.mode ≠ .up) (ht : Prune.Tidy v t (calls as)) (hj : Joins v t as)
    {q : Str} (hq : t.contents q = none) (S0 : List Nat) (S : List (Option Nat))
    (hno : ∀ (j : Nat) p x, as[j]? = some (.set p x) → View.dash (v.full p) = q → ((runs t (each v as) (S0 ++ S.filterMap id)).gs j).todo ≠ []) :
    let s := gathers v t (each v as) S0 S
    s.1 = .done → ∀ x, ¬ (q, x) ∈ s.2 := by
  intro s hd x hx
  obtain ⟨N, hN⟩ := fresh_gather h hp hm ht hj
  obtain ⟨h1, _⟩ := (hN S0 S).2 hd
  obtain ⟨_, S₁, ⟨S₂, k2⟩, ⟨_, ⟨c, c1, _⟩, _⟩ | ⟨_, j, p, g1, g2, g3⟩⟩ := h1 _ hx
  · rw [show t.contents q = some c from c1] at hq
    cases hq
  · refine hno j p x g1 g2 ?_
    rw [← k2, ← List.append_assoc, runs_append]
    exact run_todo _ _ _ _ _ g3

theorem fresh_still (hok : t.OK) (hp : t.Plain v.delim) (hm : v.mode ≠ .up) (ht : Prune.Tidy v t (calls as)) (hj : Joins v t as) (S : List Nat)
    (hall : ∀ (k : Nat) a, as[k]? = some a → told a ≠ none → ((runs t (each v as) S).gs k).outs ≠ []) (k : Nat) :
    (runs t (each v as) (S ++ [k])).mem = (runs t (each v as) S).mem := by
  obtain ⟨site, B, X, hB⟩ := blended hok hp hm ht hj
  obtain ⟨s, ext, g, I⟩ := hB S
  have e : runs t (each v as) (S ++ [k]) = (runs t (each v as) S).tick t.root.id (2 * (each v as).length) k := run_snoc _ _ _ _ _
  rw [e]
  show (((runs t (each v as) S).gs k).step t.root.id (2 * (each v as).length) (runs t (each v as) S).mem).1 = _
  have st := I.all k
  cases ha : as[k]? with
  | none => exact ((st.none ha).step _ _ _).1
  | some a =>
    have ho := hall k a ha
    cases a with
    | get p => exact ((st.get p ha).step _ _ _).1
    | remove p =>
      have ho := ho (by simp [told])
      obtain ⟨P, x, htk⟩ := ht.takes p (List.mem_of_getElem? (get_calls ha))
      have r := st.rem p _ ha (Prune.planOf_takes (get_calls ha) htk)
      generalize (runs t (each v as) S).gs k = G at r ho
      cases r with
      | done f hs => rfl
      | idle | search | late => exact absurd rfl ho
    | set p x =>
      have ho := ho (by simp [told])
      cases hsk : site k with
      | none =>
        have r := st.set p x ha hsk
        generalize (runs t (each v as) S).gs k = G at r ho
        cases r with
        | done f hs => rfl
        | idle | finds | store | fin => exact absurd rfl ho
      | some y =>
        obtain ⟨A, w⟩ := y
        have r := st.new p x A w ha hsk
        generalize (runs t (each v as) S).gs k = G at r ho
        generalize (runs t (each v as) S).mem (t.next + 2 * k + 1) = c at r
        cases r with
        | done f he hc => rfl
        | idle | finds | link | fin => exact absurd rfl ho

/-- **C111** An export that begins when all calls of `Set` and `Remove` have returned gives exactly the entries of the trie that is then in memory: that
of C109, in which every key that was set has its value, nothing is left at or below what was removed, and all else is as it was. -/
theorem C111_after (h : Reach K t) (hp : t.Plain v.delim) (hm : v.mode ≠ .up) (ht : Prune.Tidy v t (calls as)) (hj : Joins v t as) (S0 : List Nat)
    (hall : ∀ (k : Nat) a, as[k]? = some a → told a ≠ none → ((runs t (each v as) S0).gs k).outs ≠ []) :
    ∃ t' : Tree α, t'.OK ∧
      (∀ p x, .set p x ∈ as → t'.contents (View.dash (v.full p)) = some (held (View.dash (v.full p)) x (t.contents (View.dash (v.full p))))) ∧
      (∀ q, Gone v t as q → t'.contents q = none) ∧
      (∀ q, ¬ Gone v t as q → (∀ p x, .set p x ∈ as → View.dash (v.full p) ≠ q) → t'.contents q = t.contents q) ∧
      ∀ S, let s := gathers v t (each v as) S0 S
        s.1 = .done → ∀ q x, (q, x) ∈ s.2 ↔ Race.Exported v.delim t' q x := by
  have hok := h.ok
  obtain ⟨site, B, X, hB⟩ := blended hok hp hm ht hj
  obtain ⟨s0, ext0, g0, I0⟩ := hB S0
  obtain ⟨t', hH, hrid, okT, c1, c2, c3⟩ := blend_tree hok hp hm ht hj X I0 hall
  have hg : ∀ q, Gone v t as q ↔ Prune.Struck v t (calls as) (calls as).length q := by
    intro q
    constructor
    · rintro ⟨c, P, y, u, hc, htk, hu, hq⟩
      obtain ⟨i, hi⟩ := List.mem_iff_getElem?.mp hc
      exact ⟨i, c, P, y, u, (List.getElem?_eq_some_iff.mp hi).1, hi, htk, hu, hq⟩
    · rintro ⟨i, c, P, y, u, _, hi, htk, hu, hq⟩
      exact ⟨c, P, y, u, List.mem_of_getElem? hi, htk, hu, hq⟩
  refine ⟨t', okT, c1, fun q hq => c2 q ((hg q).mp hq), fun q hq => c3 q fun e => hq ((hg q).mpr e), fun S => ?_⟩
  have hn : Race.Named t' := by
    intro q m hmem hlf
    have hc := (Tree.contents_node okT).mpr ⟨m, hmem, rfl⟩
    have old : ∀ c, t.contents q = some c → c.leaf = true → c.pathS = utf8 q := by
      intro c hc hl
      obtain ⟨m0, h0, rfl⟩ := (Tree.contents_node hok).mp hc
      exact Race.named h q m0 h0 hl
    by_cases hset : ∃ p x, .set p x ∈ as ∧ View.dash (v.full p) = q
    · obtain ⟨p, x, hx, rfl⟩ := hset
      rw [c1 p x hx] at hc
      cases ho : t.contents (View.dash (v.full p)) with
      | none =>
        rw [ho] at hc
        have hc := Option.some.inj hc
        rw [← hc]; rfl
      | some c =>
        rw [ho] at hc
        have hc := Option.some.inj hc
        rw [← hc] at hlf ⊢
        exact old c ho hlf
    · by_cases hst : Prune.Struck v t (calls as) (calls as).length q
      · rw [c2 q hst] at hc; cases hc
      · rw [c3 q hst fun p x hx e => hset ⟨p, x, hx, e⟩] at hc
        exact old _ hc hlf
  let M := (runs t (each v as) S0).mem
  have hconst : ∀ L' : List Nat, (runs t (each v as) (S0 ++ L')).mem = M := by
    intro L'
    have key : ∀ R : List Nat, (runs t (each v as) (S0 ++ R.reverse)).mem = M := by
      intro R
      induction R with
      | nil => simp only [List.reverse_nil, List.append_nil]; rfl
      | cons k R ih =>
        rw [List.reverse_cons, ← List.append_assoc]
        refine (fresh_still hok hp hm ht hj _ (fun k a ha ho e => ?_) k).trans ih
        have := run_outs t.root.id (2 * (each v as).length) k R.reverse (runs t (each v as) S0)
        rw [← runs_append, e] at this
        exact hall k a ha ho (List.prefix_nil.mp this)
    have := key L'.reverse
    rwa [List.reverse_reverse] at this
  obtain ⟨N, hN⟩ := Prune.eleads_all (d := v.delim) (R := fun _ _ : Unit => True) (ms := fun _ => M) (fun _ => trivial)
    (fun _ _ _ _ _ => trivial) (n := t'.root) okT.ids_nodup [] fun q m hm =>
      have sh := (hH q m hm).shows
      ⟨fun _ => sh.core (fun _ => 0), fun _ => sh.len (fun _ => 0), fun _ _ k _ hk => sh.elts (fun _ => 0) (fun _ => 0) k (.refl _) hk⟩
  rw [hrid] at hN
  intro s hd
  obtain ⟨_, h2⟩ := gather_leads (d := v.delim) (root := t.root.id) (gap := 2 * (each v as).length) (T := S0 ++ S.filterMap id)
    (R := fun _ _ : Unit => True) (ms := fun _ => M)
    (J := fun L W _ => S0 <+: L ∧ W = runs t (each v as) L) (fun _ => trivial) (fun _ _ _ _ _ => trivial)
    (fun L W _ hJ => by
      obtain ⟨⟨L', rfl⟩, rfl⟩ := hJ
      exact hconst L')
    (fun L W _ k hJ _ => by
      obtain ⟨h3, rfl⟩ := hJ
      exact ⟨(), trivial, h3.trans (List.prefix_append _ _), (run_snoc _ _ _ _ _).symm⟩)
    (fun e he => he.1) S (s := ()) ⟨List.prefix_refl _, rfl⟩ rfl (hN ())
  obtain ⟨_, a1, a2⟩ := h2 hd
  intro q x
  constructor
  · intro hx
    obtain ⟨q', m, hm', hx'⟩ := a1 _ hx
    obtain rfl := Prune.entry_key hn hm' hx'
    exact (Prune.exported_iff okT hn).mpr ⟨m, hm', hx'⟩
  · intro hx
    obtain ⟨m, hmem, hx⟩ := (Prune.exported_iff okT hn).mp hx
    refine a2 m ?_ _ hx
    have way : ∀ (n : Node α) (u : Str), (∀ q' m', (q', m') ∈ n.nodes u → (q', m') ∈ t'.root.nodes []) → (q, m) ∈ n.nodes u →
        Prune.Way (fun _ _ : Unit => True) (fun _ => M) n m := by
      intro n
      induction n using Node.ind with
      | h i p c k ih =>
        intro u hsub hin
        rw [Node.mem_nodes] at hin
        rcases hin with e | ⟨e, he, hin⟩
        · rw [(Prod.mk.inj e).2]; exact .here _
        · refine .down he (fun _ => ?_) (ih e he _ (fun q' m' hm' => hsub q' m' ((Node.mem_nodes u (.mk i p c k) _).mpr (.inr ⟨e, he, hm'⟩))) hin)
          obtain ⟨i', h1, h2⟩ := (hH _ _ (hsub _ _ ((Node.mem_nodes u (.mk i p c k) _).mpr (.inl rfl)))).sure he (fun _ => 0)
          exact ⟨i', h1, fun _ _ => h2 _ (.refl _)⟩
    exact way _ [] (fun _ _ h => h) hmem
end

section examples
open Race (top three three_reach three_plain)

example : ∃ N, ∀ S0 S, let s := gathers top three (each top joining) S0 S
    (N ≤ S.count none → s.1 = .done) ∧ (s.1 = .done → ∀ e ∈ s.2, endsW '.' e.1 = false ∧ ∃ S₁, S₁ <+: S.filterMap id ∧
      ((∃ y, Race.Exported '.' three e.1 y ∧ ValueAt top three joining e.1 y e.2 (S0 ++ S₁)) ∨ NewAt top three joining e.1 e.2 (S0 ++ S₁))) :=
  C111_sound three_reach three_plain.plain (by decide) joining_tidy joining_joins

theorem joining_spare (c : Call) (P x : Node Nat) (hc : c ∈ calls joining) (h : Prune.Takes top three c P x) : Prune.Spares three P x "a.log.level".toList :=
  joining_joins.spares c P x "a.log.level".toList 7 hc h (by simp [joining])

example (S0 : List Nat) (S : List (Option Nat)) : let s := gathers top three (each top joining) S0 S
    s.1 = .done → ∃ x S₁, ("a.log.level".toList, x) ∈ s.2 ∧ S₁ <+: S.filterMap id ∧ ValueAt top three joining "a.log.level".toList 2 x (S0 ++ S₁) :=
  C111_kept three_reach three_plain.plain (by decide) joining_tidy joining_joins level_exported joining_spare S0 S

/-- `a.x` is set first. -/
example (S : List (Option Nat)) (hd : (gathers top three (each top joining) (List.replicate 60 0) S).1 = .done) :
    ("a.x".toList, 9) ∈ (gathers top three (each top joining) (List.replicate 60 0) S).2 :=
  (C111_set (j := 0) (p := "a.x".toList) (x := 9) three_reach three_plain.plain (by decide) joining_tidy joining_joins rfl (by decide +kernel)
    (fun c hc => by
      have : three.contents (View.dash (top.full "a.x".toList)) = none := siteA_leaves.none three_reach.ok
      rw [this] at hc
      cases hc) (List.replicate 60 0) (by decide +kernel) S hd).1

theorem host_resolves : ∃ y, resolve '.' three.contents (top.full "db.host".toList) = some ("db.host".toList, y) := by
  have h2 : (resolve '.' three.contents (top.full "db.host".toList)).map Prod.fst = some "db.host".toList := by decide +kernel
  obtain ⟨z, h3, h4⟩ := Option.map_eq_some_iff.mp h2
  exact ⟨z.2, by rw [h3, ← h4]⟩

/-- `db.host` is removed first. -/
example (S : List (Option Nat)) (hd : (gathers top three (each top joining) (List.replicate 60 2) S).1 = .done) (x : Nat) :
    ("db.host".toList, x) ∉ (gathers top three (each top joining) (List.replicate 60 2) S).2 := by
  obtain ⟨y, hy⟩ := host_resolves
  exact C111_removed (k := 2) (v := top) three_reach three_plain.plain (by decide) joining_tidy joining_joins rfl _ (by decide +kernel) S hd hy (List.prefix_refl _) x

/-- Nobody has begun to set `a.x`. -/
example (S : List (Option Nat)) (hS : some 0 ∉ S) (hd : (gathers top three (each top joining) [] S).1 = .done) (x : Nat) :
    ¬ ("a.x".toList, x) ∈ (gathers top three (each top joining) [] S).2 := by
  refine C111_unset three_reach three_plain.plain (by decide) joining_tidy joining_joins (siteA_leaves.none three_reach.ok) [] S (fun j p x ha hq => ?_) hd x
  have hj : j = 0 := by
    match j, ha with
    | 0, _ => rfl
    | 1, ha => cases ha; revert hq; decide +kernel
    | 2, ha => cases ha
    | n + 3, ha => cases ha
  subst hj
  have hn : ∀ (L : List Nat), 0 ∉ L → ∀ W : World Nat, ((W.run three.root.id (2 * (each top joining).length) L).gs 0) = W.gs 0 := by
    intro L
    induction L with
    | nil => intro _ W; rfl
    | cons l L ih =>
      intro h W
      have h : ¬ 0 = l ∧ 0 ∉ L := by simpa using h
      refine (ih h.2 _).trans ?_
      exact if_neg h.1
  rw [List.nil_append, runs, hn _ (fun h => hS (by
    obtain ⟨a, ha, e⟩ := List.mem_filterMap.mp h
    cases e
    exact ha))]
  decide +kernel

/-- All return first. -/
example : gathers top three (each top joining) (List.replicate 60 [0, 1, 2]).flatten (List.replicate 60 none) =
    (.done, [("a.name".toList, 1), ("a.log.level".toList, 7), ("a.x".toList, 9)]) := by
  decide +kernel

example : ∃ t' : Tree Nat, t'.OK ∧
    (∀ p x, .set p x ∈ joining → t'.contents (View.dash (top.full p)) = some (held (View.dash (top.full p)) x (three.contents (View.dash (top.full p))))) ∧
    (∀ q, Gone top three joining q → t'.contents q = none) ∧
    (∀ q, ¬ Gone top three joining q → (∀ p x, .set p x ∈ joining → View.dash (top.full p) ≠ q) → t'.contents q = three.contents q) ∧
    ∀ S, let s := gathers top three (each top joining) (List.replicate 60 [0, 1, 2]).flatten S
      s.1 = .done → ∀ q x, (q, x) ∈ s.2 ↔ Race.Exported '.' t' q x :=
  C111_after three_reach three_plain.plain (by decide) joining_tidy joining_joins _ (fun k a ha ho => by
    match k, ha with
    | 0, _ => decide +kernel
    | 1, _ => decide +kernel
    | 2, _ => decide +kernel
    | n + 3, ha => cases ha)

/-- The trie after the first `n` steps of the schedule. -/
def joiningAt (S : List (Option Nat)) (n : Nat) : Tree Nat :=
  { three with root := Prune.read (runs three (each top joining) ((S.take n).filterMap id)).mem 6 three.root.id }

/-- **C111** The map as a whole is not the export of the trie at any moment: the export has the slice of `a.` when `a.x` is added to
it; then `a.log.level` is set, and then read. The map has the new value of the latter, which was set when `a.x` was there, and not `a.x`. -/
theorem C111_snapshot_fails : ∃ (S : List (Option Nat)) (m : List (Str × Nat)), gathers top three (each top joining) [] S = (.done, m) ∧
    ∀ n, n ≤ S.length → ¬ ∀ q x, (q, x) ∈ m ↔ Race.Exported '.' (joiningAt S n) q x := by
  refine ⟨List.replicate 10 none ++ List.replicate 30 (some 0) ++ List.replicate 30 (some 1) ++ List.replicate 40 none,
    [("a.name".toList, 1), ("a.log.level".toList, 7), ("db.host".toList, 3)], by decide +kernel, fun n hn hall => ?_⟩
  have key : (List.range 111).all (fun n =>
      let t' := joiningAt (List.replicate 10 none ++ List.replicate 30 (some 0) ++ List.replicate 30 (some 1) ++ List.replicate 40 none) n
      !((t'.contents "a.log.level".toList).any (fun c => c.data == 7)) || (t'.contents "a.x".toList).any (fun c => c.leaf && c.data == 9)) = true := by decide +kernel
  have h := List.all_eq_true.mp key n (List.mem_range.mpr (Nat.lt_succ_of_le hn))
  simp only [Bool.or_eq_true] at h
  rcases h with h | h
  · obtain ⟨c, h1, _, _, h2⟩ := (hall "a.log.level".toList 7).mp (by simp)
    rw [h1, Option.any_some, h2] at h
    simp at h
  · cases hc : Tree.contents (joiningAt (List.replicate 10 none ++ List.replicate 30 (some 0) ++ List.replicate 30 (some 1) ++ List.replicate 40 none) n) "a.x".toList with
    | none => rw [hc] at h; cases h
    | some c =>
      rw [hc, Option.any_some, Bool.and_eq_true] at h
      have := (hall "a.x".toList 9).mpr ⟨c, hc, h.1, by decide +kernel, by simpa using h.2⟩
      revert this
      decide +kernel

end examples

end Parts
end Verif

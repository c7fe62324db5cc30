import Verif.Lemmas.RaceMixExport
import Verif.Props.RaceMixGet
import Verif.Props.RaceSweep
/-
C106: exporting the trie beside `Set` and `Remove`.
-/
namespace Verif
namespace Parts
variable {α : Type} [Inhabited α]
open Prune (Cell Mem Pc Call Leads Up)

section
variable {K : Str → Prop} {v : View} {t : Tree α} {as : List (Act α)}

theorem shown_key {d : Char} (hok : t.OK) (hn : Race.Named t) {q : Str} {m : Node α} (hm : (q, m) ∈ t.root.nodes [])
    (h : Race.shown d m.core = true) : runes m.core.pathS = q ∧ Race.Exported d t q m.core.data := by
  have : (runes m.core.pathS, m.core.data) ∈ Prune.entryOf d m.core := by rw [Prune.entryOf, if_pos h]; simp
  have hq := Prune.entry_key hn hm this
  refine ⟨hq, (Prune.exported_iff hok hn).mpr ⟨m, hm, ?_⟩⟩
  have hq : runes m.core.pathS = q := hq
  rw [hq] at this
  exact this

/-- The export, step by step. -/
theorem gather_run (h : Reach K t) (hp : t.Plain v.delim) (hm : v.mode ≠ .up) (ht : Prune.Tidy v t (calls as)) (hs : Spared v t as) :
    ∃ N, ∀ S0 S, let s := gathers v t (each v as) S0 S
      (N ≤ S.count none → s.1 = .done) ∧ (s.1 = .done →
        (∀ e ∈ s.2, ∃ y S₁, Race.Exported v.delim t e.1 y ∧ S₁ <+: S.filterMap id ∧ ValueAt v t as e.1 y e.2 (S0 ++ S₁)) ∧
        ∀ q y, Race.Exported v.delim t q y → (∀ c P x, c ∈ calls as → Prune.Takes v t c P x → Prune.Spares t P x q) → ∃ x, (q, x) ∈ s.2) := by
  have hok := h.ok
  have hn := Race.named h
  obtain ⟨B, hR, hM, hT⟩ := mixed_tick hok hp hm ht hs
  have hl := Prune.start_lays (v := v) hok (calls as)
  obtain ⟨N, hN⟩ := Prune.vleads_all (α := α) v.delim hok.ids_nodup []
  refine ⟨N, fun S0 S => ?_⟩
  let T := S0 ++ S.filterMap id
  let Ms := Prune.mems (Prune.start v t (calls as)).mem (Prune.planOf v t (calls as))
  let st : List Nat → Nat → Nat := fun S' => Prune.stages (Prune.planOf v t (calls as)) ((Prune.start v t (calls as)).run v.delim (calls as) S').pcs
  let σ := {x : List Nat × List Nat × (Nat → Core α → Core α) //
    Mixed v t as B x.1 x.2.1 x.2.2 (runs t (each v as) x.1) ∧ S0 <+: x.1 ∧ x.1 <+: T}
  let ms : σ → Mem α := fun x => (runs t (each v as) x.1.1).mem
  let R : σ → σ → Prop := fun a b => Up (st a.1.2.1) (st b.1.2.1)
  have hms : ∀ x : σ, ms x = over x.1.2.2 (Ms (st x.1.2.1)) := fun x => by
    show (runs t (each v as) x.1.1).mem = _
    rw [x.2.1.mem, hM]
  have hR0 : ∀ a, R a a := fun a => Up.refl _
  have hR1 : ∀ a b c, R a b → R b c → R a c := fun a b c => Up.trans
  have hsh : ∀ q m, (q, m) ∈ t.root.nodes [] → Prune.VShows R ms (fun _ _ => True) m := by
    intro q m hmem
    have sh := Prune.mems_shows (plan := Prune.planOf v t (calls as)) hl hmem
    refine ⟨fun s _ => ?_, fun s _ => ?_, fun s _ => ?_, fun s s' k _ hss hk => ?_⟩
    · rw [hms s]
      show (s.1.2.2 m.id (Ms (st s.1.2.1) m.id).core).pathS = _
      rw [(s.2.1.path _ _).1]
      exact congrArg Core.pathS (sh.core _)
    · rw [hms s]
      show (s.1.2.2 m.id (Ms (st s.1.2.1) m.id).core).leaf = _
      rw [(s.2.1.path _ _).2]
      exact congrArg Core.leaf (sh.core _)
    · rw [hms s]; exact sh.len _
    · rw [hms s] at hk
      rw [hms s']
      obtain ⟨c, c1, c2⟩ := sh.elts _ _ k hss hk
      exact ⟨c, c1, c2, trivial⟩
  -- the beginning
  have begin : ∃ S' g, Mixed v t as B S0 S' g (runs t (each v as) S0) := by
    have key : ∀ S : List Nat, ∃ S' g, Mixed v t as B S.reverse S' g (runs t (each v as) S.reverse) := by
      intro S
      induction S with
      | nil => exact ⟨[], _, mixed_start⟩
      | cons k S ih =>
        obtain ⟨S', g, I⟩ := ih
        obtain ⟨S'', g', _, I'⟩ := hT _ _ _ _ I k
        have e : runs t (each v as) (S.reverse ++ [k]) = _ := run_snoc _ _ _ _ _
        rw [List.reverse_cons]
        exact ⟨S'', g', e ▸ I'⟩
    have := key S0.reverse
    rwa [List.reverse_reverse] at this
  obtain ⟨S0', g0, I0⟩ := begin
  obtain ⟨h1, h2⟩ := gather_leads (d := v.delim) (root := t.root.id) (gap := 2 * (each v as).length) (T := T) (R := R) (ms := ms)
    (J := fun L W x => W = runs t (each v as) L ∧ x.1.1 = L) hR0 hR1
    (fun L W x hJ => by rw [hJ.1, ← hJ.2])
    (fun L W x k hJ hLk => by
      obtain ⟨⟨⟨L', S', g⟩, I, h3, h4⟩, rfl⟩ : ∃ y : σ, y = x := ⟨x, rfl⟩
      obtain ⟨rfl, rfl⟩ := hJ
      obtain ⟨S'', g', hS'', I'⟩ := hT _ _ _ _ I k
      have e : runs t (each v as) (L' ++ [k]) = (runs t (each v as) L').tick t.root.id (2 * (each v as).length) k := run_snoc _ _ _ _ _
      refine ⟨⟨(L' ++ [k], S'', g'), e ▸ I', h3.trans (List.prefix_append _ _), hLk⟩, ?_, e.symm, rfl⟩
      show Up (st S') (st S'')
      rcases hS'' with rfl | rfl
      · exact .refl _
      · exact stages_up hok hp hm ht S' k)
    (fun e he => he.1) S (s := ⟨(S0, S0', g0), I0, List.prefix_refl _, List.prefix_append _ _⟩) ⟨rfl, rfl⟩ rfl (hN σ R ms (fun _ _ => True) hR0 hR1 (fun _ _ _ _ _ => trivial) hsh _ trivial)
  refine ⟨h1, fun hd => ?_⟩
  obtain ⟨_, a1, a2⟩ := h2 hd
  refine ⟨fun e he => ?_, fun q y hq hsp => ?_⟩
  · obtain ⟨q, m, x, hmem, hsw, rfl, _⟩ := a1 e he
    obtain ⟨k1, k2⟩ := shown_key hok hn hmem hsw
    obtain ⟨S₁, hS₁⟩ := x.2.2.1
    have hpre : S₁ <+: S.filterMap id := by
      have := x.2.2.2
      rw [← hS₁] at this
      exact (List.prefix_append_right_inj _).mp this
    rw [k1]
    refine ⟨_, S₁, k2, hpre, ?_⟩
    have sh := Prune.mems_shows (plan := Prune.planOf v t (calls as)) hl hmem
    have hv : (ms x m.id).core = x.1.2.2 m.id m.core := by
      rw [hms x]
      show x.1.2.2 m.id (Ms (st x.1.2.1) m.id).core = _
      exact congrArg _ (sh.core _)
    obtain ⟨_, _, _, c4⟩ := x.2.1.core hok hs hmem
    rw [← hv] at c4
    have hx : runs t (each v as) x.1.1 = runs t (each v as) (S0 ++ S₁) := by rw [hS₁]
    rw [hx] at c4
    rcases c4 with c4 | ⟨j, p, z, g1, g2, g3, g4⟩
    · exact .inl c4
    · exact .inr ⟨j, p, by rw [g3]; exact g1, g2, g4⟩
  · obtain ⟨m, hmem, hx⟩ := (Prune.exported_iff hok hn).mp hq
    have hsw : Race.shown v.delim m.core = true := by
      rw [Prune.entryOf] at hx
      split at hx
      · assumption
      · cases hx
    obtain ⟨k1, _⟩ := shown_key hok hn hmem hsw
    rw [← k1]
    refine a2 m ?_ hsw
    have way : ∀ (n : Node α) (u : Str), (∀ q' m', (q', m') ∈ n.nodes u → (q', m') ∈ t.root.nodes []) → (q, m) ∈ n.nodes u →
        Prune.Way R ms n m := by
      intro n
      induction n using Node.ind with
      | h i p c k ih =>
        intro u hsub hin
        rw [Node.mem_nodes] at hin
        rcases hin with e | ⟨e, he, hin⟩
        · rw [(Prod.mk.inj e).2]; exact .here _
        · refine .down he (fun s => ?_) (ih e he _ (fun q' m' hm' => hsub q' m' ((Node.mem_nodes u (.mk i p c k) _).mpr (.inr ⟨e, he, hm'⟩))) hin)
          obtain ⟨j, j1, j2⟩ := Prune.spares_sure (R := fun _ => False) hok hp hm (fun l c P y _ hc hy => hsp c P y (List.mem_of_getElem? hc) hy)
            (fun l T hT => ⟨id, hT⟩) hl (u := u ++ p) (hsub _ _ ((Node.mem_nodes u (.mk i p c k) _).mpr (.inl rfl))) he
            (Node.prefix_of_mem_nodes hin) (st s.1.2.1)
          refine ⟨j, by rw [hms s]; exact j1, fun s' hs' => ?_⟩
          rw [hms s']
          exact j2 _ hs'
    exact way t.root [] (fun _ _ h => h) hmem

/-- **C106** Goroutines call `Remove`, `Set` for keys that are in the trie, and `Query`, each once, as in C93, and one exports the trie. It may begin at
any moment (`S0`). The export ends after finitely many steps of its own, and all that it has put into the map are keys that the export of the trie
has too; the value of each is right for a moment of the export. -/
theorem C106_sound (h : Reach K t) (hp : t.Plain v.delim) (hm : v.mode ≠ .up) (ht : Prune.Tidy v t (calls as)) (hs : Spared v t as) :
    ∃ N, ∀ S0 S, let s := gathers v t (each v as) S0 S
      (N ≤ S.count none → s.1 = .done) ∧ (s.1 = .done → ∀ e ∈ s.2, ∃ y S₁, Race.Exported v.delim t e.1 y ∧ S₁ <+: S.filterMap id ∧
        ValueAt v t as e.1 y e.2 (S0 ++ S₁)) := by
  obtain ⟨N, hN⟩ := gather_run h hp hm ht hs
  exact ⟨N, fun S0 S => ⟨(hN S0 S).1, fun hd => ((hN S0 S).2 hd).1⟩⟩

/-- **C106** … A key is in the map if no removal gets into the way to it. -/
theorem C106_kept (h : Reach K t) (hp : t.Plain v.delim) (hm : v.mode ≠ .up) (ht : Prune.Tidy v t (calls as)) (hs : Spared v t as)
    {q : Str} {y : α} (hq : Race.Exported v.delim t q y) (hw : ∀ c P x, c ∈ calls as → Prune.Takes v t c P x → Prune.Spares t P x q)
    (S0 : List Nat) (S : List (Option Nat)) : let s := gathers v t (each v as) S0 S
      s.1 = .done → ∃ x S₁, (q, x) ∈ s.2 ∧ S₁ <+: S.filterMap id ∧ ValueAt v t as q y x (S0 ++ S₁) := by
  obtain ⟨N, hN⟩ := gather_run h hp hm ht hs
  intro s hd
  obtain ⟨h1, h2⟩ := (hN S0 S).2 hd
  obtain ⟨x, hx⟩ := h2 q y hq hw
  obtain ⟨y', S₁, k1, k2, k3⟩ := h1 _ hx
  obtain ⟨c, c1, _, _, rfl⟩ := hq
  obtain ⟨c', c1', _, _, rfl⟩ := k1
  rw [show t.contents q = some c' from c1'] at c1
  cases c1
  exact ⟨x, S₁, hx, k2, k3⟩

/-- **C106** In particular every key that is set is in the map, and with the new value if `Set` has returned before the export begins. -/
theorem C106_set (h : Reach K t) (hp : t.Plain v.delim) (hm : v.mode ≠ .up) (ht : Prune.Tidy v t (calls as)) (hs : Spared v t as)
    {j : Nat} {p : Str} {x : α} (hj : as[j]? = some (.set p x)) {y : α} (hq : Race.Exported v.delim t (View.dash (v.full p)) y)
    (S0 : List Nat) (S : List (Option Nat)) : let s := gathers v t (each v as) S0 S
      s.1 = .done → (∃ z, (View.dash (v.full p), z) ∈ s.2) ∧
        (((runs t (each v as) S0).gs j).outs ≠ [] → ∀ z, (View.dash (v.full p), z) ∈ s.2 → z = x) := by
  intro s hd
  obtain ⟨N, hN⟩ := gather_run h hp hm ht hs
  obtain ⟨h1, h2⟩ := (hN S0 S).2 hd
  refine ⟨h2 _ y hq fun c P y hc hy => hs.spares c P y p x hc hy (List.mem_of_getElem? hj), fun ho z hz => ?_⟩
  obtain ⟨_, S₁, _, _, k⟩ := h1 _ hz
  rcases k with ⟨_, k⟩ | ⟨j', p', g1, g2, _⟩
  · have := run_outs t.root.id (2 * (each v as).length) j S₁ (runs t (each v as) S0)
    rw [← runs_append, k j p x hj rfl] at this
    exact absurd (List.prefix_nil.mp this) ho
  · have := hs.apart j' j p' z p x g1 hj g2
    subst this
    rw [hj] at g1
    cases g1
    rfl

/-- **C106** An export that begins when all calls of `Set` and `Remove` have returned gives exactly the entries of the trie that the calls leave when
they are made one after the other, first `Set`, then `Remove`. -/
theorem C106_after (h : Reach K t) (hp : t.Plain v.delim) (hm : v.mode ≠ .up) (ht : Prune.Tidy v t (calls as)) (hs : Spared v t as) (S0 : List Nat)
    (hall : ∀ (k : Nat) a, as[k]? = some a → told a ≠ none → ((runs t (each v as) S0).gs k).outs ≠ []) (S : List (Option Nat)) :
    let s := gathers v t (each v as) S0 S
    s.1 = .done → ∀ q x, (q, x) ∈ s.2 ↔ Race.Exported v.delim (Prune.after v (sets v t as) (calls as)) q x := by
  have hok := h.ok
  obtain ⟨B, _, hB⟩ := mixed hok hp hm ht hs
  have U := Prune.upto_all hok hp hm ht
  have hl := Prune.start_lays (v := v) hok (calls as)
  obtain ⟨ok', e'⟩ := sets_recore (v := v) hok as (T := t) (g := fun _ c => c) hok (Node.recore_self _).symm
    fun p x hx => stored_node hok (hs.stored p x hx)
  have eT := after_recore hm (calls as) e' ok' hok hp
  have okT := after_ok' hm (calls as) e' ok' hok hp
  generalize Prune.after v (sets v t as) (calls as) = T at eT okT
  have hn : Race.Named T := by
    intro q m hmem hlf
    rw [eT] at hmem
    obtain ⟨m1, hm1, rfl⟩ := Node.mem_recore.mp hmem
    obtain ⟨m0, h0, e⟩ := U.old q m1 hm1
    have h1 := (U.holds q m1 hm1).2.1
    rw [Prune.mems_core, e, hl q m0 h0] at h1
    have h1 : m0.core = m1.core := h1
    rw [Node.recore_core, (putAll_path _ _ _).2, ← h1] at hlf
    rw [Node.recore_core, (putAll_path _ _ _).1, ← h1]
    exact Race.named h q m0 h0 hlf
  let M := over (putAll v t as) (Prune.mems (Prune.start v t (calls as)).mem (Prune.planOf v t (calls as))
      (Prune.ends (Prune.planOf v t (calls as)) (calls as).length))
  have hH : ∀ q m, (q, m) ∈ T.root.nodes [] → Prune.Holds M m := by
    intro q m hmem
    rw [eT] at hmem
    obtain ⟨m1, hm1, rfl⟩ := Node.mem_recore.mp hmem
    obtain ⟨a1, a2, a3, a4⟩ := U.holds q m1 hm1
    refine ⟨?_, ?_, ?_, ?_⟩
    · rw [Node.recore_id, Node.recore_path]; exact a1
    · rw [Node.recore_id, Node.recore_core]; exact congrArg _ a2
    · rw [Node.recore_id, Node.recore_kids, List.map_map]
      rw [show (Node.id ∘ Node.recore fun i c => putAll v t as i c) = Node.id from funext fun x => Node.recore_id x]
      exact a3
    · rw [Node.recore_id, Node.recore_kids, List.length_map]; exact a4
  have hrid : T.root.id = t.root.id := by rw [eT, Node.recore_id, U.rid]
  obtain ⟨N, hN⟩ := Prune.eleads_all (d := v.delim) (R := fun _ _ : Unit => True) (ms := fun _ => M) (fun _ => trivial)
    (fun _ _ _ _ _ => trivial) (n := T.root) okT.ids_nodup [] fun q m hm =>
      have sh := (hH q m hm).shows
      ⟨fun _ => sh.core (fun _ => 0), fun _ => sh.len (fun _ => 0), fun _ _ k _ hk => sh.elts (fun _ => 0) (fun _ => 0) k (.refl _) hk⟩
  rw [hrid] at hN
  intro s hd
  obtain ⟨_, h2⟩ := gather_leads (d := v.delim) (root := t.root.id) (gap := 2 * (each v as).length) (T := S0 ++ S.filterMap id)
    (R := fun _ _ : Unit => True) (ms := fun _ => M)
    (J := fun L W _ => S0 <+: L ∧ W = runs t (each v as) L) (fun _ => trivial) (fun _ _ _ _ _ => trivial)
    (fun L W _ hJ => by
      obtain ⟨⟨L', rfl⟩, rfl⟩ := hJ
      obtain ⟨S', g, I⟩ := hB (S0 ++ L')
      refine mixed_end hok hp hm ht hs I fun k a ha ho e => ?_
      have := run_outs t.root.id (2 * (each v as).length) k L' (runs t (each v as) S0)
      rw [← runs_append, e] at this
      exact hall k a ha ho (List.prefix_nil.mp this))
    (fun L W _ k hJ _ => by
      obtain ⟨h3, rfl⟩ := hJ
      exact ⟨(), trivial, h3.trans (List.prefix_append _ _), (run_snoc _ _ _ _ _).symm⟩)
    (fun e he => he.1) S (s := ()) ⟨List.prefix_refl _, rfl⟩ rfl (hN ())
  obtain ⟨_, a1, a2⟩ := h2 hd
  intro q x
  constructor
  · intro hx
    obtain ⟨q', m, hm', hx'⟩ := a1 _ hx
    obtain rfl := Prune.entry_key hn hm' hx'
    exact (Prune.exported_iff okT hn).mpr ⟨m, hm', hx'⟩
  · intro hx
    obtain ⟨m, hmem, hx⟩ := (Prune.exported_iff okT hn).mp hx
    refine a2 m ?_ _ hx
    have way : ∀ (n : Node α) (u : Str), (∀ q' m', (q', m') ∈ n.nodes u → (q', m') ∈ T.root.nodes []) → (q, m) ∈ n.nodes u →
        Prune.Way (fun _ _ : Unit => True) (fun _ => M) n m := by
      intro n
      induction n using Node.ind with
      | h i p c k ih =>
        intro u hsub hin
        rw [Node.mem_nodes] at hin
        rcases hin with e | ⟨e, he, hin⟩
        · rw [(Prod.mk.inj e).2]; exact .here _
        · refine .down he (fun _ => ?_) (ih e he _ (fun q' m' hm' => hsub q' m' ((Node.mem_nodes u (.mk i p c k) _).mpr (.inr ⟨e, he, hm'⟩))) hin)
          obtain ⟨i', h1, h2⟩ := (hH _ _ (hsub _ _ ((Node.mem_nodes u (.mk i p c k) _).mpr (.inl rfl)))).sure he (fun _ => 0)
          exact ⟨i', h1, fun _ _ => h2 _ (.refl _)⟩
    exact way _ [] (fun _ _ h => h) hmem

end

section examples
open Race (top three three_reach three_plain)

example : ∃ N, ∀ S0 S, let s := gathers top three (each top busy) S0 S
    (N ≤ S.count none → s.1 = .done) ∧ (s.1 = .done → ∀ e ∈ s.2, ∃ y S₁, Race.Exported '.' three e.1 y ∧ S₁ <+: S.filterMap id ∧
      ValueAt top three busy e.1 y e.2 (S0 ++ S₁)) :=
  C106_sound three_reach three_plain.plain (by decide) busy_tidy busy_spared

theorem level_exported : Race.Exported '.' three "a.log.level".toList 2 :=
  ⟨(Prune.nd 4 "log.level" "a.log.level" (some 2) []).core, by exact rfl, rfl, by decide +kernel, rfl⟩

example (S0 : List Nat) (S : List (Option Nat)) : let s := gathers top three (each top busy) S0 S
    s.1 = .done → ∃ x S₁, ("a.log.level".toList, x) ∈ s.2 ∧ S₁ <+: S.filterMap id ∧ ValueAt top three busy "a.log.level".toList 2 x (S0 ++ S₁) :=
  C106_kept three_reach three_plain.plain (by decide) busy_tidy busy_spared level_exported busy_spare S0 S

/-- `Set` returns first. -/
example (S : List (Option Nat)) (hd : (gathers top three (each top busy) (List.replicate 60 0) S).1 = .done) (z : Nat)
    (hz : ("a.log.level".toList, z) ∈ (gathers top three (each top busy) (List.replicate 60 0) S).2) : z = 9 :=
  (C106_set (j := 0) (p := "a.log.level".toList) (x := 9) three_reach three_plain.plain (by decide) busy_tidy busy_spared rfl (y := 2) level_exported
    (List.replicate 60 0) S hd).2 (by decide +kernel) z hz

/-- All return first. -/
example : gathers top three (each top busy) (List.replicate 60 [0, 1, 2]).flatten (List.replicate 60 none) = (.done, [("a.log.level".toList, 9)]) := by
  decide +kernel

example (S : List (Option Nat)) : let s := gathers top three (each top busy) (List.replicate 60 [0, 1, 2]).flatten S
    s.1 = .done → ∀ q x, (q, x) ∈ s.2 ↔ Race.Exported '.' (Prune.after top (sets top three busy) (calls busy)) q x :=
  C106_after three_reach three_plain.plain (by decide) busy_tidy busy_spared _ (fun k a ha ho => by
    match k, ha with
    | 0, _ => decide +kernel
    | 1, _ => decide +kernel
    | 2, _ => decide +kernel
    | 3, ha => cases ha; exact absurd rfl ho
    | 4, ha => cases ha; exact absurd rfl ho
    | n + 5, ha => cases ha) S

/-- The trie after the first `n` steps of the schedule. -/
def meanwhile (S : List (Option Nat)) (n : Nat) : Tree Nat :=
  { three with root := Prune.read (runs three (each top busy) ((S.take n).filterMap id)).mem 6 three.root.id }

/-- **C106** The map as a whole is not the export of the trie at any moment, not even a part of it: `a.name` is read, then removed, then `a.log.level` is set,
and then read. There was no moment at which the first was there and the second had its new value. -/
theorem C106_snapshot_fails : ∃ (S : List (Option Nat)) (m : List (Str × Nat)), gathers top three (each top busy) [] S = (.done, m) ∧
    ∀ n, n ≤ S.length → ∃ e ∈ m, ¬ Race.Exported '.' (meanwhile S n) e.1 e.2 := by
  refine ⟨List.replicate 10 none ++ List.replicate 40 (some 1) ++ List.replicate 30 (some 0) ++ List.replicate 40 none,
    [("a.name".toList, 1), ("a.log.level".toList, 9), ("db.host".toList, 3)], by decide +kernel, fun n hn => ?_⟩
  have key : (List.range 121).all (fun n => [("a.name".toList, 1), ("a.log.level".toList, 9), ("db.host".toList, 3)].any fun e =>
      !(((meanwhile (List.replicate 10 none ++ List.replicate 40 (some 1) ++ List.replicate 30 (some 0) ++ List.replicate 40 none) n).contents e.1).any
        (fun c => c.data == e.2))) = true := by decide +kernel
  have := List.all_eq_true.mp key n (List.mem_range.mpr (Nat.lt_succ_of_le hn))
  obtain ⟨e, he, h⟩ := List.any_eq_true.mp this
  refine ⟨e, he, ?_⟩
  rintro ⟨c, h1, _, _, h2⟩
  rw [h1, Option.any_some, h2] at h
  simp at h

end examples

end Parts
end Verif

import Verif.Lemmas.RaceStore
import Verif.Lemmas.RaceBeside
/-
Goroutines that call `Set` of a store with handlers, with keys that do not get in each other's way.
-/
namespace Verif
namespace Race
open Node (commonPrefixLen)
variable {α : Type} [Inhabited α] {d : Char} {isNil : α → Bool}
variable {t : Tree α} {kvs : List (Str × α)} {tgt : Nat → Node α} {rem : Nat → Str}

/-- The old value that goes with a key. -/
def Told (t : Tree α) (key : Str) (old : Option α) : Prop :=
  match t.contents key with
  | some c => old = some c.data
  | none => old = none ∨ old = some default

theorem At.stores {J : Job α} {M0 : Mem α} {n : Node α} {w : Str} {m : Node α} {w' : Str} {M : Mem α} {i : Nat}
    (h : At J M0 n w m w' M (.store i)) : i = m.id ∧ ¬ commonPrefixLen w' (M0 m.id).path < w'.length ∧
      (M m.id).core.data = (base J M0 m.id w' m.id).core.data := by
  generalize hpc : Pc.store i = pc at h
  cases h with
  | enter h => cases hpc
  | look h hp => cases hpc
  | scan h hp k pre post hk hpre => cases hpc
  | tail ht =>
    cases ht with
    | store hw =>
      refine ⟨Pc.store.inj hpc, hw, ?_⟩
      rw [set_eq]
    | halve hc => cases hpc
    | cut k hk hc => cases hpc
    | look hw => cases hpc
    | scan hw js hj => cases hpc
    | leaf hw => cases hpc
    | link hw => cases hpc
    | mark hw => cases hpc
    | done => cases hpc

theorem Targets.node (T : Targets t kvs tgt rem) (h : t.OK) (k : Nat) {m : Node α}
    (hm : ((jobs t kvs k).key, m) ∈ t.root.nodes []) : tgt k = m ∧ rem k = m.path := by
  obtain ⟨h1, h2⟩ := goes_stored h hm
  exact (T.goes k).unique (T.stop k) h1 h2

/-- What is read just before the value is assigned. -/
theorem Inv.takes (T : Targets t kvs tgt rem) (h : t.OK) {c : Nat → Nat} {W : World α} (I : Inv t kvs tgt c W) {k : Nat}
    (hk : k < kvs.length) {i : Nat} (hi : W.pcs k = .store i) : Told t (jobs t kvs k).key (some (W.mem i).core.data) := by
  have hA := T.at h k (c k)
  rw [← I.pc k hk, hi] at hA
  have S := T.setup h k
  obtain ⟨rfl, h1, h2⟩ := hA.stores
  rw [I.own k hk _ (.inl rfl), h2, Told]
  cases hc : t.contents (jobs t kvs k).key with
  | some c0 =>
    obtain ⟨m, hm, rfl⟩ := (Tree.contents_node h).mp hc
    obtain ⟨e1, e2⟩ := T.node h k hm
    have : commonPrefixLen (rem k) ((Race.start t kvs).mem (tgt k).id).path = (rem k).length := by
      rw [S.cell, e2, e1]; exact cpl_prefix (List.prefix_refl _)
    rw [base, if_neg, S.cell, e1]
    rw [this, S.cell, e2, e1]
    exact Nat.lt_irrefl _
  | none =>
    by_cases hlt : commonPrefixLen (rem k) ((Race.start t kvs).mem (tgt k).id).path < ((Race.start t kvs).mem (tgt k).id).path.length
    · right
      rw [base]
      simp only [hlt, if_true, set_eq]
      rfl
    · exfalso
      have hp := prefix_cpl hlt
      have hcp := cpl_prefix hp
      have he : ((Race.start t kvs).mem (tgt k).id).path = rem k := hp.eq_of_length (Nat.le_antisymm hp.length_le (by omega))
      rw [S.cell] at he
      obtain ⟨u, h3, h4⟩ := (T.goes k).path []
      rw [List.nil_append] at h4
      rw [show (tgt k).path = rem k from he, ← h4] at h3
      have := (Tree.contents_node h).mpr ⟨_, h3, rfl⟩
      rw [hc] at this
      cases this

/-- A goroutine that puts a new leaf into the trie. -/
theorem Inv.links (T : Targets t kvs tgt rem) (h : t.OK) {c : Nat → Nat} {W : World α} (I : Inv t kvs tgt c W) {k : Nat}
    (hk : k < kvs.length) {i : Nat} {ks : List Nat} (hi : W.pcs k = .link i ks) : Told t (jobs t kvs k).key none := by
  have hA := T.at h k (c k)
  rw [← I.pc k hk, hi] at hA
  have S := T.setup h k
  have h1 := hA.where.1 i ks rfl
  rw [Told]
  cases hc : t.contents (jobs t kvs k).key with
  | some c0 =>
    exfalso
    obtain ⟨m, hm, rfl⟩ := (Tree.contents_node h).mp hc
    obtain ⟨e1, e2⟩ := T.node h k hm
    have : commonPrefixLen (rem k) ((Race.start t kvs).mem (tgt k).id).path = (rem k).length := by
      rw [S.cell, e2, e1]; exact cpl_prefix (List.prefix_refl _)
    omega
  | none => exact .inl rfl

/-- Two keys that do not get in each other's way. -/
theorem Free.longer {key l : Str} (h1 : Free t key l) (h2 : Free t l key) (hr : resolve d t.contents key = .none) :
    Free t (key ++ [d]) l := by
  have hn := resolve_none.mp hr
  rcases h1 with ⟨h3, h4⟩ | ⟨s, z, h3, h4, h5, h6⟩
  · refine .inl ⟨h3, ?_⟩
    rintro rfl
    by_cases hk : key = []
    · subst hk
      rcases h2 with ⟨h5, _⟩ | ⟨s, z, _, _, h5, h6⟩
      · rw [hn.1] at h5; cases h5
      · exact h6 (h5.trans (List.nil_prefix))
    · rw [hn.2 hk] at h3; cases h3
  · refine .inr ⟨s, z, h3, h4, h5, fun hz => ?_⟩
    have hkl : key <+: l := by
      refine List.IsPrefix.trans ?_ h5
      refine List.prefix_of_prefix_length_le (List.prefix_append key [d]) hz ?_
      by_cases hle : key.length ≤ z.length
      · exact hle
      · exact absurd (List.prefix_of_prefix_length_le hz (List.prefix_append key [d]) (by omega)) h6
    rcases h2 with ⟨h7, _⟩ | ⟨_, z', _, _, h7, h8⟩
    · rw [hn.1] at h7; cases h7
    · exact h8 (h7.trans hkl)

theorem asks_new (T : Targets t kvs tgt rem) (h : t.OK) (ha : Apart t (kvs.map (·.1))) (hn : (kvs.map (·.1)).Nodup) {k : Nat}
    {kv : Str × α} (hk : kvs[k]? = some kv) (hf : Fits d t kv.1) (hp : t.ClearAt d kv.1) :
    ∃ N, ∀ V : List (Option Nat), k ∉ writers V →
      let r := (watch d (jobs t kvs) (start t kvs, .enter kv.1 t.root.id []) V).2
      r ≠ .crash ∧ (N ≤ V.count none → ∃ a, r = .done a) ∧ ∀ a, r = .done a → a.found = present d t kv.1 := by
  have inv := fun S => (Inv.start t kvs tgt).run T h S
  rcases hf with ⟨c, hc, hd⟩ | hr
  · obtain ⟨m, hm, rfl⟩ := (Tree.contents_node h).mp hc
    have hr : resolve d t.nodeAt kv.1 = some (kv.1, m) := resolve_of ((Tree.nodeAt_some h).mpr hm) (.inl rfl)
    have hb : Beside t kvs kv.1 kv.1 m.core := by
      intro kv' hkv'
      obtain ⟨l, hl, e⟩ := List.getElem_of_mem hkv'
      by_cases hlk : l = k
      · subst hlk
        rw [List.getElem?_eq_getElem hl, e] at hk
        obtain rfl := Option.some.inj hk
        exact .inl ⟨rfl, hd⟩
      · have hfr := ha k l (Ne.symm hlk) kv.1 kv'.1 (by rw [List.getElem?_map, hk]; rfl)
          (by rw [List.getElem?_map, List.getElem?_eq_getElem hl, e]; rfl)
        refine .inr ⟨?_, hfr⟩
        rcases hfr with ⟨_, h2⟩ | ⟨s, z, _, _, h3, h4⟩
        · exact h2
        · rintro e'; rw [e'] at h3; exact h4 h3
    obtain ⟨N, hN⟩ := watch_reads h hp (jobs t kvs) (W0 := start t kvs)
      (K := fun W => ∃ c, Inv t kvs tgt c W) (fun S => ⟨_, inv S⟩) (fun W ⟨_, I⟩ => I.calm T h hr hb)
      (fun W ⟨_, I⟩ q m' hq => by
        rw [hr] at hq
        obtain ⟨rfl, rfl⟩ := Prod.mk.inj (Option.some.inj hq)
        obtain ⟨h1, h2, h3, _⟩ := I.answer T h hn hr hb
        exact ⟨h1, h2, h3⟩)
    refine ⟨N, fun V _ => ⟨(hN V).1, (hN V).2.1, fun a ha' => ?_⟩⟩
    obtain ⟨S1, _, _, e⟩ := (hN V).2.2 a ha'
    have := (inv (writers S1)).answer T h hn hr hb
    rw [e, present, resolve_contents h, hr]
    simp only [Option.map_some, ansOf]
    rw [this.2.1]
  · have hrn : resolve d t.nodeAt kv.1 = none := by
      rw [resolve_contents h] at hr; exact Option.map_eq_none_iff.mp hr
    obtain ⟨N, hN⟩ := watch_reads_of h hp (jobs t kvs) (W0 := start t kvs) (K := fun W => ∃ c, c k = 0 ∧ Inv t kvs tgt c W)
      (· ≠ k) (fun S hS => ⟨_, by
        have : S.count k = 0 := List.count_eq_zero.mpr fun hm => hS k hm rfl
        simp [this], inv S⟩)
      (fun W ⟨c, h0, I⟩ => I.calm_absent T h fun l kv' hl => by
        by_cases e : l = k
        · subst e; exact .inl h0
        · have e1 : (kvs.map (·.1))[l]? = some kv'.1 := by rw [List.getElem?_map, hl]; rfl
          have e2 : (kvs.map (·.1))[k]? = some kv.1 := by rw [List.getElem?_map, hk]; rfl
          exact .inr ((ha k l (Ne.symm e) _ _ e2 e1).longer (ha l k e _ _ e1 e2) hr))
      (fun W _ q m' hq => by rw [hrn] at hq; cases hq)
    refine ⟨N, fun V hV => ?_⟩
    have hV' : ∀ l ∈ writers V, l ≠ k := fun l hl e => hV (e ▸ hl)
    refine ⟨(hN V hV').1, (hN V hV').2.1, fun a ha' => ?_⟩
    obtain ⟨S1, _, _, e⟩ := (hN V hV').2.2 a ha'
    rw [e, present, hr, hrn]; rfl

theorem ends_new (T : Targets t kvs tgt rem) (h : t.OK) {k : Nat} (hk : k < kvs.length) :
    ∃ N, ∀ B : List Nat, N ≤ B.count k → ((start t kvs).run (jobs t kvs) B).pcs k = .done := by
  obtain ⟨N2, h2⟩ := enter_ends (T.setup h k) t.root _ (.here _ _)
  refine ⟨N2, fun B hB => ?_⟩
  rw [((Inv.start t kvs tgt).run T h B).pc k hk]
  obtain ⟨r, hr'⟩ : ∃ r, 0 + B.count k = N2 + r := ⟨B.count k - N2, by omega⟩
  simp only [hr']
  rw [alone_add]
  have : alone (jobs t kvs k) N2 ((start t kvs).mem, .enter (jobs t kvs k).key t.root.id) = (_, .done) := Prod.ext rfl h2
  rw [this, alone_done]

variable (d isNil)

/-- Where goroutine `k` stands after the schedule `S`, in which `B` are the steps of `insertInternal`. -/
def Fine2 (t : Tree α) (kvs : List (Str × α)) (N1 N2 : Nat) (S B : List Nat) (s : Sys α) (k : Nat) : Phase α → Prop
  | .ask r => s.base.pcs k ≠ .done ∧ B.count k = 0 ∧ ∃ V, writers V = B ∧ V.count none = S.count k ∧ S.count k ≤ N1 ∧
      r = (watch d (jobs t kvs) (start t kvs, .enter (jobs t kvs k).key t.root.id []) V).2
  | .set ab => ab = (!present d t (jobs t kvs k).key) ∧ S.count k ≤ N1 + 1 + B.count k ∧ B.count k ≤ N2 ∧
      (s.base.pcs k = .done → Told t (jobs t kvs k).key none)
  | .took ab old => (∃ i, s.base.pcs k = .store i) ∧ ab = (!present d t (jobs t kvs k).key) ∧ S.count k ≤ N1 + 2 + B.count k ∧
      Told t (jobs t kvs k).key old
  | .tell ab old => s.base.pcs k = .done ∧ ab = (!present d t (jobs t kvs k).key) ∧ S.count k ≤ N1 + 2 + N2 ∧
      Told t (jobs t kvs k).key old
  | .done => s.base.pcs k = .done ∧ ∃ old, (k, event isNil (jobs t kvs k) (!present d t (jobs t kvs k).key) old) ∈ s.log ∧
      Told t (jobs t kvs k).key old

variable {d isNil}

theorem fine_new (T : Targets t kvs tgt rem) (h : t.OK) (ha : Apart t (kvs.map (·.1))) (hn : (kvs.map (·.1)).Nodup) {k : Nat}
    (hk : k < kvs.length) (hf : Fits d t kvs[k].1) (hp : t.ClearAt d kvs[k].1) : ∃ N1 N2,
      (∀ S, ((sets t kvs).run d isNil (jobs t kvs) S).base.pcs k ≠ .done →
        (moves d isNil (jobs t kvs) (sets t kvs) S).count k < N2) ∧
      ∀ S : List Nat, Fine2 d isNil t kvs N1 N2 S (moves d isNil (jobs t kvs) (sets t kvs) S) ((sets t kvs).run d isNil (jobs t kvs) S) k
        (((sets t kvs).run d isNil (jobs t kvs) S).phase k) := by
  have hkv := List.getElem?_eq_getElem hk
  have hkey : (jobs t kvs k).key = kvs[k].1 := by rw [jobs_key hkv]
  obtain ⟨N1, hN1⟩ := asks_new T h ha hn hkv hf hp
  obtain ⟨N2, hN2⟩ := ends_new T h hk
  have hlt : ∀ B, ((start t kvs).run (jobs t kvs) B).pcs k ≠ .done → B.count k < N2 := fun B hne =>
    Nat.lt_of_not_le fun h' => hne (hN2 _ h')
  refine ⟨N1, N2, fun S hne => ?_, fun S => ?_⟩
  · rw [run_moves] at hne
    exact hlt _ hne
  induction S using sched_ind with
  | h0 =>
    have : ((sets t kvs).run d isNil (jobs t kvs) []).phase k = .ask (.enter kvs[k].1 t.root.id []) := by
      simp only [Sys.run, sets, hkv]
    rw [this]
    refine ⟨?_, rfl, [], rfl, rfl, Nat.zero_le _, ?_⟩
    · simp only [Sys.run, sets, start, hkv]; nofun
    · rw [hkey]; rfl
  | h1 S l ih =>
    rw [Sys.run_append, moves_append]
    have hbase := run_moves d isNil (jobs t kvs) (sets t kvs) S
    have hI := (Inv.start t kvs tgt).run T h (moves d isNil (jobs t kvs) (sets t kvs) S)
    rw [show (sets t kvs).base = start t kvs from rfl] at hbase
    rw [← hbase] at hI
    have hend := hlt (moves d isNil (jobs t kvs) (sets t kvs) S)
    rw [← hbase] at hend
    generalize hs : (sets t kvs).run d isNil (jobs t kvs) S = s at *
    generalize hB : moves d isNil (jobs t kvs) (sets t kvs) S = B at *
    show Fine2 d isNil t kvs N1 N2 (S ++ [l]) (B ++ moves d isNil (jobs t kvs) s [l]) (s.tick d isNil (jobs t kvs) l) k
      ((s.tick d isNil (jobs t kvs) l).phase k)
    have hmv : moves d isNil (jobs t kvs) s [l] = if s.moving l then [l] else [] := by simp [moves]
    rw [hmv]
    by_cases hlk : l = k
    · subst hlk
      have hcnt : (S ++ [l]).count l = S.count l + 1 := by simp
      cases hph : s.phase l with
      | ask r =>
        rw [hph] at ih
        obtain ⟨p1, p0, V, v1, v2, v3, v4⟩ := ih
        have hV : l ∉ writers V := by rw [v1]; exact List.count_eq_zero.mp p0
        by_cases hd : ∃ a, r = .done a
        · obtain ⟨a, rfl⟩ := hd
          obtain ⟨e1, e2⟩ := tick_asked (d := d) (isNil := isNil) (jobs t kvs) s hph
          rw [e1]
          refine ⟨?_, ?_, ?_, ?_⟩
          · rw [hkey] at v4 ⊢
            rw [(hN1 V hV).2.2 a v4.symm]
          · rw [hcnt]; omega
          · rw [e2]; simp [p0]
          · rw [Sys.tick_base, e2]; exact fun e => absurd e p1
        · obtain ⟨e1, e2⟩ := tick_ask (d := d) (isNil := isNil) (jobs t kvs) s hph (fun a e => hd ⟨a, e⟩)
          rw [e1]
          refine ⟨?_, ?_, V ++ [none], ?_, ?_, ?_, ?_⟩
          · rw [Sys.tick_base, e2]; exact p1
          · rw [e2]; simp [p0]
          · rw [← v1, e2]; simp [writers]
          · rw [hcnt, ← v2]; simp
          · rw [hcnt]
            rcases Nat.lt_or_ge (S.count l) N1 with h1 | h1
            · exact h1
            · rw [← v2] at h1
              obtain ⟨a, ha⟩ := (hN1 V hV).2.1 h1
              rw [hkey] at v4
              exact absurd ⟨a, v4.trans ha⟩ hd
          · rw [watch_append]
            generalize hw : watch d (jobs t kvs) (start t kvs, .enter (jobs t kvs l).key t.root.id []) V = w at v4
            obtain ⟨W, r'⟩ := w
            have hW := watch_world d (jobs t kvs) V (start t kvs) (.enter (jobs t kvs l).key t.root.id [])
            rw [hw, v1, ← hbase] at hW
            simp only at hW v4
            rw [hW, ← v4]
            rfl
      | set ab =>
        rw [hph] at ih
        obtain ⟨p2, p3, p4, p5⟩ := ih
        by_cases hi : ∃ i, s.base.pcs l = .store i
        · obtain ⟨i, hi⟩ := hi
          obtain ⟨e1, e2⟩ := tick_take (d := d) (isNil := isNil) (jobs t kvs) s hph hi
          rw [e1]
          refine ⟨⟨i, ?_⟩, p2, ?_, hI.takes T h hk hi⟩
          · rw [Sys.tick_base, e2]; exact hi
          · rw [hcnt, e2]
            simp only [Bool.false_eq_true, if_false, List.append_nil]; omega
        · by_cases hdn : s.base.pcs l = .done
          · have e1 : (s.tick d isNil (jobs t kvs) l).phase l = .tell ab none ∧ s.moving l = false := by
              rw [Sys.tick, Sys.moving, hph]; simp [hdn]
            rw [e1.1]
            refine ⟨?_, p2, ?_, p5 hdn⟩
            · rw [Sys.tick_base, e1.2]; exact hdn
            · rw [hcnt]; omega
          · obtain ⟨e1, e2⟩ := tick_move (d := d) (isNil := isNil) (jobs t kvs) s hph (fun i e => hi ⟨i, e⟩) hdn
            rw [e1]
            refine ⟨p2, ?_, ?_, ?_⟩
            · rw [hcnt, e2]; simp; omega
            · have := hend hdn
              rw [e2]; simp; omega
            · rw [Sys.tick_base, e2]
              simp only [if_true, World.tick]
              intro hdone
              rcases step_done hdone with h1 | h1 | ⟨i, ks, h1⟩
              · exact absurd h1 hdn
              · exact absurd h1 hi
              · exact hI.links T h hk h1
      | took ab old =>
        rw [hph] at ih
        obtain ⟨⟨i, hi⟩, p2, p3, hmo⟩ := ih
        obtain ⟨e1, e2⟩ := tick_took (d := d) (isNil := isNil) (jobs t kvs) s hph
        rw [e1]
        refine ⟨?_, p2, ?_, hmo⟩
        · rw [Sys.tick_base, e2]
          simp [World.tick, hi, step]
        · have := hend (by rw [hi]; nofun)
          rw [hcnt]; omega
      | tell ab old =>
        rw [hph] at ih
        obtain ⟨p1, p2, p3, hmo⟩ := ih
        obtain ⟨e1, e2, e3⟩ := tick_tell (d := d) (isNil := isNil) (jobs t kvs) s hph
        rw [e1]
        refine ⟨?_, old, ?_, hmo⟩
        · rw [Sys.tick_base, e3]; exact p1
        · rw [e2, p2]; simp
      | done =>
        rw [hph] at ih
        have : s.tick d isNil (jobs t kvs) l = s := by rw [Sys.tick, hph]
        rw [this, hph]
        exact ih
    · have hkl : k ≠ l := Ne.symm hlk
      rw [tick_other (jobs t kvs) s hkl]
      have hcnt : (S ++ [l]).count k = S.count k := by simp [List.count_append, hlk]
      have hcB : (B ++ if s.moving l then [l] else []).count k = B.count k := by
        split <;> simp [List.count_append, hlk]
      have hpc : (s.tick d isNil (jobs t kvs) l).base.pcs k = s.base.pcs k := by
        rw [Sys.tick_base]
        split
        · exact tick_pcs _ _ _ _ hkl
        · rfl
      generalize s.phase k = ph at ih
      cases ph with
      | ask r =>
        obtain ⟨p1, p0, V, v1, v2, v3, v4⟩ := ih
        refine ⟨hpc ▸ p1, hcB.trans p0, V ++ (if s.moving l then [some l] else []), ?_, ?_, hcnt ▸ v3, ?_⟩
        · rw [← v1, writers, List.filterMap_append]
          split <;> simp [writers]
        · rw [hcnt, ← v2]
          split <;> simp
        · rw [v4]
          split
          · rw [watch_append]; rfl
          · rw [List.append_nil]
      | set ab => exact ⟨ih.1, by rw [hcnt, hcB]; exact ih.2.1, by rw [hcB]; exact ih.2.2.1, by rw [hpc]; exact ih.2.2.2⟩
      | took ab old =>
        obtain ⟨⟨i, p1⟩, p2, p3, p5⟩ := ih
        exact ⟨⟨i, hpc ▸ p1⟩, p2, by rw [hcnt, hcB]; exact p3, p5⟩
      | tell ab old =>
        obtain ⟨p1, p2, p3, p5⟩ := ih
        exact ⟨hpc ▸ p1, p2, by rw [hcnt]; exact p3, p5⟩
      | done =>
        obtain ⟨p1, x, p2, p3⟩ := ih
        exact ⟨hpc ▸ p1, x, tick_log _ _ _ _ p2, p3⟩

end Race
end Verif

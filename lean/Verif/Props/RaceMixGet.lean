import Verif.Lemmas.RaceMixGet
/-
C105: lookups beside `Set` and `Remove`.
-/
namespace Verif
namespace Parts
variable {α : Type} [Inhabited α]
open Prune (Cell Mem Pc Call Leads Up)

section
variable {K : Str → Prop} {v : View} {t : Tree α} {as : List (Act α)}

/-- The way of the lookup. -/
theorem leads_look (h : t.OK) (hp : t.Plain v.delim) (hm : v.mode ≠ .up) {cs : List Call} {p q : Str} {m : Node α}
    (hr : resolve v.delim t.nodeAt (v.full p) = some (q, m)) (hs : ∀ c P x, c ∈ cs → Prune.Takes v t c P x → Prune.Spares t P x q) :
    ∃ N, ∀ σ, Leads (.get p) v.delim (Prune.mems (Prune.start v t cs).mem (Prune.planOf v t cs)) (Ends m.id) N σ
      (.enter (v.full p) t.root.id none []) := by
  have hl := Prune.start_lays (v := v) h cs
  by_cases hw : v.full p = []
  · have : (q, m) = ([], t.root) := by
      rw [hw] at hr
      simpa [resolve, (Tree.nodeAt_some h).mpr h.root_mem] using hr.symm
    obtain ⟨rfl, rfl⟩ := Prod.mk.inj this
    rw [hw]
    exact ⟨0 + 1, fun σ => .to (.ret true false (some t.root.id) none []) (fun _ _ => rfl) (.now ⟨_, _, rfl⟩ 0)⟩
  · obtain ⟨P, u, _, _, N, hN⟩ := Prune.leads_found (ms := Prune.mems (Prune.start v t cs).mem (Prune.planOf v t cs)) (.get p) h (hp.at _) hw
      (fun q m hm => Prune.mems_shows hl hm) hr (fun u P ch hP hch hpre => Prune.spares_sure (R := fun _ => False) h hp hm
        (fun l c P x _ hc htk => hs c P x (List.mem_of_getElem? hc) htk) (fun l T hT => ⟨id, hT⟩) hl hP hch hpre)
    exact ⟨N, fun σ => (hN σ).weak fun r ⟨stk, e⟩ => ⟨_, _, e⟩⟩

/-- The lookup of a key, step by step. -/
theorem look_run (h : Reach K t) (hp : t.Plain v.delim) (hm : v.mode ≠ .up) (ht : Prune.Tidy v t (calls as)) (hs : Spared v t as)
    {k : Nat} {p : Str} (hk : as[k]? = some (.get p)) {q : Str} {m : Node α} (hmem : (q, m) ∈ t.root.nodes []) {E : Prop} {N : Nat}
    (hN : ∀ σ, Leads (.get p) v.delim (Prune.mems (Prune.start v t (calls as)).mem (Prune.planOf v t (calls as))) (Stops p v.delim m.id E) N σ
      (.enter (v.full p) t.root.id none [])) (S : List Nat) :
    let G := (runs t (each v as) S).gs k
    ¬ G.crashed ∧ (N + 7 ≤ S.count k → ∃ a, G.outs = [.got a]) ∧
      ∀ a, .got a ∈ G.outs → (E ∧ a = ansNone) ∨ AtMoment v t as k q (ansOf v.delim q m.core) a S := by
  have hok := h.ok
  obtain ⟨B, _, hM, hT⟩ := mixed_tick hok hp hm ht hs
  have hl := Prune.start_lays (v := v) hok (calls as)
  have hdat : (ansOf v.delim q m.core).data = m.core.data := by
    simp only [ansOf]
    cases hc : m.core.hasData with
    | true => rfl
    | false => exact ((h.inv noData_zero).2 q _ (by rw [Tree.contents_eq hok, (Tree.nodeAt_some hok).mpr hmem]; rfl) hc).symm
  let ms := Prune.mems (Prune.start v t (calls as)).mem (Prune.planOf v t (calls as))
  let st : List Nat → Nat → Nat := fun S' => Prune.stages (Prune.planOf v t (calls as)) ((Prune.start v t (calls as)).run v.delim (calls as) S').pcs
  let Good : List Nat → View.Ans α → Prop := fun S a => (E ∧ a = ansNone) ∨ AtMoment v t as k q (ansOf v.delim q m.core) a S
  have grow : ∀ S l a, Good S a → Good (S ++ [l]) a := by
    rintro S l a (he | ⟨S₁, S₂, rfl, h1, h2⟩)
    · exact .inl he
    · exact .inr ⟨S₁, S₂ ++ [l], by simp, h1, h2⟩
  have key : ∀ S : List Nat, ∃ S' g, Mixed v t as B S.reverse S' g (runs t (each v as) S.reverse) ∧
      LookSt v p ms q m E N (S.reverse.count k) (st S') (Good S.reverse) ((runs t (each v as) S.reverse).gs k) := by
    intro S
    induction S with
    | nil =>
      refine ⟨[], _, mixed_start, ?_⟩
      have : (runs t (each v as) ([] : List Nat).reverse).gs k = ⟨v, [.get p], .idle, [], t.next + 2 * k⟩ := by
        simp only [List.reverse_nil, runs, World.run, start, each, List.getElem?_map, hk, Option.map_some, Option.getD_some]
      rw [this]
      exact .idle _ rfl
    | cons l S ih =>
      obtain ⟨S', g, I, L⟩ := ih
      obtain ⟨S'', g', hS'', I'⟩ := hT _ _ _ _ I l
      have e : runs t (each v as) (S.reverse ++ [l]) = (runs t (each v as) S.reverse).tick t.root.id (2 * (each v as).length) l :=
        run_snoc _ _ _ _ _
      rw [List.reverse_cons]
      refine ⟨S'', g', e ▸ I', ?_⟩
      have up : Up (st S') (st S'') := by
        rcases hS'' with rfl | rfl
        · exact .refl _
        · exact stages_up hok hp hm ht S' l
      by_cases hlk : l = k
      · subst hlk
        obtain ⟨c1, c2, c3, c4⟩ := I.core hok hs hmem
        have hmm : (runs t (each v as) S.reverse).mem = over g (ms (st S')) := by rw [I.mem, hM S']
        have hck : (S.reverse ++ [l]).count l = S.reverse.count l + 1 := by simp [List.count_append]
        have hgs : (runs t (each v as) (S.reverse ++ [l])).gs l =
            (((runs t (each v as) S.reverse).gs l).step t.root.id (2 * (each v as).length) (over g (ms (st S')))).2 := by
          rw [e, ← hmm]; exact if_pos rfl
        rw [hck, hgs]
        refine LookSt.up up (fun _ => id) (LookSt.step hok hmem (Prune.mems_shows hl hmem) hN c1 c2 (grow _ l) (fun he => .inl ⟨he, rfl⟩)
          (fun h0 h1 => .inr ⟨S.reverse, [], rfl, List.count_pos_iff.mp h0, .inl ⟨rfl, c3 h1⟩⟩) (fun h0 => ?_) _ L)
        · refine .inr ⟨S.reverse, [], rfl, List.count_pos_iff.mp h0, ?_⟩
          rcases c4 with ⟨c4, c5⟩ | ⟨j, p', x, c4, c5, c6, c7⟩
          · refine .inl ⟨?_, c5⟩
            rw [c4, ← hdat]
          · exact .inr ⟨j, p', x, c4, c5, by rw [c6], c7⟩
      · have hck : (S.reverse ++ [l]).count k = S.reverse.count k := by simp [List.count_append, hlk]
        have hgs : (runs t (each v as) (S.reverse ++ [l])).gs k = (runs t (each v as) S.reverse).gs k := by
          rw [e]; exact if_neg (Ne.symm hlk)
        rw [hck, hgs]
        exact L.up up (grow _ l)
  have := key S.reverse
  rw [List.reverse_reverse] at this
  obtain ⟨S', g, _, L⟩ := this
  generalize hg : (runs t (each v as) S).gs k = G at L
  cases L with
  | idle f hn => exact ⟨(by rintro (⟨_, e⟩ | ⟨_, e⟩) <;> cases e), fun h => by omega, fun a h => by cases h⟩
  | finds f b pc hf hn h0 =>
    refine ⟨?_, fun h => by omega, fun a h => by cases h⟩
    have hh := leads_hunts Stops.hunts b _ pc hf
    rintro (⟨_, e⟩ | ⟨_, e⟩)
    · cases e; cases hh
    · cases e
  | branch f hn h0 => exact ⟨(by rintro (⟨_, e⟩ | ⟨_, e⟩) <;> cases e), fun h => by omega, fun a h => by cases h⟩
  | ends f hl hn h0 => exact ⟨(by rintro (⟨_, e⟩ | ⟨_, e⟩) <;> cases e), fun h => by omega, fun a h => by cases h⟩
  | has f hn h0 => exact ⟨(by rintro (⟨_, e⟩ | ⟨_, e⟩) <;> cases e), fun h => by omega, fun a h => by cases h⟩
  | data f hn h0 => exact ⟨(by rintro (⟨_, e⟩ | ⟨_, e⟩) <;> cases e), fun h => by omega, fun a h => by cases h⟩
  | fin f a ha hn => exact ⟨(by rintro (⟨_, e⟩ | ⟨_, e⟩) <;> cases e), fun h => by omega, fun a h => by cases h⟩
  | done f a ha =>
    refine ⟨(by rintro (⟨_, e⟩ | ⟨_, e⟩) <;> cases e), fun _ => ⟨a, rfl⟩, fun a' h => ?_⟩
    cases List.mem_singleton.mp h
    exact ha

/-- **C105** Goroutines call `Remove`, `Set` for keys that are in the trie, and `Query`, each once, as in C93. A lookup
of a key that is in the trie, such that no removal gets into the way to it, does not panic and ends after finitely many
steps of its own, whatever the others do. It is as if it had been made at one moment, between its own first step and its end:
its answer is that of the trie before, if nobody had returned from a `Set` for its key at that moment, or otherwise that answer with the value of a `Set` for
its key that had begun. -/
theorem C105_answer (h : Reach K t) (hp : t.Plain v.delim) (hm : v.mode ≠ .up) (ht : Prune.Tidy v t (calls as)) (hs : Spared v t as)
    {k : Nat} {p : Str} (hk : as[k]? = some (.get p)) {q : Str} {c : Core α} (hr : resolve v.delim t.contents (v.full p) = some (q, c))
    (hw : ∀ c P x, c ∈ calls as → Prune.Takes v t c P x → Prune.Spares t P x q) :
    ∃ N, ∀ S, let G := (runs t (each v as) S).gs k
      ¬ G.crashed ∧ (N ≤ S.count k → ∃ a, G.outs = [.got a]) ∧
      ∀ a, .got a ∈ G.outs → ∃ a0, v.query t p = .ok a0 ∧ AtMoment v t as k q a0 a S := by
  have hok := h.ok
  obtain ⟨m, hrm, rfl⟩ := Prune.resolve_node hok hr
  have hmem := (Tree.nodeAt_some hok).mp (resolve_some hrm)
  have hq := Prune.query_node (v := v) hok hp hm p
  rw [hrm] at hq
  obtain ⟨N, hN⟩ := leads_look hok hp hm hrm hw
  refine ⟨N + 7, fun S => ?_⟩
  obtain ⟨h1, h2, h3⟩ := look_run (E := False) h hp hm ht hs hk hmem (fun σ => (hN σ).weak fun _ => .inl) S
  exact ⟨h1, h2, fun a ha => ⟨_, hq, (h3 a ha).resolve_left fun e => e.1⟩⟩

/-- The way of a lookup that may miss its key. -/
theorem leads_look_safe (h : t.OK) (hp : t.Plain v.delim) (hm : v.mode ≠ .up) {cs : List Call} (p : Str)
    (hs : ∀ c P x u, c ∈ cs → Prune.Takes v t c P x → (u, P) ∈ t.root.nodes [] → u ≠ [] → u <+: v.full p → u ≠ v.full p → P.kids.length ≠ 1) :
    (∃ q m, resolve v.delim t.nodeAt (v.full p) = some (q, m) ∧ ∃ N, ∀ σ, Leads (.get p) v.delim
      (Prune.mems (Prune.start v t cs).mem (Prune.planOf v t cs)) (Stops p v.delim m.id True) N σ (.enter (v.full p) t.root.id none [])) ∨
    (resolve v.delim t.nodeAt (v.full p) = none ∧ ∃ N, ∀ σ, Leads (.get p) v.delim
      (Prune.mems (Prune.start v t cs).mem (Prune.planOf v t cs)) (Quits p v.delim) N σ (.enter (v.full p) t.root.id none [])) := by
  have hl := Prune.start_lays (v := v) h cs
  have hF : ∀ q m, (q, m) ∈ t.root.nodes [] → q <+: v.full p → q.length < (v.full p).length →
      Prune.Firm (Prune.mems (Prune.start v t cs).mem (Prune.planOf v t cs)) m := by
    intro q m hmem h1 h2
    by_cases hq0 : q = []
    · intro hpa
      subst hq0
      have : m = t.root := Option.some.inj (((Tree.nodeAt_some h).mpr hmem).symm.trans ((Tree.nodeAt_some h).mpr h.root_mem))
      rw [this] at hpa
      exact absurd h.nil hpa
    · refine Prune.mems_firm hl hmem fun l T hT hpar => ?_
      obtain ⟨p', t', x, P, g1, g2, rfl⟩ := Prune.planOf_some hT
      obtain ⟨_, _, u, g3, g4, _⟩ := Prune.takes_spec h hp hm g2
      obtain ⟨rfl, rfl⟩ := Prod.mk.inj (h.id_inj g3 hmem hpar)
      exact hs _ P x u (List.mem_of_getElem? g1) ⟨p', t', rfl, g2⟩ g3 hq0 h1 (fun e => by rw [e] at h2; omega)
  by_cases hw : v.full p = []
  · rw [hw]
    exact .inl ⟨[], t.root, by simp [resolve, (Tree.nodeAt_some h).mpr h.root_mem], 0 + 1,
      fun σ => .to (.ret true false (some t.root.id) none []) (fun _ _ => rfl) (.now (.inl ⟨_, _, rfl⟩) 0)⟩
  · obtain ⟨r, h2, h3⟩ := Prune.search_outcome h (hp.at (v.full p)) hw
    obtain ⟨N, hN⟩ := Prune.leads_safe (c := .get p) (ms := Prune.mems (Prune.start v t cs).mem (Prune.planOf v t cs)) h2 h.wf []
      (fun q m hm => Prune.mems_shows hl hm) hF
    have quit : ∀ pc : Pc α, ((∃ ch par stk', pc = .ret false true ch par stk') ∨ pc = .ret false false none none []) → Quits p v.delim pc := by
      rintro pc (⟨ch, par, stk', rfl⟩ | rfl)
      · exact ⟨rfl, fun M => by cases ch <;> rfl⟩
      · exact ⟨rfl, fun M => rfl⟩
    rcases h3 with ⟨q, m, P, u, rfl, h4, _⟩ | ⟨h4, h5⟩
    · refine .inl ⟨q, m, h4, N, fun σ => (hN σ []).weak fun pc hg => ?_⟩
      rcases hg with ⟨_, _, stk', rfl⟩ | hg
      · exact .inl ⟨_, _, rfl⟩
      · exact .inr ⟨trivial, quit pc hg⟩
    · refine .inr ⟨h5, N, fun σ => (hN σ []).weak fun pc hg => ?_⟩
      rcases hg with ⟨g1, _⟩ | hg
      · rw [g1] at h4; cases h4
      · exact quit pc hg

/-- The lookup of a key that is not there, step by step. -/
theorem miss_run (h : Reach K t) (hp : t.Plain v.delim) (hm : v.mode ≠ .up) (ht : Prune.Tidy v t (calls as)) (hs : Spared v t as)
    {k : Nat} {p : Str} (hk : as[k]? = some (.get p)) {N : Nat}
    (hN : ∀ σ, Leads (.get p) v.delim (Prune.mems (Prune.start v t (calls as)).mem (Prune.planOf v t (calls as))) (Quits p v.delim) N σ
      (.enter (v.full p) t.root.id none [])) (S : List Nat) :
    let G := (runs t (each v as) S).gs k
    ¬ G.crashed ∧ (N + 3 ≤ S.count k → ∃ a, G.outs = [.got a]) ∧ ∀ a, .got a ∈ G.outs → a = ansNone := by
  have hok := h.ok
  obtain ⟨B, _, hM, hT⟩ := mixed_tick hok hp hm ht hs
  let ms := Prune.mems (Prune.start v t (calls as)).mem (Prune.planOf v t (calls as))
  let st : List Nat → Nat → Nat := fun S' => Prune.stages (Prune.planOf v t (calls as)) ((Prune.start v t (calls as)).run v.delim (calls as) S').pcs
  have key : ∀ S : List Nat, ∃ S' g, Mixed v t as B S.reverse S' g (runs t (each v as) S.reverse) ∧
      MissSt v p ms N (S.reverse.count k) (st S') ((runs t (each v as) S.reverse).gs k) := by
    intro S
    induction S with
    | nil =>
      refine ⟨[], _, mixed_start, ?_⟩
      have : (runs t (each v as) ([] : List Nat).reverse).gs k = ⟨v, [.get p], .idle, [], t.next + 2 * k⟩ := by
        simp only [List.reverse_nil, runs, World.run, start, each, List.getElem?_map, hk, Option.map_some, Option.getD_some]
      rw [this]
      exact .idle _ rfl
    | cons l S ih =>
      obtain ⟨S', g, I, L⟩ := ih
      obtain ⟨S'', g', hS'', I'⟩ := hT _ _ _ _ I l
      have e : runs t (each v as) (S.reverse ++ [l]) = (runs t (each v as) S.reverse).tick t.root.id (2 * (each v as).length) l :=
        run_snoc _ _ _ _ _
      rw [List.reverse_cons]
      refine ⟨S'', g', e ▸ I', ?_⟩
      have up : Up (st S') (st S'') := by
        rcases hS'' with rfl | rfl
        · exact .refl _
        · exact stages_up hok hp hm ht S' l
      by_cases hlk : l = k
      · subst hlk
        have hmm : (runs t (each v as) S.reverse).mem = over g (ms (st S')) := by rw [I.mem, hM S']
        have hck : (S.reverse ++ [l]).count l = S.reverse.count l + 1 := by simp [List.count_append]
        have hgs : (runs t (each v as) (S.reverse ++ [l])).gs l =
            (((runs t (each v as) S.reverse).gs l).step t.root.id (2 * (each v as).length) (over g (ms (st S')))).2 := by
          rw [e, ← hmm]; exact if_pos rfl
        rw [hck, hgs]
        exact (L.step hN g _).up up
      · have hck : (S.reverse ++ [l]).count k = S.reverse.count k := by simp [List.count_append, hlk]
        have hgs : (runs t (each v as) (S.reverse ++ [l])).gs k = (runs t (each v as) S.reverse).gs k := by
          rw [e]; exact if_neg (Ne.symm hlk)
        rw [hck, hgs]
        exact L.up up
  have := key S.reverse
  rw [List.reverse_reverse] at this
  obtain ⟨S', g, _, L⟩ := this
  generalize hg : (runs t (each v as) S).gs k = G at L
  cases L with
  | idle f hn => exact ⟨(by rintro (⟨_, e⟩ | ⟨_, e⟩) <;> cases e), fun h => by omega, fun a h => by cases h⟩
  | finds f b pc hf hn =>
    refine ⟨?_, fun h => by omega, fun a h => by cases h⟩
    have hh := leads_hunts (fun r h => h.1) b _ pc hf
    rintro (⟨_, e⟩ | ⟨_, e⟩)
    · cases e; cases hh
    · cases e
  | fin f hn => exact ⟨(by rintro (⟨_, e⟩ | ⟨_, e⟩) <;> cases e), fun h => by omega, fun a h => by cases h⟩
  | done f =>
    refine ⟨(by rintro (⟨_, e⟩ | ⟨_, e⟩) <;> cases e), fun _ => ⟨_, rfl⟩, fun a' h => ?_⟩
    cases List.mem_singleton.mp h
    rfl

/-- **C105** … For any key, in the trie or not: if none of the goroutines removes the only child of a node on the way, then the
lookup does not panic, it ends, and either it finds nothing, or the key is in the trie and the answer is that of one moment,
as above. -/
theorem C105_safe (h : Reach K t) (hp : t.Plain v.delim) (hm : v.mode ≠ .up) (ht : Prune.Tidy v t (calls as)) (hs : Spared v t as)
    {k : Nat} {p : Str} (hk : as[k]? = some (.get p))
    (hw : ∀ c P x u, c ∈ calls as → Prune.Takes v t c P x → (u, P) ∈ t.root.nodes [] → u ≠ [] → u <+: v.full p → u ≠ v.full p →
      P.kids.length ≠ 1) :
    ∃ N, ∀ S, let G := (runs t (each v as) S).gs k
      ¬ G.crashed ∧ (N ≤ S.count k → ∃ a, G.outs = [.got a]) ∧
      ∀ a, .got a ∈ G.outs → a = ⟨default, false, false, true⟩ ∨
        ∃ q c a0, resolve v.delim t.contents (v.full p) = some (q, c) ∧ v.query t p = .ok a0 ∧ AtMoment v t as k q a0 a S := by
  have hok := h.ok
  have hq := Prune.query_node (v := v) hok hp hm p
  rcases leads_look_safe hok hp hm p hw with ⟨q, m, hrm, N, hN⟩ | ⟨hrm, N, hN⟩
  · have hmem := (Tree.nodeAt_some hok).mp (resolve_some hrm)
    rw [hrm] at hq
    refine ⟨N + 7, fun S => ?_⟩
    obtain ⟨h1, h2, h3⟩ := look_run h hp hm ht hs hk hmem hN S
    refine ⟨h1, h2, fun a ha => (h3 a ha).imp (fun e => e.2) fun e => ⟨q, m.core, _, ?_, hq, e⟩⟩
    rw [resolve_contents hok, hrm]; rfl
  · refine ⟨N + 3, fun S => ?_⟩
    obtain ⟨h1, h2, h3⟩ := miss_run h hp hm ht hs hk hN S
    exact ⟨h1, h2, fun a ha => .inl (h3 a ha)⟩

theorem runs_append (ps : List (View × List (Act α))) (S S' : List Nat) :
    runs t ps (S ++ S') = (runs t ps S).run t.root.id (2 * ps.length) S' := by
  unfold runs
  generalize start t ps = W
  induction S generalizing W with
  | nil => rfl
  | cons l S ih => exact ih _

theorem run_outs (root gap k : Nat) (S : List Nat) : ∀ W : World α, (W.gs k).outs <+: ((W.run root gap S).gs k).outs := by
  induction S with
  | nil => exact fun W => List.prefix_refl _
  | cons l S ih =>
    intro W
    refine List.IsPrefix.trans ?_ (ih (W.tick root gap l))
    by_cases e : k = l
    · subst e
      rw [show (W.tick root gap k).gs k = ((W.gs k).step root gap W.mem).2 from if_pos rfl]
      exact step_outs _ _
    · rw [show (W.tick root gap l).gs k = W.gs k from if_neg e]
      exact List.prefix_refl _

/-- **C105** … If somebody has returned from a `Set` for the key before the lookup begins, then the answer has that
value. -/
theorem C105_after (h : Reach K t) (hp : t.Plain v.delim) (hm : v.mode ≠ .up) (ht : Prune.Tidy v t (calls as)) (hs : Spared v t as)
    {k : Nat} {p : Str} (hk : as[k]? = some (.get p)) {q : Str} {c : Core α} (hr : resolve v.delim t.contents (v.full p) = some (q, c))
    (hw : ∀ c P x, c ∈ calls as → Prune.Takes v t c P x → Prune.Spares t P x q)
    {j : Nat} {p' : Str} {x : α} (hj : as[j]? = some (.set p' x)) (hq : View.dash (v.full p') = q) (S S' : List Nat)
    (hS : k ∉ S) (ho : ((runs t (each v as) S).gs j).outs ≠ []) (a : View.Ans α) (ha : .got a ∈ ((runs t (each v as) (S ++ S')).gs k).outs) :
    ∃ a0, v.query t p = .ok a0 ∧ a = { a0 with data := x } := by
  obtain ⟨N, hN⟩ := C105_answer h hp hm ht hs hk hr hw
  obtain ⟨a0, h0, S₁, S₂, e, h1, h2⟩ := (hN (S ++ S')).2.2 a ha
  refine ⟨a0, h0, ?_⟩
  rcases h2 with ⟨_, h2⟩ | ⟨j', p'', x', g1, g2, g3, _⟩
  · exfalso
    have hpre : S <+: S₁ := by
      rcases List.prefix_or_prefix_of_prefix (⟨S', rfl⟩ : S <+: S ++ S') (⟨k :: S₂, e.symm⟩ : S₁ <+: S ++ S') with h3 | h3
      · exact h3
      · exact absurd (h3.subset h1) hS
    obtain ⟨r, rfl⟩ := hpre
    have := run_outs t.root.id (2 * (each v as).length) j r (runs t (each v as) S)
    rw [← runs_append, h2 j p' x hj hq] at this
    exact ho (List.prefix_nil.mp this)
  · have := hs.apart j' j p'' x' p' x g1 hj (g2.trans hq.symm)
    subst this
    rw [hj] at g1
    cases g1
    exact g3

end

section examples
open Race (top)
open Prune (keys read trie)

/-- `a.name`, `a.log.level` and `db.host` are in the trie. Two are removed, one is set, and looked up. -/
def busy : List (Act Nat) :=
  [.set "a.log.level".toList 9, .remove "a.name".toList, .remove "db.host".toList, .get "a.log.level".toList,
   .get "a.size".toList]

theorem busy_set {p : Str} {x : Nat} (h : .set p x ∈ busy) : p = "a.log.level".toList := by
  rcases List.mem_cons.mp h with e | h
  · exact (Act.set.inj e).1
  · rcases List.mem_cons.mp h with e | h
    · cases e
    · rcases List.mem_cons.mp h with e | h
      · cases e
      · rcases List.mem_cons.mp h with e | h
        · cases e
        · rcases List.mem_cons.mp h with e | h
          · cases e
          · cases h

theorem busy_tidy : Prune.Tidy top Race.three (calls busy) := Prune.tidy_of (by decide +kernel)

theorem busy_spare (c : Call) (P x : Node Nat) (hc : c ∈ calls busy) (h : Prune.Takes top Race.three c P x) :
    Prune.Spares Race.three P x "a.log.level".toList := by
  have key : ((calls busy).all fun c => match Prune.taken top Race.three c with
    | none => true
    | some (x, P) => Prune.spares Race.three P x "a.log.level".toList) = true := by decide +kernel
  have := List.all_eq_true.mp key c hc
  rw [Prune.taken_iff.mp h] at this
  exact Prune.spares_of this

theorem busy_spared : Spared top Race.three busy := by
  have hidx : ∀ (i : Nat) p x, busy[i]? = some (.set p x) → i = 0 := by
    intro i p x h
    match i, h with
    | 0, _ => rfl
    | 1, h => cases h
    | 2, h => cases h
    | 3, h => cases h
    | 4, h => cases h
    | n + 5, h => cases h
  refine ⟨fun p x h => ?_, fun i j p x p' x' hi hj _ => (hidx i p x hi).trans (hidx j p' x' hj).symm, fun c P y p x hc htk hx => ?_⟩
  · rw [busy_set h]
    have : Race.three.contents "a.log.level".toList = some (Prune.nd 4 "log.level" "a.log.level" (some 2) []).core := by exact rfl
    intro e
    have := this.symm.trans e
    cases this
  · rw [busy_set hx]
    exact busy_spare c P y hc htk

example : ∃ N, ∀ S, let G := (runs Race.three (each top busy) S).gs 3
    ¬ G.crashed ∧ (N ≤ S.count 3 → ∃ a, G.outs = [.got a]) ∧ ∀ a, .got a ∈ G.outs →
      ∃ a0, top.query Race.three "a.log.level".toList = .ok a0 ∧ AtMoment top Race.three busy 3 "a.log.level".toList a0 a S :=
  C105_answer Race.three_reach Race.three_plain.plain (by decide) busy_tidy busy_spared rfl (q := "a.log.level".toList)
    (c := (Prune.nd 4 "log.level" "a.log.level" (some 2) []).core) (by exact rfl) busy_spare

/-- No removal of the list takes the only child of a node. -/
theorem busy_keep (c : Call) (P x : Node Nat) (hc : c ∈ calls busy) (h : Prune.Takes top Race.three c P x) : P.kids.length ≠ 1 := by
  have key : ((calls busy).all fun c => match Prune.taken top Race.three c with
    | none => true
    | some (_, P) => P.kids.length != 1) = true := by decide +kernel
  have := List.all_eq_true.mp key c hc
  rw [Prune.taken_iff.mp h] at this
  simpa using this

example : ∃ N, ∀ S, let G := (runs Race.three (each top busy) S).gs 3
    ¬ G.crashed ∧ (N ≤ S.count 3 → ∃ a, G.outs = [.got a]) ∧ ∀ a, .got a ∈ G.outs → a = ⟨0, false, false, true⟩ ∨
      ∃ q c a0, resolve '.' Race.three.contents (top.full "a.log.level".toList) = some (q, c) ∧
        top.query Race.three "a.log.level".toList = .ok a0 ∧ AtMoment top Race.three busy 3 q a0 a S :=
  C105_safe Race.three_reach Race.three_plain.plain (by decide) busy_tidy busy_spared rfl fun c P x _ hc h _ _ _ _ => busy_keep c P x hc h

/-- A key that is not there. -/
example : ∃ N, ∀ S, let G := (runs Race.three (each top busy) S).gs 4
    ¬ G.crashed ∧ (N ≤ S.count 4 → ∃ a, G.outs = [.got a]) ∧ ∀ a, .got a ∈ G.outs → a = ⟨0, false, false, true⟩ ∨
      ∃ q c a0, resolve '.' Race.three.contents (top.full "a.size".toList) = some (q, c) ∧
        top.query Race.three "a.size".toList = .ok a0 ∧ AtMoment top Race.three busy 4 q a0 a S :=
  C105_safe Race.three_reach Race.three_plain.plain (by decide) busy_tidy busy_spared rfl fun c P x _ hc h _ _ _ _ => busy_keep c P x hc h

/-- When the others have returned, the lookup gives the new value. -/
example (S : List Nat) (a : View.Ans Nat)
    (ha : .got a ∈ ((runs Race.three (each top busy) ((List.replicate 60 [0, 1, 2]).flatten ++ S)).gs 3).outs) :
    ∃ a0, top.query Race.three "a.log.level".toList = .ok a0 ∧ a = { a0 with data := 9 } :=
  C105_after Race.three_reach Race.three_plain.plain (by decide) busy_tidy busy_spared (k := 3) rfl (q := "a.log.level".toList)
    (c := (Prune.nd 4 "log.level" "a.log.level" (some 2) []).core) (by exact rfl) busy_spare (j := 0) (p' := "a.log.level".toList) rfl
    (by decide +kernel) _ S (by decide +kernel) (by decide +kernel) a ha

/-- Two schedules: the lookup reads the value before `Set` stores it, or afterwards. -/
example : let W := runs Race.three (each top busy) (List.replicate 60 3 ++ (List.replicate 60 [0, 1, 2]).flatten)
    (W.gs 0).outs = [.stored] ∧ (W.gs 3).outs = [.got ⟨2, false, true, false⟩] := by decide +kernel

example : let W := runs Race.three (each top busy) (List.replicate 10 3 ++ (List.replicate 60 [0, 1, 2]).flatten ++ List.replicate 60 3)
    (W.gs 0).outs = [.stored] ∧ (W.gs 3).outs = [.got ⟨9, false, true, false⟩] := by decide +kernel

/-- **C105** The way to the key must be left alone: somebody removes `a.x`, somebody sets `a.z`, which is the last of the
children and so is not disturbed, and somebody looks `a.y` up, to which nobody does anything, and does not find it. -/
theorem C105_miss_fails :
    let as : List (Act Nat) := [.set "a.z".toList 9, .remove "a.x".toList, .get "a.y".toList]
    ∃ S, let W := runs (trie ["a.x", "a.y", "a.z"]) (each top as) S
      (W.gs 0).outs = [.stored] ∧ (W.gs 1).outs = [.removed true] ∧ (W.gs 2).outs = [.got ⟨0, false, false, true⟩] ∧
      keys (read W.mem 6 0) = ["a.y", "a.z"] ∧ (top.query (trie ["a.x", "a.y", "a.z"]) "a.y".toList).map (·.data) = .ok 2 :=
  ⟨List.replicate 16 2 ++ List.replicate 40 1 ++ List.replicate 60 0 ++ List.replicate 60 2, by decide +kernel⟩

end examples

end Parts
end Verif

import Verif.Lemmas.RaceFreshMiss
import Verif.Props.RaceFresh
import Verif.Props.RaceMixGet
/-
C110: lookups beside `Set` for new keys and `Remove`.
-/
namespace Verif
namespace Parts
variable {α : Type} [Inhabited α]
open Prune (Cell Mem Pc Call Up Task Sure)

section
variable {K : Str → Prop} {v : View} {t : Tree α} {as : List (Act α)} {site : Site α} {B : Nat → Nat}

/-- What holds of a goroutine with a lookup, step by step. -/
theorem along (X : Setting v t as (Prune.start v t (calls as)).mem (Prune.planOf v t (calls as)) site B) (ht : Prune.Tidy v t (calls as))
    {k : Nat} {p : Str} (hk : as[k]? = some (.get p)) {H : (Nat → Nat) → (Nat → List Nat) → List Nat → Gor α → Prop}
    (h0 : H (fun _ => 0) (fun _ => []) [] ⟨v, [.get p], .idle, [], t.next + 2 * k⟩)
    (hother : ∀ S s ext s' ext' l G, l ≠ k → Up s s' → (∀ i, ext i ≠ [] → ext' i = ext i) → H s ext S G → H s' ext' (S ++ [l]) G)
    (hself : ∀ S s ext g s' ext' G, Blend v t as (Prune.start v t (calls as)).mem (Prune.planOf v t (calls as)) site B S s ext g (runs t (each v as) S) →
      Up s s' → (∀ i, ext i ≠ [] → ext' i = ext i) → H s ext S G →
      H s' ext' (S ++ [k]) (G.step t.root.id (2 * (each v as).length) (runs t (each v as) S).mem).2) (S : List Nat) :
    ∃ s ext g, Blend v t as (Prune.start v t (calls as)).mem (Prune.planOf v t (calls as)) site B S s ext g (runs t (each v as) S) ∧
      H s ext S ((runs t (each v as) S).gs k) := by
  have key : ∀ S : List Nat, ∃ s ext g, Blend v t as (Prune.start v t (calls as)).mem (Prune.planOf v t (calls as)) site B S.reverse s ext g (runs t (each v as) S.reverse) ∧
      H s ext S.reverse ((runs t (each v as) S.reverse).gs k) := by
    intro S
    induction S with
    | nil =>
      refine ⟨_, _, _, blend_start X.ok X, ?_⟩
      have : (runs t (each v as) ([] : List Nat).reverse).gs k = ⟨v, [.get p], .idle, [], t.next + 2 * k⟩ := by
        simp only [List.reverse_nil, runs, World.run, start, each, List.getElem?_map, hk, Option.map_some, Option.getD_some]
      rw [this]
      exact h0
    | cons l S ih =>
      obtain ⟨s, ext, g, I, L⟩ := ih
      obtain ⟨s', ext', g', hs, he, I'⟩ := I.tick X (fun k p ha => by
        obtain ⟨P, x, htk⟩ := ht.takes p (List.mem_of_getElem? (get_calls ha))
        exact ⟨_, Prune.planOf_takes (get_calls ha) htk⟩) (2 * (each v as).length) l
      have e : runs t (each v as) (S.reverse ++ [l]) = (runs t (each v as) S.reverse).tick t.root.id (2 * (each v as).length) l :=
        run_snoc _ _ _ _ _
      rw [List.reverse_cons]
      refine ⟨s', ext', g', e ▸ I', ?_⟩
      by_cases hlk : l = k
      · subst hlk
        have hgs : (runs t (each v as) (S.reverse ++ [l])).gs l =
            (((runs t (each v as) S.reverse).gs l).step t.root.id (2 * (each v as).length) (runs t (each v as) S.reverse).mem).2 := by
          rw [e]; exact if_pos rfl
        rw [hgs]
        exact hself _ s ext g s' ext' _ I hs he L
      · have hgs : (runs t (each v as) (S.reverse ++ [l])).gs k = (runs t (each v as) S.reverse).gs k := by
          rw [e]; exact if_neg (Ne.symm hlk)
        rw [hgs]
        exact hother _ s ext s' ext' l _ hlk hs he L
  have := key S.reverse
  rwa [List.reverse_reverse] at this

theorem AtMoment.more {k : Nat} {q : Str} {a0 a : View.Ans α} {S : List Nat} (l : Nat) (h : AtMoment v t as k q a0 a S) : AtMoment v t as k q a0 a (S ++ [l]) := by
  obtain ⟨S₁, S₂, rfl, h1, h2⟩ := h
  exact ⟨S₁, S₂ ++ [l], by simp, h1, h2⟩

/-- The lookup of a key that is in the trie, step by step. -/
theorem look_fresh (h : Reach K t) (hj : Joins v t as) (X : Setting v t as (Prune.start v t (calls as)).mem (Prune.planOf v t (calls as)) site B)
    (ht : Prune.Tidy v t (calls as)) {k : Nat} {p : Str} (hk : as[k]? = some (.get p)) {q : Str} {m : Node α} (hmem : (q, m) ∈ t.root.nodes []) {E : Prop} {N : Nat}
    (hN : ∀ σ, Comes (Prune.step (.get p) v.delim) (Tells t (Prune.mems (Prune.start v t (calls as)).mem (Prune.planOf v t (calls as))) site)
      (Stops p v.delim m.id E) N σ (.enter (v.full p) t.root.id none [])) (S : List Nat) :
    let G := (runs t (each v as) S).gs k
    ¬ G.crashed ∧ (N + 7 ≤ S.count k → ∃ a, G.outs = [.got a]) ∧
      ∀ a, .got a ∈ G.outs → (E ∧ a = ansNone) ∨ AtMoment v t as k q (ansOf v.delim q m.core) a S := by
  have hok := h.ok
  have hdat : (ansOf v.delim q m.core).data = m.core.data := by
    simp only [ansOf]
    cases hc : m.core.hasData with
    | true => rfl
    | false => exact ((h.inv noData_zero).2 q _ (by rw [Tree.contents_eq hok, (Tree.nodeAt_some hok).mpr hmem]; rfl) hc).symm
  let Good : List Nat → View.Ans α → Prop := fun S a => (E ∧ a = ansNone) ∨ AtMoment v t as k q (ansOf v.delim q m.core) a S
  have more : ∀ S l a, Good S a → Good (S ++ [l]) a := fun S l a h => h.imp id (AtMoment.more l)
  obtain ⟨s, ext, g, I, L⟩ := along X ht hk (H := fun s ext S G => Looking v p (fun b pc => Comes (Prune.step (.get p) v.delim)
      (Tells t (Prune.mems (Prune.start v t (calls as)).mem (Prune.planOf v t (calls as))) site) (Stops p v.delim m.id E) b (ranks site s ext) pc) m.id (!m.core.leaf)
      (m.core.leaf || endsW v.delim q) True N (S.count k) (Good S) G)
    (.idle _ rfl)
    (fun S s ext s' ext' l G hlk hs he L => by
      have hck : (S ++ [l]).count k = S.count k := by simp [List.count_append, hlk]
      rw [hck]
      exact L.up (fun b pc hc => hc.up (ranks_up hs he)) id (more S l))
    (fun S s ext g s' ext' G I hs he L => by
      have hck : (S ++ [k]).count k = S.count k + 1 := by simp [List.count_append]
      obtain ⟨c1, c2, c3, c4⟩ := I.core X hj hmem
      have hcell := I.grown q m hmem
      have hT := I.tells X
      rw [hck]
      refine ((L.up (fun _ _ => id) id (more S k)).step (hN _) (fun b pc hc => ⟨comes_hunts_at hT Stops.hunts b pc hc, ?_⟩) (fun _ => ?_)
        (fun _ hb => ?_) (fun hb => ?_) (fun _ hn hd => .inr ?_) (fun _ hn => .inr ?_) _).up (fun b pc hc => hc.up (ranks_up hs he)) id fun _ => id
      · have now : Stops p v.delim m.id E pc → (Ends m.id pc ∧ True) ∨ (Quits p v.delim pc ∧ Good (S ++ [k]) ansNone) ∨
            ∃ b', b = b' + 1 ∧ Comes (Prune.step (.get p) v.delim) (Tells t (Prune.mems (Prune.start v t (calls as)).mem (Prune.planOf v t (calls as))) site)
              (Stops p v.delim m.id E) b' (ranks site s ext) (Prune.step (.get p) v.delim (runs t (each v as) S).mem pc).2 := by
          rintro (hc | ⟨he, hc⟩)
          · exact .inl ⟨hc, trivial⟩
          · exact .inr (.inl ⟨hc, .inl ⟨he, rfl⟩⟩)
        cases b with
        | zero => exact now hc
        | succ b =>
          rcases hc with hc | hc
          · exact now hc
          · exact .inr (.inr ⟨b, rfl, (hc _ _ (.refl _) hT).2⟩)
      · rw [hcell]; simp [c1]
      · rw [hcell]
        simp only at hb ⊢
        have hb' : m.core.leaf = false := by simpa using hb
        rw [hb', Bool.false_or]
        rw [← endsWith_of_mem hok hmem v.delim, Node.endsWith]
        cases m.path.getLast? with
        | none => rfl
        | some c => simp [Option.some_beq_some]
      · have hb' : m.core.leaf = true := by simpa using hb
        rw [hb']; rfl
      · rw [hcell] at hd
        refine ⟨S, [], rfl, List.count_pos_iff.mp hn, .inl ⟨?_, c3 hd⟩⟩
        have hc : m.core.hasData = false := by
          cases e : m.core.hasData with
          | false => rfl
          | true => rw [c2 e] at hd; cases hd
        simp only [ansOf, hc]
        cases m.core.leaf <;> rfl
      · rw [hcell]
        refine ⟨S, [], rfl, List.count_pos_iff.mp hn, ?_⟩
        rcases c4 with ⟨c4, c5⟩ | ⟨j, p', x, c4, c5, c6, c7⟩
        · refine .inl ⟨?_, c5⟩
          simp only
          rw [c4, ← hdat]
          simp only [ansOf]
        · refine .inr ⟨j, p', x, c4, c5, ?_, c7⟩
          simp only
          rw [c6]
          simp only [ansOf]) S
  exact L.seen fun b pc hc => comes_hunts_at (I.tells X) Stops.hunts b pc hc

/-- The lookup of a key that is not there, step by step. -/
theorem miss_fresh (X : Setting v t as (Prune.start v t (calls as)).mem (Prune.planOf v t (calls as)) site B)
    (ht : Prune.Tidy v t (calls as)) {k : Nat} {p : Str} (hk : as[k]? = some (.get p)) {N : Nat}
    (hN : ∀ σ, Comes (Prune.step (.get p) v.delim) (Tells t (Prune.mems (Prune.start v t (calls as)).mem (Prune.planOf v t (calls as))) site)
      (Quits p v.delim) N σ (.enter (v.full p) t.root.id none [])) (S : List Nat) :
    let G := (runs t (each v as) S).gs k
    ¬ G.crashed ∧ (N + 7 ≤ S.count k → ∃ a, G.outs = [.got a]) ∧ ∀ a, .got a ∈ G.outs → a = ansNone := by
  obtain ⟨s, ext, g, I, L⟩ := along X ht hk (H := fun s ext S G => Looking v p (fun b pc => Comes (Prune.step (.get p) v.delim)
      (Tells t (Prune.mems (Prune.start v t (calls as)).mem (Prune.planOf v t (calls as))) site) (Quits p v.delim) b (ranks site s ext) pc) 0 true true
      False N (S.count k) (fun a => a = ansNone) G)
    (.idle _ rfl)
    (fun S s ext s' ext' l G hlk hs he L => by
      have hck : (S ++ [l]).count k = S.count k := by simp [List.count_append, hlk]
      rw [hck]
      exact L.up (fun b pc hc => hc.up (ranks_up hs he)) id fun _ => id)
    (fun S s ext g s' ext' G I hs he L => by
      have hck : (S ++ [k]).count k = S.count k + 1 := by simp [List.count_append]
      have hT := I.tells X
      rw [hck]
      refine (L.step (hN _) (fun b pc hc => ⟨comes_hunts_at hT (fun r hr => hr.1) b pc hc, ?_⟩) (fun h => False.elim h)
        (fun h => False.elim h) (fun (hb : true = false) => Bool.noConfusion hb) (fun h => False.elim h) (fun h => False.elim h) _).up (fun b pc hc => hc.up (ranks_up hs he)) id fun _ => id
      cases b with
      | zero => exact .inr (.inl ⟨hc, rfl⟩)
      | succ b =>
        rcases hc with hc | hc
        · exact .inr (.inl ⟨hc, rfl⟩)
        · exact .inr (.inr ⟨b, rfl, (hc _ _ (.refl _) hT).2⟩)) S
  exact L.seen fun b pc hc => comes_hunts_at (I.tells X) (fun r hr => hr.1) b pc hc

/-- **C110** Goroutines call `Remove`, `Set` for keys that are in the trie and for new keys, and `Query`, each once, as in C109. A lookup
of a key that is in the trie, such that no removal gets into the way to it, does not panic and ends after finitely many
steps of its own, whatever the others do. It is as if it had been made at one moment, between its own first step and its end:
its answer is that of the trie before, if nobody had returned from a `Set` for its key at that moment, or otherwise that answer with the value of a `Set` for
its key that had begun. -/
theorem C110_answer (h : Reach K t) (hp : t.Plain v.delim) (hm : v.mode ≠ .up) (ht : Prune.Tidy v t (calls as)) (hj : Joins v t as)
    {k : Nat} {p : Str} (hk : as[k]? = some (.get p)) {q : Str} {c : Core α} (hr : resolve v.delim t.contents (v.full p) = some (q, c))
    (hw : ∀ c P x, c ∈ calls as → Prune.Takes v t c P x → Prune.Spares t P x q) :
    ∃ N, ∀ S, let G := (runs t (each v as) S).gs k
      ¬ G.crashed ∧ (N ≤ S.count k → ∃ a, G.outs = [.got a]) ∧
      ∀ a, .got a ∈ G.outs → ∃ a0, v.query t p = .ok a0 ∧ AtMoment v t as k q a0 a S := by
  have hok := h.ok
  obtain ⟨m, hrm, rfl⟩ := Prune.resolve_node hok hr
  have hmem := (Tree.nodeAt_some hok).mp (resolve_some hrm)
  have hq := Prune.query_node (v := v) hok hp hm p
  rw [hrm] at hq
  obtain ⟨site, B, X⟩ := setting hok hp hm ht hj
  obtain ⟨N, hN⟩ := comes_look (as := as) hok hp hm (Joined site none) hrm hw
  refine ⟨N + 7, fun S => ?_⟩
  obtain ⟨h1, h2, h3⟩ := look_fresh (E := False) h hj X ht hk hmem (fun σ => ((hN σ).fewer fun s M => tells_like).weak fun _ => .inl) S
  exact ⟨h1, h2, fun a ha => ⟨_, hq, (h3 a ha).resolve_left fun e => e.1⟩⟩

/-- **C110** … For any key that none of the new keys is, nor is with the delimiter behind it: if none of the goroutines removes the only child of a node on the
way, then the lookup does not panic, it ends, and either it finds nothing, or the key is in the trie and the answer is that of one moment, as above. -/
theorem C110_safe (h : Reach K t) (hp : t.Plain v.delim) (hm : v.mode ≠ .up) (ht : Prune.Tidy v t (calls as)) (hj : Joins v t as)
    {k : Nat} {p : Str} (hk : as[k]? = some (.get p))
    (hno : ∀ p' x, .set p' x ∈ as → t.contents (View.dash (v.full p')) = none → View.dash (v.full p') ≠ v.full p ∧ View.dash (v.full p') ≠ v.full p ++ [v.delim])
    (hw : ∀ c P x u, c ∈ calls as → Prune.Takes v t c P x → (u, P) ∈ t.root.nodes [] → u ≠ [] → u <+: v.full p → u ≠ v.full p →
      P.kids.length ≠ 1) :
    ∃ N, ∀ S, let G := (runs t (each v as) S).gs k
      ¬ G.crashed ∧ (N ≤ S.count k → ∃ a, G.outs = [.got a]) ∧
      ∀ a, .got a ∈ G.outs → a = ⟨default, false, false, true⟩ ∨
        ∃ q c a0, resolve v.delim t.contents (v.full p) = some (q, c) ∧ v.query t p = .ok a0 ∧ AtMoment v t as k q a0 a S := by
  have hok := h.ok
  have hq := Prune.query_node (v := v) hok hp hm p
  obtain ⟨site, B, X⟩ := setting hok hp hm ht hj
  have hF : ∀ q m, (q, m) ∈ t.root.nodes [] → q <+: v.full p → q.length < (v.full p).length →
      Prune.Firm (Prune.mems (Prune.start v t (calls as)).mem (Prune.planOf v t (calls as))) m := by
    intro q m hmem h1 h2
    by_cases hq0 : q = []
    · intro hpa
      subst hq0
      have : m = t.root := Option.some.inj (((Tree.nodeAt_some hok).mpr hmem).symm.trans ((Tree.nodeAt_some hok).mpr hok.root_mem))
      rw [this] at hpa
      exact absurd hok.nil hpa
    · refine Prune.mems_firm X.lays hmem fun l T hT hpar => ?_
      obtain ⟨p', t', x, P, g1, g2, rfl⟩ := Prune.planOf_some hT
      obtain ⟨_, _, u, g3, g4, _⟩ := Prune.takes_spec hok hp hm g2
      obtain ⟨rfl, rfl⟩ := Prod.mk.inj (hok.id_inj g3 hmem hpar)
      exact hw _ P x u (List.mem_of_getElem? g1) ⟨p', t', rfl, g2⟩ g3 hq0 h1 (fun e => by rw [e] at h2; omega)
  have hno' : ∀ k A wl a, site k = some (A, wl) → (a, A) ∈ t.root.nodes [] → v.full p ≠ a ++ wl ∧ a ++ wl ≠ v.full p ++ [v.delim] := by
    intro k A wl a hk hA
    obtain ⟨p', x, hs, hL⟩ := X.sited.new k A wl hk
    obtain ⟨a', hA', e, _⟩ := id hL
    obtain ⟨rfl, _⟩ := Prod.mk.inj (hok.id_inj hA hA' rfl)
    obtain ⟨h1, h2⟩ := hno p' x (List.mem_of_getElem? hs) (hL.none hok)
    rw [e] at h1 h2
    exact ⟨h1.symm, h2⟩
  by_cases hwe : v.full p = []
  · have hr : resolve v.delim t.nodeAt (v.full p) = some ([], t.root) := by rw [hwe]; simp [resolve, (Tree.nodeAt_some hok).mpr hok.root_mem]
    rw [hr] at hq
    refine ⟨0 + 1 + 7, fun S => ?_⟩
    obtain ⟨h1, h2, h3⟩ := look_fresh (E := False) (N := 0 + 1) h hj X ht hk hok.root_mem (fun σ => by
      rw [hwe]; exact .to (.ret true false (some t.root.id) none []) (fun _ _ _ _ => rfl) (.now (.inl ⟨_, _, rfl⟩) 0)) S
    refine ⟨h1, h2, fun a ha => .inr ⟨[], t.root.core, _, ?_, hq, (h3 a ha).resolve_left fun e => e.1⟩⟩
    rw [resolve_contents hok, hr]; rfl
  · obtain ⟨r, h2, h3⟩ := Prune.search_outcome hok (hp.at (v.full p)) hwe
    rcases h3 with ⟨q, m, P, u, rfl, h4, hmem, _⟩ | ⟨h4, h5⟩
    · rw [h4] at hq
      obtain ⟨F, hF⟩ := down_safe (p := p) (d := v.delim) (Q := Stops p v.delim m.id True) X (fun _ _ => id) (fun r hr => .inr ⟨trivial, hr⟩) h2 []
        (fun m' _ e pc hpc => by cases e; exact .inl hpc) (fun _ _ => id) hF hno'
      refine ⟨F 0 + 7, fun S => ?_⟩
      obtain ⟨g1, g2, g3⟩ := look_fresh h hj X ht hk hmem (fun σ => hF σ 0 none [] fun _ _ => .now (.inr ⟨trivial, quits_nil⟩) 0) S
      refine ⟨g1, g2, fun a ha => (g3 a ha).imp (fun e => e.2) fun e => ⟨q, m.core, _, ?_, hq, e⟩⟩
      rw [resolve_contents hok, h4]; rfl
    · obtain ⟨F, hF⟩ := down_safe (p := p) (d := v.delim) (Q := Quits p v.delim) X (fun _ _ => id) (fun r hr => hr) h2 []
        (fun m' e => by rw [h4] at e; cases e) (fun _ _ => id) hF hno'
      refine ⟨F 0 + 7, fun S => ?_⟩
      obtain ⟨g1, g2, g3⟩ := miss_fresh X ht hk (fun σ => hF σ 0 none [] fun _ _ => .now quits_nil 0) S
      exact ⟨g1, g2, fun a ha => .inl (g3 a ha)⟩

/-- **C110** … If somebody has returned from a `Set` for the key before the lookup begins, then the answer has that
value. -/
theorem C110_after (h : Reach K t) (hp : t.Plain v.delim) (hm : v.mode ≠ .up) (ht : Prune.Tidy v t (calls as)) (hs : Joins v t as)
    {k : Nat} {p : Str} (hk : as[k]? = some (.get p)) {q : Str} {c : Core α} (hr : resolve v.delim t.contents (v.full p) = some (q, c))
    (hw : ∀ c P x, c ∈ calls as → Prune.Takes v t c P x → Prune.Spares t P x q)
    {j : Nat} {p' : Str} {x : α} (hj : as[j]? = some (.set p' x)) (hq : View.dash (v.full p') = q) (S S' : List Nat)
    (hS : k ∉ S) (ho : ((runs t (each v as) S).gs j).outs ≠ []) (a : View.Ans α) (ha : .got a ∈ ((runs t (each v as) (S ++ S')).gs k).outs) :
    ∃ a0, v.query t p = .ok a0 ∧ a = { a0 with data := x } := by
  obtain ⟨N, hN⟩ := C110_answer h hp hm ht hs hk hr hw
  obtain ⟨a0, h0, S₁, S₂, e, h1, h2⟩ := (hN (S ++ S')).2.2 a ha
  refine ⟨a0, h0, ?_⟩
  rcases h2 with ⟨_, h2⟩ | ⟨j', p'', x', g1, g2, g3, _⟩
  · exfalso
    have hpre : S <+: S₁ := by
      rcases List.prefix_or_prefix_of_prefix (⟨S', rfl⟩ : S <+: S ++ S') (⟨k :: S₂, e.symm⟩ : S₁ <+: S ++ S') with h3 | h3
      · exact h3
      · exact absurd (h3.subset h1) hS
    obtain ⟨r, rfl⟩ := hpre
    have := run_outs t.root.id (2 * (each v as).length) j r (runs t (each v as) S)
    rw [← runs_append, h2 j p' x hj hq] at this
    exact ho (List.prefix_nil.mp this)
  · have := hs.apart j' j p'' x' p' x g1 hj (g2.trans hq.symm)
    subst this
    rw [hj] at g1
    cases g1
    exact g3

/-- **C110** … A lookup of a new key, one that goroutine `j` sets, does not panic and ends, whatever the others do. It is as if
it had been made at one moment, when it made one of its steps: it finds nothing, and at that moment `j` had not returned; or it finds the value, and at
that moment `j` had begun. -/
theorem C110_new (h : Reach K t) (hp : t.Plain v.delim) (hm : v.mode ≠ .up) (ht : Prune.Tidy v t (calls as)) (hj : Joins v t as)
    {k : Nat} {p : Str} (hk : as[k]? = some (.get p)) {j : Nat} {p' : Str} {x : α} (hset : as[j]? = some (.set p' x)) (hkey : View.dash (v.full p') = v.full p)
    (hnew : t.contents (v.full p) = none) :
    ∃ N, ∀ S, let G := (runs t (each v as) S).gs k
      ¬ G.crashed ∧ (N ≤ S.count k → ∃ a, G.outs = [.got a]) ∧
      ∀ a, .got a ∈ G.outs → ∃ S₁ S₂, S = S₁ ++ k :: S₂ ∧
        (a = ⟨default, false, false, true⟩ ∧ ((runs t (each v as) S₁).gs j).outs = [] ∨
         a = ⟨x, false, true, false⟩ ∧ ((runs t (each v as) S₁).gs j).todo = []) := by
  have hok := h.ok
  obtain ⟨site, B, X⟩ := setting hok hp hm ht hj
  have hsite : ∃ A w, site j = some (A, w) := by
    cases e : site j with
    | some y => exact ⟨y.1, y.2, rfl⟩
    | none =>
      obtain ⟨m, hmem⟩ := X.sited.old j p' x hset e
      rw [hkey] at hmem
      exact absurd hmem (Tree.contents_none.mp hnew m)
  obtain ⟨A, w, hA⟩ := hsite
  obtain ⟨p1, x1, hset1, a, hmem, hkey1, hw0, _⟩ := X.sited.new j A w hA
  rw [hset] at hset1
  obtain ⟨rfl, rfl⟩ := Act.set.inj (Option.some.inj hset1)
  have hfull : v.full p = a ++ w := hkey.symm.trans hkey1
  have hK : ∀ u P ch, (u, P) ∈ t.root.nodes [] → ch ∈ P.kids → u ++ ch.path <+: a →
      Sure (Prune.mems (Prune.start v t (calls as)).mem (Prune.planOf v t (calls as))) P ch := fun u P ch hP hch hq =>
    Prune.spares_sure hok hp hm (R := fun _ => False) (q := View.dash (v.full p'))
      (fun k c P y _ hc htk => hj.spares c P y p' x (List.mem_of_getElem? hc) htk (List.mem_of_getElem? hset)) (fun k T hT => ⟨id, hT⟩) X.lays hP hch
      (hq.trans ⟨w, hkey1.symm⟩)
  let T := Tells t (Prune.mems (Prune.start v t (calls as)).mem (Prune.planOf v t (calls as))) site
  let i := t.next + 2 * j + 1
  obtain ⟨F, hF⟩ := down_way (p := p) (d := v.delim) (R := T) (Q := fun r => Ends i r ∨ Quits p v.delim r) X (fun _ _ => id) hA (fun r hr => .inr hr)
    (fun _ _ _ _ r hr => .inl hr) hK t.root [] (v.full p) (fun _ _ => id) hmem hfull
  obtain ⟨F0, hF0⟩ := down_way (p := p) (d := v.delim) (R := fun s M => T s M ∧ s j = 0) (Q := Quits p v.delim) X (fun _ _ h => h.1) hA (fun r hr => hr)
    (fun _ _ h h' => by omega) hK t.root [] (v.full p) (fun _ _ => id) hmem hfull
  obtain ⟨N1, hN1⟩ := comes_leafy (p := p) (d := v.delim) (R := fun s M => T s M ∧ 0 < s j) X (fun _ _ => id) hA hK t.root [] (v.full p) (fun _ _ => id) hmem hfull
  let Good : List Nat → View.Ans α → Prop := fun S a => ∃ S₁ S₂, S = S₁ ++ k :: S₂ ∧
    (a = ⟨default, false, false, true⟩ ∧ ((runs t (each v as) S₁).gs j).outs = [] ∨ a = ⟨x, false, true, false⟩ ∧ ((runs t (each v as) S₁).gs j).todo = [])
  have more : ∀ S l a, Good S a → Good (S ++ [l]) a := by
    rintro S l a ⟨S₁, S₂, rfl, h1⟩
    exact ⟨S₁, S₂ ++ [l], by simp, h1⟩
  let C : List Nat → (Nat → Nat) → Nat → Pc α → Prop := fun S σ b pc =>
    (Good S ansNone ∧ Comes (Prune.step (.get p) v.delim) T (fun r => Ends i r ∨ Quits p v.delim r) b σ pc ∧
      (σ j = 0 → ∃ b', Comes (Prune.step (.get p) v.delim) (fun s M => T s M ∧ s j = 0) (Quits p v.delim) b' σ pc)) ∨
    (0 < σ j ∧ Comes (Prune.step (.get p) v.delim) (fun s M => T s M ∧ 0 < s j) (Ends i) b σ pc)
  have Cup : ∀ S l σ σ' b pc, Up σ σ' → C S σ b pc → C (S ++ [l]) σ' b pc := by
    rintro S l σ σ' b pc hs (⟨h1, h2, h3⟩ | ⟨h1, h2⟩)
    · refine .inl ⟨more S l _ h1, h2.up hs, fun e => ?_⟩
      have := hs j
      obtain ⟨b', h4⟩ := h3 (by omega)
      exact ⟨b', h4.up hs⟩
    · have := hs j
      exact .inr ⟨by omega, h2.up hs⟩
  have Chunts : ∀ S σ b pc M, T σ M → C S σ b pc → hunts pc = true := by
    rintro S σ b pc M hM (⟨_, h2, _⟩ | ⟨h1, h2⟩)
    · exact comes_hunts_at hM (fun r hr => hr.elim (Ends.hunts r) fun h => h.1) b pc h2
    · exact comes_hunts_at (R := fun s M => T s M ∧ 0 < s j) ⟨hM, h1⟩ Ends.hunts b pc h2
  refine ⟨F 0 + N1 + 7, fun S => ?_⟩
  obtain ⟨s, ext, g, I, L⟩ := along X ht hk (H := fun s ext S G => Looking v p (C S (ranks site s ext)) i false true (0 < ranks site s ext j) (F 0 + N1) (S.count k) (Good S) G)
    (.idle _ rfl)
    (fun S s ext s' ext' l G hlk hs he L => by
      have hck : (S ++ [l]).count k = S.count k := by simp [List.count_append, hlk]
      have hup := ranks_up (site := site) hs he
      rw [hck]
      exact L.up (fun b pc hc => Cup S l _ _ b pc hup hc) (fun hz => Nat.lt_of_lt_of_le hz (hup j)) fun a => more S l a)
    (fun S s ext g s' ext' G I hs he L => by
      have hck : (S ++ [k]).count k = S.count k + 1 := by simp [List.count_append]
      have hup := ranks_up (site := site) hs he
      have hT := I.tells X
      have hL := I.leaf X hset hA
      rw [hck]
      have hleaf : 0 < ranks site s ext j → (runs t (each v as) S).mem i = leafCell w (jobOf v t j p' x) ∧ ((runs t (each v as) S).gs j).todo = [] := by
        intro hz
        rcases hL with ⟨h1, _⟩ | ⟨_, _, h2, h3⟩
        · omega
        · exact ⟨h3, h2⟩
      refine Looking.up (C := C (S ++ [k]) (ranks site s ext)) (Z := 0 < ranks site s ext j) (Good := Good (S ++ [k]))
        (fun b pc hc => ?_) (fun hz => Nat.lt_of_lt_of_le hz (hup j)) (fun _ => id)
        ((L.up (fun b pc hc => Cup S k _ _ b pc (.refl _) hc) id fun a => more S k a).step ?_ (fun b pc hc => ⟨Chunts (S ++ [k]) _ b pc _ hT hc, ?_⟩) (fun hz => ?_)
        (fun _ (hb : false = true) => Bool.noConfusion hb) (fun _ => rfl) (fun hz _ hd => ?_) (fun hz _ => ?_) _)
      · rcases hc with ⟨h1, h2, h3⟩ | ⟨h1, h2⟩
        · refine .inl ⟨h1, h2.up hup, fun e => ?_⟩
          have := hup j
          obtain ⟨b', h4⟩ := h3 (by omega)
          exact ⟨b', h4.up hup⟩
        · have := hup j
          exact .inr ⟨by omega, h2.up hup⟩
      · rcases hL with ⟨h1, _, h2⟩ | ⟨h1, _⟩
        · refine .inl ⟨⟨S, [], rfl, .inl ⟨rfl, h2⟩⟩, ?_, fun _ => ⟨F0 0, ?_⟩⟩
          · exact (hF _ 0 none [] fun _ _ => .now (.inr quits_nil) 0).mono (Nat.le_add_right _ _)
          · exact hF0 _ 0 none [] fun _ _ => .now quits_nil 0
        · exact .inr ⟨h1, (hN1 _ none []).mono (Nat.le_add_left _ _)⟩
      · rcases hc with ⟨h1, h2, h3⟩ | ⟨h1, h2⟩
        · have now : Ends i pc ∨ Quits p v.delim pc → (Ends i pc ∧ 0 < ranks site s ext j) ∨ (Quits p v.delim pc ∧ Good (S ++ [k]) ansNone) ∨
              ∃ b', b = b' + 1 ∧ C (S ++ [k]) (ranks site s ext) b' (Prune.step (.get p) v.delim (runs t (each v as) S).mem pc).2 := by
            rintro (hc | hc)
            · refine .inl ⟨hc, ?_⟩
              rcases Nat.eq_zero_or_pos (ranks site s ext j) with e | e
              · obtain ⟨b', h4⟩ := h3 e
                exact absurd hc (not_ends (R := fun s M => T s M ∧ s j = 0) ⟨hT, e⟩ h4)
              · exact e
            · exact .inr (.inl ⟨hc, h1⟩)
          cases b with
          | zero => exact now h2
          | succ b =>
            rcases h2 with h2 | h2
            · exact now h2
            · by_cases hq : Quits p v.delim pc
              · exact now (.inr hq)
              · refine .inr (.inr ⟨b, rfl, .inl ⟨h1, (h2 _ _ (.refl _) hT).2, fun e => ?_⟩⟩)
                obtain ⟨b', h4⟩ := h3 e
                cases b' with
                | zero => exact absurd h4 hq
                | succ b' =>
                  rcases h4 with h4 | h4
                  · exact absurd h4 hq
                  · exact ⟨b', (h4 _ _ (.refl _) ⟨hT, e⟩).2⟩
        · cases b with
          | zero => exact .inl ⟨h2, h1⟩
          | succ b =>
            rcases h2 with h2 | h2
            · exact .inl ⟨h2, h1⟩
            · exact .inr (.inr ⟨b, rfl, .inr ⟨h1, (h2 _ _ (.refl _) ⟨hT, h1⟩).2⟩⟩)
      · rw [(hleaf hz).1]; rfl
      · rw [(hleaf hz).1] at hd; cases hd
      · rw [(hleaf hz).1]
        exact ⟨S, [], rfl, .inr ⟨rfl, (hleaf hz).2⟩⟩) S
  exact L.seen fun b pc hc => Chunts S _ b pc _ (I.tells X) hc

/-- **C110** … If the `Set` has returned before the lookup begins, then the lookup finds the new key. -/
theorem C110_found (h : Reach K t) (hp : t.Plain v.delim) (hm : v.mode ≠ .up) (ht : Prune.Tidy v t (calls as)) (hj : Joins v t as)
    {k : Nat} {p : Str} (hk : as[k]? = some (.get p)) {j : Nat} {p' : Str} {x : α} (hset : as[j]? = some (.set p' x)) (hkey : View.dash (v.full p') = v.full p)
    (hnew : t.contents (v.full p) = none) (S S' : List Nat) (hS : k ∉ S) (ho : ((runs t (each v as) S).gs j).outs ≠ []) (a : View.Ans α)
    (ha : .got a ∈ ((runs t (each v as) (S ++ S')).gs k).outs) : a = ⟨x, false, true, false⟩ := by
  obtain ⟨N, hN⟩ := C110_new h hp hm ht hj hk hset hkey hnew
  obtain ⟨S₁, S₂, e, h2⟩ := (hN (S ++ S')).2.2 a ha
  rcases h2 with ⟨_, h2⟩ | ⟨h2, _⟩
  · exfalso
    have hpre : S <+: S₁ := by
      rcases List.append_eq_append_iff.mp e with ⟨r, h3, _⟩ | ⟨r, h3, h4⟩
      · exact ⟨r, h3.symm⟩
      · cases r with
        | nil => exact ⟨[], by simpa using h3⟩
        | cons y r =>
          rw [List.cons_append] at h4
          rw [h3, ← (List.cons.inj h4).1] at hS
          exact absurd (by simp) hS
    obtain ⟨r, rfl⟩ := hpre
    have := run_outs t.root.id (2 * (each v as).length) j r (runs t (each v as) S)
    rw [← runs_append, h2] at this
    exact ho (List.prefix_nil.mp this)
  · exact h2
end

section examples
open Race (top)

/-- `a.name`, `a.log.level` and `db.host` are in the trie, `a.x` is new. -/
def asking : List (Act Nat) := joining ++ [.get "a.log.level".toList, .get "a.x".toList, .get "a.xy".toList]

theorem asking_tidy : Prune.Tidy top Race.three (calls asking) := Prune.tidy_of (by decide +kernel)

theorem asking_set {i : Nat} {p : Str} {x : Nat} (h : asking[i]? = some (.set p x)) : joining[i]? = some (.set p x) := by
  match i, h with
  | 0, h => exact h
  | 1, h => exact h
  | 2, h => cases h
  | 3, h => cases h
  | 4, h => cases h
  | 5, h => cases h
  | n + 6, h => cases h

theorem asking_mem {p : Str} {x : Nat} (h : .set p x ∈ asking) : .set p x ∈ joining := by
  obtain ⟨i, hi⟩ := List.mem_iff_getElem?.mp h
  exact List.mem_of_getElem? (asking_set hi)

theorem asking_calls {c : Call} {P : Node Nat} {y : Node Nat} (hc : c ∈ calls asking) (h : Prune.Takes top Race.three c P y) : c ∈ calls joining := by
  obtain ⟨p, t', rfl, _⟩ := h
  obtain ⟨a, ha, e⟩ := List.mem_map.mp hc
  rcases List.mem_append.mp ha with ha | ha
  · exact List.mem_map.mpr ⟨a, ha, e⟩
  · rcases List.mem_cons.mp ha with rfl | ha
    · cases e
    · rcases List.mem_cons.mp ha with rfl | ha
      · cases e
      · rcases List.mem_cons.mp ha with rfl | ha
        · cases e
        · cases ha

theorem asking_joins : Joins top Race.three asking := by
  have h := joining_joins
  exact ⟨fun p x hs => h.keys p x (asking_mem hs), fun i j p x p' x' hi hj => h.apart i j p x p' x' (asking_set hi) (asking_set hj),
    fun i j p x p' x' A w A' w' hi hj => h.sites i j p x p' x' A w A' w' (asking_set hi) (asking_set hj),
    fun c P y p x A w hc htk hs => h.still c P y p x A w (asking_calls hc htk) htk (asking_mem hs),
    fun c P y p x hc htk hs => h.spares c P y p x (asking_calls hc htk) htk (asking_mem hs)⟩

theorem asking_level : ∀ c P y, c ∈ calls asking → Prune.Takes top Race.three c P y → Prune.Spares Race.three P y "a.log.level".toList := by
  intro c P y hc htk
  have e : View.dash (top.full "a.log.level".toList) = "a.log.level".toList := by decide +kernel
  rw [← e]
  exact asking_joins.spares c P y _ 7 hc htk (List.mem_of_getElem? (i := 1) rfl)

example : ∃ N, ∀ S, let G := (runs Race.three (each top asking) S).gs 3
    ¬ G.crashed ∧ (N ≤ S.count 3 → ∃ a, G.outs = [.got a]) ∧
    ∀ a, .got a ∈ G.outs → ∃ a0, top.query Race.three "a.log.level".toList = .ok a0 ∧ AtMoment top Race.three asking 3 "a.log.level".toList a0 a S := by
  obtain ⟨c, hc⟩ : ∃ c, resolve top.delim Race.three.contents (top.full "a.log.level".toList) = some ("a.log.level".toList, c) := by
    have : ((resolve top.delim Race.three.contents (top.full "a.log.level".toList)).map Prod.fst) = some "a.log.level".toList := by decide +kernel
    obtain ⟨⟨q, c⟩, h1, rfl⟩ := Option.map_eq_some_iff.mp this
    exact ⟨c, h1⟩
  exact C110_answer Race.three_reach Race.three_plain.plain (by decide) asking_tidy asking_joins rfl hc asking_level

example : ∃ N, ∀ S, let G := (runs Race.three (each top asking) S).gs 4
    ¬ G.crashed ∧ (N ≤ S.count 4 → ∃ a, G.outs = [.got a]) ∧
    ∀ a, .got a ∈ G.outs → ∃ S₁ S₂, S = S₁ ++ 4 :: S₂ ∧
      (a = ⟨default, false, false, true⟩ ∧ ((runs Race.three (each top asking) S₁).gs 0).outs = [] ∨
       a = ⟨9, false, true, false⟩ ∧ ((runs Race.three (each top asking) S₁).gs 0).todo = []) :=
  C110_new Race.three_reach Race.three_plain.plain (by decide) asking_tidy asking_joins rfl (j := 0) (p' := "a.x".toList) rfl (by decide +kernel)
    (by
      have : (Race.three.contents (top.full "a.x".toList)).isNone = true := by decide +kernel
      exact Option.isNone_iff_eq_none.mp this)

/-- A key that nobody sets, and that begins like a new one. -/
example : ∃ N, ∀ S, let G := (runs Race.three (each top asking) S).gs 5
    ¬ G.crashed ∧ (N ≤ S.count 5 → ∃ a, G.outs = [.got a]) ∧
    ∀ a, .got a ∈ G.outs → a = ⟨default, false, false, true⟩ ∨
      ∃ q c a0, resolve top.delim Race.three.contents (top.full "a.xy".toList) = some (q, c) ∧ top.query Race.three "a.xy".toList = .ok a0 ∧
        AtMoment top Race.three asking 5 q a0 a S := by
  refine C110_safe Race.three_reach Race.three_plain.plain (by decide) asking_tidy asking_joins rfl (fun p' x h _ => ?_) (fun c P y u hc htk hP hu _ _ => ?_)
  · have key : (asking.all fun a => match a with
      | .set p' _ => View.dash (top.full p') != top.full "a.xy".toList && View.dash (top.full p') != top.full "a.xy".toList ++ [top.delim]
      | _ => true) = true := by decide +kernel
    simpa using List.all_eq_true.mp key _ h
  · have key : ((calls asking).all fun c => match Prune.taken top Race.three c with
      | none => true
      | some (_, P) => P.id == Race.three.root.id) = true := by decide +kernel
    have hid := List.all_eq_true.mp key c hc
    rw [Prune.taken_iff.mp htk] at hid
    have hid : P.id = Race.three.root.id := by simpa using hid
    have hok := Race.three_reach.ok
    exact absurd (Prod.mk.inj (hok.id_inj hP hok.root_mem hid)).1 hu

/-- By turns, the lookups end. After the `Set`, the new key is found; before it, it is not. -/
example : let W := runs Race.three (each top asking) ((List.replicate 60 [0, 1, 2, 3, 4, 5]).flatten)
    (W.gs 3).outs.length = 1 ∧ (W.gs 4).outs.length = 1 ∧ (W.gs 5).outs = [.got ⟨0, false, false, true⟩] := by decide +kernel

example : ((runs Race.three (each top asking) (List.replicate 40 0 ++ List.replicate 60 4)).gs 4).outs = [.got ⟨9, false, true, false⟩] := by decide +kernel

example : ((runs Race.three (each top asking) (List.replicate 60 4 ++ List.replicate 40 0)).gs 4).outs = [.got ⟨0, false, false, true⟩] := by decide +kernel

/-- What `C110_found` and `C110_after` ask for: goroutines 0 and 1 have returned before the lookups begin. -/
example (S' : List Nat) (a : View.Ans Nat) (ha : .got a ∈ ((runs Race.three (each top asking) (List.replicate 40 0 ++ S')).gs 4).outs) : a = ⟨9, false, true, false⟩ :=
  C110_found Race.three_reach Race.three_plain.plain (by decide) asking_tidy asking_joins (k := 4) rfl (j := 0) (p' := "a.x".toList) rfl (by decide +kernel)
    (by
      have : (Race.three.contents (top.full "a.x".toList)).isNone = true := by decide +kernel
      exact Option.isNone_iff_eq_none.mp this) (List.replicate 40 0) S' (by decide) (by decide +kernel) a ha

example (S' : List Nat) (a : View.Ans Nat) (ha : .got a ∈ ((runs Race.three (each top asking) (List.replicate 40 1 ++ S')).gs 3).outs) :
    ∃ a0, top.query Race.three "a.log.level".toList = .ok a0 ∧ a = { a0 with data := 7 } := by
  obtain ⟨c, hc⟩ : ∃ c, resolve top.delim Race.three.contents (top.full "a.log.level".toList) = some ("a.log.level".toList, c) := by
    have : ((resolve top.delim Race.three.contents (top.full "a.log.level".toList)).map Prod.fst) = some "a.log.level".toList := by decide +kernel
    obtain ⟨⟨q, c⟩, h1, rfl⟩ := Option.map_eq_some_iff.mp this
    exact ⟨c, h1⟩
  exact C110_after Race.three_reach Race.three_plain.plain (by decide) asking_tidy asking_joins rfl hc asking_level (j := 1) rfl (by decide +kernel)
    (List.replicate 40 1) S' (by decide) (by decide +kernel) a ha

end examples

end Parts
end Verif

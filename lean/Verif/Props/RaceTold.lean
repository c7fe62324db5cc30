import Verif.Lemmas.RaceTold
import Verif.Props.RaceRemove
/-
**C104** What handlers are told when goroutines remove keys at the same time.
-/
namespace Verif
namespace Prune
variable {α : Type} [Inhabited α] {K : Str → Prop} {t : Tree α} {v : View}

section helpers
variable {cs : List Call}

theorem get_never {k : Nat} (hk : ∀ p, cs[k]? ≠ some (.remove p)) (S : List Nat) : ((start v t cs).run v.delim cs S).pcs k ≠ .gone true := by
  have hcall : ∃ p, cs[k]?.getD (.get []) = .get p := by
    cases h : cs[k]? with
    | none => exact ⟨[], rfl⟩
    | some c =>
      cases c with
      | get p => exact ⟨p, rfl⟩
      | remove p => exact absurd h (hk p)
  obtain ⟨p, hp⟩ := hcall
  have main : ∀ (S : List Nat) (W : World α), (W.pcs k).reads = true → ((W.run v.delim cs S).pcs k).reads = true := by
    intro S
    induction S with
    | nil => exact fun _ h => h
    | cons l S ih =>
      intro W h
      refine ih _ ?_
      simp only [World.tick]
      split
      · next e =>
        subst e
        rw [hp]
        exact get_reads h
      · exact h
  have h := main S (start v t cs) (by simp only [start]; split <;> rfl)
  intro e
  rw [e] at h
  cases h

theorem picks_in (h : t.OK) (S : List Nat) (k par i : Nat) (e : ((start v t cs).run v.delim cs S).pcs k = .pick par i) : In t i := by
  have := ((sane_start (v := v) h cs).run (d := v.delim) (cs := cs) h S).2 k
  rw [e] at this
  exact this.2

end helpers

/-- **C104** The handlers are told of every `Remove` that has returned true, once, with its key, and of no other call. The value they
are told is that of an entry of the trie. For any calls, also those that collide, and any schedule. -/
theorem C104_once (h : Reach K t) (cs : List Call) (S : List Nat) :
    let s := (hub v t cs).run v.delim cs S
    (s.log.map (·.1)).Nodup ∧ (∀ k, k ∈ s.log.map (·.1) ↔ s.phase k = .back true) ∧
      ∀ e ∈ s.log, cs[e.1]? = some (.remove e.2.1) ∧ ∃ q c, t.contents q = some c ∧ e.2.2 = c.data := by
  have H := heard (v := v) (cs := cs) (G := fun _ => In t) (picks_in h.ok) S
  refine ⟨H.nodup, H.who, fun e he => ⟨?_, ?_⟩⟩
  · have hb := (H.who e.1).mp (List.mem_map.mpr ⟨e, he, rfl⟩)
    have hf := H.fine e.1
    rw [hb, H.base] at hf
    have hw := H.what e he
    cases hc : cs[e.1]? with
    | none => exact absurd hf (get_never (by rw [hc]; nofun) S)
    | some c =>
      cases c with
      | get p => exact absurd hf (get_never (by rw [hc]; nofun) S)
      | remove p =>
        rw [callOf, hc] at hw
        rw [hw]; rfl
  · obtain ⟨i, hv, q, m, hm, rfl⟩ := H.val e he
    refine ⟨q, m.core, (Tree.contents_node h.ok).mpr ⟨m, hm, rfl⟩, ?_⟩
    rw [hv, start_lays h.ok cs q m hm]
    rfl

/-- **C104** Goroutines that remove from different nodes and spare each other's ways, as in `C91_tidy`: none panics, each `Remove` has
returned true after finitely many steps of its own, and what the handlers are told for it is its key with the value of the node that
`Remove` would have removed if it had been alone. -/
theorem C104_told (h : Reach K t) (hp : t.Plain v.delim) (hm : v.mode ≠ .up) {cs : List Call} (ht : Tidy v t cs) :
    ∃ N : Nat → Nat, ∀ S, let s := (hub v t cs).run v.delim cs S
      ∀ k p, cs[k]? = some (.remove p) → s.base.pcs k ≠ .crash ∧ s.phase k ≠ .back false ∧ (N k ≤ S.count k → s.phase k = .back true) ∧
        ∃ t' x P, v.removeEx t p = .ok (t', some (x, P)) ∧ ∀ e ∈ s.log, e.1 = k → e.2 = (p, x.core.data) := by
  have hok := h.ok
  obtain ⟨N, hN⟩ := C91_tidy h hp hm ht
  have hG : ∀ S k par i, ((start v t cs).run v.delim cs S).pcs k = .pick par i → ∀ T, planOf v t cs k = some T → i = T.item := by
    intro S k par i e T hT
    obtain ⟨B, _, I⟩ := start_inv (Tr := fun _ => False) (Q := fun _ _ => False) (N := fun _ => 0) hok hp hm ht (fun _ e => e.elim)
    have I' := I.run (planOf_fits hok hp hm ht) (fun l pc hq M => hq.elim) S
    rcases (I'.rem k T hT).2 with ⟨h1, _⟩ | h1
    · rw [e] at h1; cases h1
    · rw [e] at h1
      cases h1
      rfl
  refine ⟨fun k => N k + 2, fun S k p hk => ?_⟩
  obtain ⟨P, x, htk⟩ := ht.takes p (List.mem_of_getElem? hk)
  have H := heard hG S
  have hN' := ((hN S).1 k p hk)
  have hf := H.fine k
  refine ⟨by rw [H.base]; exact hN'.1, fun e => ?_, fun hc => ?_, ?_⟩
  · rw [e, H.base] at hf
    exact hN'.2.1 hf
  · have hc : N k + 2 ≤ S.count k := hc
    obtain ⟨A, B, rfl, hA⟩ := count_split (k := k) (N k) S (by omega)
    rw [List.count_append] at hc
    exact back_after hG (((hN A).1 k p hk).2.2 (by omega)) (by omega)
  · have hT := planOf_takes hk htk
    obtain ⟨p', t', e, hrm⟩ := htk
    cases e
    obtain ⟨_, _, u, _, _, hx, _⟩ := takes_spec hok hp hm hrm
    refine ⟨t', x, P, hrm, fun e he hek => ?_⟩
    obtain ⟨i, hv, hi⟩ := H.val e he
    have hw := H.what e he
    rw [hek] at hi hw
    rw [callOf, hk] at hw
    have := hi _ hT
    rw [this, start_lays hok cs _ x hx] at hv
    exact Prod.ext hw hv

/-- **C104** … so when all have returned, the handlers have been told of every key, once, with its value, and the trie is the one
without the keys. -/
theorem C104_all (h : Reach K t) (hp : t.Plain v.delim) (hm : v.mode ≠ .up) {cs : List Call} (ht : Tidy v t cs) {S : List Nat}
    (hb : ∀ k p, cs[k]? = some (.remove p) → ((hub v t cs).run v.delim cs S).phase k = .back true) :
    let s := (hub v t cs).run v.delim cs S
    (s.log.map (·.1)).Nodup ∧
      (∀ k p a, (k, p, a) ∈ s.log ↔ cs[k]? = some (.remove p) ∧ ∃ t' x P, v.removeEx t p = .ok (t', some (x, P)) ∧ a = x.core.data) ∧
      ∃ D, ∀ d, D ≤ d → read s.base.mem d t.root.id = (after v t cs).root := by
  obtain ⟨N, hN⟩ := C104_told h hp hm ht
  obtain ⟨o1, o2, o3⟩ := C104_once (v := v) h cs S
  have H := heard (v := v) (cs := cs) (G := fun _ => In t) (picks_in h.ok) S
  refine ⟨o1, fun k p a => ⟨fun he => ?_, fun ⟨hk, t', x, P, hrm, ha⟩ => ?_⟩, ?_⟩
  · have hk := (o3 _ he).1
    obtain ⟨_, _, _, t', x, P, hrm, hv⟩ := hN S k p hk
    exact ⟨hk, t', x, P, hrm, (Prod.mk.inj (hv _ he rfl)).2⟩
  · obtain ⟨_, _, _, t1, x1, P1, hrm1, hv⟩ := hN S k p hk
    obtain ⟨e, he, hek⟩ := List.mem_map.mp ((o2 k).mpr (hb k p hk))
    rw [hrm] at hrm1
    cases hrm1
    rw [ha, ← hek, ← hv e he hek]
    exact he
  · have hr : Returned cs ((start v t cs).run v.delim cs S) := by
      intro k p hk
      have hf := H.fine k
      rw [hb k p hk, H.base] at hf
      exact ⟨true, hf⟩
    rw [H.base]
    obtain ⟨_, hN'⟩ := C91_tidy h hp hm ht
    exact (hN' S).2 hr

/-- **C104** The conditions are needed. Two goroutines remove children of one node, the first of them the same child as the second or
one before it, and the second child is not the last. There is a schedule on which the handlers are told of both keys, although the second
goroutine has removed the child behind its own. So they are told that its key is gone, which is still in the trie (or told twice of one
key, if both goroutines were to remove the same one), and they are not told of the keys that went instead. -/
theorem C104_stray_fails (h : Reach K t) (hp : t.Plain v.delim) (hm : v.mode ≠ .up) {cs : List Call} {r1 r2 : Nat} (hne : r1 ≠ r2)
    {p1 p2 : Str} (h1 : cs[r1]? = some (.remove p1)) (h2 : cs[r2]? = some (.remove p2)) {P x1 x2 : Node α}
    (ht1 : Takes v t (.remove p1) P x1) (ht2 : Takes v t (.remove p2) P x2) {u : Str} (hP : (u, P) ∈ t.root.nodes [])
    {A C : List (Node α)} {c : Node α} (hk : P.kids = A ++ x2 :: c :: C) (hx1 : x1 ∈ A ++ [x2]) :
    ∃ S, let s := (hub v t cs).run v.delim cs S
      (∃ a, (r1, p1, a) ∈ s.log) ∧ (∃ a, (r2, p2, a) ∈ s.log) ∧ ∃ D, ∀ d, D ≤ d → ∃ t' : Tree α,
        t'.root = read s.base.mem d t.root.id ∧ t'.next = t.next ∧ t'.OK ∧
        ∀ q, t'.contents q = if u ++ x1.path <+: q ∨ u ++ c.path <+: q then none else t.contents q := by
  obtain ⟨S, g1, g2, D, hD⟩ := C91_stray_fails h hp hm hne h1 h2 ht1 ht2 hP hk hx1
  refine ⟨S ++ [r1, r1, r2, r2], ?_⟩
  have hG := picks_in (v := v) (cs := cs) h.ok
  have H := heard (v := v) (cs := cs) (G := fun _ => In t) hG (S ++ [r1, r1, r2, r2])
  have b1 := back_after (G := fun _ => In t) hG (B := [r1, r1, r2, r2]) g1 (by simp only [List.count_cons_self]; omega)
  have b2 := back_after (G := fun _ => In t) hG (B := [r1, r1, r2, r2]) g2 (by
    rw [List.count_cons_of_ne hne, List.count_cons_of_ne hne, List.count_cons_self, List.count_cons_self]; omega)
  obtain ⟨_, o2, o3⟩ := C104_once (v := v) h cs (S ++ [r1, r1, r2, r2])
  have told : ∀ r p, cs[r]? = some (.remove p) → ((hub v t cs).run v.delim cs (S ++ [r1, r1, r2, r2])).phase r = .back true →
      ∃ a, (r, p, a) ∈ ((hub v t cs).run v.delim cs (S ++ [r1, r1, r2, r2])).log := by
    intro r p hr hb
    obtain ⟨e, he, rfl⟩ := List.mem_map.mp ((o2 r).mpr hb)
    have := (o3 e he).1
    rw [hr] at this
    obtain rfl : p = e.2.1 := Call.remove.inj (Option.some.inj this)
    exact ⟨_, he⟩
  have hbase : ((hub v t cs).run v.delim cs (S ++ [r1, r1, r2, r2])).base = (start v t cs).run v.delim cs S := by
    rw [H.base, run_append]
    generalize (start v t cs).run v.delim cs S = W at g1 g2
    show (((W.tick v.delim cs r1).tick v.delim cs r1).tick v.delim cs r2).tick v.delim cs r2 = W
    rw [tick_gone g1, tick_gone g1, tick_gone g2, tick_gone g2]
  refine ⟨told r1 p1 h1 b1, told r2 p2 h2 b2, D, fun d hd => ?_⟩
  simp only [hbase]
  exact hD d hd

/-- **C104** … and the value can be that of another key: two goroutines remove `abc`, the second takes `ab`, whose value is 1, and
tells the handlers that `abc` was 1. -/
theorem C104_value_fails :
    ∃ (t : Tree Nat) (p : Str) (S : List Nat), Reach (NoRoute '.') t ∧ keys t.root = ["ab", "abc"] ∧ p = "abc".toList ∧
      Race.top.query t p = .ok ⟨2, false, true, false⟩ ∧
      let s := (hub Race.top t [.remove p, .remove p]).run '.' [.remove p, .remove p] S
      s.log = [(0, p, 2), (1, p, 1)] ∧ keys (read s.base.mem 5 t.root.id) = [] :=
  ⟨abc, "abc".toList, List.replicate 12 1 ++ List.replicate 40 0 ++ List.replicate 40 1, abc_reach, by decide +kernel, rfl, by exact rfl,
    by decide +kernel⟩

/-! ### Examples -/

example : let s := (hub Race.top Race.three calls).run '.' calls ((List.replicate 60 [0, 1, 2]).flatten)
    s.log = [(2, "db.host".toList, 3), (1, "a.name".toList, 1)] ∧ s.phase 1 = .back true ∧ s.phase 2 = .back true := by decide +kernel

example : ∃ N : Nat → Nat, ∀ S, let s := (hub Race.top Race.three calls).run '.' calls S
    ∀ k p, calls[k]? = some (.remove p) → s.base.pcs k ≠ .crash ∧ s.phase k ≠ .back false ∧ (N k ≤ S.count k → s.phase k = .back true) ∧
      ∃ t' x P, Race.top.removeEx Race.three p = .ok (t', some (x, P)) ∧ ∀ e ∈ s.log, e.1 = k → e.2 = (p, x.core.data) :=
  C104_told Race.three_reach Race.three_plain.plain (by decide) calls_tidy

/-- The hypothesis of `C104_all` on one schedule. -/
example : let S := (List.replicate 60 [0, 1, 2]).flatten
    (List.range 3).all (fun k => match calls[k]? with
      | some (.remove _) => decide (((hub Race.top Race.three calls).run '.' calls S).phase k = .back true)
      | _ => true) = true := by decide +kernel

/-- Two goroutines remove `a.x`: the handlers are told twice, and `a.y` is gone too. -/
example : ∃ S, let cs := [.remove "a.x".toList, .remove "a.x".toList]; let s := (hub Race.top xyz cs).run '.' cs S
    (∃ a, (0, "a.x".toList, a) ∈ s.log) ∧ (∃ a, (1, "a.x".toList, a) ∈ s.log) ∧ ∃ D, ∀ d, D ≤ d → ∃ t' : Tree Nat,
      t'.root = read s.base.mem d xyz.root.id ∧ t'.next = xyz.next ∧ t'.OK ∧
      ∀ q, t'.contents q = if "a.x".toList <+: q ∨ "a.y".toList <+: q then none else xyz.contents q :=
  C104_stray_fails (v := Race.top) (r1 := 0) (r2 := 1) xyz_reach xyz_reach.plain (by decide) (by decide) rfl rfl xyz_takes.1
    xyz_takes.1 xyz_a (A := []) (c := ny) (C := [nz]) rfl (by simp)

end Prune
end Verif

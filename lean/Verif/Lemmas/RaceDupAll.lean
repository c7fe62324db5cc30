import Verif.Lemmas.RaceDupNew
/-
A copy of the trie (`Dup`) beside goroutines that set and remove keys.
-/
namespace Verif

theorem Node.node_inj {α : Type} {n : Node α} (h : n.ids.Nodup) {x y : Str × Node α} (hx : x ∈ n.nodes []) (hy : y ∈ n.nodes []) (hid : x.2.id = y.2.id) : x = y := by
  rw [← Node.ids_eq []] at h
  generalize n.nodes [] = l at *
  induction l with
  | nil => cases hx
  | cons a as ih =>
    simp only [List.map_cons, List.nodup_cons, List.mem_map, not_exists, not_and] at h
    rcases List.mem_cons.mp hx with h1 | hx <;> rcases List.mem_cons.mp hy with h2 | hy
    · rw [h1, h2]
    · exact absurd (by rw [← hid, h1]) (h.1 _ hy)
    · exact absurd (by rw [hid, h2]) (h.1 _ hx)
    · exact ih h.2 hx hy

namespace Parts
variable {α : Type} [Inhabited α]
open Prune (Cell Mem VShows ESure)

/-- The copying is sure to come from `n` (below the path `u`) to `m`, which is at the path `q`. -/
inductive Track {σ : Type} (R : σ → σ → Prop) (ms : σ → Mem α) : Str → Node α → Str → Node α → Prop
  | here (u : Str) (n : Node α) : Track R ms u n (u ++ n.path) n
  | down {u q : Str} {n c m : Node α} (hc : c ∈ n.kids) (hs : ESure R ms n c) (h : Track R ms (u ++ n.path) c q m) : Track R ms u n q m

theorem Track.snoc {σ : Type} {R : σ → σ → Prop} {ms : σ → Mem α} {u q : Str} {n m c : Node α} (h : Track R ms u n q m) (hc : c ∈ m.kids) (hs : ESure R ms m c) :
    Track R ms u n (q ++ c.path) c := by
  induction h with
  | here u n => exact .down hc hs (.here _ c)
  | down h1 h2 _ ih => exact .down h1 h2 (ih hc hs)

section
variable {σ : Type} {R : σ → σ → Prop} {ms : σ → Mem α} {L : σ → Nat → Prop}

/-- A core in the copy: what was at the node at a moment when it had been made, with the data of a later moment. -/
def Took (R : σ → σ → Prop) (ms : σ → Mem α) (L : σ → Nat → Prop) (m : Node α) (c : Core α) : Prop :=
  ∃ s1 s2, R s1 s2 ∧ L s1 m.id ∧ c = { (ms s1 m.id).core with data := (ms s2 m.id).core.data, desc := [], comment := [], tag := none }

/-- What the copying makes of what is below `n`: copies of nodes that are there, and of all that it is sure to come to. -/
structure Bits (R : σ → σ → Prop) (ms : σ → Mem α) (L : σ → Nat → Prop) (u : Str) (n n' : Node α) (f f' : Nat) : Prop where
  sound : ∀ q m', (q, m') ∈ n'.nodes u → ∃ m, (q, m) ∈ n.nodes u ∧ Took R ms L m m'.core
  sure : ∀ q m, Track R ms u n q m → ∃ m', (q, m') ∈ n'.nodes u ∧ Took R ms L m m'.core
  le : f ≤ f'
  ids : ∀ i ∈ n'.ids, f ≤ i ∧ i < f'
  nodup : n'.ids.Nodup

/-- The loop over the children. -/
theorem bleads_loop (hr : ∀ a, R a a) (hR : ∀ a b c, R a b → R b c → R a c) {n : Node α} {u : Str} {N h : Nat} {stk : List (Half α)}
    (hid : ∀ a ∈ n.kids, ∀ b ∈ n.kids, a.id = b.id → a = b)
    (hin : ∀ e ∈ n.kids, ∀ s stk f, L s e.id → DLeads R ms (fun r => ∃ e' f', r = (Dp.push e' stk, f') ∧ Bits R ms L u e e' f f') N s (.visit e.id stk, f)) :
    ∀ j k, j + k = h → ∀ s f id path core ks, (∀ s', R s s' → ∀ k, k < h → ∃ e ∈ n.kids, (ms s' n.id).arr.getD k 0 = e.id ∧ L s' e.id) →
      DLeads R ms (fun r => ∃ new f' s2, R s s2 ∧ r = (Dp.push (.mk id path { core with data := (ms s2 n.id).core.data } (ks ++ new)) stk, f') ∧
        (∀ x ∈ new, ∀ q m', (q, m') ∈ x.nodes u → ∃ e ∈ n.kids, ∃ m, (q, m) ∈ e.nodes u ∧ Took R ms L m m'.core) ∧
        (∀ e ∈ n.kids, ∀ k', k ≤ k' → k' < h → (∀ s', R s s' → (ms s' n.id).arr.getD k' 0 = e.id) →
          ∀ q m, Track R ms u e q m → ∃ x ∈ new, ∃ m', (q, m') ∈ x.nodes u ∧ Took R ms L m m'.core) ∧
        f ≤ f' ∧ (∀ i ∈ new.flatMap Node.ids, f ≤ i ∧ i < f') ∧ (new.flatMap Node.ids).Nodup)
        (1 + (N + 1) * j) s (.next (⟨n.id, id, path, core, h, k, ks⟩ :: stk), f) := by
  intro j
  induction j with
  | zero =>
    intro k hk s f id path core ks _
    refine .inr fun s1 hs1 => ?_
    have hle : ¬ k < h := by omega
    simp only [dstep, if_neg hle]
    exact .now ⟨[], f, s1, hs1, by simp, nofun, fun e _ k' h1 h2 => by omega, Nat.le_refl _, nofun, List.nodup_nil⟩ _
  | succ j ih =>
    intro k hk s f id path core ks hel
    rw [show 1 + (N + 1) * (j + 1) = (N + (1 + (N + 1) * j)) + 1 by rw [Nat.mul_add]; omega]
    refine .inr fun s1 hs1 => ?_
    have hlt : k < h := by omega
    simp only [dstep, if_pos hlt]
    obtain ⟨e, he, hek, hLe⟩ := hel s1 hs1 k hlt
    rw [hek]
    refine (hin e he s1 _ f hLe).trans hr hR ?_
    rintro s2 r hs2 ⟨e', f1, rfl, a⟩
    refine ((ih (k + 1) (by omega) s2 f1 id path core (ks ++ [e']) fun s' hs' => hel s' (hR _ _ _ (hR _ _ _ hs1 hs2) hs')).trans
      (m := 0) hr hR ?_).mono (by omega)
    rintro s3 r hs3 ⟨new, f', s4, hs4, rfl, b1, b2, b3, b4, b5⟩
    refine ⟨e' :: new, f', s4, hR _ _ _ (hR _ _ _ hs1 hs2) hs4, by simp, fun x hx q m' hm => ?_, fun e2 he2 k' h1 h2 h3 q m hw => ?_, Nat.le_trans a.le b3, fun i hi => ?_, ?_⟩
    · rcases List.mem_cons.mp hx with rfl | hx
      · exact ⟨e, he, a.sound q m' hm⟩
      · exact b1 x hx q m' hm
    · by_cases ek : k' = k
      · subst ek
        have := h3 s1 hs1
        rw [hek] at this
        obtain rfl := hid e he e2 he2 this
        obtain ⟨m', h4, h5⟩ := a.sure q m hw
        exact ⟨e', List.mem_cons_self, m', h4, h5⟩
      · obtain ⟨x, h4, h5⟩ := b2 e2 he2 k' (by omega) h2 (fun s' hs' => h3 s' (hR _ _ _ (hR _ _ _ hs1 hs2) hs')) q m hw
        exact ⟨x, List.mem_cons_of_mem _ h4, h5⟩
    · rw [List.flatMap_cons, List.mem_append] at hi
      rcases hi with hi | hi
      · have := a.ids i hi; omega
      · have := b4 i hi; have := a.le; omega
    · rw [List.flatMap_cons, List.nodup_append]
      refine ⟨a.nodup, b5, fun i hi j hj e => ?_⟩
      have := a.ids i hi
      have := b4 j hj
      omega

/-- The copy of what is below a node, in a number of steps that depends on the tree alone. -/
theorem bleads_walk (n : Node α) : ∀ (u : Str), n.ids.Nodup → ∃ N, ∀ (σ : Type) (R : σ → σ → Prop) (ms : σ → Mem α) (L : σ → Nat → Prop),
    (∀ a, R a a) → (∀ a b c, R a b → R b c → R a c) → (∀ a b i, R a b → L a i → L b i) →
    (∀ q m, (q, m) ∈ n.nodes u → VShows R ms L m ∧ ∀ s, L s m.id → (ms s m.id).path = m.path) →
    ∀ s stk f, L s n.id → DLeads R ms (fun r => ∃ n' f', r = (Dp.push n' stk, f') ∧ Bits R ms L u n n' f f') N s (.visit n.id stk, f) := by
  induction n using Node.ind with
  | h i p c k ih =>
    intro u hnd
    rw [Node.ids_mk, List.nodup_cons] at hnd
    have hsub : ∀ e ∈ k, ∀ q m, (q, m) ∈ e.nodes (u ++ p) → (q, m) ∈ (Node.mk i p c k).nodes u :=
      fun e he q m hm => (Node.mem_nodes u (.mk i p c k) _).mpr (.inr ⟨e, he, hm⟩)
    have hself : (u ++ p, Node.mk i p c k) ∈ (Node.mk i p c k).nodes u := (Node.mem_nodes u (.mk i p c k) _).mpr (.inl rfl)
    obtain ⟨N, hN⟩ := Prune.uniform (fun (e : Node α) N => ∀ (σ : Type) (R : σ → σ → Prop) (ms : σ → Mem α) (L : σ → Nat → Prop),
        (∀ a, R a a) → (∀ a b c, R a b → R b c → R a c) → (∀ a b i, R a b → L a i → L b i) →
        (∀ (q : Str) (m : Node α), (q, m) ∈ e.nodes (u ++ p) → VShows R ms L m ∧ ∀ s, L s m.id → (ms s m.id).path = m.path) →
        ∀ s stk f, L s e.id → DLeads R ms (fun r => ∃ (e' : Node α) (f' : Nat), r = (Dp.push e' stk, f') ∧ Bits R ms L (u ++ p) e e' f f') N s (.visit e.id stk, f))
      (fun e n m hnm h σ R ms L hr hR hL hS s stk f h0 => (h σ R ms L hr hR hL hS s stk f h0).mono hnm) k
      (fun e he => ih e he (u ++ p) (Node.ids_nodup_kid hnd.2 he))
    refine ⟨((1 + (N + 1) * k.length) + 1) + 1, fun σ R ms L hr hR hL hS s stk f h0 => ?_⟩
    obtain ⟨hsh, hpa⟩ := hS _ _ hself
    have hid : ∀ a ∈ k, ∀ b ∈ k, a.id = b.id → a = b := Prune.ids_apart k hnd.2
    refine .inr fun s1 hs1 => .inr fun s2 hs2 => ?_
    have h1 : L s1 i := hL _ _ _ hs1 h0
    have h2 : L s2 i := hL _ _ _ hs2 h1
    have hp : (ms s1 i).path = p := hpa s1 h1
    have hl : (ms s2 i).len ≤ k.length := hsh.len s2 h2
    simp only [dstep, Node.id, hp]
    refine ((bleads_loop (n := .mk i p c k) (u := u ++ p) (L := L) (h := (ms s2 i).len) (stk := stk) hr hR hid
      (fun e he => hN e he σ R ms L hr hR hL fun q m hm => hS q m (hsub e he q m hm)) (ms s2 i).len 0 (by omega) s2 (f + 1) f p _ []
      (fun s' hs' k' hk' => hsh.elts s2 s' k' h2 hs' hk')).trans (m := 0) hr hR ?_).mono (by have := Nat.mul_le_mul_left (N + 1) hl; omega)
    rintro s3 r hs3 ⟨new, f', s4, hs4, rfl, b1, b2, b3, b4, b5⟩
    have hroot : Took R ms L (.mk i p c k) { ({ (ms s1 i).core with desc := [], comment := [], tag := none } : Core α) with data := (ms s4 i).core.data } :=
      ⟨s1, s4, hR _ _ _ hs2 hs4, h1, rfl⟩
    refine ⟨_, f', rfl, fun q m' hm => ?_, fun q m hw => ?_, by omega, fun j hj => ?_, ?_⟩
    · rw [Node.mem_nodes] at hm
      rcases hm with e | ⟨x, hx, hm⟩
      · obtain ⟨rfl, rfl⟩ := Prod.mk.inj e
        exact ⟨_, hself, hroot⟩
      · obtain ⟨e, he, m, hm', ht⟩ := b1 x (by simpa using hx) q m' hm
        exact ⟨m, hsub e he q m hm', ht⟩
    · cases hw with
      | here => exact ⟨_, (Node.mem_nodes _ _ _).mpr (.inl rfl), hroot⟩
      | down hc hs hw =>
        obtain ⟨k', h3, h4⟩ := hs s2
        obtain ⟨x, hx, m', hm', ht⟩ := b2 _ hc k' (by omega) h3 h4 q m hw
        exact ⟨m', (Node.mem_nodes _ _ _).mpr (.inr ⟨x, by simpa using hx, hm'⟩), ht⟩
    · rw [Node.ids_mk, List.mem_cons] at hj
      rcases hj with rfl | hj
      · omega
      · have := b4 j (by simpa using hj); omega
    · rw [Node.ids_mk, List.nodup_cons]
      refine ⟨fun hj => ?_, by simpa using b5⟩
      have := b4 f (by simpa using hj)
      omega

end

end Parts
end Verif

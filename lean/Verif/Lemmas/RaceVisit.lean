import Verif.Model.RaceVisit
import Verif.Spec.RaceVisit
import Verif.Lemmas.RaceDupAll
/-
A walk over the trie (`Walk`) beside goroutines that set and remove keys.
-/
namespace Verif
namespace Parts
variable {α : Type} [Inhabited α]
open Prune (Cell Mem VShows ESure Way Turn)

section
variable {σ : Type} {R : σ → σ → Prop} {ms : σ → Mem α} {Q Q' : Wk × List (Str × Str × Nat) → Prop} {L : σ → Nat → Prop}

/-- Whatever the others do, the walking goroutine gets to `Q` in at most `n` steps of its own. -/
def WLeads (R : σ → σ → Prop) (ms : σ → Mem α) (Q : Wk × List (Str × Str × Nat) → Prop) : Nat → σ → Wk × List (Str × Str × Nat) → Prop
  | 0, _, e => Q e
  | n + 1, s, e => Q e ∨ ∀ s', R s s' → WLeads R ms Q n s' (wstep (ms s') e)

theorem WLeads.now {s : σ} {e : Wk × List (Str × Str × Nat)} (h : Q e) : ∀ n, WLeads R ms Q n s e
  | 0 => h
  | _ + 1 => .inl h

theorem WLeads.up (hR : ∀ a b c, R a b → R b c → R a c) {s s' : σ} (hs : R s s') {e : Wk × List (Str × Str × Nat)} :
    ∀ {n}, WLeads R ms Q n s e → WLeads R ms Q n s' e
  | 0, h => h
  | _ + 1, h => h.imp id fun h t ht => h t (hR _ _ _ hs ht)

theorem WLeads.mono {n m : Nat} (hnm : n ≤ m) {s : σ} {e : Wk × List (Str × Str × Nat)} (h : WLeads R ms Q n s e) : WLeads R ms Q m s e := by
  induction n generalizing m s e with
  | zero => exact .now h m
  | succ n ih =>
    cases m with
    | zero => omega
    | succ m => exact h.imp id fun h t ht => ih (by omega) (h t ht)

theorem WLeads.trans (hr : ∀ a, R a a) (hR : ∀ a b c, R a b → R b c → R a c) {n m : Nat} {s : σ} {e : Wk × List (Str × Str × Nat)}
    (h : WLeads R ms Q n s e) (h' : ∀ s' e, R s s' → Q e → WLeads R ms Q' m s' e) : WLeads R ms Q' (n + m) s e := by
  induction n generalizing s e with
  | zero => exact (h' s e (hr s) h).mono (by omega)
  | succ n ih =>
    rcases h with h | h
    · exact (h' s e (hr s) h).mono (by omega)
    · rw [Nat.add_right_comm]
      exact .inr fun t ht => ih (h t ht) fun s' e hs => h' s' e (hR _ _ _ ht hs)

theorem wleads_done (hr : ∀ a, R a a) {out : List (Str × Str × Nat)} : ∀ {m : Nat} {s : σ}, WLeads R ms Q m s (.done, out) → Q (.done, out)
  | 0, _, h => h
  | m + 1, s, h => by
    rcases h with h | h
    · exact h
    · exact wleads_done hr (h s (hr s))

/-- The calls that a walk makes: for nodes of the tree that have been made, and for all that the walk is sure to come to. -/
def WAdds (R : σ → σ → Prop) (ms : σ → Mem α) (L : σ → Nat → Prop) (n : Node α) (u : Str) (new : List (Str × Str × Nat)) : Prop :=
  (∀ x ∈ new, ∃ q m s, (q, m) ∈ n.nodes u ∧ x = shownAs m ∧ L s m.id) ∧ ∀ m, Way R ms n m → shownAs m ∈ new

/-- The loop over the children. -/
theorem wleads_loop (hr : ∀ a, R a a) (hR : ∀ a b c, R a b → R b c → R a c) {n : Node α} {u : Str} {N h : Nat} {stk : List Turn}
    (hid : ∀ a ∈ n.kids, ∀ b ∈ n.kids, a.id = b.id → a = b)
    (hin : ∀ e ∈ n.kids, ∀ s stk out, L s e.id → WLeads R ms (fun r => ∃ new, r = (.next stk, out ++ new) ∧ WAdds R ms L e u new) N s (.visit e.id stk, out)) :
    ∀ j k, j + k = h → ∀ s out, (∀ s', R s s' → ∀ k, k < h → ∃ e ∈ n.kids, (ms s' n.id).arr.getD k 0 = e.id ∧ L s' e.id) →
      WLeads R ms (fun r => ∃ new, r = (.next stk, out ++ new) ∧
        (∀ x ∈ new, ∃ e ∈ n.kids, ∃ q m s, (q, m) ∈ e.nodes u ∧ x = shownAs m ∧ L s m.id) ∧
        ∀ e ∈ n.kids, ∀ k', k ≤ k' → k' < h → (∀ s', R s s' → (ms s' n.id).arr.getD k' 0 = e.id) →
          ∀ m, Way R ms e m → shownAs m ∈ new)
        (1 + (N + 1) * j) s (.next (⟨n.id, h, k⟩ :: stk), out) := by
  intro j
  induction j with
  | zero =>
    intro k hk s out _
    refine .inr fun s1 hs1 => ?_
    have hle : ¬ k < h := by omega
    simp only [wstep, if_neg hle]
    exact .now ⟨[], by simp, nofun, fun e _ k' h1 h2 => by omega⟩ _
  | succ j ih =>
    intro k hk s out hel
    rw [show 1 + (N + 1) * (j + 1) = (N + (1 + (N + 1) * j)) + 1 by rw [Nat.mul_add]; omega]
    refine .inr fun s1 hs1 => ?_
    have hlt : k < h := by omega
    simp only [wstep, if_pos hlt]
    obtain ⟨e, he, hek, hLe⟩ := hel s1 hs1 k hlt
    rw [hek]
    refine (hin e he s1 _ out hLe).trans hr hR ?_
    rintro s2 r hs2 ⟨new, rfl, a1, a2⟩
    refine ((ih (k + 1) (by omega) s2 (out ++ new) fun s' hs' => hel s' (hR _ _ _ (hR _ _ _ hs1 hs2) hs')).trans
      (m := 0) hr hR ?_).mono (by omega)
    rintro s3 r hs3 ⟨new', rfl, b1, b2⟩
    refine ⟨new ++ new', by rw [List.append_assoc], fun x hx => ?_, fun e' he' k' h1 h2 h3 m hw => ?_⟩
    · rcases List.mem_append.mp hx with hx | hx
      · exact ⟨e, he, a1 x hx⟩
      · exact b1 x hx
    · by_cases ek : k' = k
      · subst ek
        have := h3 s1 hs1
        rw [hek] at this
        rw [hid e he e' he' this] at a2
        exact List.mem_append_left _ (a2 m hw)
      · exact List.mem_append_right _ (b2 e' he' k' (by omega) h2 (fun s' hs' => h3 s' (hR _ _ _ (hR _ _ _ hs1 hs2) hs')) m hw)

end

/-- The walk below a node, in a number of steps that depends on the tree alone. -/
theorem wleads_walk (n : Node α) : ∀ (u : Str), n.ids.Nodup → ∃ N, ∀ (σ : Type) (R : σ → σ → Prop) (ms : σ → Mem α) (L : σ → Nat → Prop),
    (∀ a, R a a) → (∀ a b c, R a b → R b c → R a c) → (∀ a b i, R a b → L a i → L b i) →
    (∀ q m, (q, m) ∈ n.nodes u → VShows R ms L m ∧ ∀ s, L s m.id → (ms s m.id).path = m.path) →
    ∀ s stk out, L s n.id → WLeads R ms (fun r => ∃ new, r = (.next stk, out ++ new) ∧ WAdds R ms L n u new) N s (.visit n.id stk, out) := by
  induction n using Node.ind with
  | h i p c k ih =>
    intro u hnd
    rw [Node.ids_mk, List.nodup_cons] at hnd
    have hsub : ∀ e ∈ k, ∀ q m, (q, m) ∈ e.nodes (u ++ p) → (q, m) ∈ (Node.mk i p c k).nodes u :=
      fun e he q m hm => (Node.mem_nodes u (.mk i p c k) _).mpr (.inr ⟨e, he, hm⟩)
    have hself : (u ++ p, Node.mk i p c k) ∈ (Node.mk i p c k).nodes u := (Node.mem_nodes u (.mk i p c k) _).mpr (.inl rfl)
    obtain ⟨N, hN⟩ := Prune.uniform (fun (e : Node α) N => ∀ (σ : Type) (R : σ → σ → Prop) (ms : σ → Mem α) (L : σ → Nat → Prop),
        (∀ a, R a a) → (∀ a b c, R a b → R b c → R a c) → (∀ a b i, R a b → L a i → L b i) →
        (∀ (q : Str) (m : Node α), (q, m) ∈ e.nodes (u ++ p) → VShows R ms L m ∧ ∀ s, L s m.id → (ms s m.id).path = m.path) →
        ∀ s stk out, L s e.id → WLeads R ms (fun r => ∃ new : List (Str × Str × Nat), r = (.next stk, out ++ new) ∧ WAdds R ms L e (u ++ p) new) N s (.visit e.id stk, out))
      (fun e n m hnm h σ R ms L hr hR hL hS s stk f h0 => (h σ R ms L hr hR hL hS s stk f h0).mono hnm) k
      (fun e he => ih e he (u ++ p) (Node.ids_nodup_kid hnd.2 he))
    refine ⟨((1 + (N + 1) * k.length) + 2) + 1, fun σ R ms L hr hR hL hS s stk out h0 => ?_⟩
    obtain ⟨hsh, hpa⟩ := hS _ _ hself
    have hid : ∀ a ∈ k, ∀ b ∈ k, a.id = b.id → a = b := Prune.ids_apart k hnd.2
    refine .inr fun s1 hs1 => .inr fun s2 hs2 => .inr fun s3 hs3 => ?_
    have h1 : L s1 i := hL _ _ _ hs1 h0
    have h2 : L s2 i := hL _ _ _ hs2 h1
    have h3 : L s3 i := hL _ _ _ hs3 h2
    have hpS : (ms s1 i).core.pathS = c.pathS := hsh.pathS s1 h1
    have hp : (ms s2 i).path = p := hpa s2 h2
    have hl : (ms s3 i).len ≤ k.length := hsh.len s3 h3
    simp only [wstep, Node.id, hp, hpS]
    refine ((wleads_loop (n := .mk i p c k) (u := u ++ p) (L := L) (h := (ms s3 i).len) (stk := stk) hr hR hid
      (fun e he => hN e he σ R ms L hr hR hL fun q m hm => hS q m (hsub e he q m hm)) (ms s3 i).len 0 (by omega) s3 _
      (fun s' hs' k' hk' => hsh.elts s3 s' k' h3 hs' hk')).trans (m := 0) hr hR ?_).mono (by have := Nat.mul_le_mul_left (N + 1) hl; omega)
    rintro s4 r hs4 ⟨new, rfl, b1, b2⟩
    refine ⟨shownAs (.mk i p c k) :: new, by rw [List.append_assoc]; rfl, fun x hx => ?_, fun m hw => ?_⟩
    · rcases List.mem_cons.mp hx with rfl | hx
      · exact ⟨_, _, s1, hself, rfl, h1⟩
      · obtain ⟨e, he, q, m, s, hm, h⟩ := b1 x hx
        exact ⟨q, m, s, hsub e he q m hm, h⟩
    · cases hw with
      | here => exact List.mem_cons_self
      | down hc hs hw =>
        obtain ⟨k', h4, h5⟩ := hs s3
        exact List.mem_cons_of_mem _ (b2 _ hc k' (by omega) h4 h5 m hw)

/-- The whole walk. -/
theorem wleads_all {n : Node α} (hn : n.ids.Nodup) : ∃ N, ∀ (σ : Type) (R : σ → σ → Prop) (ms : σ → Mem α) (L : σ → Nat → Prop),
    (∀ a, R a a) → (∀ a b c, R a b → R b c → R a c) → (∀ a b i, R a b → L a i → L b i) →
    (∀ q m, (q, m) ∈ n.nodes [] → VShows R ms L m ∧ ∀ s, L s m.id → (ms s m.id).path = m.path) →
    ∀ s, L s n.id → WLeads R ms (fun r => r.1 = .done ∧ WAdds R ms L n [] r.2) N s (.visit n.id [], []) := by
  obtain ⟨N, hN⟩ := wleads_walk (α := α) n [] hn
  refine ⟨N + 1, fun σ R ms L hr hR hL hS s h0 => (hN σ R ms L hr hR hL hS s [] [] h0).trans hr hR ?_⟩
  rintro s' r _ ⟨new, rfl, h⟩
  exact .inr fun s1 _ => .now ⟨rfl, by simpa [wstep] using h⟩ _

/-- From the steps of the walk to the schedule of all: as long as the schedule of the others is a beginning of `T`. -/
theorem walking_leads {σ : Type} {R : σ → σ → Prop} {ms : σ → Mem α} {root gap : Nat} {Q : Wk × List (Str × Str × Nat) → Prop} {T : List Nat}
    (hr : ∀ a, R a a) (hR : ∀ a b c, R a b → R b c → R a c) {J : List Nat → World α → σ → Prop} (hmem : ∀ L W s, J L W s → W.mem = ms s)
    (htick : ∀ L W s k, J L W s → L ++ [k] <+: T → ∃ s', R s s' ∧ J (L ++ [k]) (W.tick root gap k) s') (hQ : ∀ e, Q e → e.1 = .done) :
    ∀ (S : List (Option Nat)) {n : Nat} {s : σ} {W : World α} {e : Wk × List (Str × Str × Nat)} {L : List Nat}, J L W s → L ++ S.filterMap id = T →
      WLeads R ms Q n s e →
      let r := (walking root gap (W, e) S).2
      (n ≤ S.count none → r.1 = .done) ∧ (r.1 = .done → Q r)
  | [], n, s, W, e, L, hJ, _, h => by
    refine ⟨fun hn => ?_, fun hd => ?_⟩
    · have : n = 0 := by simpa using hn
      subst this
      exact hQ _ h
    · obtain ⟨e1, e2⟩ := e
      cases hd
      exact wleads_done hr h
  | some k :: S, n, s, W, e, L, hJ, hT, h => by
    have hT' : (L ++ [k]) ++ S.filterMap id = T := by simpa using hT
    obtain ⟨s', h1, h2⟩ := htick L W s k hJ ⟨_, hT'⟩
    have := walking_leads hr hR hmem htick hQ S h2 hT' (h.up hR h1)
    simpa [walking] using this
  | none :: S, 0, s, W, e, L, hJ, hT, h => by
    have hd := hQ _ h
    obtain ⟨e1, e2⟩ := e
    cases hd
    have := walking_leads hr hR hmem htick hQ S (n := 0) hJ (by simpa using hT) (h : WLeads R ms Q 0 s _)
    simpa [walking, wstep] using this
  | none :: S, n + 1, s, W, e, L, hJ, hT, h => by
    have h' : WLeads R ms Q n s (wstep W.mem e) := by
      rcases h with h | h
      · have hd := hQ _ h
        obtain ⟨e1, e2⟩ := e
        cases hd
        exact .now h n
      · rw [hmem L W s hJ]; exact h s (hr s)
    have := walking_leads hr hR hmem htick hQ S hJ (by simpa using hT) h'
    simpa [walking] using this

end Parts
end Verif

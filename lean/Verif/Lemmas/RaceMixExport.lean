import Verif.Model.RaceMixExport
import Verif.Lemmas.RaceSane
import Verif.Lemmas.RaceMixGet
/-
An export beside goroutines that set, remove and look up keys.
-/
namespace Verif
namespace Prune
variable {α : Type} [Inhabited α]

/-- What the memories have in common with the tree at a node, when values change. `L` says which nodes have been made. -/
structure VShows {σ : Type} (R : σ → σ → Prop) (ms : σ → Mem α) (L : σ → Nat → Prop) (m : Node α) : Prop where
  pathS : ∀ s, L s m.id → (ms s m.id).core.pathS = m.core.pathS
  leaf : ∀ s, L s m.id → (ms s m.id).core.leaf = m.core.leaf
  len : ∀ s, L s m.id → (ms s m.id).len ≤ m.kids.length
  elts : ∀ s s' k, L s m.id → R s s' → k < (ms s m.id).len → ∃ c ∈ m.kids, (ms s' m.id).arr.getD k 0 = c.id ∧ L s' c.id

/-- What a walk adds: keys of the tree, each with a value it has at some time, and all keys that the walk is sure to come to. -/
def VAdds {σ : Type} (d : Char) (R : σ → σ → Prop) (ms : σ → Mem α) (L : σ → Nat → Prop) (n : Node α) (u : Str) (new : List (Str × α)) : Prop :=
  (∀ x ∈ new, ∃ q m s, (q, m) ∈ n.nodes u ∧ Race.shown d m.core = true ∧ x = (runes m.core.pathS, (ms s m.id).core.data) ∧ L s m.id) ∧
    ∀ m, Way R ms n m → Race.shown d m.core = true → ∃ x, (runes m.core.pathS, x) ∈ new

/-- The loop over the children. -/
theorem vleads_loop {σ : Type} {R : σ → σ → Prop} {ms : σ → Mem α} {L : σ → Nat → Prop} {d : Char} (hr : ∀ a, R a a) (hR : ∀ a b c, R a b → R b c → R a c)
    {n : Node α} {u : Str} {N h : Nat} {stk : List Turn}
    (hid : ∀ a ∈ n.kids, ∀ b ∈ n.kids, a.id = b.id → a = b)
    (hin : ∀ e ∈ n.kids, ∀ s stk out, L s e.id → ELeads d R ms (fun r => ∃ new, r = (.next stk, out ++ new) ∧ VAdds d R ms L e u new) N s (.visit e.id stk, out)) :
    ∀ j k, j + k = h → ∀ s out, (∀ s', R s s' → ∀ k, k < h → ∃ e ∈ n.kids, (ms s' n.id).arr.getD k 0 = e.id ∧ L s' e.id) →
      ELeads d R ms (fun r => ∃ new, r = (.next stk, out ++ new) ∧
        (∀ x ∈ new, ∃ e ∈ n.kids, ∃ q m s, (q, m) ∈ e.nodes u ∧ Race.shown d m.core = true ∧ x = (runes m.core.pathS, (ms s m.id).core.data) ∧ L s m.id) ∧
        ∀ e ∈ n.kids, ∀ k', k ≤ k' → k' < h → (∀ s', R s s' → (ms s' n.id).arr.getD k' 0 = e.id) →
          ∀ m, Way R ms e m → Race.shown d m.core = true → ∃ x, (runes m.core.pathS, x) ∈ new)
        (1 + (N + 1) * j) s (.next (⟨n.id, h, k⟩ :: stk), out) := by
  intro j
  induction j with
  | zero =>
    intro k hk s out _
    refine .to hR (.next stk, out) (fun s' _ => ?_) (.now ⟨[], by simp, nofun, fun e _ k' h1 h2 => by omega⟩ _)
    simp only [estep]
    rw [if_neg (by omega)]
  | succ j ih =>
    intro k hk s out hel
    rw [show 1 + (N + 1) * (j + 1) = (N + (1 + (N + 1) * j)) + 1 by rw [Nat.mul_add]; omega]
    refine .inr fun s1 hs1 => ?_
    simp only [estep]
    rw [if_pos (by omega)]
    obtain ⟨e, he, hek, hLe⟩ := hel s1 hs1 k (by omega)
    rw [hek]
    refine (hin e he s1 _ out hLe).trans hr hR ?_
    rintro s2 r hs2 ⟨new, rfl, a1, a2⟩
    refine ((ih (k + 1) (by omega) s2 (out ++ new) fun s' hs' => hel s' (hR _ _ _ (hR _ _ _ hs1 hs2) hs')).trans
      (m := 0) hr hR ?_).mono (by omega)
    rintro s3 r hs3 ⟨new', rfl, b1, b2⟩
    refine ⟨new ++ new', by rw [List.append_assoc], fun x hx => ?_, fun e' he' k' h1 h2 h3 m hw hx => ?_⟩
    · rcases List.mem_append.mp hx with hx | hx
      · exact ⟨e, he, a1 x hx⟩
      · exact b1 x hx
    · by_cases ek : k' = k
      · subst ek
        have := h3 s1 hs1
        rw [hek] at this
        rw [hid e he e' he' this] at a2
        obtain ⟨x, h⟩ := a2 m hw hx
        exact ⟨x, List.mem_append_left _ h⟩
      · obtain ⟨x, h⟩ := b2 e' he' k' (by omega) h2 (fun s' hs' => h3 s' (hR _ _ _ (hR _ _ _ hs1 hs2) hs')) m hw hx
        exact ⟨x, List.mem_append_right _ h⟩

/-- The walk below a node, in a number of steps that depends on the tree alone. -/
theorem vleads_walk (d : Char) (n : Node α) : ∀ (u : Str), n.ids.Nodup → ∃ N, ∀ (σ : Type) (R : σ → σ → Prop) (ms : σ → Mem α) (L : σ → Nat → Prop),
    (∀ a, R a a) → (∀ a b c, R a b → R b c → R a c) → (∀ a b i, R a b → L a i → L b i) → (∀ q m, (q, m) ∈ n.nodes u → VShows R ms L m) →
    ∀ s stk out, L s n.id → ELeads d R ms (fun r => ∃ new, r = (.next stk, out ++ new) ∧ VAdds d R ms L n u new) N s (.visit n.id stk, out) := by
  induction n using Node.ind with
  | h i p c k ih =>
    intro u hnd
    rw [Node.ids_mk, List.nodup_cons] at hnd
    have hsub : ∀ e ∈ k, ∀ q m, (q, m) ∈ e.nodes (u ++ p) → (q, m) ∈ (Node.mk i p c k).nodes u :=
      fun e he q m hm => (Node.mem_nodes u (.mk i p c k) _).mpr (.inr ⟨e, he, hm⟩)
    have hself : (u ++ p, Node.mk i p c k) ∈ (Node.mk i p c k).nodes u := (Node.mem_nodes u (.mk i p c k) _).mpr (.inl rfl)
    obtain ⟨N, hN⟩ := uniform (fun e N => ∀ (σ : Type) (R : σ → σ → Prop) (ms : σ → Mem α) (L : σ → Nat → Prop),
        (∀ a, R a a) → (∀ a b c, R a b → R b c → R a c) → (∀ a b i, R a b → L a i → L b i) → (∀ q m, (q, m) ∈ e.nodes (u ++ p) → VShows R ms L m) →
        ∀ s stk out, L s e.id → ELeads d R ms (fun r => ∃ new, r = (.next stk, out ++ new) ∧ VAdds d R ms L e (u ++ p) new) N s (.visit e.id stk, out))
      (fun e n m hnm h σ R ms L hr hR hL hS s stk out h0 => (h σ R ms L hr hR hL hS s stk out h0).mono hnm) k
      (fun e he => ih e he (u ++ p) (Node.ids_nodup_kid hnd.2 he))
    have hid := ids_apart k hnd.2
    refine ⟨((1 + (N + 1) * k.length) + 1) + 3, fun σ R ms L hr hR hL hS s stk out h0 => ?_⟩
    have hN := fun e he => hN e he σ R ms L hr hR hL fun q m hm => hS q m (hsub e he q m hm)
    have hsh := hS _ _ hself
    have hpath : ∀ s, L s i → (ms s i).core.pathS = c.pathS := hsh.pathS
    have hbr : ∀ s, L s i → (ms s i).core.isBranch = c.isBranch := fun s h => congrArg not (hsh.leaf s h)
    have loop : ∀ s stk out, L s i → ELeads d R ms (fun r => ∃ new, r = (.next stk, out ++ new) ∧
        (∀ x ∈ new, ∃ e ∈ k, ∃ q m s, (q, m) ∈ e.nodes (u ++ p) ∧ Race.shown d m.core = true ∧ x = (runes m.core.pathS, (ms s m.id).core.data) ∧ L s m.id) ∧
        ∀ e ∈ k, ESure R ms (.mk i p c k) e → ∀ m, Way R ms e m → Race.shown d m.core = true → ∃ x, (runes m.core.pathS, x) ∈ new)
        ((1 + (N + 1) * k.length) + 1) s (.kids i stk, out) := by
      intro s stk out h0
      refine .inr fun s1 hs1 => ?_
      have h1 := hL _ _ _ hs1 h0
      simp only [estep]
      have hl : (ms s1 i).len ≤ k.length := hsh.len s1 h1
      refine ((vleads_loop (n := .mk i p c k) (u := u ++ p) (h := (ms s1 i).len) hr hR hid hN (ms s1 i).len 0 (by omega) s1 out
        (fun s' hs' k' hk' => hsh.elts s1 s' k' h1 hs' hk')).trans (m := 0) hr hR ?_).mono
          (by have := Nat.mul_le_mul_left (N + 1) hl; omega)
      rintro s2 r hs2 ⟨new, rfl, a1, a2⟩
      refine ⟨new, rfl, a1, fun e he hsure m hw hx => ?_⟩
      obtain ⟨k', h1, h2⟩ := hsure s1
      exact a2 e he k' (by omega) h1 h2 m hw hx
    have below : ∀ new : List (Str × α), (∀ x ∈ new, ∃ e ∈ k, ∃ q m s, (q, m) ∈ e.nodes (u ++ p) ∧ Race.shown d m.core = true ∧ x = (runes m.core.pathS, (ms s m.id).core.data) ∧ L s m.id) →
        ∀ x ∈ new, ∃ q m s, (q, m) ∈ (Node.mk i p c k).nodes u ∧ Race.shown d m.core = true ∧ x = (runes m.core.pathS, (ms s m.id).core.data) ∧ L s m.id := by
      intro new a1 x hx
      obtain ⟨e, he, q, m, s, hm, h⟩ := a1 x hx
      exact ⟨q, m, s, hsub e he q m hm, h⟩
    refine .to hR (.test i c.pathS stk, out) (fun s' hs' => by simp only [estep, Node.id]; rw [hpath s' (hL _ _ _ hs' h0)]) ?_
    by_cases hsw : Race.shown d c = true
    · refine .to hR (.data i c.pathS stk, out) (fun s' hs' => ?_) (.inr fun s1 hs1 => ?_)
      · simp only [estep]; rw [hbr s' (hL _ _ _ hs' h0)]; exact if_pos hsw
      · show ELeads d R ms _ _ s1 (.kids i stk, out ++ [(runes c.pathS, (ms s1 i).core.data)])
        refine (loop s1 stk _ (hL _ _ _ hs1 h0)).trans (m := 0) hr hR ?_
        rintro s2 r _ ⟨new, rfl, a1, a2⟩
        refine ⟨(runes c.pathS, (ms s1 i).core.data) :: new, by rw [List.append_assoc]; rfl, fun x hx => ?_, fun m hw hx => ?_⟩
        · rcases List.mem_cons.mp hx with rfl | hx
          · exact ⟨_, _, s1, hself, hsw, rfl, hL _ _ _ hs1 h0⟩
          · exact below new a1 x hx
        · cases hw with
          | here => exact ⟨_, List.mem_cons_self⟩
          | down hc hs hw =>
            obtain ⟨x, h⟩ := a2 _ hc hs m hw hx
            exact ⟨x, List.mem_cons_of_mem _ h⟩
    · refine ((ELeads.to hR (.kids i stk, out) (fun s' hs' => ?_) (loop s stk out h0)).trans (m := 0) hr hR ?_).mono (by omega)
      · simp only [estep]; rw [hbr s' (hL _ _ _ hs' h0)]; exact if_neg hsw
      · rintro s2 r _ ⟨new, rfl, a1, a2⟩
        refine ⟨_, rfl, below new a1, fun m hw hx => ?_⟩
        cases hw with
        | here => exact absurd hx hsw
        | down hc hs hw => exact a2 _ hc hs m hw hx

/-- The whole walk. -/
theorem vleads_all (d : Char) {n : Node α} (hn : n.ids.Nodup) (u : Str) : ∃ N, ∀ (σ : Type) (R : σ → σ → Prop) (ms : σ → Mem α) (L : σ → Nat → Prop),
    (∀ a, R a a) → (∀ a b c, R a b → R b c → R a c) → (∀ a b i, R a b → L a i → L b i) → (∀ q m, (q, m) ∈ n.nodes u → VShows R ms L m) →
    ∀ s, L s n.id → ELeads d R ms (fun r => r.1 = .done ∧ VAdds d R ms L n u r.2) N s (.visit n.id [], []) := by
  obtain ⟨N, hN⟩ := vleads_walk (α := α) d n u hn
  refine ⟨N + 1, fun σ R ms L hr hR hL hS s h0 => (hN σ R ms L hr hR hL hS s [] [] h0).trans hr hR ?_⟩
  rintro s' r _ ⟨new, rfl, h⟩
  exact .to hR (.done, [] ++ new) (fun _ _ => rfl) (.now ⟨rfl, by simpa using h⟩ _)

end Prune

namespace Parts
variable {α : Type} [Inhabited α]
open Prune (Cell Mem Pc Call Leads Up Ex ELeads)

section
variable {v : View} {t : Tree α} {as : List (Act α)} {B : Nat → Nat} {S S' : List Nat} {g : Nat → Core α → Core α} {W : World α}

/-- Calls of `Set` change nothing but the value and the mark beside it. -/
theorem Mixed.path (I : Mixed v t as B S S' g W) (i : Nat) (c : Core α) : (g i c).pathS = c.pathS ∧ (g i c).leaf = c.leaf := by
  by_cases hex : ∃ p x, .set p x ∈ as ∧ idAt t (View.dash (v.full p)) = i
  · obtain ⟨p, x, hx, rfl⟩ := hex
    obtain ⟨k, hk⟩ := List.mem_iff_getElem?.mp hx
    have r := I.set k p x hk
    generalize W.gs k = G at r
    cases r with
    | idle hn hg | finds f b pc hf hn hg | store f hn hg | fin f hn hg | done f hg => rw [hg]; exact ⟨rfl, rfl⟩
  · rw [I.frame i fun p x hx e => hex ⟨p, x, hx, e⟩]
    exact ⟨rfl, rfl⟩

/-- From the steps of the export to the schedule of all: as long as the schedule of the others is a beginning of `T`. -/
theorem gather_leads {σ : Type} {R : σ → σ → Prop} {ms : σ → Mem α} {d : Char} {root gap : Nat} {Q : Ex × List (Str × α) → Prop} {T : List Nat}
    (hr : ∀ a, R a a) (hR : ∀ a b c, R a b → R b c → R a c) {J : List Nat → World α → σ → Prop} (hmem : ∀ L W s, J L W s → W.mem = ms s)
    (htick : ∀ L W s k, J L W s → L ++ [k] <+: T → ∃ s', R s s' ∧ J (L ++ [k]) (W.tick root gap k) s') (hQ : ∀ e, Q e → e.1 = .done) :
    ∀ (S : List (Option Nat)) {n : Nat} {s : σ} {W : World α} {e : Ex × List (Str × α)} {L : List Nat}, J L W s → L ++ S.filterMap id = T →
      ELeads d R ms Q n s e →
      let r := (gather d root gap (W, e) S).2
      (n ≤ S.count none → r.1 = .done) ∧ (r.1 = .done → Q r)
  | [], n, s, W, e, L, hJ, _, h => by
    refine ⟨fun hn => ?_, fun hd => ?_⟩
    · have : n = 0 := by simpa using hn
      subst this
      exact hQ _ h
    · obtain ⟨e1, e2⟩ := e
      cases hd
      exact Prune.eleads_done hr h
  | some k :: S, n, s, W, e, L, hJ, hT, h => by
    have hT' : (L ++ [k]) ++ S.filterMap id = T := by simpa using hT
    obtain ⟨s', h1, h2⟩ := htick L W s k hJ ⟨_, hT'⟩
    have := gather_leads hr hR hmem htick hQ S h2 hT' (h.up hR h1)
    simpa [gather] using this
  | none :: S, 0, s, W, e, L, hJ, hT, h => by
    have hd := hQ _ h
    obtain ⟨e1, e2⟩ := e
    cases hd
    have := gather_leads hr hR hmem htick hQ S (n := 0) hJ (by simpa using hT) (h : ELeads d R ms Q 0 s _)
    simpa [gather, Prune.estep] using this
  | none :: S, n + 1, s, W, e, L, hJ, hT, h => by
    have h' : ELeads d R ms Q n s (Prune.estep d W.mem e) := by
      rcases h with h | h
      · have hd := hQ _ h
        obtain ⟨e1, e2⟩ := e
        cases hd
        exact .now h n
      · rw [hmem L W s hJ]; exact h s (hr s)
    have := gather_leads hr hR hmem htick hQ S hJ (by simpa using hT) h'
    simpa [gather] using this

omit [Inhabited α] in
theorem after_ok' (hm : v.mode ≠ .up) (cs : List Call) : ∀ {T T' : Tree α}, T.root = T'.root.recore g → T.OK → T'.OK → T'.Plain v.delim →
    (Prune.after v T cs).OK := by
  induction cs with
  | nil => exact fun _ ok _ _ => ok
  | cons c cs ih =>
    intro T T' e ok ok' hp
    cases c with
    | get p => exact ih e ok ok' hp
    | remove p =>
      obtain ⟨T1, T1', b, h1, h2, h3, h4, h5, h6⟩ := remove_recore e ok ok' hp hm p
      simp only [Prune.after, h1]
      exact ih h3 h4 h5 h6

omit [Inhabited α] in
theorem putAll_path (i : Nat) : ∀ (as : List (Act α)) (c : Core α), (putAll v t as i c).pathS = c.pathS ∧ (putAll v t as i c).leaf = c.leaf
  | [], c => ⟨rfl, rfl⟩
  | .get _ :: as, c => putAll_path i as c
  | .remove _ :: as, c => putAll_path i as c
  | .set p x :: as, c => by
    have e : (put (idAt t (View.dash (v.full p))) x i c).pathS = c.pathS ∧ (put (idAt t (View.dash (v.full p))) x i c).leaf = c.leaf := by
      unfold put; split <;> exact ⟨rfl, rfl⟩
    have := putAll_path i as (put (idAt t (View.dash (v.full p))) x i c)
    exact ⟨this.1.trans e.1, this.2.trans e.2⟩
end

end Parts
end Verif

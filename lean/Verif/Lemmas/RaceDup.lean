import Verif.Model.RaceDup
import Verif.Lemmas.RaceMixExport
import Verif.Props.Dup
/-
A copy of the trie (`Dup`) beside goroutines that set values.
-/
namespace Verif
namespace Parts
variable {α : Type} [Inhabited α]
open Prune (Cell Mem)

section
variable {σ : Type} {R : σ → σ → Prop} {ms : σ → Mem α} {Q Q' : Dp α × Nat → Prop}

/-- Whatever the others do meanwhile: within `n` steps of its own the copying goroutine comes to a state with `Q`. -/
def DLeads (R : σ → σ → Prop) (ms : σ → Mem α) (Q : Dp α × Nat → Prop) : Nat → σ → Dp α × Nat → Prop
  | 0, _, e => Q e
  | n + 1, s, e => Q e ∨ ∀ s', R s s' → DLeads R ms Q n s' (dstep (ms s') e)

theorem DLeads.now {s : σ} {e : Dp α × Nat} (h : Q e) : ∀ n, DLeads R ms Q n s e
  | 0 => h
  | _ + 1 => .inl h

theorem DLeads.up (hR : ∀ a b c, R a b → R b c → R a c) {s s' : σ} (hs : R s s') {e : Dp α × Nat} :
    ∀ {n}, DLeads R ms Q n s e → DLeads R ms Q n s' e
  | 0, h => h
  | _ + 1, h => h.imp id fun h t ht => h t (hR _ _ _ hs ht)

theorem DLeads.mono {n m : Nat} (hnm : n ≤ m) {s : σ} {e : Dp α × Nat} (h : DLeads R ms Q n s e) : DLeads R ms Q m s e := by
  induction n generalizing m s e with
  | zero => exact .now h m
  | succ n ih =>
    cases m with
    | zero => omega
    | succ m => exact h.imp id fun h t ht => ih (by omega) (h t ht)

theorem DLeads.trans (hr : ∀ a, R a a) (hR : ∀ a b c, R a b → R b c → R a c) {n m : Nat} {s : σ} {e : Dp α × Nat}
    (h : DLeads R ms Q n s e) (h' : ∀ s' e, R s s' → Q e → DLeads R ms Q' m s' e) : DLeads R ms Q' (n + m) s e := by
  induction n generalizing s e with
  | zero => exact (h' s e (hr s) h).mono (by omega)
  | succ n ih =>
    rcases h with h | h
    · exact (h' s e (hr s) h).mono (by omega)
    · rw [Nat.add_right_comm]
      exact .inr fun t ht => ih (h t ht) fun s' e hs => h' s' e (hR _ _ _ ht hs)

theorem dleads_done (hr : ∀ a, R a a) {n : Node α} {f : Nat} : ∀ {m : Nat} {s : σ}, DLeads R ms Q m s (.done n, f) → Q (.done n, f)
  | 0, _, h => h
  | m + 1, s, h => by
    rcases h with h | h
    · exact h
    · exact dleads_done hr (h s (hr s))

/-- What the memories have in common with the tree at a node, when only the cores change. -/
structure DShows (ms : σ → Mem α) (m : Node α) : Prop where
  path : ∀ s, (ms s m.id).path = m.path
  arr : ∀ s, (ms s m.id).arr.take m.kids.length = m.kids.map Node.id
  len : ∀ s, (ms s m.id).len = m.kids.length

/-- The cores of the copy: what was at the nodes at a moment, with the data of a later one. -/
def Seen (R : σ → σ → Prop) (ms : σ → Mem α) (m : Node α) (c : Core α) : Prop :=
  ∃ s1 s2, R s1 s2 ∧ c = { (ms s1 m.id).core with data := (ms s2 m.id).core.data }

/-- The loop over the children. -/
theorem dleads_loop (hr : ∀ a, R a a) (hR : ∀ a b c, R a b → R b c → R a c) {n : Node α} {u : Str} {N : Nat} {stk : List (Half α)} (hsh : DShows ms n)
    (hin : ∀ e ∈ n.kids, ∀ s stk f, DLeads R ms (fun r => ∃ g, (∀ q m, (q, m) ∈ e.nodes u → Seen R ms m (g m.id m.core)) ∧
      r = (Dp.push ((e.recore g).dup f).1 stk, ((e.recore g).dup f).2)) N s (.visit e.id stk, f)) :
    ∀ (k' : List (Node α)) (j : Nat), n.kids.drop j = k' → (k'.flatMap Node.ids).Nodup → ∀ s f id path core ks,
      DLeads R ms (fun r => ∃ g s2, R s s2 ∧ (∀ e ∈ k', ∀ q m, (q, m) ∈ e.nodes u → Seen R ms m (g m.id m.core)) ∧
        r = (Dp.push (.mk id path { core with data := (ms s2 n.id).core.data } (ks ++ (Node.dupL f (k'.map (Node.recore g))).1)) stk,
          (Node.dupL f (k'.map (Node.recore g))).2))
        (1 + (N + 1) * k'.length) s (.next (⟨n.id, id, path, core, n.kids.length, j, ks⟩ :: stk), f) := by
  intro k'
  induction k' with
  | nil =>
    intro j hj _ s f id path core ks
    have hle : ¬ j < n.kids.length := by
      intro h
      have := congrArg List.length hj
      simp at this
      omega
    refine .inr fun s1 hs1 => ?_
    simp only [dstep, if_neg hle]
    exact .now ⟨fun _ c => c, s1, hs1, nofun, by simp [Node.dupL]⟩ _
  | cons e k' ih =>
    intro j hj hnd s f id path core ks
    have hlt : j < n.kids.length := by
      by_cases h : j < n.kids.length
      · exact h
      · rw [List.drop_eq_nil_of_le (by omega)] at hj; cases hj
    rw [List.drop_eq_getElem_cons hlt] at hj
    obtain ⟨he, hj'⟩ := List.cons.inj hj
    have hmem : e ∈ n.kids := he ▸ List.getElem_mem hlt
    rw [List.flatMap_cons, List.nodup_append] at hnd
    rw [show 1 + (N + 1) * (e :: k').length = (N + (1 + (N + 1) * k'.length)) + 1 by rw [List.length_cons, Nat.mul_add]; omega]
    refine .inr fun s1 hs1 => ?_
    simp only [dstep, if_pos hlt]
    have hget : (ms s1 n.id).arr.getD j 0 = e.id := by
      rw [List.getD_eq_getElem?_getD, ← List.getElem?_take_of_lt hlt, hsh.arr, List.getElem?_map, List.getElem?_eq_getElem hlt, he]
      rfl
    rw [hget]
    refine (hin e hmem s1 _ f).trans hr hR ?_
    rintro s2 r hs2 ⟨g1, a1, rfl⟩
    refine ((ih (j + 1) hj' hnd.2.1 s2 _ id path core _).trans (m := 0) hr hR ?_).mono (by omega)
    rintro s3 r hs3 ⟨g2, s4, hs4, b1, rfl⟩
    refine ⟨fun i => if i ∈ e.ids then g1 i else g2 i, s4, hR _ _ _ (hR _ _ _ hs1 hs2) hs4, fun e' he' q m hm => ?_, ?_⟩
    · rcases List.mem_cons.mp he' with rfl | he'
      · show Seen R ms m ((if m.id ∈ e'.ids then g1 m.id else g2 m.id) m.core)
        rw [if_pos (Node.id_mem_ids hm)]
        exact a1 q m hm
      · show Seen R ms m ((if m.id ∈ e.ids then g1 m.id else g2 m.id) m.core)
        rw [if_neg]
        · exact b1 e' he' q m hm
        · exact fun h => hnd.2.2 _ h _ (List.mem_flatMap.mpr ⟨e', he', Node.id_mem_ids hm⟩) rfl
    · have e1 : e.recore (fun i => if i ∈ e.ids then g1 i else g2 i) = e.recore g1 := Node.recore_congr _ fun i hi => if_pos hi
      have e2 : k'.map (Node.recore fun i => if i ∈ e.ids then g1 i else g2 i) = k'.map (Node.recore g2) := by
        refine List.map_congr_left fun e' he' => Node.recore_congr _ fun i hi => if_neg ?_
        exact fun h => hnd.2.2 _ h _ (List.mem_flatMap.mpr ⟨e', he', hi⟩) rfl
      simp only [List.map_cons, e1, e2, Node.dupL, List.append_assoc, List.cons_append, List.nil_append]

/-- The copy of what is below a node, in a number of steps that depends on the tree alone. -/
theorem dleads_walk (n : Node α) : ∀ (u : Str), n.ids.Nodup → ∃ N, ∀ (σ : Type) (R : σ → σ → Prop) (ms : σ → Mem α),
    (∀ a, R a a) → (∀ a b c, R a b → R b c → R a c) → (∀ q m, (q, m) ∈ n.nodes u → DShows ms m) →
    ∀ s stk f, DLeads R ms (fun r => ∃ g, (∀ q m, (q, m) ∈ n.nodes u → Seen R ms m (g m.id m.core)) ∧
      r = (Dp.push ((n.recore g).dup f).1 stk, ((n.recore g).dup f).2)) N s (.visit n.id stk, f) := by
  induction n using Node.ind with
  | h i p c k ih =>
    intro u hnd
    rw [Node.ids_mk, List.nodup_cons] at hnd
    have hsub : ∀ e ∈ k, ∀ q m, (q, m) ∈ e.nodes (u ++ p) → (q, m) ∈ (Node.mk i p c k).nodes u :=
      fun e he q m hm => (Node.mem_nodes u (.mk i p c k) _).mpr (.inr ⟨e, he, hm⟩)
    have hself : (u ++ p, Node.mk i p c k) ∈ (Node.mk i p c k).nodes u := (Node.mem_nodes u (.mk i p c k) _).mpr (.inl rfl)
    obtain ⟨N, hN⟩ := Prune.uniform (fun (e : Node α) N => ∀ (σ : Type) (R : σ → σ → Prop) (ms : σ → Mem α),
        (∀ a, R a a) → (∀ a b c, R a b → R b c → R a c) → (∀ (q : Str) (m : Node α), (q, m) ∈ e.nodes (u ++ p) → DShows ms m) →
        ∀ s stk f, DLeads R ms (fun r => ∃ g : Nat → Core α → Core α, (∀ (q : Str) (m : Node α), (q, m) ∈ e.nodes (u ++ p) → Seen R ms m (g m.id m.core)) ∧
          r = (Dp.push ((e.recore g).dup f).1 stk, ((e.recore g).dup f).2)) N s (.visit e.id stk, f))
      (fun e n m hnm h σ R ms hr hR hS s stk f => (h σ R ms hr hR hS s stk f).mono hnm) k
      (fun e he => ih e he (u ++ p) (Node.ids_nodup_kid hnd.2 he))
    refine ⟨((1 + (N + 1) * k.length) + 1) + 1, fun σ R ms hr hR hS s stk f => ?_⟩
    have hsh := hS _ _ hself
    refine .inr fun s1 hs1 => .inr fun s2 hs2 => ?_
    have hp : (ms s1 i).path = p := hsh.path s1
    have hl : (ms s2 i).len = k.length := hsh.len s2
    simp only [dstep, Node.id, hp, hl]
    refine ((dleads_loop (n := .mk i p c k) (u := u ++ p) (stk := stk) hr hR hsh
      (fun e he => hN e he σ R ms hr hR fun q m hm => hS q m (hsub e he q m hm)) k 0 rfl hnd.2 s2 (f + 1) f p _ []).trans (m := 0) hr hR ?_)
    rintro s3 r hs3 ⟨g, s4, hs4, b1, rfl⟩
    have hni : ∀ e ∈ k, ∀ j ∈ e.ids, j ≠ i := fun e he j hj e' => hnd.1 (List.mem_flatMap.mpr ⟨e, he, e' ▸ hj⟩)
    refine ⟨fun j => if j = i then fun _ => { (ms s1 i).core with data := (ms s4 i).core.data } else g j, fun q m hm => ?_, ?_⟩
    · rw [Node.mem_nodes] at hm
      rcases hm with e | ⟨e, he, hm⟩
      · rw [(Prod.mk.inj e).2]
        exact ⟨s1, s4, hR _ _ _ hs2 hs4, by
          show (if i = i then _ else _ : Core α → Core α) c = _
          rw [if_pos rfl]; rfl⟩
      · show Seen R ms m ((if m.id = i then _ else g m.id) m.core)
        rw [if_neg (hni e he _ (Node.id_mem_ids hm))]
        exact b1 e he q m hm
    · have e2 : k.map (Node.recore fun j => if j = i then fun _ => { (ms s1 i).core with data := (ms s4 i).core.data } else g j) = k.map (Node.recore g) :=
        List.map_congr_left fun e he => Node.recore_congr _ fun j hj => if_neg (hni e he j hj)
      rw [Node.recore_mk, e2]
      simp only [Node.dup, if_true, List.nil_append]
      rfl

/-- From the steps of the copying goroutine to the schedule of all: as long as the schedule of the others is a beginning of `T`. -/
theorem copying_leads {root gap : Nat} {T : List Nat}
    (hr : ∀ a, R a a) (hR : ∀ a b c, R a b → R b c → R a c) {J : List Nat → World α → σ → Prop} (hmem : ∀ L W s, J L W s → W.mem = ms s)
    (htick : ∀ L W s k, J L W s → L ++ [k] <+: T → ∃ s', R s s' ∧ J (L ++ [k]) (W.tick root gap k) s') (hQ : ∀ e, Q e → ∃ n, e.1 = .done n) :
    ∀ (S : List (Option Nat)) {n : Nat} {s : σ} {W : World α} {e : Dp α × Nat} {L : List Nat}, J L W s → L ++ S.filterMap id = T →
      DLeads R ms Q n s e →
      let r := (copying root gap (W, e) S).2
      (n ≤ S.count none → ∃ c, r.1 = .done c) ∧ ∀ c, r.1 = .done c → Q r
  | [], n, s, W, e, L, hJ, _, h => by
    refine ⟨fun hn => ?_, fun c hd => ?_⟩
    · have : n = 0 := by simpa using hn
      subst this
      exact hQ _ h
    · obtain ⟨e1, e2⟩ := e
      cases hd
      exact dleads_done hr h
  | some k :: S, n, s, W, e, L, hJ, hT, h => by
    have hT' : (L ++ [k]) ++ S.filterMap id = T := by simpa using hT
    obtain ⟨s', h1, h2⟩ := htick L W s k hJ ⟨_, hT'⟩
    have := copying_leads hr hR hmem htick hQ S h2 hT' (h.up hR h1)
    simpa [copying] using this
  | none :: S, 0, s, W, e, L, hJ, hT, h => by
    obtain ⟨c, hd⟩ := hQ _ h
    obtain ⟨e1, e2⟩ := e
    cases hd
    have := copying_leads hr hR hmem htick hQ S (n := 0) hJ (by simpa using hT) (h : DLeads R ms Q 0 s _)
    simpa [copying, dstep] using this
  | none :: S, n + 1, s, W, e, L, hJ, hT, h => by
    have h' : DLeads R ms Q n s (dstep W.mem e) := by
      rcases h with h | h
      · obtain ⟨c, hd⟩ := hQ _ h
        obtain ⟨e1, e2⟩ := e
        cases hd
        exact .now h n
      · rw [hmem L W s hJ]; exact h s (hr s)
    have := copying_leads hr hR hmem htick hQ S hJ (by simpa using hT) h'
    simpa [copying] using this

end

end Parts
end Verif

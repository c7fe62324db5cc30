import Verif.Lemmas.RaceDumpNew
/-
A dump of the trie beside goroutines that set keys, also new ones, and remove some.
-/
namespace Verif
namespace Node
variable {α : Type}

/-- `m` is `d` levels below `n`. -/
inductive Deep : Node α → Nat → Node α → Prop where
  | here (n : Node α) : Deep n 0 n
  | down {n e m : Node α} {d : Nat} : e ∈ n.kids → Deep e d m → Deep n (d + 1) m

theorem Deep.mem {n m : Node α} {d : Nat} (h : Deep n d m) : ∀ u, ∃ q, (q, m) ∈ n.nodes u := by
  induction h with
  | here n => exact fun u => ⟨_, (mem_nodes u n _).mpr (.inl rfl)⟩
  | down he _ ih =>
    intro u
    obtain ⟨q, hq⟩ := ih (u ++ _)
    exact ⟨q, (mem_nodes u _ _).mpr (.inr ⟨_, he, hq⟩)⟩

theorem deep_deck {g : Nat → Core α → Core α} {x : Nat → List (Node α)} {M : Node α} (n : Node α) : ∀ {d}, Deep (n.deck g x) d M →
    (∃ m, Deep n d m ∧ M = m.deck g x) ∨ ∃ A l d1 d2, Deep n d1 A ∧ l ∈ x A.id ∧ Deep l d2 M ∧ d = d1 + 1 + d2 := by
  induction n using Node.ind with
  | h i p c k ih =>
    intro d h
    generalize hN : (mk i p c k).deck g x = N at h
    cases h with
    | here => exact .inl ⟨_, .here _, hN.symm⟩
    | down he h =>
      rw [← hN, deck_kids, List.mem_append] at he
      rcases he with he | he
      · obtain ⟨e, hek, rfl⟩ := List.mem_map.mp he
        rcases ih e hek h with ⟨m, h1, h2⟩ | ⟨A, l, d1, d2, h1, h2, h3, h4⟩
        · exact .inl ⟨m, .down hek h1, h2⟩
        · exact .inr ⟨A, l, d1 + 1, d2, .down hek h1, h2, h3, by omega⟩
      · exact .inr ⟨_, _, 0, _, .here _, he, h, by omega⟩

end Node

namespace Parts
variable {α : Type} [Inhabited α]
open Prune (Cell Mem Turn VShows Way)

/-- The text of a list of lines, each with its level. -/
def rowsText (F : DumpFmt α) (nc : Bool) (rows : List (Nat × Node α)) : List UInt8 := rows.flatMap fun x => dumpLine F nc x.1 x.2

theorem rowsText_append (F : DumpFmt α) (nc : Bool) (a b : List (Nat × Node α)) : rowsText F nc (a ++ b) = rowsText F nc a ++ rowsText F nc b :=
  List.flatMap_append

section
variable {σ : Type} {F : DumpFmt α} {nc : Bool} {R : σ → σ → Prop} {ms : σ → Mem α} {L : σ → Nat → Prop}

/-- What a line says about a node of the tree that has been made: the flag at one moment, the value at another. -/
def RowAt (R : σ → σ → Prop) (ms : σ → Mem α) (L : σ → Nat → Prop) (m x : Node α) : Prop :=
  ∃ s1 s2, R s1 s2 ∧ L s1 m.id ∧ L s2 m.id ∧ x = .mk m.id m.path { (ms s2 m.id).core with leaf := m.core.leaf, hasData := (ms s1 m.id).core.hasData } []

/-- The lines of a dump: for nodes of the tree that have been made, and for all that the dump is sure to come to. -/
def Rows (R : σ → σ → Prop) (ms : σ → Mem α) (L : σ → Nat → Prop) (l : Nat) (n : Node α) (u : Str) (new : List (Nat × Node α)) : Prop :=
  (∀ x ∈ new, ∃ q m d, (q, m) ∈ n.nodes u ∧ n.Deep d m ∧ x.1 = l + d ∧ RowAt R ms L m x.2) ∧ ∀ m, Way R ms n m → ∃ x ∈ new, x.2.id = m.id

/-- The loop over the children. -/
theorem rleads_loop (hr : ∀ a, R a a) (hR : ∀ a b c, R a b → R b c → R a c) {n : Node α} {u : Str} {N h : Nat} {stk : List Turn}
    (hid : ∀ a ∈ n.kids, ∀ b ∈ n.kids, a.id = b.id → a = b)
    (hin : ∀ e ∈ n.kids, ∀ s stk out, L s e.id → ULeads F nc R ms (fun r => ∃ new, r = (.next stk, out ++ rowsText F nc new) ∧ Rows R ms L stk.length e u new) N s (.visit e.id stk, out)) :
    ∀ j k, j + k = h → ∀ s out, (∀ s', R s s' → ∀ k, k < h → ∃ e ∈ n.kids, (ms s' n.id).arr.getD k 0 = e.id ∧ L s' e.id) →
      ULeads F nc R ms (fun r => ∃ new, r = (.next stk, out ++ rowsText F nc new) ∧
        (∀ x ∈ new, ∃ e ∈ n.kids, ∃ q m d, (q, m) ∈ e.nodes u ∧ e.Deep d m ∧ x.1 = stk.length + 1 + d ∧ RowAt R ms L m x.2) ∧
        ∀ e ∈ n.kids, ∀ k', k ≤ k' → k' < h → (∀ s', R s s' → (ms s' n.id).arr.getD k' 0 = e.id) →
          ∀ m, Way R ms e m → ∃ x ∈ new, x.2.id = m.id)
        (1 + (N + 1) * j) s (.next (⟨n.id, h, k⟩ :: stk), out) := by
  intro j
  induction j with
  | zero =>
    intro k hk s out _
    refine .inr fun s1 hs1 => ?_
    have hle : ¬ k < h := by omega
    simp only [ustep, if_neg hle]
    exact .now ⟨[], by simp [rowsText], nofun, fun e _ k' h1 h2 => by omega⟩ _
  | succ j ih =>
    intro k hk s out hel
    rw [show 1 + (N + 1) * (j + 1) = (N + (1 + (N + 1) * j)) + 1 by rw [Nat.mul_add]; omega]
    refine .inr fun s1 hs1 => ?_
    have hlt : k < h := by omega
    simp only [ustep, if_pos hlt]
    obtain ⟨e, he, hek, hLe⟩ := hel s1 hs1 k hlt
    rw [hek]
    refine (hin e he s1 _ out hLe).trans hr hR ?_
    rintro s2 r hs2 ⟨new, rfl, a1, a2⟩
    refine ((ih (k + 1) (by omega) s2 (out ++ rowsText F nc new) fun s' hs' => hel s' (hR _ _ _ (hR _ _ _ hs1 hs2) hs')).trans
      (m := 0) hr hR ?_).mono (by omega)
    rintro s3 r hs3 ⟨new', rfl, b1, b2⟩
    refine ⟨new ++ new', by rw [rowsText_append, List.append_assoc], fun x hx => ?_, fun e' he' k' h1 h2 h3 m hw => ?_⟩
    · rcases List.mem_append.mp hx with hx | hx
      · exact ⟨e, he, a1 x hx⟩
      · exact b1 x hx
    · by_cases ek : k' = k
      · subst ek
        have := h3 s1 hs1
        rw [hek] at this
        rw [hid e he e' he' this] at a2
        obtain ⟨x, hx, e⟩ := a2 m hw
        exact ⟨x, List.mem_append_left _ hx, e⟩
      · obtain ⟨x, hx, e⟩ := b2 e' he' k' (by omega) h2 (fun s' hs' => h3 s' (hR _ _ _ (hR _ _ _ hs1 hs2) hs')) m hw
        exact ⟨x, List.mem_append_right _ hx, e⟩

end

/-- The walk below a node, in a number of steps that depends on the tree alone. -/
theorem rleads_walk (F : DumpFmt α) (nc : Bool) (n : Node α) : ∀ (u : Str), n.ids.Nodup → ∃ N, ∀ (σ : Type) (R : σ → σ → Prop) (ms : σ → Mem α) (L : σ → Nat → Prop),
    (∀ a, R a a) → (∀ a b c, R a b → R b c → R a c) → (∀ a b i, R a b → L a i → L b i) →
    (∀ q m, (q, m) ∈ n.nodes u → VShows R ms L m ∧ ∀ s, L s m.id → (ms s m.id).path = m.path) →
    ∀ s stk out, L s n.id → ULeads F nc R ms (fun r => ∃ new, r = (.next stk, out ++ rowsText F nc new) ∧ Rows R ms L stk.length n u new) N s (.visit n.id stk, out) := by
  induction n using Node.ind with
  | h i p c k ih =>
    intro u hnd
    rw [Node.ids_mk, List.nodup_cons] at hnd
    have hsub : ∀ e ∈ k, ∀ q m, (q, m) ∈ e.nodes (u ++ p) → (q, m) ∈ (Node.mk i p c k).nodes u :=
      fun e he q m hm => (Node.mem_nodes u (.mk i p c k) _).mpr (.inr ⟨e, he, hm⟩)
    have hself : (u ++ p, Node.mk i p c k) ∈ (Node.mk i p c k).nodes u := (Node.mem_nodes u (.mk i p c k) _).mpr (.inl rfl)
    obtain ⟨N, hN⟩ := Prune.uniform (fun (e : Node α) N => ∀ (σ : Type) (R : σ → σ → Prop) (ms : σ → Mem α) (L : σ → Nat → Prop),
        (∀ a, R a a) → (∀ a b c, R a b → R b c → R a c) → (∀ a b i, R a b → L a i → L b i) →
        (∀ (q : Str) (m : Node α), (q, m) ∈ e.nodes (u ++ p) → VShows R ms L m ∧ ∀ s, L s m.id → (ms s m.id).path = m.path) →
        ∀ s stk out, L s e.id → ULeads F nc R ms (fun r => ∃ new : List (Nat × Node α), r = (.next stk, out ++ rowsText F nc new) ∧ Rows R ms L stk.length e (u ++ p) new) N s (.visit e.id stk, out))
      (fun e n m hnm h σ R ms L hr hR hL hS s stk f h0 => (h σ R ms L hr hR hL hS s stk f h0).mono hnm) k
      (fun e he => ih e he (u ++ p) (Node.ids_nodup_kid hnd.2 he))
    refine ⟨((1 + (N + 1) * k.length) + 3) + 1, fun σ R ms L hr hR hL hS s stk out h0 => ?_⟩
    obtain ⟨hsh, hpa⟩ := hS _ _ hself
    have hid : ∀ a ∈ k, ∀ b ∈ k, a.id = b.id → a = b := Prune.ids_apart k hnd.2
    refine .inr fun s1 hs1 => .inr fun s2 hs2 => .inr fun s3 hs3 => .inr fun s4 hs4 => ?_
    have h1 : L s1 i := hL _ _ _ hs1 h0
    have h2 : L s2 i := hL _ _ _ hs2 h1
    have h3 : L s3 i := hL _ _ _ hs3 h2
    have h4 : L s4 i := hL _ _ _ hs4 h3
    have hp : (ms s1 i).path = p := hpa s1 h1
    have hlf : (ms s1 i).core.leaf = c.leaf := hsh.leaf s1 h1
    have hl : (ms s4 i).len ≤ k.length := hsh.len s4 h4
    simp only [ustep, Node.id, hp, hlf]
    refine ((rleads_loop (n := .mk i p c k) (u := u ++ p) (L := L) (h := (ms s4 i).len) (stk := stk) hr hR hid
      (fun e he => hN e he σ R ms L hr hR hL fun q m hm => hS q m (hsub e he q m hm)) (ms s4 i).len 0 (by omega) s4 _
      (fun s' hs' k' hk' => hsh.elts s4 s' k' h4 hs' hk')).trans (m := 0) hr hR ?_).mono (by have := Nat.mul_le_mul_left (N + 1) hl; omega)
    rintro s5 r hs5 ⟨new, rfl, b1, b2⟩
    refine ⟨(stk.length, .mk i p { (ms s3 i).core with leaf := c.leaf, hasData := (ms s2 i).core.hasData } []) :: new, by rw [List.append_assoc]; rfl,
      fun x hx => ?_, fun m hw => ?_⟩
    · rcases List.mem_cons.mp hx with rfl | hx
      · exact ⟨_, _, 0, hself, .here _, rfl, s2, s3, hs3, h2, h3, rfl⟩
      · obtain ⟨e, he, q, m, d, hm, hd, hl, h⟩ := b1 x hx
        exact ⟨q, m, d + 1, hsub e he q m hm, .down he hd, by omega, h⟩
    · cases hw with
      | here => exact ⟨_, List.mem_cons_self, rfl⟩
      | down hc hs hw =>
        obtain ⟨k', h5, h6⟩ := hs s4
        obtain ⟨x, hx, e⟩ := b2 _ hc k' (by omega) h5 h6 m hw
        exact ⟨x, List.mem_cons_of_mem _ hx, e⟩

/-- The whole walk. -/
theorem rleads_all (F : DumpFmt α) (nc : Bool) {n : Node α} (hn : n.ids.Nodup) : ∃ N, ∀ (σ : Type) (R : σ → σ → Prop) (ms : σ → Mem α) (L : σ → Nat → Prop),
    (∀ a, R a a) → (∀ a b c, R a b → R b c → R a c) → (∀ a b i, R a b → L a i → L b i) →
    (∀ q m, (q, m) ∈ n.nodes [] → VShows R ms L m ∧ ∀ s, L s m.id → (ms s m.id).path = m.path) →
    ∀ s, L s n.id → ULeads F nc R ms (fun r => r.1 = .done ∧ ∃ new, r.2 = rowsText F nc new ∧ Rows R ms L 0 n [] new) N s (.visit n.id [], []) := by
  obtain ⟨N, hN⟩ := rleads_walk F nc n [] hn
  refine ⟨N + 1, fun σ R ms L hr hR hL hS s h0 => (hN σ R ms L hr hR hL hS s [] [] h0).trans hr hR ?_⟩
  rintro s' r _ ⟨new, rfl, h⟩
  exact .inr fun s1 _ => .now ⟨rfl, new, by simp [ustep], h⟩ _

end Parts
end Verif

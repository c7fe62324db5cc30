import Verif.Model.RaceDump
import Verif.Lemmas.RaceVisitNew
/-
A dump of the trie beside goroutines that set keys, also new ones.
-/
namespace Verif

theorem Node.dumpRL_append {α : Type} (F : DumpFmt α) (nc : Bool) (l : Nat) (a b : List (Node α)) : Node.dumpRL F nc l (a ++ b) = Node.dumpRL F nc l a ++ Node.dumpRL F nc l b := by
  induction a with
  | nil => rfl
  | cons x a ih => simp only [List.cons_append, Node.dumpRL, ih, List.append_assoc]

/-- The leaves alone decide about the identities. -/
theorem Node.deck_ids_core {α : Type} {g g' : Nat → Core α → Core α} {x : Nat → List (Node α)} (n : Node α) : (n.deck g x).ids = (n.deck g' x).ids := by
  induction n using Node.ind with
  | h i p c k ih =>
    rw [Node.deck_mk, Node.deck_mk, Node.ids_mk, Node.ids_mk, List.flatMap_append, List.flatMap_append]
    congr 2
    simp only [List.flatMap, List.map_map]
    congr 1
    exact List.map_congr_left ih

namespace Parts
variable {α : Type} [Inhabited α]
open Prune (Cell Mem Turn)

section
variable {σ : Type} {F : DumpFmt α} {nc : Bool} {R : σ → σ → Prop} {ms : σ → Mem α} {Q Q' : Du × List UInt8 → Prop}

/-- Whatever the others do, the dumping goroutine gets to `Q` in at most `n` steps of its own. -/
def ULeads (F : DumpFmt α) (nc : Bool) (R : σ → σ → Prop) (ms : σ → Mem α) (Q : Du × List UInt8 → Prop) : Nat → σ → Du × List UInt8 → Prop
  | 0, _, e => Q e
  | n + 1, s, e => Q e ∨ ∀ s', R s s' → ULeads F nc R ms Q n s' (ustep F nc (ms s') e)

theorem ULeads.now {s : σ} {e : Du × List UInt8} (h : Q e) : ∀ n, ULeads F nc R ms Q n s e
  | 0 => h
  | _ + 1 => .inl h

theorem ULeads.up (hR : ∀ a b c, R a b → R b c → R a c) {s s' : σ} (hs : R s s') {e : Du × List UInt8} :
    ∀ {n}, ULeads F nc R ms Q n s e → ULeads F nc R ms Q n s' e
  | 0, h => h
  | _ + 1, h => h.imp id fun h t ht => h t (hR _ _ _ hs ht)

theorem ULeads.mono {n m : Nat} (hnm : n ≤ m) {s : σ} {e : Du × List UInt8} (h : ULeads F nc R ms Q n s e) : ULeads F nc R ms Q m s e := by
  induction n generalizing m s e with
  | zero => exact .now h m
  | succ n ih =>
    cases m with
    | zero => omega
    | succ m => exact h.imp id fun h t ht => ih (by omega) (h t ht)

theorem ULeads.trans (hr : ∀ a, R a a) (hR : ∀ a b c, R a b → R b c → R a c) {n m : Nat} {s : σ} {e : Du × List UInt8}
    (h : ULeads F nc R ms Q n s e) (h' : ∀ s' e, R s s' → Q e → ULeads F nc R ms Q' m s' e) : ULeads F nc R ms Q' (n + m) s e := by
  induction n generalizing s e with
  | zero => exact (h' s e (hr s) h).mono (by omega)
  | succ n ih =>
    rcases h with h | h
    · exact (h' s e (hr s) h).mono (by omega)
    · rw [Nat.add_right_comm]
      exact .inr fun t ht => ih (h t ht) fun s' e hs => h' s' e (hR _ _ _ ht hs)

theorem uleads_done (hr : ∀ a, R a a) {out : List UInt8} : ∀ {m : Nat} {s : σ}, ULeads F nc R ms Q m s (.done, out) → Q (.done, out)
  | 0, _, h => h
  | m + 1, s, h => by
    rcases h with h | h
    · exact h
    · exact uleads_done hr (h s (hr s))

end

/-- From the steps of the dump to the schedule of all: as long as the schedule of the others is a beginning of `T`. -/
theorem dumping_leads {F : DumpFmt α} {nc : Bool} {σ : Type} {R : σ → σ → Prop} {ms : σ → Mem α} {root gap : Nat} {Q : Du × List UInt8 → Prop} {T : List Nat}
    (hr : ∀ a, R a a) (hR : ∀ a b c, R a b → R b c → R a c) {J : List Nat → World α → σ → Prop} (hmem : ∀ L W s, J L W s → W.mem = ms s)
    (htick : ∀ L W s k, J L W s → L ++ [k] <+: T → ∃ s', R s s' ∧ J (L ++ [k]) (W.tick root gap k) s') (hQ : ∀ e, Q e → e.1 = .done) :
    ∀ (S : List (Option Nat)) {n : Nat} {s : σ} {W : World α} {e : Du × List UInt8} {L : List Nat}, J L W s → L ++ S.filterMap id = T →
      ULeads F nc R ms Q n s e →
      let r := (dumping F nc root gap (W, e) S).2
      (n ≤ S.count none → r.1 = .done) ∧ (r.1 = .done → Q r)
  | [], n, s, W, e, L, hJ, _, h => by
    refine ⟨fun hn => ?_, fun hd => ?_⟩
    · have : n = 0 := by simpa using hn
      subst this
      exact hQ _ h
    · obtain ⟨e1, e2⟩ := e
      cases hd
      exact uleads_done hr h
  | some k :: S, n, s, W, e, L, hJ, hT, h => by
    have hT' : (L ++ [k]) ++ S.filterMap id = T := by simpa using hT
    obtain ⟨s', h1, h2⟩ := htick L W s k hJ ⟨_, hT'⟩
    have := dumping_leads hr hR hmem htick hQ S h2 hT' (h.up hR h1)
    simpa [dumping] using this
  | none :: S, 0, s, W, e, L, hJ, hT, h => by
    have hd := hQ _ h
    obtain ⟨e1, e2⟩ := e
    cases hd
    have := dumping_leads hr hR hmem htick hQ S (n := 0) hJ (by simpa using hT) (h : ULeads F nc R ms Q 0 s _)
    simpa [dumping, ustep] using this
  | none :: S, n + 1, s, W, e, L, hJ, hT, h => by
    have h' : ULeads F nc R ms Q n s (ustep F nc W.mem e) := by
      rcases h with h | h
      · have hd := hQ _ h
        obtain ⟨e1, e2⟩ := e
        cases hd
        exact .now h n
      · rw [hmem L W s hJ]; exact h s (hr s)
    have := dumping_leads hr hR hmem htick hQ S hJ (by simpa using hT) h'
    simpa [dumping] using this

section
variable {σ : Type} {F : DumpFmt α} {nc : Bool} {R : σ → σ → Prop} {ms : σ → Mem α} {es : σ → Nat → List (Node α)}

/-- What the text has of a node: the kind, the flag and the rest at three moments, and the leaves that had been added at a moment. -/
def Put (R : σ → σ → Prop) (ms : σ → Mem α) (es : σ → Nat → List (Node α)) (m : Node α) (c : Core α) (x : List (Node α)) : Prop :=
  (∃ s1 s2 s3, R s2 s3 ∧ c = { (ms s3 m.id).core with leaf := (ms s1 m.id).core.leaf, hasData := (ms s2 m.id).core.hasData }) ∧ ∃ s, x = es s m.id

/-- A leaf that has been added. -/
theorem uleads_leaf {m l : Node α} (hsh : JShows R ms es m) {s : σ} (hl : l ∈ es s m.id) (hR : ∀ a b c, R a b → R b c → R a c) (stk : List Turn) (out : List UInt8) :
    ULeads F nc R ms (fun r => r = (.next stk, out ++ l.dumpR F nc stk.length)) 5 s (.visit l.id stk, out) := by
  have at' : ∀ s', R s s' → l ∈ es s' m.id := fun s' h => by rw [hsh.keep s s' h (List.ne_nil_of_mem hl)]; exact hl
  obtain ⟨i, p, c, k⟩ := l
  have all : ∀ s', i = i → (.mk i p c k ∈ es s' m.id) → k = [] ∧ (ms s' i).path = p ∧ (ms s' i).core = c ∧ (ms s' i).len = 0 :=
    fun s' _ h => hsh.leaf s' _ h
  refine .inr fun s1 h1 => .inr fun s2 h2 => .inr fun s3 h3 => .inr fun s4 h4 => .inr fun s5 h5 => ?_
  have r2 := hR _ _ _ h1 h2
  have r3 := hR _ _ _ r2 h3
  obtain ⟨rfl, a1, a2, _⟩ := all s1 rfl (at' s1 h1)
  obtain ⟨_, _, b2, _⟩ := all s2 rfl (at' s2 r2)
  obtain ⟨_, _, c2, _⟩ := all s3 rfl (at' s3 r3)
  obtain ⟨_, _, _, d3⟩ := all s4 rfl (at' s4 (hR _ _ _ r3 h4))
  show ULeads F nc R ms _ 0 s5 _
  simp only [ustep, Node.id_mk, a1, a2, b2, c2, d3, Nat.lt_irrefl, if_false]
  exact .now (by simp [Node.dumpR, Node.dumpRL]) 0

/-- The loop over the children that have been there from the beginning. -/
theorem uleads_kids (hr : ∀ a, R a a) (hR : ∀ a b c, R a b → R b c → R a c) {n : Node α} {u : Str} {N len : Nat} {stk : List Turn} (hsh : JShows R ms es n)
    (hlen : n.kids.length ≤ len)
    (hin : ∀ e ∈ n.kids, ∀ s stk out, ULeads F nc R ms (fun r => ∃ g x, (∀ q m, (q, m) ∈ e.nodes u → Put R ms es m (g m.id m.core) (x m.id)) ∧
      r = (.next stk, out ++ (e.deck g x).dumpR F nc stk.length)) N s (.visit e.id stk, out)) :
    ∀ (k' : List (Node α)) (j : Nat), n.kids.drop j = k' → j ≤ n.kids.length → (k'.flatMap Node.ids).Nodup → ∀ s out,
      ULeads F nc R ms (fun r => ∃ g x, (∀ e ∈ k', ∀ q m, (q, m) ∈ e.nodes u → Put R ms es m (g m.id m.core) (x m.id)) ∧
        r = (.next (⟨n.id, len, n.kids.length⟩ :: stk), out ++ Node.dumpRL F nc (stk.length + 1) (k'.map (Node.deck g x))))
        ((N + 1) * k'.length) s (.next (⟨n.id, len, j⟩ :: stk), out) := by
  intro k'
  induction k' with
  | nil =>
    intro j hj hle _ s out
    have hle : j = n.kids.length := by
      have := congrArg List.length hj
      simp at this
      omega
    subst hle
    exact .now ⟨fun _ c => c, fun _ => [], nofun, by simp [Node.dumpRL]⟩ _
  | cons e k' ih =>
    intro j hj _ hnd s out
    have hlt : j < n.kids.length := by
      by_cases h : j < n.kids.length
      · exact h
      · rw [List.drop_eq_nil_of_le (by omega)] at hj; cases hj
    rw [List.drop_eq_getElem_cons hlt] at hj
    obtain ⟨he, hj'⟩ := List.cons.inj hj
    have hmem : e ∈ n.kids := he ▸ List.getElem_mem hlt
    rw [List.flatMap_cons, List.nodup_append] at hnd
    rw [show (N + 1) * (e :: k').length = (N + (N + 1) * k'.length) + 1 by rw [List.length_cons, Nat.mul_add]; omega]
    refine .inr fun s1 hs1 => ?_
    have hll : j < len := Nat.lt_of_lt_of_le hlt hlen
    simp only [ustep, if_pos hll]
    have hget : (ms s1 n.id).arr.getD j 0 = e.id := by
      rw [hsh.arr, List.getD_eq_getElem?_getD, List.getElem?_map, List.getElem?_append_left hlt, List.getElem?_eq_getElem hlt, he]
      rfl
    rw [hget]
    refine (hin e hmem s1 _ out).trans hr hR ?_
    rintro s2 r hs2 ⟨g1, x1, a1, rfl⟩
    refine ((ih (j + 1) hj' hlt hnd.2.1 s2 _).trans (m := 0) hr hR ?_).mono (by omega)
    rintro s3 r hs3 ⟨g2, x2, b1, rfl⟩
    refine ⟨fun i => if i ∈ e.ids then g1 i else g2 i, fun i => if i ∈ e.ids then x1 i else x2 i, fun e' he' q m hm => ?_, ?_⟩
    · rcases List.mem_cons.mp he' with rfl | he'
      · show Put R ms es m ((if m.id ∈ e'.ids then g1 m.id else g2 m.id) m.core) (if m.id ∈ e'.ids then x1 m.id else x2 m.id)
        rw [if_pos (Node.id_mem_ids hm), if_pos (Node.id_mem_ids hm)]
        exact a1 q m hm
      · show Put R ms es m ((if m.id ∈ e.ids then g1 m.id else g2 m.id) m.core) (if m.id ∈ e.ids then x1 m.id else x2 m.id)
        have hno : m.id ∉ e.ids := fun h => hnd.2.2 _ h _ (List.mem_flatMap.mpr ⟨e', he', Node.id_mem_ids hm⟩) rfl
        rw [if_neg hno, if_neg hno]
        exact b1 e' he' q m hm
    · have e1 : e.deck (fun i => if i ∈ e.ids then g1 i else g2 i) (fun i => if i ∈ e.ids then x1 i else x2 i) = e.deck g1 x1 :=
        Node.deck_congr _ fun i hi => ⟨if_pos hi, if_pos hi⟩
      have e2 : k'.map (Node.deck (fun i => if i ∈ e.ids then g1 i else g2 i) (fun i => if i ∈ e.ids then x1 i else x2 i)) = k'.map (Node.deck g2 x2) := by
        refine List.map_congr_left fun e' he' => Node.deck_congr _ fun i hi => ?_
        have hno : i ∉ e.ids := fun h => hnd.2.2 _ h _ (List.mem_flatMap.mpr ⟨e', he', hi⟩) rfl
        exact ⟨if_neg hno, if_neg hno⟩
      simp only [List.map_cons, e1, e2, Node.dumpRL, List.append_assoc, List.length_cons]

/-- The loop over the leaves that had been added when it began. -/
theorem uleads_more (hr : ∀ a, R a a) (hR : ∀ a b c, R a b → R b c → R a c) {n : Node α} {stk : List Turn} (hsh : JShows R ms es n)
    {x : List (Node α)} (s0 : σ) (hx : x = es s0 n.id) :
    ∀ (x' : List (Node α)) (j : Nat), x.drop j = x' → ∀ s, R s0 s → ∀ out,
      ULeads F nc R ms (fun r => r = (.next stk, out ++ Node.dumpRL F nc (stk.length + 1) x'))
        (1 + 6 * x'.length) s (.next (⟨n.id, (n.kids ++ x).length, n.kids.length + j⟩ :: stk), out) := by
  intro x'
  induction x' with
  | nil =>
    intro j hj s _ out
    have hle : ¬ n.kids.length + j < (n.kids ++ x).length := by
      intro h
      have := congrArg List.length hj
      simp at this h
      omega
    refine .inr fun s1 hs1 => ?_
    simp only [ustep, if_neg hle]
    exact .now (by simp [Node.dumpRL]) _
  | cons e x' ih =>
    intro j hj s hs out
    have hlt : j < x.length := by
      by_cases h : j < x.length
      · exact h
      · rw [List.drop_eq_nil_of_le (by omega)] at hj; cases hj
    rw [List.drop_eq_getElem_cons hlt] at hj
    obtain ⟨he, hj'⟩ := List.cons.inj hj
    have hmem : e ∈ x := he ▸ List.getElem_mem hlt
    have hne : es s0 n.id ≠ [] := hx ▸ List.ne_nil_of_mem hmem
    rw [show 1 + 6 * (e :: x').length = (5 + (1 + 6 * x'.length)) + 1 by rw [List.length_cons]; omega]
    refine .inr fun s1 hs1 => ?_
    have hll : n.kids.length + j < (n.kids ++ x).length := by rw [List.length_append]; omega
    simp only [ustep, if_pos hll]
    have hs01 : es s1 n.id = x := by rw [hsh.keep s0 s1 (hR _ _ _ hs hs1) hne, hx]
    have hget : (ms s1 n.id).arr.getD (n.kids.length + j) 0 = e.id := by
      rw [hsh.arr, hs01, List.getD_eq_getElem?_getD, List.getElem?_map, List.getElem?_append_right (by omega), Nat.add_sub_cancel_left, List.getElem?_eq_getElem hlt, he]
      rfl
    rw [hget]
    refine (uleads_leaf hsh (s := s1) (l := e) (by rw [hs01]; exact hmem) hR _ out).trans hr hR ?_
    rintro s2 r hs2 rfl
    refine ((ih (j + 1) hj' s2 (hR _ _ _ (hR _ _ _ hs hs1) hs2) _).trans (m := 0) hr hR ?_).mono (by omega)
    rintro s3 r hs3 rfl
    show _ = _
    simp only [Node.dumpRL, List.append_assoc, List.length_cons]

end

/-- The text of what is below a node, in a number of steps that depends on the tree alone. -/
theorem uleads_walk (F : DumpFmt α) (nc : Bool) (n : Node α) : ∀ (u : Str), n.ids.Nodup → ∃ N, ∀ (σ : Type) (R : σ → σ → Prop) (ms : σ → Mem α) (es : σ → Nat → List (Node α)),
    (∀ a, R a a) → (∀ a b c, R a b → R b c → R a c) → (∀ q m, (q, m) ∈ n.nodes u → JShows R ms es m) →
    ∀ s stk out, ULeads F nc R ms (fun r => ∃ g x, (∀ q m, (q, m) ∈ n.nodes u → Put R ms es m (g m.id m.core) (x m.id)) ∧
      r = (.next stk, out ++ (n.deck g x).dumpR F nc stk.length)) N s (.visit n.id stk, out) := by
  induction n using Node.ind with
  | h i p c k ih =>
    intro u hnd
    rw [Node.ids_mk, List.nodup_cons] at hnd
    have hsub : ∀ e ∈ k, ∀ q m, (q, m) ∈ e.nodes (u ++ p) → (q, m) ∈ (Node.mk i p c k).nodes u :=
      fun e he q m hm => (Node.mem_nodes u (.mk i p c k) _).mpr (.inr ⟨e, he, hm⟩)
    have hself : (u ++ p, Node.mk i p c k) ∈ (Node.mk i p c k).nodes u := (Node.mem_nodes u (.mk i p c k) _).mpr (.inl rfl)
    obtain ⟨N, hN⟩ := Prune.uniform (fun (e : Node α) N => ∀ (σ : Type) (R : σ → σ → Prop) (ms : σ → Mem α) (es : σ → Nat → List (Node α)),
        (∀ a, R a a) → (∀ a b c, R a b → R b c → R a c) → (∀ (q : Str) (m : Node α), (q, m) ∈ e.nodes (u ++ p) → JShows R ms es m) →
        ∀ s stk out, ULeads F nc R ms (fun r => ∃ (g : Nat → Core α → Core α) (x : Nat → List (Node α)),
          (∀ (q : Str) (m : Node α), (q, m) ∈ e.nodes (u ++ p) → Put R ms es m (g m.id m.core) (x m.id)) ∧
          r = (.next stk, out ++ (e.deck g x).dumpR F nc stk.length)) N s (.visit e.id stk, out))
      (fun e n m hnm h σ R ms es hr hR hS s stk f => (h σ R ms es hr hR hS s stk f).mono hnm) k
      (fun e he => ih e he (u ++ p) (Node.ids_nodup_kid hnd.2 he))
    refine ⟨(((N + 1) * k.length + (1 + 6)) + 1) + 3, fun σ R ms es hr hR hS s stk out => ?_⟩
    have hsh := hS _ _ hself
    refine .inr fun s1 hs1 => .inr fun s2 hs2 => .inr fun s3 hs3 => .inr fun s4 hs4 => ?_
    have hp : (ms s1 i).path = p := hsh.path s1
    have hl : (ms s4 i).len = (k ++ es s4 i).length := hsh.len s4
    simp only [ustep, Node.id, hp, hl]
    refine (uleads_kids (n := .mk i p c k) (u := u ++ p) (stk := stk) hr hR hsh (by show k.length ≤ (k ++ es s4 i).length; rw [List.length_append]; omega)
      (fun e he => hN e he σ R ms es hr hR fun q m hm => hS q m (hsub e he q m hm)) k 0 rfl (Nat.zero_le _) hnd.2 s4 _).trans hr hR ?_
    rintro s5 r hs5 ⟨g, x, b1, rfl⟩
    have hone : (es s4 i).length ≤ 1 := hsh.one s4
    refine ((uleads_more (n := .mk i p c k) (stk := stk) hr hR hsh (x := es s4 i) s4 rfl (es s4 i) 0 rfl s5 hs5 _).trans (m := 0) hr hR ?_).mono (by omega)
    rintro s6 r hs6 rfl
    have hni : ∀ e ∈ k, ∀ j ∈ e.ids, j ≠ i := fun e he j hj e' => hnd.1 (List.mem_flatMap.mpr ⟨e, he, e' ▸ hj⟩)
    refine ⟨fun j => if j = i then fun _ => { (ms s3 i).core with leaf := (ms s1 i).core.leaf, hasData := (ms s2 i).core.hasData } else g j,
      fun j => if j = i then es s4 i else x j, fun q m hm => ?_, ?_⟩
    · rw [Node.mem_nodes] at hm
      rcases hm with e | ⟨e, he, hm⟩
      · rw [(Prod.mk.inj e).2]
        refine ⟨⟨s1, s2, s3, hs3, ?_⟩, s4, ?_⟩
        · show (if i = i then _ else _ : Core α → Core α) c = _
          rw [if_pos rfl]; rfl
        · show (if i = i then _ else _) = _
          rw [if_pos rfl]; rfl
      · show Put R ms es m ((if m.id = i then _ else g m.id) m.core) (if m.id = i then _ else x m.id)
        have hno := hni e he _ (Node.id_mem_ids hm)
        rw [if_neg hno, if_neg hno]
        exact b1 e he q m hm
    · have e2 : k.map (Node.deck (fun j => if j = i then fun _ => { (ms s3 i).core with leaf := (ms s1 i).core.leaf, hasData := (ms s2 i).core.hasData } else g j)
          (fun j => if j = i then es s4 i else x j)) = k.map (Node.deck g x) :=
        List.map_congr_left fun e he => Node.deck_congr _ fun j hj => ⟨if_neg (hni e he j hj), if_neg (hni e he j hj)⟩
      rw [Node.deck_mk, e2, Node.dumpR, Node.dumpRL_append]
      simp only [if_true, List.append_assoc]
      rfl

end Parts
end Verif

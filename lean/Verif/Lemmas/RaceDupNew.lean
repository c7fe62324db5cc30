import Verif.Lemmas.RaceDup
import Verif.Lemmas.RaceFreshExport
/-
A copy of the trie (`Dup`) beside goroutines that set new keys.
-/
namespace Verif
namespace Node
variable {α : Type}

theorem deck_congr {g g' : Nat → Core α → Core α} {ex ex' : Nat → List (Node α)} (n : Node α) :
    (∀ i ∈ n.ids, g i = g' i ∧ ex i = ex' i) → n.deck g ex = n.deck g' ex' := by
  induction n using Node.ind with
  | h i p c k ih =>
    intro h
    rw [ids_mk] at h
    obtain ⟨h1, h2⟩ := h i (by simp)
    rw [deck_mk, deck_mk, h1, h2]
    congr 2
    exact List.map_congr_left fun m hm => ih m hm fun j hj => h j (List.mem_cons_of_mem _ (List.mem_flatMap.mpr ⟨m, hm, hj⟩))

theorem dupL_append (a b : List (Node α)) : ∀ f, dupL f (a ++ b) = ((dupL f a).1 ++ (dupL (dupL f a).2 b).1, (dupL (dupL f a).2 b).2) := by
  induction a with
  | nil => intro f; simp [dupL]
  | cons n a ih =>
    intro f
    simp only [List.cons_append, dupL, ih]

end Node

namespace Parts
variable {α : Type} [Inhabited α]
open Prune (Cell Mem)

section
variable {σ : Type} {R : σ → σ → Prop} {ms : σ → Mem α} {es : σ → Nat → List (Node α)}

/-- What the memories have in common with the tree at a node, when the cores change and leaves are added; `es` are those that have been added. -/
structure JShows (R : σ → σ → Prop) (ms : σ → Mem α) (es : σ → Nat → List (Node α)) (m : Node α) : Prop where
  path : ∀ s, (ms s m.id).path = m.path
  arr : ∀ s, (ms s m.id).arr = (m.kids ++ es s m.id).map Node.id
  len : ∀ s, (ms s m.id).len = (m.kids ++ es s m.id).length
  one : ∀ s, (es s m.id).length ≤ 1
  keep : ∀ s s', R s s' → es s m.id ≠ [] → es s' m.id = es s m.id
  leaf : ∀ s, ∀ l ∈ es s m.id, l.kids = [] ∧ (ms s l.id).path = l.path ∧ (ms s l.id).core = l.core ∧ (ms s l.id).len = 0

/-- What the copy has of a node: a core as in `Seen`, and the leaves that had been added at a moment. -/
def Met (R : σ → σ → Prop) (ms : σ → Mem α) (es : σ → Nat → List (Node α)) (m : Node α) (c : Core α) (x : List (Node α)) : Prop :=
  Seen R ms m c ∧ ∃ s, x = es s m.id

/-- The copy of a leaf that has been added. -/
theorem jleads_leaf {m l : Node α} (hsh : JShows R ms es m) {s : σ} (hl : l ∈ es s m.id) (stk : List (Half α)) (f : Nat) :
    DLeads R ms (fun r => r = (Dp.push (l.dup f).1 stk, (l.dup f).2)) 3 s (.visit l.id stk, f) := by
  have at' : ∀ s', R s s' → l ∈ es s' m.id := fun s' h => by rw [hsh.keep s s' h (List.ne_nil_of_mem hl)]; exact hl
  obtain ⟨i, p, c, k⟩ := l
  have all : ∀ s', i = i → (.mk i p c k ∈ es s' m.id) → k = [] ∧ (ms s' i).path = p ∧ (ms s' i).core = c ∧ (ms s' i).len = 0 :=
    fun s' _ h => hsh.leaf s' _ h
  refine .inr fun s1 h1 => .inr fun s2 h2 => .inr fun s3 h3 => ?_
  obtain ⟨rfl, a1, a2, _⟩ := all s1 rfl (at' s1 h1)
  have h12 : .mk i p c [] ∈ es s2 m.id := by rw [hsh.keep s1 s2 h2 (List.ne_nil_of_mem (at' s1 h1))]; exact at' s1 h1
  have h13 : .mk i p c [] ∈ es s3 m.id := by rw [hsh.keep s2 s3 h3 (List.ne_nil_of_mem h12)]; exact h12
  obtain ⟨_, _, _, b3⟩ := all s2 rfl h12
  obtain ⟨_, _, c2, _⟩ := all s3 rfl h13
  show DLeads R ms _ 0 s3 _
  simp only [dstep, Node.id_mk, a1, a2, b3, c2, Nat.lt_irrefl, if_false]
  exact .now (by simp [Node.dup, Node.dupL]) 0

/-- The loop over the children that have been there from the beginning. -/
theorem jleads_kids (hr : ∀ a, R a a) (hR : ∀ a b c, R a b → R b c → R a c) {n : Node α} {u : Str} {N len : Nat} {stk : List (Half α)} (hsh : JShows R ms es n)
    (hlen : n.kids.length ≤ len)
    (hin : ∀ e ∈ n.kids, ∀ s stk f, DLeads R ms (fun r => ∃ g x, (∀ q m, (q, m) ∈ e.nodes u → Met R ms es m (g m.id m.core) (x m.id)) ∧
      r = (Dp.push ((e.deck g x).dup f).1 stk, ((e.deck g x).dup f).2)) N s (.visit e.id stk, f)) :
    ∀ (k' : List (Node α)) (j : Nat), n.kids.drop j = k' → j ≤ n.kids.length → (k'.flatMap Node.ids).Nodup → ∀ s f id path core ks,
      DLeads R ms (fun r => ∃ g x, (∀ e ∈ k', ∀ q m, (q, m) ∈ e.nodes u → Met R ms es m (g m.id m.core) (x m.id)) ∧
        r = (.next (⟨n.id, id, path, core, len, n.kids.length, ks ++ (Node.dupL f (k'.map (Node.deck g x))).1⟩ :: stk), (Node.dupL f (k'.map (Node.deck g x))).2))
        ((N + 1) * k'.length) s (.next (⟨n.id, id, path, core, len, j, ks⟩ :: stk), f) := by
  intro k'
  induction k' with
  | nil =>
    intro j hj hle _ s f id path core ks
    have hle : j = n.kids.length := by
      have := congrArg List.length hj
      simp at this
      omega
    subst hle
    exact .now ⟨fun _ c => c, fun _ => [], nofun, by simp [Node.dupL]⟩ _
  | cons e k' ih =>
    intro j hj _ hnd s f id path core ks
    have hlt : j < n.kids.length := by
      by_cases h : j < n.kids.length
      · exact h
      · rw [List.drop_eq_nil_of_le (by omega)] at hj; cases hj
    rw [List.drop_eq_getElem_cons hlt] at hj
    obtain ⟨he, hj'⟩ := List.cons.inj hj
    have hmem : e ∈ n.kids := he ▸ List.getElem_mem hlt
    rw [List.flatMap_cons, List.nodup_append] at hnd
    rw [show (N + 1) * (e :: k').length = (N + (N + 1) * k'.length) + 1 by rw [List.length_cons, Nat.mul_add]; omega]
    refine .inr fun s1 hs1 => ?_
    have hll : j < len := Nat.lt_of_lt_of_le hlt hlen
    simp only [dstep, if_pos hll]
    have hget : (ms s1 n.id).arr.getD j 0 = e.id := by
      rw [hsh.arr, List.getD_eq_getElem?_getD, List.getElem?_map, List.getElem?_append_left hlt, List.getElem?_eq_getElem hlt, he]
      rfl
    rw [hget]
    refine (hin e hmem s1 _ f).trans hr hR ?_
    rintro s2 r hs2 ⟨g1, x1, a1, rfl⟩
    refine ((ih (j + 1) hj' hlt hnd.2.1 s2 _ id path core _).trans (m := 0) hr hR ?_).mono (by omega)
    rintro s3 r hs3 ⟨g2, x2, b1, rfl⟩
    refine ⟨fun i => if i ∈ e.ids then g1 i else g2 i, fun i => if i ∈ e.ids then x1 i else x2 i, fun e' he' q m hm => ?_, ?_⟩
    · rcases List.mem_cons.mp he' with rfl | he'
      · show Met R ms es m ((if m.id ∈ e'.ids then g1 m.id else g2 m.id) m.core) (if m.id ∈ e'.ids then x1 m.id else x2 m.id)
        rw [if_pos (Node.id_mem_ids hm), if_pos (Node.id_mem_ids hm)]
        exact a1 q m hm
      · show Met R ms es m ((if m.id ∈ e.ids then g1 m.id else g2 m.id) m.core) (if m.id ∈ e.ids then x1 m.id else x2 m.id)
        have hno : m.id ∉ e.ids := fun h => hnd.2.2 _ h _ (List.mem_flatMap.mpr ⟨e', he', Node.id_mem_ids hm⟩) rfl
        rw [if_neg hno, if_neg hno]
        exact b1 e' he' q m hm
    · have e1 : e.deck (fun i => if i ∈ e.ids then g1 i else g2 i) (fun i => if i ∈ e.ids then x1 i else x2 i) = e.deck g1 x1 :=
        Node.deck_congr _ fun i hi => ⟨if_pos hi, if_pos hi⟩
      have e2 : k'.map (Node.deck (fun i => if i ∈ e.ids then g1 i else g2 i) (fun i => if i ∈ e.ids then x1 i else x2 i)) = k'.map (Node.deck g2 x2) := by
        refine List.map_congr_left fun e' he' => Node.deck_congr _ fun i hi => ?_
        have hno : i ∉ e.ids := fun h => hnd.2.2 _ h _ (List.mem_flatMap.mpr ⟨e', he', hi⟩) rfl
        exact ⟨if_neg hno, if_neg hno⟩
      simp only [List.map_cons, e1, e2, Node.dupL, List.append_assoc, List.cons_append, List.nil_append]

/-- The loop over the leaves that had been added when it began. -/
theorem jleads_more (hr : ∀ a, R a a) (hR : ∀ a b c, R a b → R b c → R a c) {n : Node α} {stk : List (Half α)} (hsh : JShows R ms es n)
    {x : List (Node α)} (s0 : σ) (hx : x = es s0 n.id) :
    ∀ (x' : List (Node α)) (j : Nat), x.drop j = x' → ∀ s, R s0 s → ∀ f id path core ks,
      DLeads R ms (fun r => ∃ s2, R s s2 ∧ r = (Dp.push (.mk id path { core with data := (ms s2 n.id).core.data } (ks ++ (Node.dupL f x').1)) stk, (Node.dupL f x').2))
        (1 + 4 * x'.length) s (.next (⟨n.id, id, path, core, (n.kids ++ x).length, n.kids.length + j, ks⟩ :: stk), f) := by
  intro x'
  induction x' with
  | nil =>
    intro j hj s _ f id path core ks
    have hle : ¬ n.kids.length + j < (n.kids ++ x).length := by
      intro h
      have := congrArg List.length hj
      simp at this h
      omega
    refine .inr fun s1 hs1 => ?_
    simp only [dstep, if_neg hle]
    exact .now ⟨s1, hs1, by simp [Node.dupL]⟩ _
  | cons e x' ih =>
    intro j hj s hs f id path core ks
    have hlt : j < x.length := by
      by_cases h : j < x.length
      · exact h
      · rw [List.drop_eq_nil_of_le (by omega)] at hj; cases hj
    rw [List.drop_eq_getElem_cons hlt] at hj
    obtain ⟨he, hj'⟩ := List.cons.inj hj
    have hmem : e ∈ x := he ▸ List.getElem_mem hlt
    have hne : es s0 n.id ≠ [] := hx ▸ List.ne_nil_of_mem hmem
    rw [show 1 + 4 * (e :: x').length = (3 + (1 + 4 * x'.length)) + 1 by rw [List.length_cons]; omega]
    refine .inr fun s1 hs1 => ?_
    have hll : n.kids.length + j < (n.kids ++ x).length := by rw [List.length_append]; omega
    simp only [dstep, if_pos hll]
    have hs01 : es s1 n.id = x := by rw [hsh.keep s0 s1 (hR _ _ _ hs hs1) hne, hx]
    have hget : (ms s1 n.id).arr.getD (n.kids.length + j) 0 = e.id := by
      rw [hsh.arr, hs01, List.getD_eq_getElem?_getD, List.getElem?_map, List.getElem?_append_right (by omega), Nat.add_sub_cancel_left, List.getElem?_eq_getElem hlt, he]
      rfl
    rw [hget]
    refine (jleads_leaf hsh (s := s1) (l := e) (by rw [hs01]; exact hmem) _ f).trans hr hR ?_
    rintro s2 r hs2 rfl
    refine ((ih (j + 1) hj' s2 (hR _ _ _ (hR _ _ _ hs hs1) hs2) _ id path core _).trans (m := 0) hr hR ?_).mono (by omega)
    rintro s3 r hs3 ⟨s4, hs4, rfl⟩
    exact ⟨s4, hR _ _ _ (hR _ _ _ hs1 hs2) hs4, by simp only [Node.dupL, List.append_assoc, List.cons_append, List.nil_append]⟩

/-- The copy of what is below a node, in a number of steps that depends on the tree alone. -/
theorem jleads_walk (n : Node α) : ∀ (u : Str), n.ids.Nodup → ∃ N, ∀ (σ : Type) (R : σ → σ → Prop) (ms : σ → Mem α) (es : σ → Nat → List (Node α)),
    (∀ a, R a a) → (∀ a b c, R a b → R b c → R a c) → (∀ q m, (q, m) ∈ n.nodes u → JShows R ms es m) →
    ∀ s stk f, DLeads R ms (fun r => ∃ g x, (∀ q m, (q, m) ∈ n.nodes u → Met R ms es m (g m.id m.core) (x m.id)) ∧
      r = (Dp.push ((n.deck g x).dup f).1 stk, ((n.deck g x).dup f).2)) N s (.visit n.id stk, f) := by
  induction n using Node.ind with
  | h i p c k ih =>
    intro u hnd
    rw [Node.ids_mk, List.nodup_cons] at hnd
    have hsub : ∀ e ∈ k, ∀ q m, (q, m) ∈ e.nodes (u ++ p) → (q, m) ∈ (Node.mk i p c k).nodes u :=
      fun e he q m hm => (Node.mem_nodes u (.mk i p c k) _).mpr (.inr ⟨e, he, hm⟩)
    have hself : (u ++ p, Node.mk i p c k) ∈ (Node.mk i p c k).nodes u := (Node.mem_nodes u (.mk i p c k) _).mpr (.inl rfl)
    obtain ⟨N, hN⟩ := Prune.uniform (fun (e : Node α) N => ∀ (σ : Type) (R : σ → σ → Prop) (ms : σ → Mem α) (es : σ → Nat → List (Node α)),
        (∀ a, R a a) → (∀ a b c, R a b → R b c → R a c) → (∀ (q : Str) (m : Node α), (q, m) ∈ e.nodes (u ++ p) → JShows R ms es m) →
        ∀ s stk f, DLeads R ms (fun r => ∃ (g : Nat → Core α → Core α) (x : Nat → List (Node α)),
          (∀ (q : Str) (m : Node α), (q, m) ∈ e.nodes (u ++ p) → Met R ms es m (g m.id m.core) (x m.id)) ∧
          r = (Dp.push ((e.deck g x).dup f).1 stk, ((e.deck g x).dup f).2)) N s (.visit e.id stk, f))
      (fun e n m hnm h σ R ms es hr hR hS s stk f => (h σ R ms es hr hR hS s stk f).mono hnm) k
      (fun e he => ih e he (u ++ p) (Node.ids_nodup_kid hnd.2 he))
    refine ⟨(((N + 1) * k.length + (1 + 4)) + 1) + 1, fun σ R ms es hr hR hS s stk f => ?_⟩
    have hsh := hS _ _ hself
    refine .inr fun s1 hs1 => .inr fun s2 hs2 => ?_
    have hp : (ms s1 i).path = p := hsh.path s1
    have hl : (ms s2 i).len = (k ++ es s2 i).length := hsh.len s2
    simp only [dstep, Node.id, hp, hl]
    refine (jleads_kids (n := .mk i p c k) (u := u ++ p) (stk := stk) hr hR hsh (by show k.length ≤ (k ++ es s2 i).length; rw [List.length_append]; omega)
      (fun e he => hN e he σ R ms es hr hR fun q m hm => hS q m (hsub e he q m hm)) k 0 rfl (Nat.zero_le _) hnd.2 s2 (f + 1) f p _ []).trans hr hR ?_
    rintro s3 r hs3 ⟨g, x, b1, rfl⟩
    have hone : (es s2 i).length ≤ 1 := hsh.one s2
    refine ((jleads_more (n := .mk i p c k) (stk := stk) hr hR hsh (x := es s2 i) s2 rfl (es s2 i) 0 rfl s3 hs3 _ f p _ _).trans (m := 0) hr hR ?_).mono (by omega)
    rintro s4 r hs4 ⟨s5, hs5, rfl⟩
    have hni : ∀ e ∈ k, ∀ j ∈ e.ids, j ≠ i := fun e he j hj e' => hnd.1 (List.mem_flatMap.mpr ⟨e, he, e' ▸ hj⟩)
    refine ⟨fun j => if j = i then fun _ => { (ms s1 i).core with data := (ms s5 i).core.data } else g j,
      fun j => if j = i then es s2 i else x j, fun q m hm => ?_, ?_⟩
    · rw [Node.mem_nodes] at hm
      rcases hm with e | ⟨e, he, hm⟩
      · rw [(Prod.mk.inj e).2]
        refine ⟨⟨s1, s5, hR _ _ _ hs2 (hR _ _ _ hs3 hs5), ?_⟩, s2, ?_⟩
        · show (if i = i then _ else _ : Core α → Core α) c = _
          rw [if_pos rfl]; rfl
        · show (if i = i then _ else _) = _
          rw [if_pos rfl]; rfl
      · show Met R ms es m ((if m.id = i then _ else g m.id) m.core) (if m.id = i then _ else x m.id)
        have hno := hni e he _ (Node.id_mem_ids hm)
        rw [if_neg hno, if_neg hno]
        exact b1 e he q m hm
    · have e2 : k.map (Node.deck (fun j => if j = i then fun _ => { (ms s1 i).core with data := (ms s5 i).core.data } else g j)
          (fun j => if j = i then es s2 i else x j)) = k.map (Node.deck g x) :=
        List.map_congr_left fun e he => Node.deck_congr _ fun j hj => ⟨if_neg (hni e he j hj), if_neg (hni e he j hj)⟩
      rw [Node.deck_mk, e2]
      simp only [Node.dup, if_true, List.nil_append, Node.dupL_append]
      rfl

end

end Parts
end Verif

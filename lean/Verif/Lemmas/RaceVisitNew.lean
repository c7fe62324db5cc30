import Verif.Lemmas.RaceVisit
/-
A walk over the trie (`Walk`) beside goroutines that set new keys, but remove nothing.
-/
namespace Verif
namespace Node
variable {α : Type}

theorem walkL_flat (k : List (Node α)) : walkL k = k.flatMap walk := by
  induction k with
  | nil => rfl
  | cons a as ih => rw [walkL, ih, List.flatMap_cons]

theorem walk_node (i : Nat) (p : Str) (c : Core α) (k : List (Node α)) : (mk i p c k).walk = mk i p c k :: k.flatMap walk := by
  rw [walk, walkL_flat]

theorem walk_map_id (n : Node α) : n.walk.map id = n.ids := by
  induction n using Node.ind with
  | h i p c k ih =>
    rw [walk_node, ids_mk, List.map_cons, id_mk, List.map_flatMap]
    congr 1
    simp only [List.flatMap]
    congr 1
    exact List.map_congr_left ih

theorem ids_of (n : Node α) : ∀ u, ∀ i ∈ n.ids, ∃ q m, (q, m) ∈ n.nodes u ∧ m.id = i := by
  induction n using Node.ind with
  | h i p c k ih =>
    intro u j hj
    rw [ids_mk, List.mem_cons] at hj
    rcases hj with rfl | hj
    · exact ⟨_, _, (mem_nodes u (mk j p c k) _).mpr (.inl rfl), rfl⟩
    · obtain ⟨e, he, hj⟩ := List.mem_flatMap.mp hj
      obtain ⟨q, m, hm, e'⟩ := ih e he (u ++ p) j hj
      exact ⟨q, m, (mem_nodes u (mk i p c k) _).mpr (.inr ⟨e, he, hm⟩), e'⟩

/-- The nodes below a node are nodes of the tree. -/
theorem nodes_below {m : Node α} (n : Node α) : ∀ {u q : Str}, (q, m) ∈ n.nodes u → ∃ u', ∀ x ∈ m.nodes u', x ∈ n.nodes u := by
  induction n using Node.ind with
  | h i p c k ih =>
    intro u q h
    rw [mem_nodes] at h
    rcases h with e | ⟨e, he, h⟩
    · rw [(Prod.mk.inj e).2]; exact ⟨u, fun _ h => h⟩
    · obtain ⟨u', h'⟩ := ih e he h
      exact ⟨u', fun x hx => (mem_nodes u (mk i p c k) x).mpr (.inr ⟨e, he, h' x hx⟩)⟩

theorem deck_nil (n : Node α) : n.deck (fun _ c => c) (fun _ => []) = n := by
  induction n using Node.ind with
  | h i p c k ih =>
    rw [deck_mk, List.append_nil]
    congr 1
    exact (List.map_congr_left ih).trans (List.map_id _)

/-- So are their identities, with the leaves. -/
theorem deck_below {m : Node α} {g : Nat → Core α → Core α} {x : Nat → List (Node α)} (n : Node α) : ∀ {u q : Str}, (q, m) ∈ n.nodes u →
    (m.deck g x).ids.Sublist (n.deck g x).ids := by
  induction n using Node.ind with
  | h i p c k ih =>
    intro u q h
    rw [mem_nodes] at h
    rcases h with e | ⟨e, he, h⟩
    · rw [(Prod.mk.inj e).2]; exact List.Sublist.refl _
    · rw [deck_mk, ids_mk, List.flatMap_append]
      refine ((ih e he h).trans ?_).cons _
      refine List.Sublist.trans ?_ (List.sublist_append_left _ _)
      have he : e ∈ k := he
      obtain ⟨a, b, hab⟩ := List.append_of_mem (List.mem_map_of_mem (f := deck g x) he)
      rw [hab, List.flatMap_append, List.flatMap_cons]
      exact (List.sublist_append_left _ _).trans (List.sublist_append_right _ _)

/-- With fewer leaves there are fewer nodes. -/
theorem deck_ids_sub {g : Nat → Core α → Core α} {x y : Nat → List (Node α)} (n : Node α) :
    (∀ i ∈ n.ids, (x i).Sublist (y i)) → (n.deck g x).ids.Sublist (n.deck g y).ids := by
  induction n using Node.ind with
  | h i p c k ih =>
    intro h
    rw [ids_mk] at h
    rw [deck_mk, deck_mk, ids_mk, ids_mk, List.flatMap_append, List.flatMap_append]
    refine List.Sublist.cons_cons _ (List.Sublist.append ?_ ?_)
    · have : ∀ k' : List (Node α), (∀ a ∈ k', a ∈ k) → ((k'.map (deck g x)).flatMap ids).Sublist ((k'.map (deck g y)).flatMap ids) := by
        intro k'
        induction k' with
        | nil => intro _; exact List.Sublist.refl _
        | cons a k' ihk =>
          intro hs
          simp only [List.map_cons, List.flatMap_cons]
          exact List.Sublist.append (ih a (hs a (by simp)) fun j hj => h j (List.mem_cons_of_mem _ (List.mem_flatMap.mpr ⟨a, hs a (by simp), hj⟩)))
            (ihk fun a ha => hs a (by simp [ha]))
      exact this k fun _ h => h
    · have hi := h i (by simp)
      generalize x i = a at hi
      generalize y i = b at hi
      induction hi with
      | slnil => exact List.Sublist.refl _
      | cons z _ ih' => rw [List.flatMap_cons]; exact ih'.trans (List.sublist_append_right _ _)
      | cons_cons z _ ih' => rw [List.flatMap_cons, List.flatMap_cons]; exact List.Sublist.append (List.Sublist.refl _) ih'

/-- Without the leaves the walk is as before. -/
theorem deck_walk_filter {β : Type} {f : Node α → β} {P : β → Bool} {x : Nat → List (Node α)} (hf : ∀ i p c k k', f (mk i p c k) = f (mk i p c k')) (n : Node α) :
    (∀ i ∈ n.ids, ∀ l ∈ x i, ∀ m ∈ l.walk, P (f m) = false) → (∀ m ∈ n.walk, P (f m) = true) →
      ((n.deck (fun _ c => c) x).walk.map f).filter P = n.walk.map f := by
  induction n using Node.ind with
  | h i p c k ih =>
    intro h1 h2
    rw [ids_mk] at h1
    rw [walk_node] at h2
    rw [deck_mk, walk_node, walk_node, List.map_cons, List.map_cons, hf i p c _ k, List.filter_cons_of_pos (h2 _ (by simp)), List.flatMap_append, List.map_append,
      List.filter_append]
    have e1 : (((x i).flatMap walk).map f).filter P = [] := by
      rw [List.filter_eq_nil_iff]
      intro b hb
      obtain ⟨m, hm, rfl⟩ := List.mem_map.mp hb
      obtain ⟨l, hl, hm⟩ := List.mem_flatMap.mp hm
      rw [h1 i (by simp) l hl m hm]
      simp
    have e2 : ∀ k' : List (Node α), (∀ a ∈ k', a ∈ k) → (((k'.map (deck (fun _ c => c) x)).flatMap walk).map f).filter P = (k'.flatMap walk).map f := by
      intro k'
      induction k' with
      | nil => intro _; rfl
      | cons a k' ihk =>
        intro hs
        simp only [List.map_cons, List.flatMap_cons, List.map_append, List.filter_append]
        rw [ihk fun a ha => hs a (by simp [ha]), ih a (hs a (by simp)) (fun j hj => h1 j (List.mem_cons_of_mem _ (List.mem_flatMap.mpr ⟨a, hs a (by simp), hj⟩)))
          (fun m hm => h2 m (List.mem_cons_of_mem _ (List.mem_flatMap.mpr ⟨a, hs a (by simp), hm⟩)))]
    rw [e1, e2 k (fun _ h => h), List.append_nil]

end Node

namespace Parts
variable {α : Type} [Inhabited α]
open Prune (Cell Mem Turn)

section
variable {σ : Type} {R : σ → σ → Prop} {ms : σ → Mem α} {es : σ → Nat → List (Node α)}

/-- A leaf that has been added. -/
theorem vleads_leaf {m l : Node α} (hsh : JShows R ms es m) {s : σ} (hl : l ∈ es s m.id) (hR : ∀ a b c, R a b → R b c → R a c) (stk : List Turn) (out : List (Str × Str × Nat)) :
    WLeads R ms (fun r => r = (.next stk, out ++ l.walk.map shownAs)) 4 s (.visit l.id stk, out) := by
  have at' : ∀ s', R s s' → l ∈ es s' m.id := fun s' h => by rw [hsh.keep s s' h (List.ne_nil_of_mem hl)]; exact hl
  obtain ⟨i, p, c, k⟩ := l
  have all : ∀ s', i = i → (.mk i p c k ∈ es s' m.id) → k = [] ∧ (ms s' i).path = p ∧ (ms s' i).core = c ∧ (ms s' i).len = 0 :=
    fun s' _ h => hsh.leaf s' _ h
  refine .inr fun s1 h1 => .inr fun s2 h2 => .inr fun s3 h3 => .inr fun s4 h4 => ?_
  obtain ⟨rfl, _, a2, _⟩ := all s1 rfl (at' s1 h1)
  obtain ⟨_, b1, _, _⟩ := all s2 rfl (at' s2 (hR _ _ _ h1 h2))
  obtain ⟨_, _, _, c3⟩ := all s3 rfl (at' s3 (hR _ _ _ (hR _ _ _ h1 h2) h3))
  show WLeads R ms _ 0 s4 _
  simp only [wstep, Node.id_mk, a2, b1, c3, Nat.lt_irrefl, if_false]
  exact .now (by simp [Node.walk_node, shownAs, Node.path, Node.id, Node.core]) 0

/-- The loop over the children that have been there from the beginning. -/
theorem vleads_kids (hr : ∀ a, R a a) (hR : ∀ a b c, R a b → R b c → R a c) {n : Node α} {u : Str} {N len : Nat} {stk : List Turn} (hsh : JShows R ms es n)
    (hlen : n.kids.length ≤ len)
    (hin : ∀ e ∈ n.kids, ∀ s stk out, WLeads R ms (fun r => ∃ x, (∀ q m, (q, m) ∈ e.nodes u → ∃ s, x m.id = es s m.id) ∧
      r = (.next stk, out ++ (e.deck (fun _ c => c) x).walk.map shownAs)) N s (.visit e.id stk, out)) :
    ∀ (k' : List (Node α)) (j : Nat), n.kids.drop j = k' → j ≤ n.kids.length → (k'.flatMap Node.ids).Nodup → ∀ s out,
      WLeads R ms (fun r => ∃ x, (∀ e ∈ k', ∀ q m, (q, m) ∈ e.nodes u → ∃ s, x m.id = es s m.id) ∧
        r = (.next (⟨n.id, len, n.kids.length⟩ :: stk), out ++ ((k'.map (Node.deck (fun _ c => c) x)).flatMap Node.walk).map shownAs))
        ((N + 1) * k'.length) s (.next (⟨n.id, len, j⟩ :: stk), out) := by
  intro k'
  induction k' with
  | nil =>
    intro j hj hle _ s out
    have hle : j = n.kids.length := by
      have := congrArg List.length hj
      simp at this
      omega
    subst hle
    exact .now ⟨fun _ => [], nofun, by simp⟩ _
  | cons e k' ih =>
    intro j hj _ hnd s out
    have hlt : j < n.kids.length := by
      by_cases h : j < n.kids.length
      · exact h
      · rw [List.drop_eq_nil_of_le (by omega)] at hj; cases hj
    rw [List.drop_eq_getElem_cons hlt] at hj
    obtain ⟨he, hj'⟩ := List.cons.inj hj
    have hmem : e ∈ n.kids := he ▸ List.getElem_mem hlt
    rw [List.flatMap_cons, List.nodup_append] at hnd
    rw [show (N + 1) * (e :: k').length = (N + (N + 1) * k'.length) + 1 by rw [List.length_cons, Nat.mul_add]; omega]
    refine .inr fun s1 hs1 => ?_
    have hll : j < len := Nat.lt_of_lt_of_le hlt hlen
    simp only [wstep, if_pos hll]
    have hget : (ms s1 n.id).arr.getD j 0 = e.id := by
      rw [hsh.arr, List.getD_eq_getElem?_getD, List.getElem?_map, List.getElem?_append_left hlt, List.getElem?_eq_getElem hlt, he]
      rfl
    rw [hget]
    refine (hin e hmem s1 _ out).trans hr hR ?_
    rintro s2 r hs2 ⟨x1, a1, rfl⟩
    refine ((ih (j + 1) hj' hlt hnd.2.1 s2 _).trans (m := 0) hr hR ?_).mono (by omega)
    rintro s3 r hs3 ⟨x2, b1, rfl⟩
    refine ⟨fun i => if i ∈ e.ids then x1 i else x2 i, fun e' he' q m hm => ?_, ?_⟩
    · rcases List.mem_cons.mp he' with rfl | he'
      · show ∃ s, (if m.id ∈ e'.ids then x1 m.id else x2 m.id) = _
        rw [if_pos (Node.id_mem_ids hm)]
        exact a1 q m hm
      · show ∃ s, (if m.id ∈ e.ids then x1 m.id else x2 m.id) = _
        have hno : m.id ∉ e.ids := fun h => hnd.2.2 _ h _ (List.mem_flatMap.mpr ⟨e', he', Node.id_mem_ids hm⟩) rfl
        rw [if_neg hno]
        exact b1 e' he' q m hm
    · have e1 : e.deck (fun _ c => c) (fun i => if i ∈ e.ids then x1 i else x2 i) = e.deck (fun _ c => c) x1 :=
        Node.deck_congr _ fun i hi => ⟨rfl, if_pos hi⟩
      have e2 : k'.map (Node.deck (fun _ c => c) (fun i => if i ∈ e.ids then x1 i else x2 i)) = k'.map (Node.deck (fun _ c => c) x2) := by
        refine List.map_congr_left fun e' he' => Node.deck_congr _ fun i hi => ?_
        have hno : i ∉ e.ids := fun h => hnd.2.2 _ h _ (List.mem_flatMap.mpr ⟨e', he', hi⟩) rfl
        exact ⟨rfl, if_neg hno⟩
      simp only [List.map_cons, e1, e2, List.flatMap_cons, List.map_append, List.append_assoc]

/-- The loop over the leaves that had been added when it began. -/
theorem vleads_more (hr : ∀ a, R a a) (hR : ∀ a b c, R a b → R b c → R a c) {n : Node α} {stk : List Turn} (hsh : JShows R ms es n)
    {x : List (Node α)} (s0 : σ) (hx : x = es s0 n.id) :
    ∀ (x' : List (Node α)) (j : Nat), x.drop j = x' → ∀ s, R s0 s → ∀ out,
      WLeads R ms (fun r => r = (.next stk, out ++ (x'.flatMap Node.walk).map shownAs))
        (1 + 5 * x'.length) s (.next (⟨n.id, (n.kids ++ x).length, n.kids.length + j⟩ :: stk), out) := by
  intro x'
  induction x' with
  | nil =>
    intro j hj s _ out
    have hle : ¬ n.kids.length + j < (n.kids ++ x).length := by
      intro h
      have := congrArg List.length hj
      simp at this h
      omega
    refine .inr fun s1 hs1 => ?_
    simp only [wstep, if_neg hle]
    exact .now (by simp) _
  | cons e x' ih =>
    intro j hj s hs out
    have hlt : j < x.length := by
      by_cases h : j < x.length
      · exact h
      · rw [List.drop_eq_nil_of_le (by omega)] at hj; cases hj
    rw [List.drop_eq_getElem_cons hlt] at hj
    obtain ⟨he, hj'⟩ := List.cons.inj hj
    have hmem : e ∈ x := he ▸ List.getElem_mem hlt
    have hne : es s0 n.id ≠ [] := hx ▸ List.ne_nil_of_mem hmem
    rw [show 1 + 5 * (e :: x').length = (4 + (1 + 5 * x'.length)) + 1 by rw [List.length_cons]; omega]
    refine .inr fun s1 hs1 => ?_
    have hll : n.kids.length + j < (n.kids ++ x).length := by rw [List.length_append]; omega
    simp only [wstep, if_pos hll]
    have hs01 : es s1 n.id = x := by rw [hsh.keep s0 s1 (hR _ _ _ hs hs1) hne, hx]
    have hget : (ms s1 n.id).arr.getD (n.kids.length + j) 0 = e.id := by
      rw [hsh.arr, hs01, List.getD_eq_getElem?_getD, List.getElem?_map, List.getElem?_append_right (by omega), Nat.add_sub_cancel_left, List.getElem?_eq_getElem hlt, he]
      rfl
    rw [hget]
    refine (vleads_leaf hsh (s := s1) (l := e) (by rw [hs01]; exact hmem) hR _ out).trans hr hR ?_
    rintro s2 r hs2 rfl
    refine ((ih (j + 1) hj' s2 (hR _ _ _ (hR _ _ _ hs hs1) hs2) _).trans (m := 0) hr hR ?_).mono (by omega)
    rintro s3 r hs3 rfl
    show _ = _
    simp only [List.flatMap_cons, List.map_append, List.append_assoc]

end

/-- The walk below a node, in a number of steps that depends on the tree alone. -/
theorem vleads_walk (n : Node α) : ∀ (u : Str), n.ids.Nodup → ∃ N, ∀ (σ : Type) (R : σ → σ → Prop) (ms : σ → Mem α) (es : σ → Nat → List (Node α)),
    (∀ a, R a a) → (∀ a b c, R a b → R b c → R a c) → (∀ q m, (q, m) ∈ n.nodes u → JShows R ms es m ∧ ∀ s, (ms s m.id).core.pathS = m.core.pathS) →
    ∀ s stk out, WLeads R ms (fun r => ∃ x, (∀ q m, (q, m) ∈ n.nodes u → ∃ s, x m.id = es s m.id) ∧
      r = (.next stk, out ++ (n.deck (fun _ c => c) x).walk.map shownAs)) N s (.visit n.id stk, out) := by
  induction n using Node.ind with
  | h i p c k ih =>
    intro u hnd
    rw [Node.ids_mk, List.nodup_cons] at hnd
    have hsub : ∀ e ∈ k, ∀ q m, (q, m) ∈ e.nodes (u ++ p) → (q, m) ∈ (Node.mk i p c k).nodes u :=
      fun e he q m hm => (Node.mem_nodes u (.mk i p c k) _).mpr (.inr ⟨e, he, hm⟩)
    have hself : (u ++ p, Node.mk i p c k) ∈ (Node.mk i p c k).nodes u := (Node.mem_nodes u (.mk i p c k) _).mpr (.inl rfl)
    obtain ⟨N, hN⟩ := Prune.uniform (fun (e : Node α) N => ∀ (σ : Type) (R : σ → σ → Prop) (ms : σ → Mem α) (es : σ → Nat → List (Node α)),
        (∀ a, R a a) → (∀ a b c, R a b → R b c → R a c) →
        (∀ (q : Str) (m : Node α), (q, m) ∈ e.nodes (u ++ p) → JShows R ms es m ∧ ∀ s, (ms s m.id).core.pathS = m.core.pathS) →
        ∀ s stk out, WLeads R ms (fun r => ∃ (x : Nat → List (Node α)),
          (∀ (q : Str) (m : Node α), (q, m) ∈ e.nodes (u ++ p) → ∃ s, x m.id = es s m.id) ∧
          r = (.next stk, out ++ (e.deck (fun _ c => c) x).walk.map shownAs)) N s (.visit e.id stk, out))
      (fun e n m hnm h σ R ms es hr hR hS s stk f => (h σ R ms es hr hR hS s stk f).mono hnm) k
      (fun e he => ih e he (u ++ p) (Node.ids_nodup_kid hnd.2 he))
    refine ⟨(((N + 1) * k.length + (1 + 5)) + 1) + 2, fun σ R ms es hr hR hS s stk out => ?_⟩
    obtain ⟨hsh, hpS⟩ := hS _ _ hself
    refine .inr fun s1 hs1 => .inr fun s2 hs2 => .inr fun s3 hs3 => ?_
    have hp1 : (ms s1 i).core.pathS = c.pathS := hpS s1
    have hp : (ms s2 i).path = p := hsh.path s2
    have hl : (ms s3 i).len = (k ++ es s3 i).length := hsh.len s3
    simp only [wstep, Node.id, hp, hp1, hl]
    refine (vleads_kids (n := .mk i p c k) (u := u ++ p) (stk := stk) hr hR hsh (by show k.length ≤ (k ++ es s3 i).length; rw [List.length_append]; omega)
      (fun e he => hN e he σ R ms es hr hR fun q m hm => hS q m (hsub e he q m hm)) k 0 rfl (Nat.zero_le _) hnd.2 s3 _).trans hr hR ?_
    rintro s4 r hs4 ⟨x, b1, rfl⟩
    have hone : (es s3 i).length ≤ 1 := hsh.one s3
    refine ((vleads_more (n := .mk i p c k) (stk := stk) hr hR hsh (x := es s3 i) s3 rfl (es s3 i) 0 rfl s4 hs4 _).trans (m := 0) hr hR ?_).mono (by omega)
    rintro s5 r hs5 rfl
    have hni : ∀ e ∈ k, ∀ j ∈ e.ids, j ≠ i := fun e he j hj e' => hnd.1 (List.mem_flatMap.mpr ⟨e, he, e' ▸ hj⟩)
    refine ⟨fun j => if j = i then es s3 i else x j, fun q m hm => ?_, ?_⟩
    · rw [Node.mem_nodes] at hm
      rcases hm with e | ⟨e, he, hm⟩
      · rw [(Prod.mk.inj e).2]
        exact ⟨s3, if_pos rfl⟩
      · show ∃ s, (if m.id = i then _ else x m.id) = _
        rw [if_neg (hni e he _ (Node.id_mem_ids hm))]
        exact b1 e he q m hm
    · have e2 : k.map (Node.deck (fun _ c => c) (fun j => if j = i then es s3 i else x j)) = k.map (Node.deck (fun _ c => c) x) :=
        List.map_congr_left fun e he => Node.deck_congr _ fun j hj => ⟨rfl, if_neg (hni e he j hj)⟩
      rw [Node.deck_mk, e2, Node.walk_node]
      simp only [if_true, List.map_cons, List.flatMap_append, List.map_append, List.append_assoc]
      rfl

/-- The walk below a node of a trie that does not change. -/
theorem cleads_walk {M : Mem α} (n : Node α) : ∀ (u : Str),
    (∀ q m, (q, m) ∈ n.nodes u → (M m.id).path = m.path ∧ (M m.id).core = m.core ∧ (M m.id).arr.take (M m.id).len = m.kids.map Node.id ∧ (M m.id).len = m.kids.length) →
    ∃ N, ∀ stk out, WLeads (fun _ _ : Unit => True) (fun _ => M) (fun r => r = (.next stk, out ++ n.walk.map shownAs)) N () (.visit n.id stk, out) := by
  induction n using Node.ind with
  | h i p c k ih =>
    intro u hM
    obtain ⟨m1, m2, m3, m4⟩ := hM _ _ ((Node.mem_nodes u (.mk i p c k) _).mpr (.inl rfl))
    simp only [Node.id, Node.path, Node.core, Node.kids] at m1 m2 m3 m4
    have hloop : ∀ (k' : List (Node α)) (j : Nat), k.drop j = k' → j ≤ k.length → ∃ N, ∀ stk out,
        WLeads (fun _ _ : Unit => True) (fun _ => M) (fun r => r = (.next stk, out ++ (k'.flatMap Node.walk).map shownAs)) N () (.next (⟨i, k.length, j⟩ :: stk), out) := by
      intro k'
      induction k' with
      | nil =>
        intro j hj hle
        have hle : ¬ j < k.length := by
          have := congrArg List.length hj
          simp at this
          omega
        refine ⟨1, fun stk out => .inr fun s1 _ => ?_⟩
        simp only [wstep, if_neg hle]
        exact .now (by simp) _
      | cons e k' ihk =>
        intro j hj _
        have hlt : j < k.length := by
          by_cases h : j < k.length
          · exact h
          · rw [List.drop_eq_nil_of_le (by omega)] at hj; cases hj
        rw [List.drop_eq_getElem_cons hlt] at hj
        obtain ⟨he, hj'⟩ := List.cons.inj hj
        have hmem : e ∈ k := he ▸ List.getElem_mem hlt
        obtain ⟨N1, h1⟩ := ih e hmem (u ++ p) fun q m hm => hM q m ((Node.mem_nodes u (.mk i p c k) _).mpr (.inr ⟨e, hmem, hm⟩))
        obtain ⟨N2, h2⟩ := ihk (j + 1) hj' hlt
        refine ⟨(N1 + N2) + 1, fun stk out => .inr fun s1 _ => ?_⟩
        have hget : (M i).arr.getD j 0 = e.id := by
          have : ((M i).arr.take (M i).len)[j]? = some e.id := by rw [m3, List.getElem?_map, List.getElem?_eq_getElem hlt, he]; rfl
          rw [List.getElem?_take_of_lt (by omega)] at this
          rw [List.getD_eq_getElem?_getD, this]
          rfl
        simp only [wstep, if_pos hlt, hget]
        refine (h1 _ out).trans (fun _ => trivial) (fun _ _ _ _ _ => trivial) ?_
        rintro s2 r _ rfl
        have := h2 stk (out ++ e.walk.map shownAs)
        simp only [List.flatMap_cons, List.map_append] at this ⊢
        rw [← List.append_assoc]
        exact this
    obtain ⟨N, hN⟩ := hloop k 0 rfl (Nat.zero_le _)
    refine ⟨N + 3, fun stk out => .inr fun s1 _ => .inr fun s2 _ => .inr fun s3 _ => ?_⟩
    have := hN stk (out ++ [(runes c.pathS, p, i)])
    simp only [wstep, Node.id, m1, m2, m4, Node.walk_node, List.map_cons]
    rw [List.append_cons]
    exact this

end Parts
end Verif

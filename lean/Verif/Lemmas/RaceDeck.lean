import Verif.Lemmas.RaceFresh
/-
The trie that is in memory after leaves have been added and children have been removed.
-/
namespace Verif
namespace Node
variable {α : Type}

mutual
/-- The tree with other cores and with more children. -/
def deck (g : Nat → Core α → Core α) (ex : Nat → List (Node α)) : Node α → Node α
  | .mk i p c k => .mk i p (g i c) (deckL g ex k ++ ex i)
def deckL (g : Nat → Core α → Core α) (ex : Nat → List (Node α)) : List (Node α) → List (Node α)
  | [] => []
  | n :: ns => deck g ex n :: deckL g ex ns
end

section
variable (g : Nat → Core α → Core α) (ex : Nat → List (Node α))

theorem deckL_eq (k : List (Node α)) : deckL g ex k = k.map (deck g ex) := by
  induction k with
  | nil => rfl
  | cons a as ih => rw [deckL, ih]; rfl

theorem deck_mk (i p) (c : Core α) (k) : deck g ex (.mk i p c k) = .mk i p (g i c) (k.map (deck g ex) ++ ex i) := by
  rw [deck, deckL_eq]

@[simp] theorem deck_id (n : Node α) : (n.deck g ex).id = n.id := by cases n; rfl
@[simp] theorem deck_path (n : Node α) : (n.deck g ex).path = n.path := by cases n; rfl
@[simp] theorem deck_core (n : Node α) : (n.deck g ex).core = g n.id n.core := by cases n; rfl
@[simp] theorem deck_kids (n : Node α) : (n.deck g ex).kids = n.kids.map (deck g ex) ++ ex n.id := by cases n; rw [deck_mk]; rfl

theorem mem_deck (n : Node α) : ∀ (u q : Str) (M : Node α), (q, M) ∈ (n.deck g ex).nodes u ↔
    (∃ m, (q, m) ∈ n.nodes u ∧ M = m.deck g ex) ∨ ∃ a m l, (a, m) ∈ n.nodes u ∧ l ∈ ex m.id ∧ (q, M) ∈ l.nodes a := by
  induction n using Node.ind with
  | h i p c k ih =>
    intro u q M
    rw [mem_nodes]
    simp only [deck_path, path_mk, deck_kids, kids_mk, id_mk, List.mem_append, List.mem_map]
    constructor
    · rintro (e | ⟨x, (⟨y, hy, rfl⟩ | hx), hm⟩)
      · obtain ⟨rfl, rfl⟩ := Prod.mk.inj e
        exact .inl ⟨_, (mem_nodes _ _ _).mpr (.inl rfl), rfl⟩
      · rcases (ih y hy _ _ _).mp hm with ⟨m, h1, h2⟩ | ⟨a, m, l, h1, h2, h3⟩
        · exact .inl ⟨m, (mem_nodes _ _ _).mpr (.inr ⟨y, hy, h1⟩), h2⟩
        · exact .inr ⟨a, m, l, (mem_nodes _ _ _).mpr (.inr ⟨y, hy, h1⟩), h2, h3⟩
      · exact .inr ⟨u ++ p, mk i p c k, x, (mem_nodes _ _ _).mpr (.inl rfl), hx, hm⟩
    · rintro (⟨m, hm, rfl⟩ | ⟨a, m, l, hm, hl, hq⟩)
      · rcases (mem_nodes _ _ _).mp hm with e | ⟨y, hy, hm⟩
        · obtain ⟨rfl, rfl⟩ := Prod.mk.inj e
          exact .inl rfl
        · exact .inr ⟨_, .inl ⟨y, hy, rfl⟩, (ih y hy _ _ _).mpr (.inl ⟨m, hm, rfl⟩)⟩
      · rcases (mem_nodes _ _ _).mp hm with e | ⟨y, hy, hm⟩
        · obtain ⟨rfl, rfl⟩ := Prod.mk.inj e
          exact .inr ⟨l, .inr hl, hq⟩
        · exact .inr ⟨_, .inl ⟨y, hy, rfl⟩, (ih y hy _ _ _).mpr (.inr ⟨a, m, l, hm, hl, hq⟩)⟩

theorem deck_wf (n : Node α) : ∀ u, n.WF → (∀ q m, (q, m) ∈ n.nodes u →
      ((m.kids ++ ex m.id).map fun c => c.path.head?).Nodup ∧ ∀ l ∈ ex m.id, l.path ≠ [] ∧ l.WF) → (n.deck g ex).WF := by
  induction n using Node.ind with
  | h i p c k ih =>
    intro u hw hx
    have hwn := (wf_iff _).mp hw
    obtain ⟨h1, h2⟩ := hx _ _ ((mem_nodes u _ _).mpr (.inl rfl))
    rw [wf_iff]
    refine ⟨?_, fun y hy => ?_⟩
    · rw [deck_kids, List.map_append, List.map_map]
      rw [List.map_append] at h1
      have e : k.map ((fun c : Node α => c.path.head?) ∘ deck g ex) = k.map fun c => c.path.head? :=
        List.map_congr_left fun y _ => by simp
      exact (congrArg (fun l => (l ++ (ex i).map fun c => c.path.head?).Nodup) e).mpr h1
    · rw [deck_kids, List.mem_append, List.mem_map] at hy
      rcases hy with ⟨z, hz, rfl⟩ | hy
      · exact ⟨by rw [deck_path]; exact (hwn.2 z hz).1,
          ih z hz _ (hwn.2 z hz).2 fun q m hm => hx q m ((mem_nodes u _ _).mpr (.inr ⟨z, hz, hm⟩))⟩
      · exact h2 y hy

theorem deck_ids {n : Node α} {x : Nat} (h : x ∈ (n.deck g ex).ids) : x ∈ n.ids ∨ ∃ j ∈ n.ids, x ∈ (ex j).flatMap ids := by
  rw [← ids_eq [], List.mem_map] at h
  obtain ⟨⟨q, M⟩, hM, rfl⟩ := h
  rcases (mem_deck g ex n _ _ _).mp hM with ⟨m, h1, rfl⟩ | ⟨a, m, l, h1, h2, h3⟩
  · exact .inl (by rw [deck_id]; exact id_mem_ids h1)
  · exact .inr ⟨m.id, id_mem_ids h1, List.mem_flatMap.mpr ⟨l, h2, id_mem_ids h3⟩⟩

theorem deck_nodup (N : Nat) (hge : ∀ j, ∀ x ∈ (ex j).flatMap ids, N ≤ x) (hnd : ∀ j, ((ex j).flatMap ids).Nodup)
    (hinj : ∀ i j x, x ∈ (ex i).flatMap ids → x ∈ (ex j).flatMap ids → i = j) (n : Node α) :
    n.ids.Nodup → (∀ x ∈ n.ids, x < N) → (n.deck g ex).ids.Nodup := by
  induction n using Node.ind with
  | h i p c k ih =>
    intro h hlt
    rw [ids_mk, List.nodup_cons] at h
    rw [ids_mk] at hlt
    have hi : i < N := hlt i (by simp)
    have hk : ∀ x ∈ k.flatMap ids, x < N := fun x hx => hlt x (by simp [hx])
    have hmem : ∀ x ∈ (k.map (deck g ex)).flatMap ids, x ∈ k.flatMap ids ∨ ∃ j ∈ k.flatMap ids, x ∈ (ex j).flatMap ids := by
      intro x hx
      obtain ⟨y, hy, hx⟩ := List.mem_flatMap.mp hx
      obtain ⟨z, hz, rfl⟩ := List.mem_map.mp hy
      rcases deck_ids g ex hx with h1 | ⟨j, h1, h2⟩
      · exact .inl (List.mem_flatMap.mpr ⟨z, hz, h1⟩)
      · exact .inr ⟨j, List.mem_flatMap.mpr ⟨z, hz, h1⟩, h2⟩
    rw [deck_mk, ids_mk, List.flatMap_append, List.nodup_cons, List.mem_append, List.nodup_append]
    refine ⟨?_, ?_, hnd i, ?_⟩
    · rintro (h1 | h1)
      · rcases hmem i h1 with h2 | ⟨j, h2, h3⟩
        · exact h.1 h2
        · have := hge j i h3; omega
      · have := hge i i h1; omega
    · have hh := h.2
      clear h hlt hi hmem
      induction k with
      | nil => exact List.nodup_nil
      | cons a as ihk =>
        rw [List.flatMap_cons, List.nodup_append] at hh
        rw [List.map_cons, List.flatMap_cons, List.nodup_append]
        refine ⟨ih a (by simp) hh.1 fun x hx => hk x (by simp [hx]), ihk (fun m hm => ih m (by simp [hm])) (fun x hx => hk x (by
          rw [List.flatMap_cons]; exact List.mem_append_right _ hx)) hh.2.1, ?_⟩
        rintro x hx y hy rfl
        obtain ⟨y', hy', hy⟩ := List.mem_flatMap.mp hy
        obtain ⟨z, hz, rfl⟩ := List.mem_map.mp hy'
        have ha : ∀ w ∈ a.ids, w < N := fun w hw => hk w (by simp [hw])
        have hz' : ∀ w ∈ z.ids, w ∈ as.flatMap ids := fun w hw => List.mem_flatMap.mpr ⟨z, hz, hw⟩
        have hz2 : ∀ w ∈ z.ids, w < N := fun w hw => hk w (by rw [List.flatMap_cons]; exact List.mem_append_right _ (hz' w hw))
        rcases deck_ids g ex hx with h1 | ⟨j, h1, h2⟩ <;> rcases deck_ids g ex hy with h3 | ⟨j', h3, h4⟩
        · exact hh.2.2 x h1 x (hz' x h3) rfl
        · have := ha x h1; have := hge j' x h4; omega
        · have := hz2 x h3; have := hge j x h2; omega
        · obtain rfl := hinj j j' x h2 h4
          exact hh.2.2 j h1 j (hz' j h3) rfl
    · rintro x hx y hy rfl
      rcases hmem x hx with h2 | ⟨j, h2, h3⟩
      · have := hge i x hy; have := hk x h2; omega
      · obtain rfl := hinj j i x h3 hy
        exact h.1 h2
end

/-- If there is a node below another one, it is below a child that begins like the rest of its path. -/
theorem child_towards {n : Node α} (hw : n.WF) {u a w : Str} {A m : Node α} (hA : (a, A) ∈ n.nodes u) (hm : (a ++ w, m) ∈ n.nodes u) (hne : w ≠ []) :
    ∃ e ∈ A.kids, e.path.head? = w.head? := by
  induction n using Node.ind generalizing u with
  | h i p c k ih =>
    have hwn := (wf_iff _).mp hw
    have hpos := List.length_pos_iff.mpr hne
    have head : ∀ {x e z : Str}, e ≠ [] → x ++ e <+: x ++ z → e.head? = z.head? := by
      intro x e z he h
      rw [List.prefix_append_right_inj] at h
      obtain ⟨r, rfl⟩ := h
      obtain ⟨b, y, rfl⟩ := List.exists_cons_of_ne_nil he
      rfl
    rcases (mem_nodes _ _ _).mp hA with e | ⟨x, hx, hA'⟩
    · obtain ⟨rfl, rfl⟩ := Prod.mk.inj e
      rcases (mem_nodes _ _ _).mp hm with e | ⟨y, hy, hm'⟩
      · have := congrArg List.length (Prod.mk.inj e).1
        simp only [List.length_append] at this
        omega
      · exact ⟨y, hy, head (hwn.2 y hy).1 (prefix_of_mem_nodes hm')⟩
    · have p1 := prefix_of_mem_nodes hA'
      rcases (mem_nodes _ _ _).mp hm with e | ⟨y, hy, hm'⟩
      · have h1 := congrArg List.length (Prod.mk.inj e).1
        have h2 := p1.length_le
        simp only [List.length_append] at h1 h2
        omega
      · have p2 := prefix_of_mem_nodes hm'
        obtain ⟨r, hr⟩ := p1
        have hxy : x = y := by
          refine heads_inj hwn.1 hx hy (Eq.symm ?_)
          have h3 : y.path.head? = (x.path ++ (r ++ w)).head? := by
            refine head (x := u ++ p) (hwn.2 y hy).1 ?_
            have e : (u ++ p) ++ (x.path ++ (r ++ w)) = a ++ w := by rw [← hr]; simp
            rw [e]; exact p2
          rw [h3]
          obtain ⟨b, z, hz⟩ := List.exists_cons_of_ne_nil (hwn.2 x hx).1
          rw [hz]; rfl
        subst hxy
        exact ih x hx (hwn.2 x hx).2 hA' hm'
end Node

namespace Parts
variable {α : Type} [Inhabited α]
open Prune (Cell Mem Pc Call Up Shows Sure Task Loop)
open Race (Job)

omit [Inhabited α] in
theorem Leaves.none {t : Tree α} (h : t.OK) {q : Str} {A : Node α} {w : Str} (hl : Leaves t q A w) : t.contents q = none := by
  obtain ⟨a, hA, rfl, hw, hk⟩ := hl
  rw [Tree.contents_none]
  intro m hm
  obtain ⟨e, he, hh⟩ := Node.child_towards h.wf hA hm hw
  exact hk e he hh

section
variable {v : View} {t : Tree α} {as : List (Act α)}

/-- The searches of the removals and the ways of the calls of `Set` are not disturbed. -/
theorem setting (h : t.OK) (hp : t.Plain v.delim) (hm : v.mode ≠ .up) (ht : Prune.Tidy v t (calls as)) (hj : Joins v t as) :
    ∃ site B, Setting v t as (Prune.start v t (calls as)).mem (Prune.planOf v t (calls as)) site B := by
  obtain ⟨site, hsite⟩ := sited h hj
  have hl := Prune.start_lays (v := v) h (calls as)
  have hS : ∀ {plan : Nat → Option Task} q m, (q, m) ∈ t.root.nodes [] → Shows (Prune.mems (Prune.start v t (calls as)).mem plan) m :=
    fun q m hm => Prune.mems_shows hl hm
  have hsure : ∀ {p : Str} {x : α} {q : Str}, .set p x ∈ as → q <+: View.dash (v.full p) → ∀ a A ch, (a, A) ∈ t.root.nodes [] → ch ∈ A.kids → a ++ ch.path <+: q →
      Sure (Prune.mems (Prune.start v t (calls as)).mem (Prune.planOf v t (calls as))) A ch := fun {p x q} hx hpre a A ch hA hch hq =>
    Prune.spares_sure h hp hm (R := fun _ => False) (q := View.dash (v.full p))
      (fun k c P y _ hc htk => hj.spares c P y p x (List.mem_of_getElem? hc) htk hx) (fun k T hT => ⟨id, hT⟩) hl hA hch (hq.trans hpre)
  have hB : ∀ k : Nat, ∃ b, (∀ p T, as[k]? = some (.remove p) → Prune.planOf v t (calls as) k = some T → ∃ b', b' + 2 * T.n + 7 ≤ b ∧
        ∀ s, Searches t (Prune.start v t (calls as)).mem (Prune.planOf v t (calls as)) (Joined site none) v p k T b' s (.enter (v.full p) t.root.id none [])) ∧
      (∀ p x, as[k]? = some (.set p x) → site k = none → ∃ b', b' + 5 ≤ b ∧ ∀ s, Goes t (Prune.start v t (calls as)).mem (Prune.planOf v t (calls as))
        (Joined site none) (jobOf v t k p x) (.mark (idAt t (View.dash (v.full p)))) b' s (.enter (View.dash (v.full p)) t.root.id)) ∧
      ∀ p x A w, as[k]? = some (.set p x) → site k = some (A, w) → ∃ b', b' + 5 ≤ b ∧ ∀ s, Goes t (Prune.start v t (calls as)).mem
        (Prune.planOf v t (calls as)) (Joined site (some k)) (jobOf v t k p x) (.leaf w A.id) b' s (.enter (View.dash (v.full p)) t.root.id) := by
    intro k
    cases ha : as[k]? with
    | none => exact ⟨0, (by intro p T e; cases e), (by intro p x e; cases e), by intro p x A w e; cases e⟩
    | some a =>
      cases a with
      | get p => exact ⟨0, (by intro p T e; cases e), (by intro p x e; cases e), by intro p x A w e; cases e⟩
      | remove p =>
        obtain ⟨P, x, htk⟩ := ht.takes p (List.mem_of_getElem? (get_calls ha))
        have hT := Prune.planOf_takes (get_calls ha) htk
        obtain ⟨p', t', e, h2⟩ := htk
        cases e
        have htk : Prune.Takes v t (.remove p) P x := ⟨p, t', rfl, h2⟩
        obtain ⟨hw, _, u, h3, h4, h5, h6⟩ := Prune.takes_spec h hp hm h2
        obtain ⟨P', u', g1, g2, N, hN⟩ := comes_found (R := Like t (Prune.mems (Prune.start v t (calls as)).mem (Prune.but (Prune.planOf v t (calls as)) k)) (Joined site none))
          (ms := Prune.mems (Prune.start v t (calls as)).mem (Prune.but (Prune.planOf v t (calls as)) k)) (.remove p) h (hp.at (v.full p)) hw
          hS (fun q m hm => like_looks hl hm) h6 (fun u m ch hmem hch hq => Prune.spares_sure (R := fun l => l = k) h hp hm
            (fun l c P' x' hl hc hx => ht.spares k l _ c P x P' x' _ (fun e => hl e.symm) (get_calls ha) hc htk hx h5)
            (fun l T hT => by
              rw [Prune.but] at hT
              split at hT
              · cases hT
              · next hl => exact ⟨hl, hT⟩) hl hmem hch hq)
        have hu : (u' ++ x.path, x) ∈ t.root.nodes [] := by
          refine Node.nodes_trans g1 ?_
          rw [Node.mem_nodesL]
          exact ⟨x, g2, by rw [Node.mem_nodes]; simp⟩
        have hue : u' = u := List.append_cancel_right (congrArg Prod.fst (h.id_inj hu h5 rfl))
        subst hue
        have hP : P' = P := Option.some.inj (((Tree.nodeAt_some h).mpr g1).symm.trans ((Tree.nodeAt_some h).mpr h3))
        subst hP
        refine ⟨N + 2 * P'.kids.length + 7, fun p' T e e' => ?_, (by intro p x e; cases e), by intro p x A w e; cases e⟩
        cases e
        rw [hT] at e'
        cases e'
        exact ⟨N, Nat.le_refl _, hN⟩
      | set p x =>
        have hmem := List.mem_of_getElem? ha
        cases hs : site k with
        | none =>
          obtain ⟨m, hm'⟩ := hsite.old k p x ha hs
          obtain ⟨N, hN⟩ := comes_node (J := jobOf v t k p x) (z := [])
            (R := Like t (Prune.mems (Prune.start v t (calls as)).mem (Prune.planOf v t (calls as))) (Joined site none)) t.root [] (View.dash (v.full p)) h.wf
            hS (fun a A hA => like_looks hl hA) (fun a A ch hA hch hq => hsure hmem (List.prefix_refl _) a A ch hA hch hq) hm' (by simp)
          refine ⟨N + 1 + 5, (by intro p T e; cases e), fun p' x' e _ => ?_, by intro p x A w _ e; cases e⟩
          cases e
          refine ⟨N + 1, Nat.le_refl _, fun s => (hN s).trans fun s' r _ hr => ?_⟩
          subst hr
          rw [idAt_mem h hm', List.append_nil]
          exact comes_mark (like_looks hl hm') s'
        | some y =>
          obtain ⟨A, w⟩ := y
          obtain ⟨p', x', ha', hL⟩ := hsite.new k A w hs
          rw [ha] at ha'
          cases ha'
          have hL' := hL
          obtain ⟨a, hA, hkey, hw, hk⟩ := hL
          obtain ⟨N, hN⟩ := comes_node (J := jobOf v t k p x) (z := w)
            (R := Like t (Prune.mems (Prune.start v t (calls as)).mem (Prune.planOf v t (calls as))) (Joined site (some k))) t.root [] (View.dash (v.full p)) h.wf
            hS (fun a A hA => like_looks hl hA) (fun a' A' ch hA hch hq => hsure hmem ⟨w, hkey.symm⟩ a' A' ch hA hch hq) hA (by simp [hkey])
          refine ⟨N + (A.kids.length + 1 + 1 + 1) + 5, (by intro p T e; cases e), (by intro p x _ e; cases e), fun p' x' A' w' e e' => ?_⟩
          cases e
          cases e'
          refine ⟨N + (A.kids.length + 1 + 1 + 1), Nat.le_refl _, fun s => (hN s).trans fun s' r _ hr => ?_⟩
          subst hr
          have hkid : ∀ e ∈ A.kids, (a ++ e.path, e) ∈ t.root.nodes [] := fun e he =>
            Node.nodes_trans hA (by rw [Node.mem_nodesL]; exact ⟨e, he, by rw [Node.mem_nodes]; simp⟩)
          refine comes_leaf hw (like_looks hl hA) (fun e he => (like_looks hl (hkid e he)).path) hk ?_ s'
          rintro σ M ⟨ext, g, hgr, hext⟩
          have he : ext A.id = [] := by
            cases e : ext A.id with
            | nil => rfl
            | cons b bs =>
              obtain ⟨l, A', w', h1, h2, h3⟩ := hext A.id (by rw [e]; simp)
              obtain ⟨p2, x2, ha2, hL2⟩ := hsite.new l A' w' h2
              exact absurd (congrArg some (hj.sites l k p2 x2 p x A' w' A w ha2 ha hL2 hL' h3)) h1
          rw [hgr a A hA, he, mems_still hl hA fun l T hT e => ?_]
          · simp [Prune.cellOf]
          · obtain ⟨p3, t3, x3, P3, g1, g2, rfl⟩ := Prune.planOf_some hT
            exact hj.still _ P3 x3 p x A w (List.mem_of_getElem? g1) ⟨p3, t3, rfl, g2⟩ hmem hL' e
  refine ⟨site, fun k => (hB k).choose, h, hl, Prune.planOf_fits h hp hm ht, hsite, fun k T hT => ?_, fun k T l A w hT hs => ?_, fun k T hT => ?_,
    fun j k p x p' x' hj' hk' hsj hsk e => ?_, fun j k A w A' w' hj' hk' e => ?_, fun k p T ha hT => (hB k).choose_spec.1 p T ha hT, fun k p x ha hs => (hB k).choose_spec.2.1 p x ha hs,
    fun k p x A w ha hs => (hB k).choose_spec.2.2 p x A w ha hs⟩
  · obtain ⟨p3, t3, x3, P3, g1, g2, rfl⟩ := Prune.planOf_some hT
    obtain ⟨_, _, u, h3, _⟩ := Prune.takes_spec h hp hm g2
    exact ⟨u, P3, h3, rfl⟩
  · obtain ⟨p3, t3, x3, P3, g1, g2, rfl⟩ := Prune.planOf_some hT
    obtain ⟨p', x', ha', hL⟩ := hsite.new l A w hs
    exact hj.still _ P3 x3 p' x' A w (List.mem_of_getElem? g1) ⟨p3, t3, rfl, g2⟩ (List.mem_of_getElem? ha') hL
  · obtain ⟨p3, t3, x3, P3, g1, g2, rfl⟩ := Prune.planOf_some hT
    exact ⟨p3, calls_get g1⟩
  · obtain ⟨m, hm1⟩ := hsite.old j p x hj' hsj
    obtain ⟨m', hm2⟩ := hsite.old k p' x' hk' hsk
    rw [idAt_mem h hm1, idAt_mem h hm2] at e
    exact hj.apart j k p x p' x' hj' hk' (Prod.mk.inj (h.id_inj hm1 hm2 e)).1
  · obtain ⟨p, x, h1, h2⟩ := hsite.new j A w hj'
    obtain ⟨p', x', h3, h4⟩ := hsite.new k A' w' hk'
    exact hj.sites j k p x p' x' A w A' w' h1 h3 h2 h4 e

/-- The beginning. -/
theorem blend_start (h : t.OK) {plan : Nat → Option Task} {site : Site α} {B : Nat → Nat}
    (X : Setting v t as (Prune.start v t (calls as)).mem plan site B) :
    Blend v t as (Prune.start v t (calls as)).mem plan site B [] (fun _ => 0) (fun _ => []) (fun _ c => c) (start t (each v as)) := by
  have hg : ∀ (k : Nat) a, as[k]? = some a → (start t (each v as)).gs k = ⟨v, [a], .idle, [], t.next + 2 * k⟩ := by
    intro k a h
    simp only [start, each, List.getElem?_map, h, Option.map_some, Option.getD_some]
  refine ⟨fun q m hm => ?_, fun i h => absurd rfl h, fun _ _ => rfl, fun _ _ => rfl, fun k => ⟨fun h => ?_, fun p h => ?_, fun p T h _ => ?_, fun p x h _ => ?_,
    fun p x A w h _ => ?_⟩⟩
  · rw [X.fits.zero _ fun _ => rfl]
    have : (start t (each v as)).mem m.id = Prune.cellOf m := Prune.start_lays (v := v) h (calls as) q m hm
    have e2 := Prune.start_lays (v := v) h (calls as) q m hm
    rw [this, e2]
    simp [Prune.cellOf]
  · refine (show (start t (each v as)).gs k = ⟨⟨[], '.', .none⟩, [], .idle, [], t.next + 2 * k⟩ from ?_) ▸ .idle _ _ _ _ (.inl rfl)
    simp only [start, each, List.getElem?_map, h, Option.map_none, Option.getD_none]
  · rw [hg k _ h]; exact .idle _ _ _ _ (.inr ⟨p, rfl⟩)
  · rw [hg k _ h]; exact .idle _ rfl rfl
  · rw [hg k _ h]; exact .idle rfl rfl
  · rw [hg k _ h]; exact .idle rfl rfl

omit [Inhabited α] in
/-- No removal strikes a key that is set. -/
theorem Joins.safe (h : t.OK) (hp : t.Plain v.delim) (hm : v.mode ≠ .up) (hj : Joins v t as) {p : Str} {x : α} (hx : .set p x ∈ as) {q : Str}
    (hq : q <+: View.dash (v.full p)) : ¬ Prune.Struck v t (calls as) (calls as).length q := by
  rintro ⟨i, ci, Pi, xi, ui, s1, s2, s3, s4, s5⟩
  obtain ⟨pi, ti, e, s6⟩ := s3
  obtain ⟨_, _, ui', g1, g2, _⟩ := Prune.takes_spec h hp hm s6
  obtain ⟨A, C, hk⟩ := List.append_of_mem g2
  exact (hj.spares ci Pi xi p x (List.mem_of_getElem? s2) ⟨pi, ti, e, s6⟩ hx ui A xi C s4 hk (s5.trans hq)).1 rfl

/-- What has come of it when all calls have returned. -/
theorem blend_tree (h : t.OK) (hp : t.Plain v.delim) (hm : v.mode ≠ .up) (ht : Prune.Tidy v t (calls as)) (hj : Joins v t as)
    {site : Site α} {B : Nat → Nat} (X : Setting v t as (Prune.start v t (calls as)).mem (Prune.planOf v t (calls as)) site B)
    {S : List Nat} {s : Nat → Nat} {ext : Nat → List Nat} {g : Nat → Core α → Core α} {W : World α}
    (I : Blend v t as (Prune.start v t (calls as)).mem (Prune.planOf v t (calls as)) site B S s ext g W)
    (hall : ∀ (k : Nat) a, as[k]? = some a → told a ≠ none → (W.gs k).outs ≠ []) :
    ∃ t' : Tree α, (∀ q M, (q, M) ∈ t'.root.nodes [] → Prune.Holds W.mem M) ∧ t'.root.id = t.root.id ∧ t'.OK ∧
      (∀ p x, .set p x ∈ as → t'.contents (View.dash (v.full p)) = some (held (View.dash (v.full p)) x (t.contents (View.dash (v.full p))))) ∧
      (∀ q, Prune.Struck v t (calls as) (calls as).length q → t'.contents q = none) ∧
      ∀ q, ¬ Prune.Struck v t (calls as) (calls as).length q → (∀ p x, .set p x ∈ as → View.dash (v.full p) ≠ q) → t'.contents q = t.contents q := by
  have U := Prune.upto_all h hp hm ht
  generalize Prune.after v t (calls as) = tj at U
  have hl := Prune.start_lays (v := v) h (calls as)
  -- all removals have come to their end
  have hs : s = Prune.ends (Prune.planOf v t (calls as)) (calls as).length := by
    funext k
    simp only [Prune.ends]
    cases hT : Prune.planOf v t (calls as) k with
    | none => exact I.idles k hT
    | some T =>
      obtain ⟨p, ha⟩ := X.plans k T hT
      have hk : k < (calls as).length := by
        have := (List.getElem?_eq_some_iff.mp ha).1
        simpa [calls] using this
      have r := (I.all k).rem p T ha hT
      have ho := hall k _ ha (by simp [told])
      show s k = if k < (calls as).length then T.n - T.ix else 0
      rw [if_pos hk]
      generalize W.gs k = G at r ho
      cases r with
      | done f hs => exact hs
      | idle | search | late => exact absurd rfl ho
  have hput : ∀ (k : Nat) p x, as[k]? = some (.set p x) → site k = none → g (idAt t (View.dash (v.full p))) = fun c => { c with hasData := true, data := x } := by
    intro k p x ha hsk
    have r := (I.all k).set p x ha hsk
    have ho := hall k _ ha (by simp [told])
    generalize W.gs k = G at r ho
    cases r with
    | done f hg => exact hg
    | idle | finds | store | fin => exact absurd rfl ho
  have hleaf : ∀ (k : Nat) p x A w, as[k]? = some (.set p x) → site k = some (A, w) → ext A.id = [t.next + 2 * k + 1] ∧
      W.mem (t.next + 2 * k + 1) = leafCell w (jobOf v t k p x) := by
    intro k p x A w ha hsk
    have r := (I.all k).new p x A w ha hsk
    have ho := hall k _ ha (by simp [told])
    generalize W.gs k = G at r ho
    generalize W.mem (t.next + 2 * k + 1) = c at r
    cases r with
    | done f he hc => exact ⟨he, hc⟩
    | idle | finds | link | fin => exact absurd rfl ho
  have hext : ∀ i, ext i = [] ∨ ∃ k A w p x, as[k]? = some (.set p x) ∧ site k = some (A, w) ∧ A.id = i ∧ ext i = [t.next + 2 * k + 1] ∧
      W.mem (t.next + 2 * k + 1) = leafCell w (jobOf v t k p x) := by
    intro i
    by_cases e : ext i = []
    · exact .inl e
    · obtain ⟨k, A, w, _, h1, rfl⟩ := I.exts i e
      obtain ⟨p, x, ha, _⟩ := X.sited.new k A w h1
      obtain ⟨e1, e2⟩ := hleaf k p x A w ha h1
      exact .inr ⟨k, A, w, p, x, ha, h1, rfl, e1, e2⟩
  -- the leaves
  let lf : Nat → Node α := fun j => .mk j (W.mem j).path (W.mem j).core []
  let ex : Nat → List (Node α) := fun i => (ext i).map lf
  have hexids : ∀ j, (ex j).flatMap Node.ids = ext j := by
    intro j
    show ((ext j).map lf).flatMap Node.ids = ext j
    induction ext j with
    | nil => rfl
    | cons a as ih => rw [List.map_cons, List.flatMap_cons, ih]; simp [lf, Node.ids_mk]
  have hin : ∀ {i : Nat} {l : Node α}, l ∈ ex i → ∃ k A w p x, as[k]? = some (.set p x) ∧ site k = some (A, w) ∧ A.id = i ∧
      l = .mk (t.next + 2 * k + 1) w (leafCell w (jobOf v t k p x)).core [] ∧ ext i = [t.next + 2 * k + 1] := by
    intro i l hl'
    obtain ⟨j, hj', rfl⟩ := List.mem_map.mp hl'
    rcases hext i with e | ⟨k, A, w, p, x, h1, h2, h3, h4, h5⟩
    · rw [e] at hj'; cases hj'
    · rw [h4] at hj'
      obtain rfl := List.mem_singleton.mp hj'
      exact ⟨k, A, w, p, x, h1, h2, h3, by simp only [lf, h5]; rfl, h4⟩
  -- the nodes that are left are nodes of the tree
  have old : ∀ {q : Str} {m : Node α}, (q, m) ∈ tj.root.nodes [] → ∃ m0, (q, m0) ∈ t.root.nodes [] ∧ m.id = m0.id ∧ m.path = m0.path := by
    intro q m hm'
    obtain ⟨m0, h1, h2⟩ := U.old q m hm'
    refine ⟨m0, h1, h2, ?_⟩
    rw [← (U.holds q m hm').1, Prune.mems_path, h2, hl _ _ h1]; rfl
  have hlt : ∀ {q : Str} {m : Node α}, (q, m) ∈ tj.root.nodes [] → m.id < t.next := by
    intro q m hm'
    obtain ⟨m0, h1, h2, _⟩ := old hm'
    rw [h2]; exact h.lt _ h1
  -- a node to which a leaf is added
  have grows : ∀ {q : Str} {m : Node α}, (q, m) ∈ tj.root.nodes [] → ∀ {k : Nat} {A : Node α} {w : Str}, site k = some (A, w) → A.id = m.id →
      (q, A) ∈ t.root.nodes [] ∧ m.kids.map Node.id = A.kids.map Node.id ∧ Prune.mems (Prune.start v t (calls as)).mem (Prune.planOf v t (calls as)) s m.id = Prune.cellOf A := by
    intro q m hm' k A w hk he
    obtain ⟨m0, h1, h2, _⟩ := old hm'
    obtain ⟨p, x, _, a, hA, _⟩ := X.sited.new k A w hk
    obtain ⟨rfl, rfl⟩ := Prod.mk.inj (h.id_inj hA h1 (he.trans h2))
    have hc := mems_still (plan := Prune.planOf v t (calls as)) hl hA (fun l T hT => X.still l T k A w hT hk) s
    refine ⟨hA, ?_, by rw [← he, hc]⟩
    have hh := (U.holds _ m hm').2.2.1
    rw [← hs, ← he, hc] at hh
    rw [← hh]
    simp only [Prune.cellOf]
    exact List.take_of_length_le (Nat.le_of_eq (by simp))
  have hok : Tree.OK ⟨tj.root.deck g ex, t.next + 2 * as.length + 1⟩ := by
    refine ⟨Node.deck_wf g ex tj.root [] U.ok.wf fun q m hm' => ⟨?_, fun l hl' => ?_⟩, (Node.deck_path g ex tj.root).trans U.ok.nil, ?_, ?_⟩
    · rw [List.map_append, List.nodup_append]
      refine ⟨((Node.wf_iff m).mp (Node.wf_of_mem U.ok.wf hm')).1, ?_, ?_⟩
      · rcases hext m.id with e | ⟨k, A, w, p, x, h1, h2, h3, h4, h5⟩
        · simp [ex, e]
        · simp [ex, h4]
      · rintro b hb c hc rfl
        obtain ⟨l, hl', rfl⟩ := List.mem_map.mp hc
        obtain ⟨y, hy, hyb⟩ := List.mem_map.mp hb
        obtain ⟨k, A, w, p, x, h1, h2, h3, rfl, h5⟩ := hin hl'
        obtain ⟨g1, g2, _⟩ := grows hm' h2 h3
        obtain ⟨_, _, _, a, _, _, _, hheads⟩ := X.sited.new k A w h2
        have : y.id ∈ A.kids.map Node.id := by rw [← g2]; exact List.mem_map.mpr ⟨y, hy, rfl⟩
        obtain ⟨e, he, hee⟩ := List.mem_map.mp this
        have hy' : (q ++ y.path, y) ∈ tj.root.nodes [] :=
          Node.nodes_trans hm' (by rw [Node.mem_nodesL]; exact ⟨y, hy, by rw [Node.mem_nodes]; simp⟩)
        have he' : (q ++ e.path, e) ∈ t.root.nodes [] :=
          Node.nodes_trans g1 (by rw [Node.mem_nodesL]; exact ⟨e, he, by rw [Node.mem_nodes]; simp⟩)
        obtain ⟨y0, o1, o2, o3⟩ := old hy'
        have : y0 = e := (Prod.mk.inj (h.id_inj o1 he' (o2.symm.trans hee.symm))).2
        rw [o3, this] at hyb
        exact hheads e he hyb
    · obtain ⟨k, A, w, p, x, h1, h2, h3, rfl, h5⟩ := hin hl'
      obtain ⟨_, _, _, a, _, _, hw, _⟩ := X.sited.new k A w h2
      exact ⟨hw, by rw [Node.wf_iff]; exact ⟨List.nodup_nil, fun c hc => by cases hc⟩⟩
    · show ((Node.nodes [] (tj.root.deck g ex)).map (·.2.id)).Nodup
      rw [Node.ids_eq]
      refine Node.deck_nodup g ex t.next (fun j x hx => ?_) (fun j => ?_) (fun i j x hx hy => ?_) tj.root U.ok.ids_nodup fun x hx => ?_
      · rw [hexids] at hx
        rcases hext j with e | ⟨k, A, w, p, y, h1, h2, h3, h4, h5⟩
        · rw [e] at hx; cases hx
        · rw [h4] at hx
          have := List.mem_singleton.mp hx
          omega
      · rw [hexids]
        rcases hext j with e | ⟨k, A, w, p, y, h1, h2, h3, h4, h5⟩
        · rw [e]; exact List.nodup_nil
        · rw [h4]; simp
      · rw [hexids] at hx hy
        rcases hext i with e | ⟨k, A, w, p, z, h1, h2, h3, h4, h5⟩
        · rw [e] at hx; cases hx
        · rcases hext j with e | ⟨k', A', w', p', z', h1', h2', h3', h4', h5'⟩
          · rw [e] at hy; cases hy
          · rw [h4] at hx
            rw [h4'] at hy
            have e1 := List.mem_singleton.mp hx
            have e2 := List.mem_singleton.mp hy
            have : k = k' := by omega
            subst this
            rw [h2] at h2'
            cases h2'
            exact h3.symm.trans h3'
      · rw [← Node.ids_eq [], List.mem_map] at hx
        obtain ⟨⟨q, m⟩, hm', rfl⟩ := hx
        exact hlt hm'
    · rintro ⟨q, M⟩ hM
      rcases (Node.mem_deck g ex _ _ _ _).mp hM with ⟨m, h1, rfl⟩ | ⟨a, m, l, h1, h2, h3⟩
      · have := hlt h1
        show (m.deck g ex).id < t.next + 2 * as.length + 1
        rw [Node.deck_id]; omega
      · obtain ⟨k, A, w, p, x, g1, g2, g3, rfl, g5⟩ := hin h2
        rw [Node.mem_nodes] at h3
        rcases h3 with e | ⟨_, hc, _⟩
        · cases e
          have := (List.getElem?_eq_some_iff.mp g1).1
          show t.next + 2 * k + 1 < t.next + 2 * as.length + 1
          omega
        · cases hc
  have hcont : ∀ q c, Tree.contents ⟨tj.root.deck g ex, t.next + 2 * as.length + 1⟩ q = some c ↔
      (∃ m, (q, m) ∈ tj.root.nodes [] ∧ g m.id m.core = c) ∨
      ∃ a m k A w p x, (a, m) ∈ tj.root.nodes [] ∧ as[k]? = some (.set p x) ∧ site k = some (A, w) ∧ A.id = m.id ∧ q = a ++ w ∧
        (leafCell w (jobOf v t k p x)).core = c := by
    intro q c
    rw [Tree.contents_node hok]
    constructor
    · rintro ⟨M, hM, rfl⟩
      rcases (Node.mem_deck g ex _ _ _ _).mp hM with ⟨m, h1, rfl⟩ | ⟨a, m, l, h1, h2, h3⟩
      · exact .inl ⟨m, h1, (Node.deck_core g ex m).symm⟩
      · obtain ⟨k, A, w, p, x, g1, g2, g3, rfl, g5⟩ := hin h2
        rw [Node.mem_nodes] at h3
        rcases h3 with e | ⟨_, hc, _⟩
        · cases e
          exact .inr ⟨a, m, k, A, w, p, x, h1, g1, g2, g3, rfl, rfl⟩
        · cases hc
    · rintro (⟨m, h1, rfl⟩ | ⟨a, m, k, A, w, p, x, h1, g1, g2, g3, rfl, rfl⟩)
      · exact ⟨_, (Node.mem_deck g ex _ _ _ _).mpr (.inl ⟨m, h1, rfl⟩), Node.deck_core g ex m⟩
      · obtain ⟨e1, e2⟩ := hleaf k p x A w g1 g2
        refine ⟨lf (t.next + 2 * k + 1), (Node.mem_deck g ex _ _ _ _).mpr (.inr ⟨a, m, _, h1, List.mem_map.mpr ⟨t.next + 2 * k + 1, ?_, rfl⟩, ?_⟩), ?_⟩
        · rw [← g3, e1]; simp
        · rw [Node.mem_nodes]
          refine .inl ?_
          show (a ++ w, _) = (a ++ (W.mem (t.next + 2 * k + 1)).path, _)
          rw [e2]; rfl
        · show (W.mem (t.next + 2 * k + 1)).core = _
          rw [e2]
  -- a node at a path that nobody removes is left
  have stays : ∀ {q : Str} {m0 : Node α}, (q, m0) ∈ t.root.nodes [] → ¬ Prune.Struck v t (calls as) (calls as).length q →
      ∃ m, (q, m) ∈ tj.root.nodes [] ∧ m.id = m0.id ∧ m.core = m0.core := by
    intro q m0 hm0 hq
    have h1 := U.keep q hq
    rw [(Tree.contents_node h).mpr ⟨m0, hm0, rfl⟩] at h1
    obtain ⟨m, hm', hc⟩ := (Tree.contents_node U.ok).mp h1
    obtain ⟨m1, h2, h3, _⟩ := old hm'
    have : m1 = m0 := Option.some.inj (((Tree.nodeAt_some h).mpr h2).symm.trans ((Tree.nodeAt_some h).mpr hm0))
    exact ⟨m, hm', by rw [h3, this], hc⟩
  -- a leaf is at the key of its call
  have leafkey : ∀ {a : Str} {m : Node α} {k : Nat} {A : Node α} {w p : Str} {x : α}, (a, m) ∈ tj.root.nodes [] → as[k]? = some (.set p x) →
      site k = some (A, w) → A.id = m.id → View.dash (v.full p) = a ++ w := by
    intro a m k A w p x h1 g1 g2 g3
    obtain ⟨hA, _, _⟩ := grows h1 g2 g3
    obtain ⟨p', x', g4, a', hA', hkey, _⟩ := X.sited.new k A w g2
    rw [g1] at g4
    cases g4
    rw [hkey]
    exact congrArg (· ++ w) (Prod.mk.inj (h.id_inj hA' hA rfl)).1
  refine ⟨⟨tj.root.deck g ex, t.next + 2 * as.length + 1⟩, ?_, (Node.deck_id g ex tj.root).trans U.rid, hok, fun p x hx => ?_, fun q hq => ?_, fun q hq hne => ?_⟩
  · show ∀ q M, (q, M) ∈ (tj.root.deck g ex).nodes [] → Prune.Holds W.mem M
    · intro q M hM
      rcases (Node.mem_deck g ex _ _ _ _).mp hM with ⟨m, h1, rfl⟩ | ⟨a, m, l, h1, h2, h3⟩
      · obtain ⟨m0, o1, o2, o3⟩ := old h1
        have hcell := I.grown q m0 o1
        rw [← o2] at hcell
        have hcore : m.core = m0.core := by
          rw [← (U.holds q m h1).2.1, Prune.mems_core, o2, hl _ _ o1]; rfl
        have hh := U.holds q m h1
        rw [← hs] at hh
        have hids : (m.deck g ex).kids.map Node.id = m.kids.map Node.id ++ ext m.id := by
          rw [Node.deck_kids, List.map_append, List.map_map]
          congr 1
          · exact List.map_congr_left fun y _ => Node.deck_id g ex y
          · show ((ext m.id).map lf).map Node.id = _
            rw [List.map_map]
            conv => rhs; rw [← List.map_id (ext m.id)]
            rfl
        have hlen : (m.deck g ex).kids.length = m.kids.length + (ext m.id).length := by
          have := congrArg List.length hids
          simpa using this
        rw [Prune.Holds, hids, hlen, Node.deck_id, Node.deck_path, Node.deck_core, hcell]
        refine ⟨o3.symm, by rw [hcore], ?_, by rw [hh.2.2.2]⟩
        rcases hext m.id with e | ⟨k, A, w, p, x, g1, g2, g3, g4, g5⟩
        · rw [e]
          simp only [List.append_nil, List.length_nil, Nat.add_zero]
          exact hh.2.2.1
        · obtain ⟨_, e1, e2⟩ := grows h1 g2 g3
          show List.take _ (_ ++ _) = _
          rw [e2, e1]
          simp only [Prune.cellOf]
          exact List.take_of_length_le (Nat.le_of_eq (by simp))
      · obtain ⟨k, A, w, p, x, g1, g2, g3, rfl, g5⟩ := hin h2
        obtain ⟨e1, e2⟩ := hleaf k p x A w g1 g2
        rw [Node.mem_nodes] at h3
        rcases h3 with e | ⟨_, hc, _⟩
        · cases e
          rw [Prune.Holds]
          simp only [Node.id_mk, e2, Node.path_mk, Node.core_mk, Node.kids_mk]
          refine ⟨?_, ?_, ?_, ?_⟩ <;> first | trivial | rfl
        · cases hc
  · obtain ⟨k, ha⟩ := List.mem_iff_getElem?.mp hx
    rw [hcont]
    cases hsk : site k with
    | none =>
      obtain ⟨m0, hm0⟩ := X.sited.old k p x ha hsk
      obtain ⟨m, h1, h2, h3⟩ := stays hm0 (hj.safe h hp hm hx (List.prefix_refl _))
      refine .inl ⟨m, h1, ?_⟩
      rw [(Tree.contents_node h).mpr ⟨m0, hm0, rfl⟩, h2, ← idAt_mem h hm0, hput k p x ha hsk, h3]
      rfl
    | some y =>
      obtain ⟨A, w⟩ := y
      obtain ⟨p', x', ha', hL⟩ := X.sited.new k A w hsk
      rw [ha] at ha'
      cases ha'
      have hnone := hL.none h
      obtain ⟨a, hA, hkey, _⟩ := hL
      obtain ⟨m, h1, h2, _⟩ := stays hA (hj.safe h hp hm hx ⟨w, hkey.symm⟩)
      refine .inr ⟨a, m, k, A, w, p, x, h1, ha, hsk, h2.symm, hkey, ?_⟩
      rw [hnone]; rfl
  · cases hc : Tree.contents ⟨tj.root.deck g ex, t.next + 2 * as.length + 1⟩ q with
    | none => rfl
    | some c =>
      exfalso
      rcases (hcont q c).mp hc with ⟨m, h1, _⟩ | ⟨a, m, k, A, w, p, x, h1, g1, g2, g3, rfl, _⟩
      · have := U.cut q hq
        exact Tree.contents_none.mp this m h1
      · refine hj.safe h hp hm (List.mem_of_getElem? g1) ?_ hq
        rw [leafkey h1 g1 g2 g3]
        exact List.prefix_refl _
  · rw [← U.keep q hq]
    have : ∀ c, Tree.contents ⟨tj.root.deck g ex, t.next + 2 * as.length + 1⟩ q = some c ↔ tj.contents q = some c := by
      intro c
      rw [hcont, Tree.contents_node U.ok]
      constructor
      · rintro (⟨m, h1, rfl⟩ | ⟨a, m, k, A, w, p, x, h1, g1, g2, g3, rfl, _⟩)
        · refine ⟨m, h1, ?_⟩
          rw [I.cores m.id]
          intro k p x ha hsk e
          obtain ⟨m0, hm0⟩ := X.sited.old k p x ha hsk
          obtain ⟨m1, o1, o2, _⟩ := old h1
          rw [idAt_mem h hm0] at e
          exact hne p x (List.mem_of_getElem? ha) (Prod.mk.inj (h.id_inj hm0 o1 (e.trans o2))).1
        · exact absurd (leafkey h1 g1 g2 g3) (hne p x (List.mem_of_getElem? g1))
      · rintro ⟨m, h1, rfl⟩
        refine .inl ⟨m, h1, ?_⟩
        rw [I.cores m.id]
        intro k p x ha hsk e
        obtain ⟨m0, hm0⟩ := X.sited.old k p x ha hsk
        obtain ⟨m1, o1, o2, _⟩ := old h1
        rw [idAt_mem h hm0] at e
        exact hne p x (List.mem_of_getElem? ha) (Prod.mk.inj (h.id_inj hm0 o1 (e.trans o2))).1
    exact Option.ext this

/-- … as it is read. -/
theorem blend_end (h : t.OK) (hp : t.Plain v.delim) (hm : v.mode ≠ .up) (ht : Prune.Tidy v t (calls as)) (hj : Joins v t as)
    {site : Site α} {B : Nat → Nat} (X : Setting v t as (Prune.start v t (calls as)).mem (Prune.planOf v t (calls as)) site B)
    {S : List Nat} {s : Nat → Nat} {ext : Nat → List Nat} {g : Nat → Core α → Core α} {W : World α}
    (I : Blend v t as (Prune.start v t (calls as)).mem (Prune.planOf v t (calls as)) site B S s ext g W)
    (hall : ∀ (k : Nat) a, as[k]? = some a → told a ≠ none → (W.gs k).outs ≠ []) :
    ∃ t' : Tree α, (∃ D, ∀ d, D ≤ d → Prune.read W.mem d t.root.id = t'.root) ∧ t'.OK ∧
      (∀ p x, .set p x ∈ as → t'.contents (View.dash (v.full p)) = some (held (View.dash (v.full p)) x (t.contents (View.dash (v.full p))))) ∧
      (∀ q, Prune.Struck v t (calls as) (calls as).length q → t'.contents q = none) ∧
      ∀ q, ¬ Prune.Struck v t (calls as) (calls as).length q → (∀ p x, .set p x ∈ as → View.dash (v.full p) ≠ q) → t'.contents q = t.contents q := by
  obtain ⟨t', h1, h2, h3⟩ := blend_tree h hp hm ht hj X I hall
  obtain ⟨D, hD⟩ := Prune.read_holds _ [] h1
  exact ⟨t', ⟨D, fun d hd => by rw [← h2]; exact hD d hd⟩, h3⟩
end

end Parts
end Verif

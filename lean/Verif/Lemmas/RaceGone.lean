import Verif.Lemmas.RaceFreshExport
import Verif.Spec.RaceGone
import Verif.Lemmas.RaceAfter
/-
What a removal that has returned leaves: nobody who reads the slice of children after that comes to the node that was removed.
-/
namespace Verif
namespace Parts
variable {α : Type} [Inhabited α]
open Prune (Cell Mem Pc Call Up Task)

/-- The node is at or below what one of the removals `D` takes away. -/
def Dead (v : View) (t : Tree α) (as : List (Act α)) (D : Nat → Prop) (i : Nat) : Prop :=
  ∃ q m, (q, m) ∈ t.root.nodes [] ∧ m.id = i ∧ Fell v t as D q

omit [Inhabited α] in
/-- A node below another one is the child of one that is there too. -/
theorem below_child : ∀ (n : Node α) (u q : Str) (c : Node α), (q, c) ∈ Node.nodesL (u ++ n.path) n.kids →
    ∃ r m, (r, m) ∈ n.nodes u ∧ c ∈ m.kids ∧ q = r ++ c.path := by
  intro n
  induction n using Node.ind with
  | h i p co k ih =>
    intro u q c h
    rw [Node.mem_nodesL] at h
    obtain ⟨e, he, h⟩ := h
    rw [Node.mem_nodes] at h
    rcases h with h | ⟨e', he', h⟩
    · obtain ⟨rfl, rfl⟩ := Prod.mk.inj h
      exact ⟨u ++ p, .mk i p co k, (Node.mem_nodes _ _ _).mpr (.inl rfl), he, rfl⟩
    · obtain ⟨r, m, h1, h2, h3⟩ := ih e he (u ++ p) q c (by rw [Node.mem_nodesL]; exact ⟨e', he', h⟩)
      exact ⟨r, m, (Node.mem_nodes _ _ _).mpr (.inr ⟨e, he, h1⟩), h2, h3⟩

section
variable {v : View} {t : Tree α} {as : List (Act α)} {site : Site α} {B : Nat → Nat}

/-- A child that falls while its parent does not is the one that is removed. -/
theorem fell_child (h : t.OK) (hp : t.Plain v.delim) (hm : v.mode ≠ .up) {D : Nat → Prop} {q : Str} {m c : Node α} (hmem : (q, m) ∈ t.root.nodes []) (hc : c ∈ m.kids)
    (h1 : Fell v t as D (q ++ c.path)) (h2 : ¬ Fell v t as D q) : ∃ k p, D k ∧ as[k]? = some (.remove p) ∧ Prune.Takes v t (.remove p) m c := by
  obtain ⟨k, p, P, y, u, hD, ha, htk, hP, hpre⟩ := h1
  have htk' := htk
  obtain ⟨p', t', e, hrm⟩ := htk
  cases e
  obtain ⟨_, _, u', hP', hy, hym, _⟩ := Prune.takes_spec h hp hm hrm
  obtain ⟨rfl, _⟩ := Prod.mk.inj (h.id_inj hP' hP rfl)
  have hcm : (q ++ c.path, c) ∈ t.root.nodes [] := Node.nodes_trans hmem (by rw [Node.mem_nodesL]; exact ⟨c, hc, by rw [Node.mem_nodes]; simp⟩)
  rcases Node.below_of_prefix h.wf hym hcm hpre with ⟨e1, rfl⟩ | hin
  · obtain rfl := List.append_cancel_right e1
    have : m = P := Option.some.inj (((Tree.nodeAt_some h).mpr hmem).symm.trans ((Tree.nodeAt_some h).mpr hP))
    subst this
    exact ⟨k, p, hD, ha, htk'⟩
  · obtain ⟨r, m2, g1, g2, g3⟩ := below_child y u' _ c hin
    obtain rfl := List.append_cancel_right g3
    exact absurd ⟨k, p, P, y, u', hD, ha, htk', hP, Node.prefix_of_mem_nodes g1⟩ h2

/-- The slice of children that a removal leaves. -/
theorem slid_without {L : List Nat} {x k : Nat} (hnd : L.Nodup) (hx : x ∈ L) (hk : k < L.length - 1) :
    (Prune.slide L (L.idxOf x) (L.length - L.idxOf x)).getD k 0 ≠ x := by
  intro e
  have h := Prune.slide_erase hx
  have hlen : k < (L.erase x).length := by rw [List.length_erase_of_mem hx]; exact hk
  have : (L.erase x).getD k 0 = x := by
    rw [← h, List.getD_eq_getElem?_getD, List.getElem?_take, if_pos hk, ← List.getD_eq_getElem?_getD]
    exact e
  rw [List.getD_eq_getElem?_getD, List.getElem?_eq_getElem hlen, Option.getD_some] at this
  exact hnd.not_mem_erase (this ▸ List.getElem_mem hlen)

/-- Where the removals `D` have returned, whoever reads a slice of children comes only to nodes that are still there. -/
theorem gone_shows (hp : t.Plain v.delim) (hm : v.mode ≠ .up)
    (X : Setting v t as (Prune.start v t (calls as)).mem (Prune.planOf v t (calls as)) site B) {ex : Nat → List (Node α)} (E : Adds v t as site ex)
    {σ : Type} {R : σ → σ → Prop} {ls : σ → List Nat} {ss : σ → Nat → Nat} {es : σ → Nat → List Nat} {gs : σ → Nat → Core α → Core α} {ws : σ → World α}
    (hI : ∀ x, Blend v t as (Prune.start v t (calls as)).mem (Prune.planOf v t (calls as)) site B (ls x) (ss x) (es x) (gs x) (ws x))
    {D : Nat → Prop} (hD : ∀ x k, D k → ((ws x).gs k).outs ≠ [])
    {q : Str} {M : Node α} (hM : (q, M) ∈ (full t ex).nodes [])
    (H : Prune.VShows R (fun x => (ws x).mem) (fun x => Made t site (es x)) M) :
    Prune.VShows R (fun x => (ws x).mem) (fun x i => Made t site (es x) i ∧ ¬ Dead v t as D i) M := by
  refine ⟨fun s h => H.pathS s h.1, fun s h => H.leaf s h.1, fun s h => H.len s h.1, fun s s' k hL hR hk => ?_⟩
  obtain ⟨c, c1, c2, c3⟩ := H.elts s s' k hL.1 hR hk
  refine ⟨c, c1, c2, c3, ?_⟩
  rintro ⟨q1, m1, hm1, hid, hf⟩
  have hok := X.ok
  rcases mem_full E hM with ⟨m, hmem, rfl⟩ | ⟨k', A, w, p, y, g1, g2, rfl⟩
  · rw [Node.deck_kids, List.mem_append] at c1
    rcases c1 with c1 | c1
    · obtain ⟨c0, hc0, rfl⟩ := List.mem_map.mp c1
      have hcm : (q ++ c0.path, c0) ∈ t.root.nodes [] := Node.nodes_trans hmem (by rw [Node.mem_nodesL]; exact ⟨c0, hc0, by rw [Node.mem_nodes]; simp⟩)
      rw [Node.deck_id] at hid
      obtain ⟨rfl, rfl⟩ := Prod.mk.inj (hok.id_inj hm1 hcm hid)
      obtain ⟨j, p, hDj, ha, htk⟩ := fell_child hok hp hm hmem hc0 hf fun hf => hL.2 ⟨q, m, hmem, (Node.deck_id _ _ _).symm, hf⟩
      have hT := Prune.planOf_takes (get_calls ha) htk
      have hst : ∀ x, ss x j = m.kids.length - (m.kids.map Node.id).idxOf m1.id := by
        intro x
        have r := ((hI x).all j).rem p _ ha hT
        have ho := hD x j hDj
        generalize (ws x).gs j = G at r ho
        cases r with
        | done f hs => exact hs
        | idle | search | late => exact absurd rfl ho
      have hcell : ∀ x, (Prune.mems (Prune.start v t (calls as)).mem (Prune.planOf v t (calls as)) (ss x) m.id) =
          Prune.slid (Prune.cellOf m) ((m.kids.map Node.id).idxOf m1.id) (m.kids.length - (m.kids.map Node.id).idxOf m1.id) := by
        intro x
        have := X.fits.at hT (ss x)
        rw [hst x] at this
        rw [← X.lays q m hmem]
        exact this
      have hext : ∀ x, es x m.id = [] := by
        intro x
        rcases (hI x).added X m.id with e | ⟨l, A, w, _, _, _, e1, e2, _⟩
        · exact e
        · exact absurd e2.symm (X.still j _ l A w hT e1)
      have hin : m1.id ∈ m.kids.map Node.id := List.mem_map.mpr ⟨m1, hc0, rfl⟩
      have hlt := List.idxOf_lt_length_of_mem hin
      rw [List.length_map] at hlt
      rw [Node.deck_id] at hk c2
      simp only [(hI s).grown q m hmem, hcell s, hext s, List.length_nil, Nat.add_zero, Prune.slid_len] at hk
      rw [if_pos (by omega)] at hk
      rw [Node.deck_id] at c2
      simp only [(hI s').grown q m hmem, hcell s', hext s', List.append_nil] at c2
      refine slid_without (Prune.kids_ids_nodup hok hmem) hin (k := k) (by rw [List.length_map]; exact hk) ?_
      rw [List.length_map]
      exact c2
    · rcases E.one m.id with e | ⟨k', A, w, p, y, e1, e2, e3, e⟩
      · rw [e] at c1; cases c1
      · rw [e] at c1
        obtain rfl := List.mem_singleton.mp c1
        have := hok.lt _ hm1
        simp only [leafOf, Node.id_mk] at this hid
        omega
  · cases c1

/-- The root does not fall. -/
theorem root_alive (h : t.OK) (hp : t.Plain v.delim) (hm : v.mode ≠ .up) (D : Nat → Prop) : ¬ Dead v t as D t.root.id := by
  rintro ⟨q, m, hmem, hid, k, p, P, y, u, _, _, htk, hP, hpre⟩
  obtain ⟨rfl, rfl⟩ := Prod.mk.inj (h.id_inj hmem h.root_mem hid)
  obtain ⟨p', t', e, hrm⟩ := htk
  cases e
  obtain ⟨_, _, u', hP', hy, _⟩ := Prune.takes_spec h hp hm hrm
  have := (((Node.wf_iff P).mp (Node.wf_of_mem h.wf hP)).2 _ hy).1
  rw [List.prefix_nil, List.append_eq_nil_iff] at hpre
  exact this hpre.2

/-- A node of the tree with all leaves that is still there is at a path that nobody has removed. -/
theorem alive_path (h : t.OK) (hp : t.Plain v.delim) (hm : v.mode ≠ .up) (hj : Joins v t as) {D : Nat → Prop} {q : Str}
    (hq : (∃ m, (q, m) ∈ t.root.nodes [] ∧ ¬ Dead v t as D m.id) ∨ ∃ (k : Nat) (p : Str) (x : α), as[k]? = some (.set p x) ∧ q = View.dash (v.full p)) :
    ¬ Fell v t as D q := by
  rcases hq with ⟨m, hmem, hd⟩ | ⟨k, p, x, ha, rfl⟩
  · exact fun hf => hd ⟨q, m, hmem, rfl, hf⟩
  · rintro ⟨k', p', P, y, u, _, ha', htk, hP, hpre⟩
    have htk' := htk
    obtain ⟨p', t', e, hrm⟩ := htk
    cases e
    obtain ⟨_, _, u', hP', hy, _⟩ := Prune.takes_spec h hp hm hrm
    obtain ⟨A, C, hk⟩ := List.append_of_mem hy
    exact (hj.spares _ P y p x (List.mem_of_getElem? (get_calls ha')) htk' (List.mem_of_getElem? ha) u A y C hP hk hpre).1 rfl

end
end Parts
end Verif

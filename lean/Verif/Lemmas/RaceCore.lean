import Verif.Lemmas.RaceAlone
import Verif.Spec.RaceMix
/-
A tree with other values at its nodes: `Remove` does not care.
-/
namespace Verif
namespace Node
variable {α : Type}

mutual
/-- The tree with other cores. -/
def recore (g : Nat → Core α → Core α) : Node α → Node α
  | .mk i p c k => .mk i p (g i c) (recoreL g k)
def recoreL (g : Nat → Core α → Core α) : List (Node α) → List (Node α)
  | [] => []
  | n :: ns => recore g n :: recoreL g ns
end

theorem recoreL_eq (g : Nat → Core α → Core α) (k : List (Node α)) : recoreL g k = k.map (recore g) := by
  induction k with
  | nil => rfl
  | cons a as ih => rw [recoreL, ih]; rfl

theorem recore_mk (g : Nat → Core α → Core α) (i p) (c : Core α) (k) :
    recore g (.mk i p c k) = .mk i p (g i c) (k.map (recore g)) := by
  rw [recore, recoreL_eq]

variable {g g' : Nat → Core α → Core α}

@[simp] theorem recore_id (n : Node α) : (n.recore g).id = n.id := by cases n; rfl
@[simp] theorem recore_path (n : Node α) : (n.recore g).path = n.path := by cases n; rfl
@[simp] theorem recore_core (n : Node α) : (n.recore g).core = g n.id n.core := by cases n; rfl
@[simp] theorem recore_kids (n : Node α) : (n.recore g).kids = n.kids.map (recore g) := by
  cases n; rw [recore_mk]; rfl

theorem recore_self (n : Node α) : n.recore (fun _ c => c) = n := by
  induction n using Node.ind with
  | h i p c k ih =>
    rw [recore_mk]
    congr 1
    exact (List.map_congr_left ih).trans (List.map_id k)

theorem recore_recore (n : Node α) : (n.recore g).recore g' = n.recore (fun i c => g' i (g i c)) := by
  induction n using Node.ind with
  | h i p c k ih =>
    rw [recore_mk, recore_mk, recore_mk, List.map_map]
    congr 1
    exact List.map_congr_left ih

theorem recore_congr (n : Node α) : (∀ i ∈ n.ids, g i = g' i) → n.recore g = n.recore g' := by
  induction n using Node.ind with
  | h i p c k ih =>
    intro h
    rw [ids_mk] at h
    rw [recore_mk, recore_mk, h i (by simp)]
    congr 1
    exact List.map_congr_left fun m hm => ih m hm fun j hj => h j (List.mem_cons_of_mem _ (List.mem_flatMap.mpr ⟨m, hm, hj⟩))

theorem nodes_recore (n : Node α) : ∀ u, (n.recore g).nodes u = (n.nodes u).map fun x => (x.1, x.2.recore g) := by
  induction n using Node.ind with
  | h i p c k ih =>
    intro u
    rw [nodes_eq, nodes_eq, List.map_cons]
    simp only [recore_path, recore_kids, nodesL_flatMap, path_mk, kids_mk]
    congr 1
    rw [List.flatMap_map, List.map_flatMap]
    rw [List.flatMap_def, List.flatMap_def]
    exact congrArg _ (List.map_congr_left fun m hm => ih m hm _)

theorem mem_recore {n : Node α} {u q : Str} {m : Node α} :
    (q, m) ∈ (n.recore g).nodes u ↔ ∃ m', (q, m') ∈ n.nodes u ∧ m = m'.recore g := by
  rw [nodes_recore, List.mem_map]
  constructor
  · rintro ⟨x, hx, e⟩
    cases e
    exact ⟨x.2, hx, rfl⟩
  · rintro ⟨m', hm, rfl⟩
    exact ⟨_, hm, rfl⟩

theorem ids_recore (n : Node α) : (n.recore g).ids = n.ids := by
  rw [ids, ids, nodes_recore, List.map_map]
  exact List.map_congr_left fun x _ => by simp

theorem removeChild_recore (j : Nat) (n : Node α) : (n.recore g).removeChild j = (n.removeChild j).recore g := by
  obtain ⟨i, p, c, k⟩ := n
  simp only [removeChild, recore_mk]
  congr 1
  induction k with
  | nil => rfl
  | cons a as ih =>
    simp only [List.map_cons, List.eraseP_cons, recore_id]
    by_cases e : a.id = j
    · simp [e]
    · simp [e, ih]

theorem modify_recore (i j : Nat) (n : Node α) :
    (n.recore g).modify i (removeChild j) = (n.modify i (removeChild j)).recore g := by
  induction n using Node.ind with
  | h a p c k ih =>
    have hk : (k.map (recore g)).map (modify i (removeChild j)) = (k.map (modify i (removeChild j))).map (recore g) := by
      rw [List.map_map, List.map_map]
      exact List.map_congr_left ih
    rw [recore_mk, modify, modify, modifyL_map, modifyL_map, hk]
    by_cases e : a = i
    · rw [if_pos e, if_pos e, ← recore_mk, removeChild_recore]
    · rw [if_neg e, if_neg e, recore_mk]

end Node

namespace Parts
variable {α : Type} [Inhabited α] {g : Nat → Core α → Core α}
open Prune (Call)

omit [Inhabited α] in
theorem assoc_recore (l : List (Str × Node α)) (q : Str) :
    assoc (l.map fun x => (x.1, x.2.recore g)) q = (assoc l q).map (Node.recore g) := by
  induction l with
  | nil => rfl
  | cons a l ih =>
    obtain ⟨k, b⟩ := a
    simp only [List.map_cons, assoc]
    split
    · rfl
    · exact ih

omit [Inhabited α] in
theorem nodeAt_recore {T T' : Tree α} (e : T.root = T'.root.recore g) :
    T.nodeAt = fun q => (T'.nodeAt q).map (Node.recore g) := by
  funext q
  rw [Tree.nodeAt, e, Node.nodes_recore, assoc_recore]; rfl

omit [Inhabited α] in
theorem plain_recore {T T' : Tree α} (e : T.root = T'.root.recore g) (ok : T.OK) (ok' : T'.OK) {d : Char} (h : T'.Plain d) :
    T.Plain d := by
  intro q c hc
  rw [Tree.contents_eq ok, nodeAt_recore e] at hc
  cases hn : T'.nodeAt q with
  | none => simp [hn] at hc
  | some m => exact h q m.core (by rw [Tree.contents_eq ok', hn]; rfl)

omit [Inhabited α] in
/-- `Remove` on both. -/
theorem remove_recore {T T' : Tree α} (e : T.root = T'.root.recore g) (ok : T.OK) (ok' : T'.OK) {v : View}
    (hp : T'.Plain v.delim) (hm : v.mode ≠ .up) (p : Str) :
    ∃ T1 T1' b, v.remove T p = .ok (T1, b) ∧ v.remove T' p = .ok (T1', b) ∧ T1.root = T1'.root.recore g ∧ T1.OK ∧ T1'.OK ∧
      T1'.Plain v.delim := by
  have hr : resolve v.delim T.nodeAt (v.full p) = (resolve v.delim T'.nodeAt (v.full p)).map fun x => (x.1, x.2.recore g) := by
    rw [nodeAt_recore e, resolve_map]
  rcases remove_spec ok' hp hm p with ⟨u, P, x, h1, h2, h3, h4, h5⟩ | ⟨h1, h2⟩
  · rcases remove_spec ok (plain_recore e ok ok' hp) hm p with ⟨u₂, P₂, x₂, k1, k2, k3, k4, k5⟩ | ⟨k1, k2⟩
    · rw [hr, h4] at k4
      simp only [Option.map_some, Option.some.injEq, Prod.mk.injEq] at k4
      obtain ⟨k4, rfl⟩ := k4
      have hu : u = u₂ := by simpa using k4
      subst hu
      have hP : (u, P.recore g) ∈ T.root.nodes [] := by rw [e]; exact Node.mem_recore.mpr ⟨P, h1, rfl⟩
      have : P₂ = P.recore g := by
        have a := (Tree.nodeAt_some ok).mpr k1
        rw [(Tree.nodeAt_some ok).mpr hP] at a
        exact (Option.some.inj a).symm
      subst this
      refine ⟨_, _, true, k5, h5, ?_, (removeAt_ok ok k1 k2).1, (removeAt_ok ok' h1 h2).1, fun q c hq => ?_⟩
      · simp only [Node.recore_id]
        rw [e]
        exact Node.modify_recore _ _ _
      · rw [(removeAt_ok ok' h1 h2).2] at hq
        split at hq
        · cases hq
        · exact hp q c hq
    · rcases k1 with k1 | k1
      · exact absurd k1 h3
      · rw [hr, h4] at k1; cases k1
  · rcases remove_spec ok (plain_recore e ok ok' hp) hm p with ⟨u₂, P₂, x₂, k1, k2, k3, k4, k5⟩ | ⟨k1, k2⟩
    · rcases h1 with h1 | h1
      · exact absurd h1 k3
      · rw [hr, h1] at k4; cases k4
    · exact ⟨T, T', false, k2, h2, e, ok, ok', hp⟩

omit [Inhabited α] in
theorem after_recore {v : View} (hm : v.mode ≠ .up) (cs : List Call) : ∀ {T T' : Tree α}, T.root = T'.root.recore g → T.OK → T'.OK →
    T'.Plain v.delim → (Prune.after v T cs).root = (Prune.after v T' cs).root.recore g := by
  induction cs with
  | nil => exact fun e _ _ _ => e
  | cons c cs ih =>
    intro T T' e ok ok' hp
    cases c with
    | get p => exact ih e ok ok' hp
    | remove p =>
      obtain ⟨T1, T1', b, h1, h2, h3, h4, h5, h6⟩ := remove_recore e ok ok' hp hm p
      simp only [Prune.after, h1, h2]
      exact ih h3 h4 h5 h6

/-! ### `Set` for a path at which there is a node -/

/-- What `Set` does to the node. -/
def put (i : Nat) (x : α) (j : Nat) (c : Core α) : Core α := if j = i then { c with hasData := true, data := x } else c

omit [Inhabited α] in
theorem holds_recore {M : Race.Mem α} {n : Node α} (h : Race.Holds M n) :
    Race.Holds (fun i => { M i with core := g i (M i).core }) (n.recore g) := by
  induction n using Node.ind with
  | h i p c k ih =>
    have hc := h.cell
    rw [Node.recore_mk]
    refine .intro ?_ fun m hm => ?_
    · simp only [Node.id_mk, Node.path_mk, Node.core_mk, Node.kids_mk] at hc ⊢
      rw [hc, List.map_map]
      congr 1
      exact List.map_congr_left fun m _ => by simp
    · simp only [Node.kids_mk] at hm
      obtain ⟨m', hm', rfl⟩ := List.mem_map.mp hm
      exact ih m' hm' (h.kid hm')

theorem set_recore {T : Tree α} (h : T.OK) {q : Str} {m : Node α} (hm : (q, m) ∈ T.root.nodes []) (x : α) :
    (View.insertAt T q x).1.root = T.root.recore (put m.id x) := by
  have hM := Race.start_holds (kvs := []) h
  obtain ⟨hg, hs⟩ := Race.goes_stored h hm
  have hA := Race.set_holds h hM ⟨q, x, T.next⟩ rfl hg hs
  have hB := holds_recore (g := put m.id x) hM
  have hc := (hg.holds hM).cell
  generalize (Race.start T []).mem = M at hM hA hB hc
  have h1 : Node.commonPrefixLen m.path (M m.id).path = m.path.length := by
    rw [hc]; exact Race.cpl_prefix (List.prefix_refl _)
  have h2 : Race.base ⟨q, x, T.next⟩ M m.id m.path = M := by
    rw [Race.base]
    simp only [h1]
    rw [if_neg (by rw [hc]; simp)]
  have h3 : Race.final ⟨q, x, T.next⟩ M m.id m.path = fun i => { M i with core := put m.id x i (M i).core } := by
    rw [Race.final]
    simp only [h1, h2, Nat.lt_irrefl, if_false]
    funext i
    rw [Race.Mem.set]
    by_cases e : i = m.id
    · subst e; simp [put]
    · simp [put, e]
  rw [h3] at hA
  obtain ⟨D, hD⟩ := Race.read_holds _ hA
  obtain ⟨D', hD'⟩ := Race.read_holds _ hB
  rw [← hD (D + D') (by omega), ← hD' (D + D') (by omega), Race.insertAt_id h, Node.recore_id]

/-- The pointer to the node at a path. -/
def idAt (t : Tree α) (q : Str) : Nat := match t.nodeAt q with
  | some m => m.id
  | none => 0

omit [Inhabited α] in
theorem idAt_mem {t : Tree α} (h : t.OK) {q : Str} {m : Node α} (hm : (q, m) ∈ t.root.nodes []) : idAt t q = m.id := by
  rw [idAt, (Tree.nodeAt_some h).mpr hm]

/-- What the calls of `Set` do to the nodes. -/
def putAll (v : View) (t : Tree α) : List (Act α) → Nat → Core α → Core α
  | [], _, c => c
  | .set p x :: r, i, c => putAll v t r i (put (idAt t (View.dash (v.full p))) x i c)
  | _ :: r, i, c => putAll v t r i c

theorem sets_recore {v : View} {t : Tree α} (ht : t.OK) (as : List (Act α)) : ∀ {T : Tree α} {g : Nat → Core α → Core α}, T.OK →
    T.root = t.root.recore g → (∀ p x, .set p x ∈ as → ∃ m, (View.dash (v.full p), m) ∈ t.root.nodes []) →
    (sets v T as).OK ∧ (sets v T as).root = t.root.recore fun i c => putAll v t as i (g i c) := by
  induction as with
  | nil => exact fun h e _ => ⟨h, e⟩
  | cons a as ih =>
    intro T g h e hs
    have hs' : ∀ p x, .set p x ∈ as → ∃ m, (View.dash (v.full p), m) ∈ t.root.nodes [] := fun p x hx => hs p x (by simp [hx])
    cases a with
    | get p => exact ih h e hs'
    | remove p => exact ih h e hs'
    | set p x =>
      obtain ⟨m, hm⟩ := hs p x (by simp)
      have hmT : (View.dash (v.full p), m.recore g) ∈ T.root.nodes [] := by rw [e]; exact Node.mem_recore.mpr ⟨m, hm, rfl⟩
      have := set_recore h hmT x
      rw [e, Node.recore_recore, Node.recore_id] at this
      obtain ⟨h1, h2⟩ := ih (T := (v.set T p x).1) (View.insertAt_ok h _ x) this hs'
      refine ⟨h1, ?_⟩
      rw [sets, h2]
      simp only [putAll, idAt_mem ht hm]

omit [Inhabited α] in
theorem putAll_other {v : View} {t : Tree α} {i : Nat} (as : List (Act α)) : ∀ (c : Core α),
    (∀ p x, .set p x ∈ as → idAt t (View.dash (v.full p)) ≠ i) → putAll v t as i c = c := by
  induction as with
  | nil => exact fun _ _ => rfl
  | cons a as ih =>
    intro c h
    have h' : ∀ p x, .set p x ∈ as → idAt t (View.dash (v.full p)) ≠ i := fun p x hx => h p x (by simp [hx])
    cases a with
    | get p => exact ih c h'
    | remove p => exact ih c h'
    | set p x =>
      rw [putAll, put, if_neg (h p x (by simp)).symm]
      exact ih c h'

omit [Inhabited α] in
theorem putAll_at {v : View} {t : Tree α} {p : Str} {x : α} (as : List (Act α)) : ∀ (k : Nat) (c : Core α), as[k]? = some (.set p x) →
    (∀ j p' x', as[j]? = some (.set p' x') → idAt t (View.dash (v.full p')) = idAt t (View.dash (v.full p)) → j = k) →
    putAll v t as (idAt t (View.dash (v.full p))) c = { c with hasData := true, data := x } := by
  induction as with
  | nil => intro k c h; simp at h
  | cons a as ih =>
    intro k c h hu
    cases k with
    | zero =>
      simp only [List.getElem?_cons_zero, Option.some.injEq] at h
      subst h
      rw [putAll, put, if_pos rfl]
      refine putAll_other as _ fun p' x' hx e => ?_
      obtain ⟨j, hj, e'⟩ := List.getElem_of_mem hx
      have := hu (j + 1) p' x' (by rw [List.getElem?_cons_succ, List.getElem?_eq_getElem hj, e']) e
      omega
    | succ k =>
      rw [List.getElem?_cons_succ] at h
      have hu' : ∀ j p' x', as[j]? = some (.set p' x') → idAt t (View.dash (v.full p')) = idAt t (View.dash (v.full p)) → j = k := by
        intro j p' x' hj e
        have := hu (j + 1) p' x' (by rw [List.getElem?_cons_succ]; exact hj) e
        omega
      cases a with
      | get p => exact ih k c h hu'
      | remove p => exact ih k c h hu'
      | set p' x' =>
        have hne : idAt t (View.dash (v.full p)) ≠ idAt t (View.dash (v.full p')) := by
          intro e
          have := hu 0 p' x' rfl e.symm
          omega
        rw [putAll, put, if_neg hne]
        exact ih k c h hu'

end Parts
end Verif

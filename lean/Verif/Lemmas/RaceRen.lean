import Verif.Lemmas.RaceAfter
/-
A tree with other pointers: what the allocator hands out makes no difference.
-/
namespace Verif
namespace Node
variable {α : Type}

mutual
/-- The tree with other pointers. -/
def ren (σ : Nat → Nat) : Node α → Node α
  | .mk i p c k => .mk (σ i) p c (renL σ k)
def renL (σ : Nat → Nat) : List (Node α) → List (Node α)
  | [] => []
  | n :: ns => ren σ n :: renL σ ns
end

theorem renL_eq (σ : Nat → Nat) (k : List (Node α)) : renL σ k = k.map (ren σ) := by
  induction k with
  | nil => rfl
  | cons a as ih => rw [renL, ih]; rfl

theorem ren_mk (σ : Nat → Nat) (i p) (c : Core α) (k) : ren σ (.mk i p c k) = .mk (σ i) p c (k.map (ren σ)) := by
  rw [ren, renL_eq]

@[simp] theorem ren_id (σ : Nat → Nat) (n : Node α) : (n.ren σ).id = σ n.id := by cases n; rfl
@[simp] theorem ren_path (σ : Nat → Nat) (n : Node α) : (n.ren σ).path = n.path := by cases n; rfl
@[simp] theorem ren_core (σ : Nat → Nat) (n : Node α) : (n.ren σ).core = n.core := by cases n; rfl
@[simp] theorem ren_kids (σ : Nat → Nat) (n : Node α) : (n.ren σ).kids = n.kids.map (ren σ) := by
  cases n; rw [ren_mk]; rfl

theorem ren_self (n : Node α) : n.ren (fun i => i) = n := by
  induction n using Node.ind with
  | h i p c k ih =>
    rw [ren_mk]
    congr 1
    exact (List.map_congr_left ih).trans (List.map_id k)

theorem nodesL_flatMap (u : Str) (k : List (Node α)) : nodesL u k = k.flatMap (nodes u) := by
  induction k with
  | nil => rfl
  | cons a as ih => rw [nodesL, ih]; rfl

theorem nodes_ren (σ : Nat → Nat) (n : Node α) : ∀ u, (n.ren σ).nodes u = (n.nodes u).map fun x => (x.1, x.2.ren σ) := by
  induction n using Node.ind with
  | h i p c k ih =>
    intro u
    rw [nodes_eq, nodes_eq, List.map_cons]
    simp only [ren_path, ren_kids, nodesL_flatMap, path_mk, kids_mk]
    congr 1
    rw [List.flatMap_map, List.map_flatMap]
    rw [List.flatMap_def, List.flatMap_def]
    exact congrArg _ (List.map_congr_left fun m hm => ih m hm _)

theorem mem_ren {σ : Nat → Nat} {n : Node α} {u q : Str} {m : Node α} :
    (q, m) ∈ (n.ren σ).nodes u ↔ ∃ m', (q, m') ∈ n.nodes u ∧ m = m'.ren σ := by
  rw [nodes_ren, List.mem_map]
  constructor
  · rintro ⟨x, hx, e⟩
    cases e
    exact ⟨x.2, hx, rfl⟩
  · rintro ⟨m', hm, rfl⟩
    exact ⟨_, hm, rfl⟩

theorem entries_ren (σ : Nat → Nat) (n : Node α) (u : Str) : (n.ren σ).entries u = n.entries u := by
  rw [entries, entries, nodes_ren, List.map_map]
  exact List.map_congr_left fun x _ => by simp

theorem ids_ren (σ : Nat → Nat) (n : Node α) : (n.ren σ).ids = n.ids.map σ := by
  rw [ids, ids, nodes_ren, List.map_map, List.map_map]
  exact List.map_congr_left fun x _ => by simp

theorem ren_congr {σ τ : Nat → Nat} (n : Node α) : (∀ i ∈ n.ids, σ i = τ i) → n.ren σ = n.ren τ := by
  induction n using Node.ind with
  | h i p c k ih =>
    intro h
    rw [ids_mk] at h
    rw [ren_mk, ren_mk, h i (by simp)]
    congr 1
    exact List.map_congr_left fun m hm => ih m hm fun j hj => h j (List.mem_cons_of_mem _ (List.mem_flatMap.mpr ⟨m, hm, hj⟩))

section
variable [Inhabited α]

theorem insKids_ren {σ : Nat → Nat} {f f' : Nat} (h2 : σ (f + 1) = f' + 1) (w : Str) (ps : List UInt8) (x : α)
    {ins ins' : Node α → Ins α} (k : List (Node α)) (h : ∀ n ∈ k, (ins' (n.ren σ)).tree = (ins n).tree.ren σ) :
    (insKids ins' f' w ps x (k.map (ren σ))).kids = (insKids ins f w ps x k).kids.map (ren σ) := by
  induction k with
  | nil => simp [insKids, newLeaf, ren_mk, h2]
  | cons a as ih =>
    simp only [List.map_cons, insKids, ren_path]
    split
    · simp only [List.map_cons, h a (by simp)]
    · simp only [List.map_cons, ih fun n hn => h n (by simp [hn])]

theorem insertFuel_ren {σ : Nat → Nat} {f f' : Nat} (h1 : σ f = f') (h2 : σ (f + 1) = f' + 1) (ps : List UInt8) (x : α) (fuel : Nat) :
    ∀ (w : Str) (n : Node α), (insertFuel f' ps x fuel w (n.ren σ)).tree = (insertFuel f ps x fuel w n).tree.ren σ := by
  induction fuel with
  | zero => intro w n; rfl
  | succ fuel ih =>
    intro w n
    have e0 : ((n.ren σ).path.length = 0 ∧ w.length > 0 ∧ (n.ren σ).kids.length = 0) ↔
        (n.path.length = 0 ∧ w.length > 0 ∧ n.kids.length = 0) := by simp
    by_cases h0 : n.path.length = 0 ∧ w.length > 0 ∧ n.kids.length = 0
    · rw [insertFuel, if_pos (e0.mpr h0), insertFuel, if_pos h0]
      simp [ren_mk, newLeaf, h2]
    · rw [insertFuel, if_neg (fun h => h0 (e0.mp h)), insertFuel, if_neg h0]
      simp only [ren_path]
      generalize (if n.path.length > 0 ∧ w.length > 0 then commonPrefixLen w n.path else 0) = cpl
      have hb : (if cpl < n.path.length then split f' cpl (n.ren σ) else n.ren σ) =
          (if cpl < n.path.length then split f cpl n else n).ren σ := by
        by_cases hc : cpl < n.path.length
        · rw [if_pos hc, if_pos hc]
          obtain ⟨i, p, c, k⟩ := n
          simp [split, ren_mk, h1]
        · rw [if_neg hc, if_neg hc]
      rw [hb]
      generalize (if cpl < n.path.length then split f cpl n else n) = base
      by_cases hc : cpl < w.length
      · rw [if_pos hc, if_pos hc]
        simp only [ren_mk, ren_id, ren_path, ren_core, ren_kids]
        congr 1
        exact insKids_ren h2 _ ps x _ fun m _ => ih _ m
      · rw [if_neg hc, if_neg hc]
        simp [ren_mk]

end

theorem modifyL_map (i : Nat) (g : Node α → Node α) (k : List (Node α)) : modifyL i g k = k.map (modify i g) := Node.modifyL_eq i g k

theorem removeChild_ren {σ : Nat → Nat} {j : Nat} (n : Node α) (h : ∀ m ∈ n.kids, σ m.id = σ j → m.id = j) :
    (n.ren σ).removeChild (σ j) = (n.removeChild j).ren σ := by
  obtain ⟨i, p, c, k⟩ := n
  rw [ren_mk, removeChild, removeChild, ren_mk]
  congr 1
  simp only [kids_mk] at h
  induction k with
  | nil => rfl
  | cons a as ih =>
    simp only [List.map_cons, List.eraseP_cons, ren_id]
    by_cases e : a.id = j
    · simp [e]
    · have : σ a.id ≠ σ j := fun e' => e (h a (by simp) e')
      simp only [e, this, decide_false]
      exact congrArg (List.cons _) (ih fun m hm => h m (by simp [hm]))

theorem modify_ren {σ : Nat → Nat} {i j : Nat} (n : Node α) : (∀ a ∈ n.ids, ∀ b, b = i ∨ b = j → σ a = σ b → a = b) →
    (n.ren σ).modify (σ i) (removeChild (σ j)) = (n.modify i (removeChild j)).ren σ := by
  induction n using Node.ind with
  | h a p c k ih =>
    intro h
    rw [ids_mk] at h
    have hk : (k.map (ren σ)).map (modify (σ i) (removeChild (σ j))) = (k.map (modify i (removeChild j))).map (ren σ) := by
      rw [List.map_map, List.map_map]
      exact List.map_congr_left fun m hm => ih m hm fun a' ha' => h a' (List.mem_cons_of_mem _ (List.mem_flatMap.mpr ⟨m, hm, ha'⟩))
    rw [ren_mk, modify, modify, modifyL_map, modifyL_map, hk]
    by_cases e : a = i
    · rw [if_pos e, if_pos (by rw [e]), ← ren_mk, removeChild_ren]
      intro m hm e'
      simp only [kids_mk] at hm
      obtain ⟨m', hm', rfl⟩ := List.mem_map.mp hm
      rw [Prune.modify_remove_id] at e' ⊢
      exact h _ (List.mem_cons_of_mem _ (List.mem_flatMap.mpr ⟨m', hm', Race.id_ids m'⟩)) j (.inr rfl) e'
    · rw [if_neg e, if_neg (fun e' => e (h a (by simp) i (.inl rfl) e')), ren_mk]

end Node
end Verif

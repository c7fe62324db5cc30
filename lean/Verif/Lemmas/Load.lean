import Verif.Lemmas.Store
import Verif.Spec.Leaves
/-
`loadMap` and its relatives write the leaves of the value one after the other.
-/
namespace Verif
variable {α κ : Type}

theorem itoa_ne (i : Nat) : itoa i ≠ [] := by
  have := @Nat.length_toDigits_pos 10 i
  intro h
  rw [itoa] at h
  rw [h] at this
  simp at this

/-- The full path of a leaf. -/
def leafKey (d : Char) (pos : Str) (l : List Str) : Str := View.dash (joinSpec d (pos :: l))

/-- The assignments that loading performs. -/
def leafPuts (d : Char) (pos : Str) (l : List (List Str × Any α κ)) : List (Str × Any α κ) :=
  l.map (fun a => (leafKey d pos a.1, a.2))

theorem leafPuts_append (d : Char) (pos : Str) (l l' : List (List Str × Any α κ)) :
    leafPuts d pos (l ++ l') = leafPuts d pos l ++ leafPuts d pos l' := by simp [leafPuts]

theorem leafPuts_under (d : Char) (pos k : Str) (l : List (List Str × Any α κ)) :
    leafPuts d pos (under k l) = leafPuts d (joinSpec d [pos, k]) l := by
  simp only [leafPuts, under, List.map_map]
  refine List.map_congr_left (fun a _ => ?_)
  simp only [Function.comp, leafKey]
  have := joinSpec_assoc d [] [pos, k] a.1
  simp only [List.nil_append, List.cons_append] at this
  rw [this]

theorem joinSpec_elem (d : Char) (pos k : Str) (hk : k ≠ []) (i : Nat) :
    joinSpec d [pos, Store.elemKey d k i] = joinSpec d [joinSpec d [pos, k], itoa i] := by
  have h1 : Store.elemKey d k i = joinSpec d [k, itoa i] := by
    rw [joinSpec_eq]
    simp [itoa_ne i, hk, joinWith, Store.elemKey]
  have e1 := joinSpec_assoc d [pos] [k, itoa i] []
  have e2 := joinSpec_assoc d [] [pos, k] [itoa i]
  simp only [List.nil_append, List.cons_append] at e1 e2
  rw [h1, e1, e2]

namespace Store

/-- Result of loading a list of leaves at a position. -/
def loaded (s : Store α κ) (pos : Str) (l : List (List Str × Any α κ)) : Store α κ :=
  { s with tree := putTrees (!s.loading) s.tree (leafPuts s.view.delim pos l) }

theorem loaded_nil (s : Store α κ) (pos : Str) : s.loaded pos [] = s := rfl

theorem loaded_append (s : Store α κ) (pos : Str) (l l' : List (List Str × Any α κ)) :
    s.loaded pos (l ++ l') = (s.loaded pos l).loaded pos l' := by
  simp only [loaded, leafPuts_append, putTrees_append]

theorem loaded_under (s : Store α κ) (pos k : Str) (l : List (List Str × Any α κ)) :
    s.loaded pos (under k l) = s.loaded (joinSpec s.view.delim [pos, k]) l := by
  simp only [loaded, leafPuts_under]

theorem loaded_one (s : Store α κ) (pos k : Str) (x : Any α κ) (create : Bool) (onSet : List (NodeOp (Any α κ)))
    (h : s.loading = true ∨ onSet = []) :
    privateSetter s pos k x create onSet = (s.loaded (joinSpec s.view.delim [pos, k]) [([], x)], []) := by
  rw [privateSetter_eq _ _ _ _ _ _ h]
  simp only [loaded, leafPuts, leafKey, List.map_cons, List.map_nil, putTrees, List.foldl_cons, List.foldl_nil]
  have := joinSpec_assoc s.view.delim [] [pos, k] []
  simp only [List.nil_append, List.append_nil] at this
  rw [this]

mutual
theorem loadVal_eq (str : κ → Str) (create : Bool) (onSet : List (NodeOp (Any α κ))) (s : Store α κ)
    (h : s.loading = true ∨ onSet = []) (pos k : Str) (hk : s.flatten = true → k ≠ []) :
    ∀ v, (s.flatten = true → keysNE str v) →
      loadVal str create onSet s pos k v = (s.loaded (joinSpec s.view.delim [pos, k]) (leaves s.flatten str v), [])
  | .pkg v, hv => by
    simp only [loadVal, leaves]
    exact loadVal_eq str create onSet s h pos k hk v (by simpa only [keysNE] using hv)
  | .map m, hv => by
    simp only [loadVal, leaves, join_eq]
    exact loadMap_eq str create onSet s h _ m (by simpa only [keysNE] using hv)
  | .amap m, hv => by
    simp only [loadVal, leaves, join_eq]
    exact loadMapAny_eq str create onSet s h _ m (by simpa only [keysNE] using hv)
  | .maps l, hv => by
    simp only [loadVal, leaves]
    by_cases hf : s.flatten = true
    · simp only [hf, if_true]
      have := loadMaps_eq str create onSet s h hf pos k (hk hf) 0 l (by simpa only [keysNE] using hv hf)
      rw [hf] at this; exact this
    · simp only [hf, if_false, Bool.false_eq_true]; exact loaded_one s pos k _ create onSet h
  | .amaps l, hv => by
    simp only [loadVal, leaves]
    by_cases hf : s.flatten = true
    · simp only [hf, if_true]
      have := loadMapsAny_eq str create onSet s h hf pos k (hk hf) 0 l (by simpa only [keysNE] using hv hf)
      rw [hf] at this; exact this
    · simp only [hf, if_false, Bool.false_eq_true]; exact loaded_one s pos k _ create onSet h
  | .list l, hv => by
    simp only [loadVal, leaves]
    by_cases hf : s.flatten = true
    · simp only [hf, if_true]
      have := loadList_eq str create onSet s h hf pos k (hk hf) 0 l (by simpa only [keysNE] using hv hf)
      rw [hf] at this; exact this
    · simp only [hf, if_false, Bool.false_eq_true]; exact loaded_one s pos k _ create onSet h
  | .nil, _ => by simp only [loadVal, leaves]; exact loaded_one s pos k _ create onSet h
  | .atom x, _ => by simp only [loadVal, leaves]; exact loaded_one s pos k _ create onSet h
theorem loadMap_eq (str : κ → Str) (create : Bool) (onSet : List (NodeOp (Any α κ))) (s : Store α κ)
    (h : s.loading = true ∨ onSet = []) (pos : Str) :
    ∀ m, (s.flatten = true → keysNEM str m) →
      loadMap str create onSet s pos m = (s.loaded pos (leavesM s.flatten str m), [])
  | [], _ => by simp only [loadMap, leavesM]; rfl
  | (k, v) :: m, hm => by
    simp only [keysNEM] at hm
    have h1 := loadVal_eq str create onSet s h pos k (fun hf => (hm hf).1) v (fun hf => (hm hf).2.1)
    simp only [loadMap, leavesM, h1]
    have h2 := loadMap_eq str create onSet (s.loaded (joinSpec s.view.delim [pos, k]) (leaves s.flatten str v)) h pos m
      (fun hf => (hm hf).2.2)
    rw [h2, loaded_append, loaded_under]; rfl
theorem loadMapAny_eq (str : κ → Str) (create : Bool) (onSet : List (NodeOp (Any α κ))) (s : Store α κ)
    (h : s.loading = true ∨ onSet = []) (pos : Str) :
    ∀ m, (s.flatten = true → keysNEA str m) →
      loadMapAny str create onSet s pos m = (s.loaded pos (leavesA s.flatten str m), [])
  | [], _ => by simp only [loadMapAny, leavesA]; rfl
  | (k, v) :: m, hm => by
    simp only [keysNEA] at hm
    have h1 := loadVal_eq str create onSet s h pos (str k) (fun hf => (hm hf).1) v (fun hf => (hm hf).2.1)
    simp only [loadMapAny, leavesA, h1]
    have h2 := loadMapAny_eq str create onSet (s.loaded (joinSpec s.view.delim [pos, str k]) (leaves s.flatten str v)) h pos m
      (fun hf => (hm hf).2.2)
    rw [h2, loaded_append, loaded_under]; rfl
theorem loadMaps_eq (str : κ → Str) (create : Bool) (onSet : List (NodeOp (Any α κ))) (s : Store α κ)
    (h : s.loading = true ∨ onSet = []) (hf : s.flatten = true) (pos k : Str) (hk : k ≠ []) (i : Nat) :
    ∀ l, keysNEMs str l →
      loadMaps str create onSet s pos k i l =
        (s.loaded (joinSpec s.view.delim [pos, k]) (leavesMs s.flatten str i l), [])
  | [], _ => by simp only [loadMaps, leavesMs]; rfl
  | m :: l, hm => by
    simp only [keysNEMs] at hm
    simp only [loadMaps, leavesMs, join_eq, joinSpec_elem _ _ _ hk]
    have h1 := loadMap_eq str create onSet s h (joinSpec s.view.delim [joinSpec s.view.delim [pos, k], itoa i]) m
      (fun _ => hm.1)
    rw [h1]
    have h2 := loadMaps_eq str create onSet
      (s.loaded (joinSpec s.view.delim [joinSpec s.view.delim [pos, k], itoa i]) (leavesM s.flatten str m)) h hf pos k hk
      (i + 1) l hm.2
    simp only [h2]
    rw [loaded_append, loaded_under]; rfl
theorem loadMapsAny_eq (str : κ → Str) (create : Bool) (onSet : List (NodeOp (Any α κ))) (s : Store α κ)
    (h : s.loading = true ∨ onSet = []) (hf : s.flatten = true) (pos k : Str) (hk : k ≠ []) (i : Nat) :
    ∀ l, keysNEAs str l →
      loadMapsAny str create onSet s pos k i l =
        (s.loaded (joinSpec s.view.delim [pos, k]) (leavesAs s.flatten str i l), [])
  | [], _ => by simp only [loadMapsAny, leavesAs]; rfl
  | m :: l, hm => by
    simp only [keysNEAs] at hm
    simp only [loadMapsAny, leavesAs, join_eq, joinSpec_elem _ _ _ hk]
    have h1 := loadMapAny_eq str create onSet s h (joinSpec s.view.delim [joinSpec s.view.delim [pos, k], itoa i]) m
      (fun _ => hm.1)
    rw [h1]
    have h2 := loadMapsAny_eq str create onSet
      (s.loaded (joinSpec s.view.delim [joinSpec s.view.delim [pos, k], itoa i]) (leavesA s.flatten str m)) h hf pos k hk
      (i + 1) l hm.2
    simp only [h2]
    rw [loaded_append, loaded_under]; rfl
theorem loadList_eq (str : κ → Str) (create : Bool) (onSet : List (NodeOp (Any α κ))) (s : Store α κ)
    (h : s.loading = true ∨ onSet = []) (hf : s.flatten = true) (pos k : Str) (hk : k ≠ []) (i : Nat) :
    ∀ l, keysNEL str l →
      loadList str create onSet s pos k i l =
        (s.loaded (joinSpec s.view.delim [pos, k]) (leavesL s.flatten str i l), [])
  | [], _ => by simp only [loadList, leavesL]; rfl
  | v :: l, hm => by
    simp only [keysNEL] at hm
    simp only [loadList, leavesL]
    have h1 := loadVal_eq str create onSet s h pos (elemKey s.view.delim k i) (fun _ => by simp [elemKey]) v
      (fun _ => hm.1)
    rw [joinSpec_elem _ _ _ hk] at h1
    rw [h1]
    have h2 := loadList_eq str create onSet
      (s.loaded (joinSpec s.view.delim [joinSpec s.view.delim [pos, k], itoa i]) (leaves s.flatten str v)) h hf pos k hk
      (i + 1) l hm.2
    simp only [h2]
    rw [loaded_append, loaded_under]; rfl
end

end Store
end Verif

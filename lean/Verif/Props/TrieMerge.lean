import Verif.Model.TrieMerge
import Verif.Props.Load
import Verif.Props.SubExport
/-
C43: merging a nested map into a trie.
-/
namespace Verif
variable {α κ : Type}

mutual
/-- The values for which `Trie.Merge` works: no nil, no `map[any]any` or package (they are stored whole), and maps and slices
of any only where `top` is true; maps in a slice of maps have no such values. -/
def good (top : Bool) : Any α κ → Bool
  | .map m => top && goodM false m
  | .maps l => goodMs l
  | .list l => top && goodL l
  | .atom _ => true
  | .nil => false
  | .amap _ => false
  | .amaps _ => false
  | .pkg _ => false
def goodM (top : Bool) : List (Str × Any α κ) → Bool
  | [] => true
  | (k, v) :: m => k ≠ [] && good top v && goodM top m
def goodMs : List (List (Str × Any α κ)) → Bool
  | [] => true
  | m :: l => goodM false m && goodMs l
def goodL : List (Any α κ) → Bool
  | [] => true
  | v :: l => good true v && goodL l
end

/-- The tree after writing the leaves at a position. -/
def putLeaves (d : Char) (t : Tree (Any α κ)) (pos : Str) (L : List (List Str × Any α κ)) : Tree (Any α κ) :=
  putTrees false t (leafPuts d pos L)

theorem putLeaves_append (d : Char) (t : Tree (Any α κ)) (pos : Str) (l l' : List (List Str × Any α κ)) :
    putLeaves d t pos (l ++ l') = putLeaves d (putLeaves d t pos l) pos l' := by
  simp only [putLeaves, leafPuts_append, putTrees_append]

theorem putLeaves_under (d : Char) (t : Tree (Any α κ)) (pos k : Str) (l : List (List Str × Any α κ)) :
    putLeaves d t pos (under k l) = putLeaves d t (joinSpec d [pos, k]) l := by
  simp only [putLeaves, leafPuts_under]

theorem putLeaves_one (v : View) (t : Tree (Any α κ)) (k : Str) (x : Any α κ) :
    (v.set t k x).1 = putLeaves v.delim t (joinSpec v.delim [v.pre, k]) [([], x)] := by
  simp only [View.set, putLeaves, leafPuts, leafKey, List.map_cons, List.map_nil, putTrees, List.foldl_cons, List.foldl_nil, putTree,
    Bool.false_eq_true, if_false, full_eq]
  have := joinSpec_assoc v.delim [] [v.pre, k] []
  simp only [List.nil_append, List.append_nil] at this
  rw [this]

mutual
theorem loadTVal_eq (str : κ → Str) : (x : Any α κ) → (v : View) → (t : Tree (Any α κ)) → (k : Str) → k ≠ [] → (top : Bool) →
    (top = true → v.pre = []) → good top x = true →
    v.loadTVal t k x = .ok (putLeaves v.delim t (joinSpec v.delim [v.pre, k]) (leaves true str x))
  | .map m, v, t, k, hk, top, ht, hg => by
    simp only [good, Bool.and_eq_true] at hg
    simp only [View.loadTVal, leaves]
    rw [loadTMap_eq str m _ t false (by simp) hg.2]
    have : (v.withPrefixReplaced [k]).pre = joinSpec v.delim [v.pre, k] := by
      rw [ht hg.1]
      simp only [View.withPrefixReplaced, join_eq, joinSpec_eq]
      simp [hk]
    rw [this]; rfl
  | .maps l, v, t, k, hk, top, ht, hg => by
    simp only [good] at hg
    simp only [View.loadTVal, leaves, if_true]
    exact loadTMaps_eq str l v t k hk 0 hg
  | .list l, v, t, k, hk, top, ht, hg => by
    simp only [good, Bool.and_eq_true] at hg
    simp only [View.loadTVal, leaves, if_true]
    exact loadTList_eq str l v t k hk 0 (ht hg.1) hg.2
  | .atom x, v, t, k, hk, top, ht, hg => by
    simp only [View.loadTVal, leaves, putLeaves_one]
  | .nil, v, t, k, hk, top, ht, hg => by simp [good] at hg
  | .amap _, v, t, k, hk, top, ht, hg => by simp [good] at hg
  | .amaps _, v, t, k, hk, top, ht, hg => by simp [good] at hg
  | .pkg _, v, t, k, hk, top, ht, hg => by simp [good] at hg
theorem loadTMap_eq (str : κ → Str) : (m : List (Str × Any α κ)) → (v : View) → (t : Tree (Any α κ)) → (top : Bool) →
    (top = true → v.pre = []) → goodM top m = true →
    v.loadTMap t m = .ok (putLeaves v.delim t v.pre (leavesM true str m))
  | [], v, t, top, ht, hg => by simp only [View.loadTMap, leavesM]; rfl
  | (k, x) :: m, v, t, top, ht, hg => by
    simp only [goodM, Bool.and_eq_true, decide_eq_true_eq] at hg
    simp only [View.loadTMap, leavesM]
    rw [loadTVal_eq str x v t k hg.1.1 top ht hg.1.2]
    simp only
    rw [loadTMap_eq str m v _ top ht hg.2, putLeaves_append, putLeaves_under]
theorem loadTMaps_eq (str : κ → Str) : (l : List (List (Str × Any α κ))) → (v : View) → (t : Tree (Any α κ)) → (k : Str) → k ≠ [] →
    (i : Nat) → goodMs l = true →
    v.loadTMaps t k i l = .ok (putLeaves v.delim t (joinSpec v.delim [v.pre, k]) (leavesMs true str i l))
  | [], v, t, k, hk, i, hg => by simp only [View.loadTMaps, leavesMs]; rfl
  | m :: l, v, t, k, hk, i, hg => by
    simp only [goodMs, Bool.and_eq_true] at hg
    simp only [View.loadTMaps, leavesMs]
    rw [loadTMap_eq str m _ t false (by simp) hg.1]
    simp only
    rw [loadTMaps_eq str l v _ k hk (i + 1) hg.2, putLeaves_append, putLeaves_under]
    have : (v.withPrefix [Store.elemKey v.delim k i]).pre = joinSpec v.delim [joinSpec v.delim [v.pre, k], itoa i] := by
      simp only [View.withPrefix, join1_eq]
      exact joinSpec_elem _ _ _ hk _
    rw [this]; rfl
theorem loadTList_eq (str : κ → Str) : (l : List (Any α κ)) → (v : View) → (t : Tree (Any α κ)) → (k : Str) → k ≠ [] →
    (i : Nat) → v.pre = [] → goodL l = true →
    v.loadTList t k i l = .ok (putLeaves v.delim t (joinSpec v.delim [v.pre, k]) (leavesL true str i l))
  | [], v, t, k, hk, i, hp, hg => by simp only [View.loadTList, leavesL]; rfl
  | x :: l, v, t, k, hk, i, hp, hg => by
    simp only [goodL, Bool.and_eq_true] at hg
    simp only [View.loadTList, leavesL]
    rw [if_neg (by simp [hp]), loadTVal_eq str x v t _ (by simp [Store.elemKey]) true (fun _ => hp) hg.1]
    simp only
    rw [loadTList_eq str l v _ k hk (i + 1) hp hg.2, putLeaves_append, putLeaves_under, joinSpec_elem _ _ _ hk]
end

/-- **C43** `Trie.Merge(at, m)` stores every leaf of `m` (slices are opened) at the joined path of the prefix, `at` and the keys
leading to it, in whatever order the maps are iterated, if those paths differ; it is read back through any view. Other entries
are unchanged. Partial: keys are not empty, and the values are as described by `good`: nothing in `m` is nil, a `map[any]any`
or a package, and a map or `[]any` occurs only as a value of `m` itself (or in such a slice), and only if prefix and `at` are empty.
The `C43_*_fails` theorems show that this is needed. -/
theorem C43_merge_partial (str : κ → Str) {v : View} {t : Tree (Any α κ)} (h : Reach (NoRoute v.delim) t) (pos : Str) (m : SMap α κ)
    (top : Bool) (ht : top = true → v.pre = [] ∧ pos = []) (hg : goodM top m = true)
    (hroute : ∀ l x, IsLeaf true str m l x → NoRoute v.delim (leafKey v.delim (v.full pos) l))
    (hnd : ((leavesM true str m).map (fun a => leafKey v.delim (v.full pos) a.1)).Nodup)
    (r : View) (hr : r.delim = v.delim) (p : Str) :
    ∃ t', v.merge t pos m = .ok t' ∧ Reach (NoRoute v.delim) t' ∧
    (∀ l x, IsLeaf true str m l x → r.full p = leafKey v.delim (v.full pos) l → r.mustGet t' p = .ok x) ∧
    (∀ c, t.contents (r.full p) = some c →
      (∀ l x, IsLeaf true str m l x → r.full p ≠ leafKey v.delim (v.full pos) l) →
      r.query t' p = r.query t p ∧ r.mustGet t' p = r.mustGet t p) := by
  have e : v.merge t pos m = .ok (putLeaves v.delim t (v.full pos) (leavesM true str m)) := by
    unfold View.merge
    rw [loadTMap_eq str m (v.withPrefix [pos]) t top ?_ hg]
    · simp only [View.withPrefix, join1_eq, full_eq]
    · intro h1
      obtain ⟨h2, h3⟩ := ht h1
      simp [View.withPrefix, join1_eq, h2, h3, joinSpec_eq, joinWith]
  refine ⟨_, e, ?_⟩
  unfold putLeaves
  rw [← hr] at h hroute hnd ⊢
  have hl : ∀ a ∈ leafPuts r.delim (v.full pos) (leavesM true str m), NoRoute r.delim a.1 := by
    rintro ⟨q, x⟩ ha
    obtain ⟨l, h1, rfl⟩ := Store.mem_leafPuts.mp ha
    exact hroute l x h1
  refine ⟨putTrees_reach h false hl, ?_, ?_⟩
  · intro l x hx hp
    refine putTrees_read h hl (lastWrite_of_nodup ?_ (Store.mem_leafPuts.mpr ⟨l, hx, hp⟩))
    simpa [leafPuts, List.map_map, Function.comp_def] using hnd
  · intro c hc hx
    refine putTrees_frame h hl hc (fun x hm => ?_)
    obtain ⟨l, h1, h2⟩ := Store.mem_leafPuts.mp hm
    exact hx l x h1 h2

/-- The store's own `Merge` agrees with the trie's on such maps, but for the modified mark. -/
theorem C43_agrees_with_store (str : κ → Str) {s : Store α κ} (hp : s.view.pre = []) (hl : s.loading = true) (hf : s.flatten = true) (pos : Str)
    (m : SMap α κ) (top : Bool) (ht : top = true → pos = []) (hg : goodM top m = true) (hne : keysNEM str m) :
    s.view.merge s.tree pos m = .ok (s.merge str pos m).1.tree := by
  rw [Store.C29_merge_is_sets str s pos m (fun _ => hne)]
  unfold View.merge
  rw [loadTMap_eq str m _ s.tree top (fun h1 => by simp [View.withPrefix, join1_eq, hp, ht h1, joinSpec_eq, joinWith]) hg]
  simp only [View.withPrefix, join1_eq, hp, putLeaves, hl, hf, Bool.not_true]
  have : joinSpec s.view.delim [[], pos] = pos := by
    have := full_eq { s.view with pre := [] } pos
    simpa [View.full] using this.symm
  rw [this]

/-! ### Where the code deviates -/

def mergeGet (v : View) (pos : String) (m : SMap Nat Nat) (p : String) : Option Bool :=
  match v.merge Tree.new pos.toList m with
  | .ok t => match v.has t p.toList with
    | .ok b => some b
    | .error _ => none
  | .error _ => none

/-- Nested maps lose the position: `Merge("app", {log: {level: 1}})` stores at "log.level" ... -/
theorem C43_position_fails : ∃ (v : View) (m : SMap Nat Nat), v = View.new '.' ∧
    m = [("log".toList, .map [("level".toList, .atom 1)])] ∧
    mergeGet v "app" m "app.log.level" = some false ∧ mergeGet v "app" m "log.level" = some true :=
  ⟨_, _, rfl, rfl, by decide +kernel, by decide +kernel⟩

/-- ... and of deeper maps only the last two keys remain: `Merge("", {a: {b: {c: 1}}})` stores at "b.c". -/
theorem C43_depth_fails : ∃ (v : View) (m : SMap Nat Nat), v = View.new '.' ∧
    m = [("a".toList, .map [("b".toList, .map [("c".toList, .atom 1)])])] ∧
    mergeGet v "" m "a.b.c" = some false ∧ mergeGet v "" m "b.c" = some true :=
  ⟨_, _, rfl, rfl, by decide +kernel, by decide +kernel⟩

/-- The elements of a slice get the position twice: `Merge("app", {xs: [1]})` stores at "app.app.xs.0". -/
theorem C43_slice_fails : ∃ (v : View) (m : SMap Nat Nat), v = View.new '.' ∧ m = [("xs".toList, .list [.atom 1])] ∧
    mergeGet v "app" m "app.xs.0" = some false ∧ mergeGet v "app" m "app.app.xs.0" = some true :=
  ⟨_, _, rfl, rfl, by decide +kernel, by decide +kernel⟩

/-- A nil value panics. -/
theorem C43_nil_panics : ∀ (v : View) (t : Tree (Any α κ)) (pos k : Str), v.merge t pos [(k, .nil)] = .error .panic :=
  fun _ _ _ _ => rfl

/-- Two leaves may fall on the same path, so that one is lost, depending on the iteration order: {a: {x: {k: 1}}, b: {x: {k: 2}}}. -/
theorem C43_collision_fails : ∃ (v : View) (m m' : SMap Nat Nat) (t t' : Tree (Any Nat Nat)), v = View.new '.' ∧ m.Perm m' ∧
    v.merge Tree.new [] m = .ok t ∧ v.merge Tree.new [] m' = .ok t' ∧
    (match v.mustGet t "x.k".toList with | .ok (.atom n) => n | _ => 0) = 2 ∧
    (match v.mustGet t' "x.k".toList with | .ok (.atom n) => n | _ => 0) = 1 :=
  ⟨View.new '.', [("a".toList, .map [("x".toList, .map [("k".toList, .atom 1)])]), ("b".toList, .map [("x".toList, .map [("k".toList, .atom 2)])])],
    [("b".toList, .map [("x".toList, .map [("k".toList, .atom 2)])]), ("a".toList, .map [("x".toList, .map [("k".toList, .atom 1)])])],
    _, _, rfl, List.Perm.swap _ _ _, rfl, rfl, by decide +kernel, by decide +kernel⟩

/-! ### Examples -/

example : goodM true ([("log".toList, .map [("level".toList, .atom 1)]), ("xs".toList, .list [.atom 1, .map [("k".toList, .atom 2)]]),
    ("ms".toList, .maps [[("u".toList, .atom 3)]])] : SMap Nat Nat) = true := by decide +kernel
example : mergeGet (View.new '.') "" [("log".toList, .map [("level".toList, .atom 1)]), ("xs".toList, .list [.atom 1, .map [("k".toList, .atom 2)]]),
    ("ms".toList, .maps [[("u".toList, .atom 3)]])] "xs.1.k" = some true := by decide +kernel
example : mergeGet (View.new '.') "app" [("a".toList, .atom 1), ("ms".toList, .maps [[("u".toList, .atom 3)]])] "app.ms.0.u" = some true := by decide +kernel

end Verif

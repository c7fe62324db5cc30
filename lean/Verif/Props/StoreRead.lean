import Verif.Props.Handlers
/-
C45: reading through a store.
-/
namespace Verif
namespace Store
variable {α κ : Type}

/-- **C45** `Store.MustGet` is the data of `Store.Get` if that is reported as found, and nil otherwise. -/
theorem C45_mustGet_get (s : Store α κ) (p : Str) :
    s.mustGet p = (s.get p).map (fun a => if a.2 then a.1 else .nil) := by
  simp only [mustGet, get, View.get]
  cases hq : s.view.query s.tree p with
  | error e => rfl
  | ok a =>
    have h : a.notFoundErr = !a.found := by
      simp only [View.query] at hq
      unfold View.queryKV at hq
      cases hs : s.view.search s.tree (s.view.full p) with
      | error e => rw [hs] at hq; cases hq
      | ok r =>
        rw [hs] at hq
        obtain ⟨n, par, pm, kv⟩ := r
        cases n <;> cases pm <;> (cases hq; rfl)
    simp only [Except.map, h]
    cases a.found <;> simp

/-- Where the entry just written is a branch: the path does not end with the delimiter, and before the write it had a branch
entry or none at all though a stored path extends it. -/
def OnBranch (s : Store α κ) (p : Str) : Prop :=
  endsW s.view.delim (s.view.full p) = false ∧
    ((∃ c, s.tree.contents (s.view.full p) = some c ∧ c.leaf = false) ∨
      (s.tree.contents (s.view.full p) = none ∧ ∃ q c, s.tree.contents q = some c ∧ s.view.full p <+: q))

theorem set_tree {s s' : Store α κ} {p : Str} {x : Any α κ} {ev old} (e : s.set p x = .ok (s', ev, old)) :
    s' = { s with tree := putTree (!s.loading) s.tree (View.dash (s.view.full p)) x } := by
  simp only [set] at e
  split at e
  · cases e
  · rename_i a _
    rw [← setKV_eq s p x (!a.found) [] (.inr rfl)]
    simp only [Except.ok.injEq] at e
    rw [e]

/-- **C45** After `Store.Set(k, x)`, `Store.MustGet(k)` is `x`, unless `k` lies on a branch: then it is nil. `Store.Get(k)` has the
data `x` in both cases. -/
theorem C45_set_partial {s s' : Store α κ} (h : Reach (NoRoute s.view.delim) s.tree) {p : Str} (hsp : ' ' ∉ s.view.full p)
    (hk : NoRoute s.view.delim (s.view.full p)) {x : Any α κ} {ev old} (e : s.set p x = .ok (s', ev, old)) :
    (¬ s.OnBranch p → s'.mustGet p = .ok x ∧ s'.get p = .ok (x, true)) ∧
    (s.OnBranch p → s'.mustGet p = .ok .nil ∧ s'.get p = .ok (x, false)) := by
  have ek : View.dash (s.view.full p) = s.view.full p := keyOf_nospace hsp
  have es := set_tree e
  rw [ek] at es
  have h' := putTree_reach h (!s.loading) hk x
  obtain ⟨-, ⟨c, h1, h2⟩, -⟩ := putTree_contents h.ok (!s.loading) (s.view.full p) x
  have hget : s'.get p = .ok (x, c.leaf || endsW s.view.delim (s.view.full p)) := by
    subst es
    simp only [get]
    rw [get_hit h'.ok h'.plain (resolve_at h2)]
    have := putCore_data h1
    cases s.loading <;> simp [this.1, this.2]
  have hb : s.OnBranch p ↔ (c.leaf || endsW s.view.delim (s.view.full p)) = false := by
    unfold OnBranch
    simp only [putCore] at h1
    cases h0 : s.tree.contents (s.view.full p) with
    | some c0 =>
      rw [h0] at h1
      simp only at h1
      subst h1
      simp [and_comm]
    | none =>
      rw [h0] at h1
      rcases h1 with ⟨rfl, h3⟩ | ⟨q, c0, h3, h4, h5, rfl⟩
      · simp only [Node.leafCore, Bool.true_or, reduceCtorEq, false_and, exists_false, false_or, true_and, iff_false]
        rintro ⟨-, q, c0, h4, h5⟩
        exact h3 q c0 h4 h5
      · simp only [Node.cutCore, Core.zero, Bool.false_or, reduceCtorEq, false_and, exists_false, true_and, false_or]
        exact ⟨fun h => h.1, fun h => ⟨h, q, c0, h3, h4⟩⟩
  constructor
  · intro hn
    have : (c.leaf || endsW s.view.delim (s.view.full p)) = true := by
      rw [hb] at hn; exact eq_true_of_ne_false hn
    rw [C45_mustGet_get, hget, this]
    exact ⟨rfl, rfl⟩
  · intro hn
    rw [C45_mustGet_get, hget, hb.mp hn]
    exact ⟨rfl, rfl⟩

/-- **C45** `Store.Set` leaves what `MustGet` and `Get` answer for every other entry. -/
theorem C45_frame {s s' : Store α κ} (h : Reach (NoRoute s.view.delim) s.tree) {p : Str}
    (hk : NoRoute s.view.delim (View.dash (s.view.full p))) {x : Any α κ} {ev old} (e : s.set p x = .ok (s', ev, old))
    {q : Str} {c : Core (Any α κ)} (hc : s.tree.contents (s.view.full q) = some c) (hq : s.view.full q ≠ View.dash (s.view.full p)) :
    s'.mustGet q = s.mustGet q ∧ s'.get q = s.get q := by
  have es := set_tree e
  have := putTrees_frame (user := !s.loading) (r := s.view) h (l := [(View.dash (s.view.full p), x)])
    (by simpa using hk) hc (by simp [hq])
  have hg : s'.get q = s.get q := by
    subst es
    simp only [get, View.get]
    simp only [putTrees, List.foldl_cons, List.foldl_nil] at this
    rw [this.1]
  rw [C45_mustGet_get, C45_mustGet_get, hg]
  exact ⟨rfl, rfl⟩

theorem putTrees_sets {β : Type} [Inhabited β] (d : Char) (t : Tree β) (l : List (Str × β)) (h : ∀ a ∈ l, ' ' ∉ a.1) :
    putTrees false t l = sets (l.map (fun a => (View.new d, a.1, a.2))) t := by
  induction l generalizing t with
  | nil => rfl
  | cons a l ih =>
    have e : View.dash ((View.new d).full a.1) = a.1 := keyOf_nospace (by simpa [View.full, View.new] using h a (by simp))
    simp only [putTrees, List.foldl_cons, sets, List.map_cons] at ih ⊢
    rw [ih _ (fun b hb => h b (by simp [hb]))]
    simp only [putTree, View.set, e]
    rfl

/-- **C45** After loading a map into an empty store, `Store.MustGet` answers for each leaf, in every iteration order, if no leaf
path is empty or a string prefix of another. (`C38_store_mustGet_fails`: this is needed.) -/
theorem C45_load (str : κ → Str) {s : Store α κ} (hs : s.loading = false) (ht : s.tree = Tree.new) (prefix' : Option Str)
    (flat : Option Bool) (src : Source α κ) {L : List (List Str × Any α κ)} (hL : src.leaves (flat.getD s.flatten) str = some L)
    (hne : flat.getD s.flatten = true → src.NE str)
    (hroute : ∀ l x, (l, x) ∈ L → NoRoute s.view.delim (leafKey s.view.delim (s.loadAt prefix') l))
    (hnd : L.Pairwise (fun a b => ¬ leafKey s.view.delim (s.loadAt prefix') a.1 <+: leafKey s.view.delim (s.loadAt prefix') b.1 ∧
      ¬ leafKey s.view.delim (s.loadAt prefix') b.1 <+: leafKey s.view.delim (s.loadAt prefix') a.1))
    {l : List Str} {x : Any α κ} (hl : (l, x) ∈ L) (hnil : leafKey s.view.delim (s.loadAt prefix') l ≠ [])
    (p : Str) (hp : s.view.full p = leafKey s.view.delim (s.loadAt prefix') l) :
    (s.load str prefix' flat src).1.mustGet p = .ok x := by
  obtain ⟨s', e, et, ev, -⟩ := C29_load_is_sets str s hs prefix' flat src hL hne
  rw [e]
  have hsp : ∀ a ∈ leafPuts s.view.delim (s.loadAt prefix') L, ' ' ∉ a.1 := by
    rintro ⟨q, y⟩ ha
    obtain ⟨l, -, rfl⟩ := mem_leafPuts.mp ha
    simp only [leafKey, View.dash, List.mem_map, not_exists, not_and]
    intro c _
    split <;> simp_all
  have hn : ((leafPuts s.view.delim (s.loadAt prefix') L).map (·.1)).Nodup := by
    simp only [leafPuts, List.map_map]
    refine List.pairwise_map.mpr (hnd.imp ?_)
    intro a b hab e
    simp only [Function.comp] at e
    exact hab.1 (e ▸ List.prefix_refl _)
  obtain ⟨L1, L2, rfl⟩ := List.append_of_mem hl
  rw [putTrees_sets s.view.delim _ _ hsp, ht] at et
  have eh : (leafPuts s.view.delim (s.loadAt prefix') (L1 ++ (l, x) :: L2)).map (fun a => (View.new s.view.delim, a.1, a.2)) =
      (leafPuts s.view.delim (s.loadAt prefix') L1).map (fun a => (View.new s.view.delim, a.1, a.2)) ++
        (View.new s.view.delim, leafKey s.view.delim (s.loadAt prefix') l, x) ::
        (leafPuts s.view.delim (s.loadAt prefix') L2).map (fun a => (View.new s.view.delim, a.1, a.2)) := by
    simp [leafPuts]
  have keyOf_new : ∀ a ∈ leafPuts s.view.delim (s.loadAt prefix') (L1 ++ (l, x) :: L2), keyOf (View.new s.view.delim) a.1 = a.1 :=
    fun a ha => keyOf_nospace (v := View.new s.view.delim) (p := a.1) (by simpa [View.full, View.new] using hsp a ha)
  have hall : ∀ a ∈ leafPuts s.view.delim (s.loadAt prefix') (L1 ++ (l, x) :: L2), NoRoute s.view.delim a.1 := by
    rintro ⟨q, y⟩ ha
    obtain ⟨l', h1, rfl⟩ := mem_leafPuts.mp ha
    exact hroute l' y h1
  have hmem : (leafKey s.view.delim (s.loadAt prefix') l, x) ∈ leafPuts s.view.delim (s.loadAt prefix') (L1 ++ (l, x) :: L2) :=
    mem_leafPuts.mpr ⟨l, hl, rfl⟩
  have ek := keyOf_new _ hmem
  simp only at ek
  have hread : s'.view.mustGet s'.tree p = .ok x := by
    rw [ev, et, ← putTrees_sets s.view.delim _ _ hsp]
    exact putTrees_read Reach.new hall (lastWrite_of_nodup hn (by rw [hp]; exact hmem))
  obtain ⟨f, hf⟩ := get_of_mustGet hread
  have hL1 : ∀ k y, (k, y) ∈ assigns ((leafPuts s.view.delim (s.loadAt prefix') L1).map (fun a => (View.new s.view.delim, a.1, a.2))) →
      ¬ leafKey s.view.delim (s.loadAt prefix') l <+: k := by
    intro k y hk
    simp only [assigns, List.map_map, List.mem_map, Function.comp, Prod.mk.injEq] at hk
    obtain ⟨a, ha, hk, -⟩ := hk
    rw [keyOf_new a (by rw [leafPuts_append]; exact List.mem_append_left _ ha)] at hk
    obtain ⟨b, hb, rfl⟩ := List.mem_map.mp ha
    rw [← hk]
    exact ((List.pairwise_append.mp hnd).2.2 b hb (l, x) (by simp)).2
  obtain ⟨y, f', h1, h2⟩ := C04_found_history_partial
    ((leafPuts s.view.delim (s.loadAt prefix') L1).map (fun a => (View.new s.view.delim, a.1, a.2)))
    ((leafPuts s.view.delim (s.loadAt prefix') L2).map (fun a => (View.new s.view.delim, a.1, a.2)))
    (View.new s.view.delim) (leafKey s.view.delim (s.loadAt prefix') l) x s.view (by
      rw [← eh]
      intro a ha
      obtain ⟨b, hb, rfl⟩ := List.mem_map.mp ha
      simp only [keyOf_new b hb]
      exact hall b hb) (by
      intro y hy
      rw [ek] at hy
      exact hL1 _ y hy (List.prefix_refl _)) p (by rw [ek, hp])
  rw [← eh, ← et, ← ev] at h1
  rw [C45_mustGet_get, hf]
  have : f = true := by
    simp only [get] at hf
    rw [hf] at h1
    cases h1
    rw [h2, ek]
    exact .inr ⟨hnil, hL1⟩
  rw [this]
  rfl

/-- **C45** without the condition is false: `Set("apple", 1); Set("app", 2); MustGet("app")` is nil, although in the other
order it is 2. -/
theorem C45_set_fails : ∃ s s1 s2 s1' s2' : S0, s = Store.new '.' false ⟨[], [], []⟩ ∧
    (∃ ev old, s.set "apple".toList (.atom 1) = .ok (s1, ev, old)) ∧ (∃ ev old, s1.set "app".toList (.atom 2) = .ok (s2, ev, old)) ∧
    (∃ ev old, s.set "app".toList (.atom 2) = .ok (s1', ev, old)) ∧ (∃ ev old, s1'.set "apple".toList (.atom 1) = .ok (s2', ev, old)) ∧
    isNilA (s2.mustGet "app".toList) = true ∧ isAtom 2 (s2'.mustGet "app".toList) = true := by
  refine ⟨_, _, _, _, _, rfl, ⟨_, _, rfl⟩, ⟨_, _, rfl⟩, ⟨_, _, rfl⟩, ⟨_, _, rfl⟩, ?_, ?_⟩ <;> decide +kernel

/-! ### Examples -/

/-- Three sets: "app.log" is on no branch, "app" is on one. -/
def exS45 : S0 := (((Store.new '.' false ⟨[], [], []⟩ : S0).setKV "apple".toList (.atom 1) true []).1.setKV "app.x".toList (.atom 2) true []).1
example : ∃ s' ev old, exS45.set "app.log".toList (.atom 5) = .ok (s', ev, old) ∧ isAtom 5 (s'.mustGet "app.log".toList) = true :=
  ⟨_, _, _, rfl, by decide +kernel⟩
example : exS45.OnBranch "app".toList :=
  ⟨by decide +kernel, .inl ⟨_, rfl, rfl⟩⟩
example : ∃ s' ev old, exS45.set "app".toList (.atom 5) = .ok (s', ev, old) ∧ isNilA (s'.mustGet "app".toList) = true :=
  ⟨_, _, _, rfl, by decide +kernel⟩
example : exS45.tree.contents (exS45.view.full "apple".toList) ≠ none ∧ exS45.view.full "apple".toList ≠ View.dash (exS45.view.full "app".toList) := by
  constructor
  · intro h; cases h
  · decide +kernel

/-- A map for `C45_load`. -/
example : isAtom 2 (((S0.new true).load itoa none none (.once (some [("app".toList, .map [("log".toList, .atom 1), ("debug".toList, .atom 2)]),
    ("name".toList, .atom 3)]))).1.mustGet "app.debug".toList) = true := by decide +kernel

end Store
end Verif

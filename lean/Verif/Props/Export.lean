import Verif.Lemmas.Export
import Verif.Props.Load
import Verif.Props.Handlers
/-
C19, C20, C28, C38: exporting a trie as a map, saving, and loading an export.
-/
namespace Verif
variable {α κ : Type}

/-! ## C20 -/

/-- **C20** Splitting dotted keys gives the same nested map for every iteration order of the flat map. -/
theorem C20_order_independent (d : Char) {m m' : SMap α κ} (hp : m.Perm m') (hnd : (m.map (·.1)).Nodup)
    (hv : ∀ a ∈ m, a.2.isMap = false) : SameMap (splitCompactKeys d m) (splitCompactKeys d m') := by
  have hnd' : (m'.map (·.1)).Nodup := (hp.map _).nodup_iff.mp hnd
  have hv' : ∀ a ∈ m', a.2.isMap = false := fun a ha => hv a (hp.mem_iff.mpr ha)
  exact (splitCompactKeys_spec d m hnd hv).same (splitCompactKeys_spec d m' hnd' hv')
    (fun a => (hp.map _).mem_iff)

/-- **C20** What the nested map is: a key's components lead to its value exactly when no other key is a
proper component-prefix of it, and nothing else is a value. -/
theorem C20_values (d : Char) {m : SMap α κ} (hnd : (m.map (·.1)).Nodup) (hv : ∀ a ∈ m, a.2.isMap = false) (ks : List Str)
    (x : Any α κ) : status (splitCompactKeys d m) ks = some (some x) ↔
      ∃ k, (k, x) ∈ m ∧ ks = splitOn d k ∧ ∀ a ∈ m, splitOn d a.1 <+: splitOn d k → a.1 = k := by
  rw [(splitCompactKeys_spec d m hnd hv).leaf]
  constructor
  · rintro ⟨h1, h2⟩
    obtain ⟨⟨k, y⟩, hb, e⟩ := List.mem_map.mp h1
    cases e
    exact ⟨k, hb, rfl, fun a ha hp => splitOn_inj (h2 _ (List.mem_map_of_mem ha) hp)⟩
  · rintro ⟨k, hb, rfl, h2⟩
    refine ⟨List.mem_map.mpr ⟨(k, x), hb, rfl⟩, ?_⟩
    intro a ha hp
    obtain ⟨b, hb', rfl⟩ := List.mem_map.mp ha
    rw [h2 b hb' hp]

/-- The restriction on values is needed: with a map as value the result depends on the iteration order. -/
theorem C20_map_value_fails : ∃ m m' : SMap Nat Nat, m.Perm m' ∧ (m.map (·.1)).Nodup ∧
    (status (splitCompactKeys '.' m) ["a".toList, "x".toList]).isSome = true ∧
    (status (splitCompactKeys '.' m') ["a".toList, "x".toList]).isSome = false := by
  refine ⟨[("a".toList, .map [("y".toList, .atom 1)]), ("a.x".toList, .atom 2)],
    [("a.x".toList, .atom 2), ("a".toList, .map [("y".toList, .atom 1)])], List.Perm.swap _ _ _, ?_, ?_, ?_⟩ <;> decide +kernel

/-! ## C19 -/

section
variable {P : Str → Prop}

theorem getM_root {v : View} {t : Tree (Any α κ)} (h : Reach P t) (hpre : v.pre = []) (o : MOpts α κ) :
    v.getM t [] o = .ok (some (if o.noFlatten then splitCompactKeys v.delim ((t.root.nodes []).filterMap (selected v.delim o))
      else (t.root.nodes []).filterMap (selected v.delim o))) ∧
    (((t.root.nodes []).filterMap (selected v.delim o)).map (·.1)).Nodup := by
  have hp : ∀ a ∈ t.root.nodes [], a.2.core.leaf = true → a.2.core.pathS = utf8 a.1 := fun a ha =>
    (h.inv keyInv_leaf).2 a.1 a.2.core ((Tree.contents_node h.ok).mpr ⟨a.2, ha, rfl⟩)
  have hnd : ((t.root.nodes []).map (·.1)).Nodup := Node.keys_nodup h.ok.wf []
  constructor
  · simp only [View.getM, hpre, utf8_nil, List.length_nil, true_or, if_true]
    rw [Node.walk_eq [], foldGo_rootStep _ _ hp hnd (by simp)]
    simp
  · refine hnd.sublist ?_
    generalize t.root.nodes [] = L
    induction L with
    | nil => simp
    | cons a L ih =>
      simp only [List.filterMap_cons]
      unfold selected at ih ⊢
      split
      · exact ih.trans (List.sublist_cons_self _ _)
      · rename_i b hb
        split at hb
        · cases hb; exact List.Sublist.cons_cons _ ih
        · simp at hb

theorem mem_selected {t : Tree (Any α κ)} (h : Reach P t) (d : Char) (o : MOpts α κ) (f : Core (Any α κ) → Bool)
    (hf : ∀ n, o.pass n = f n.core) (k : Str) (x : Any α κ) :
    (k, x) ∈ (t.root.nodes []).filterMap (selected d o) ↔
      ∃ c, t.contents k = some c ∧ c.leaf = true ∧ f c = true ∧ endsW d k = false ∧ c.data = x := by
  rw [List.mem_filterMap]
  constructor
  · rintro ⟨⟨q, n⟩, h1, h2⟩
    unfold selected at h2
    split at h2
    · rename_i hc
      cases h2
      simp only [Bool.and_eq_true, Bool.not_eq_true', hf] at hc
      exact ⟨n.core, (Tree.contents_node h.ok).mpr ⟨n, h1, rfl⟩, hc.1.1, hc.2, hc.1.2, rfl⟩
    · simp at h2
  · rintro ⟨c, h1, h2, h3, h4, h5⟩
    obtain ⟨n, hn, rfl⟩ := (Tree.contents_node h.ok).mp h1
    refine ⟨(k, n), hn, ?_⟩
    unfold selected
    simp [h2, h4, hf, h3, h5]

/-- **C19** `GetM("")` on a trie without prefix returns exactly the map from full path to data of the leaf
entries whose path does not end with the delimiter, after every history. -/
theorem C19_getM_exact {v : View} {t : Tree (Any α κ)} (h : Reach P t) (hpre : v.pre = []) :
    ∃ m, v.getM t [] MOpts.default = .ok (some m) ∧ (m.map (·.1)).Nodup ∧
      ∀ k x, (k, x) ∈ m ↔ ∃ c, t.contents k = some c ∧ c.leaf = true ∧ endsW v.delim k = false ∧ c.data = x := by
  obtain ⟨h1, h2⟩ := getM_root h hpre MOpts.default
  refine ⟨_, h1, h2, fun k x => ?_⟩
  simp only [MOpts.default, Bool.false_eq_true, if_false]
  rw [mem_selected h v.delim _ (fun _ => true) (fun _ => rfl)]
  simp

/-- **C19** `GetR("")` returns the same map, on every view. -/
theorem C19_getR_exact {v : View} {t : Tree (Any α κ)} (h : Reach P t) :
    ∃ m, v.getR t [] = .ok (some m) ∧ (m.map (·.1)).Nodup ∧
      ∀ k x, (k, x) ∈ m ↔ ∃ c, t.contents k = some c ∧ c.leaf = true ∧ endsW v.delim k = false ∧ c.data = x := by
  obtain ⟨m, h1, h2, h3⟩ := C19_getM_exact (v := { v with pre := [] }) h rfl
  refine ⟨m, ?_, h2, h3⟩
  have hp : ∀ a ∈ t.root.nodes [], a.2.core.leaf = true → a.2.core.pathS = utf8 a.1 := fun a ha =>
    (h.inv keyInv_leaf).2 a.1 a.2.core ((Tree.contents_node h.ok).mpr ⟨a.2, ha, rfl⟩)
  rw [(getM_root h rfl _).1] at h1
  simp only [MOpts.default, Bool.false_eq_true, if_false, Except.ok.injEq, Option.some.injEq] at h1
  simp only [View.getR, true_or, if_true]
  rw [Node.walk_eq [], collectR _ _ hp (Node.keys_nodup h.ok.wf []) (by simp), ← h1]
  rfl

/-- **C19** Every exported key reads back as the exported value. -/
theorem C19_readback {v : View} {t : Tree (Any α κ)} (h : Reach (NoRoute v.delim) t) (hpre : v.pre = []) {m : SMap α κ}
    (hm : v.getM t [] MOpts.default = .ok (some m)) {k : Str} {x : Any α κ} (hk : mget m k = some x)
    (r : View) (hr : r.delim = v.delim) (p : Str) (hp : r.full p = k) : r.mustGet t p = .ok x := by
  obtain ⟨m', h1, h2, h3⟩ := C19_getM_exact h hpre
  rw [hm] at h1
  cases h1
  obtain ⟨c, hc, -, -, rfl⟩ := (h3 k x).mp (by
    clear h3 hm h2
    induction m with
    | nil => simp [mget, assoc] at hk
    | cons a m ih =>
      obtain ⟨k', v'⟩ := a
      simp only [mget, assoc] at hk ih
      split at hk
      · rename_i e; cases hk; simp [e]
      · exact List.mem_cons_of_mem _ (ih hk))
  have hpl : t.Plain r.delim := by rw [hr]; exact h.plain
  rw [mustGet_hit h.ok hpl (resolve_at (by rw [hp]; exact hc))]
  cases hd : c.hasData with
  | true => rfl
  | false => rw [(h.inv noData_zero).2 _ _ hc hd]; rfl

end

def isPanic {β : Type} (x : Go β) : Bool :=
  match x with
  | .error .panic => true
  | _ => false

/-- The keys of an exported map. -/
def mkeys (x : Go (Option (SMap α κ))) : List Str :=
  match x with
  | .ok (some m) => m.map (·.1)
  | _ => []

def tset (t : Tree (Any Nat Nat)) (l : List String) : Tree (Any Nat Nat) :=
  l.foldl (fun t k => ((View.new '.').set t k.toList (.atom 1)).1) t

/-- The restriction to leaf entries matters: data at a branch is not exported. After `Set("ab")`,
`Set("a")` only "ab" is exported although "a" reads back. -/
theorem C19_branch_data_lost : ∃ (v : View) (t : Tree (Any Nat Nat)), t = tset Tree.new ["ab", "a"] ∧
    (match v.mustGet t "a".toList with | .ok (.atom 1) => true | _ => false) = true ∧
    mkeys (v.getM t [] MOpts.default) = ["ab".toList] :=
  ⟨View.new '.', _, rfl, by decide +kernel, by decide +kernel⟩

/-- The restriction to no prefix matters: with prefix "app", `GetM("")` cuts one rune too many from every
key of the whole tree, also from keys outside the prefix ... -/
theorem C19_prefix_fails : ∃ (v : View) (t : Tree (Any Nat Nat)), v.pre = "app".toList ∧ t = tset Tree.new ["app.debug", "zzz.other"] ∧
    mkeys (v.getM t [] MOpts.default) = ["ebug".toList, "ther".toList] :=
  ⟨(View.new '.').withPrefix ["app".toList], _, rfl, rfl, by decide +kernel⟩

/-- ... and panics if some leaf path is exactly one byte longer than the prefix. -/
theorem C19_prefix_panics : ∃ (v : View) (t : Tree (Any Nat Nat)), v.pre = "app".toList ∧ t = tset Tree.new ["app.debug", "zzzz"] ∧
    isPanic (v.getM t [] MOpts.default) = true :=
  ⟨(View.new '.').withPrefix ["app".toList], _, rfl, rfl, by decide +kernel⟩

/-- `GetM` and `GetR` of a non-empty path on an empty trie dereference nil. -/
theorem C19_empty_panics : ∃ v : View, isPanic (v.getM (Tree.new : Tree (Any Nat Nat)) "a".toList MOpts.default) = true ∧
    isPanic (v.getR (Tree.new : Tree (Any Nat Nat)) "a".toList) = true :=
  ⟨View.new '.', by decide +kernel, by decide +kernel⟩

/-! ## C28 Save -/

namespace Store

/-- **C28** What `Save` encodes is, in every iteration order, the nested map of exactly the modified leaf
entries, less those below the components of another one. Partial: for a store without prefix
(`C19_prefix_fails`, `C19_prefix_panics` show what happens otherwise) and values that are no maps. -/
theorem C28_save_partial {P : Str → Prop} {s : Store α κ} (h : Reach P s.tree) (hpre : s.view.pre = [])
    (hv : ∀ k c, s.tree.contents k = some c → c.leaf = true → c.modified = true → c.data.isMap = false) :
    ∃ m flat : SMap α κ, s.saveMap = .ok (some m) ∧ (flat.map (·.1)).Nodup ∧
      (∀ k x, (k, x) ∈ flat ↔ ∃ c, s.tree.contents k = some c ∧ c.leaf = true ∧ c.modified = true ∧
        endsW s.view.delim k = false ∧ c.data = x) ∧
      (∀ ks x, status m ks = some (some x) ↔
        ∃ k, (k, x) ∈ flat ∧ ks = splitOn s.view.delim k ∧ ∀ a ∈ flat, splitOn s.view.delim a.1 <+: splitOn s.view.delim k → a.1 = k) ∧
      (∀ flat', flat.Perm flat' → SameMap m (splitCompactKeys s.view.delim flat')) := by
  obtain ⟨h1, h2⟩ := getM_root h hpre ⟨false, true, some (fun n => n.core.modified)⟩
  have h3 := mem_selected h s.view.delim ⟨false, true, some (fun n => n.core.modified)⟩ (·.modified) (fun _ => rfl)
  simp only [if_true] at h1
  have hvv : ∀ a ∈ (s.tree.root.nodes []).filterMap (selected s.view.delim ⟨false, true, some (fun n => n.core.modified)⟩), a.2.isMap = false := by
    rintro ⟨k, x⟩ ha
    obtain ⟨c, hc, hl, hm, -, rfl⟩ := (h3 k x).mp ha
    exact hv k c hc hl hm
  exact ⟨_, _, h1, h2, h3, fun ks x => C20_values s.view.delim h2 hvv ks x, fun flat' hp => C20_order_independent s.view.delim hp h2 hvv⟩

def sset (s : S0) (k : String) (n : Nat) : S0 :=
  match s.set k.toList (.atom n) with
  | .ok r => r.1
  | .error _ => s

/-- `Save` loses a modified entry that became a branch: after `Set("ab")`, `Set("a")` only "ab" is saved. -/
theorem C28_save_loses_branch : ∃ s : S0, s = sset (sset (S0.new false) "ab" 1) "a" 2 ∧
    isAtom 2 (s.view.mustGet s.tree "a".toList) = true ∧
    (s.tree.contents "a".toList).map (·.modified) = some true ∧ mkeys s.saveMap = ["ab".toList] :=
  ⟨_, rfl, by decide +kernel, by decide +kernel, by decide +kernel⟩

/-- `Save` loses a modified leaf below the components of another: of "a" and "a.b" only "a" is saved. -/
theorem C28_save_loses_below : ∃ s : S0, s = sset (sset (S0.new false) "a" 1) "a.b" 2 ∧
    isAtom 2 (s.mustGet "a.b".toList) = true ∧
    (match s.saveMap with
      | .ok (some m) => (status m ["a".toList, "b".toList]).isSome
      | _ => true) = false :=
  ⟨_, rfl, by decide +kernel, by decide +kernel⟩

/-! ## C38 -/

/-- Values that `Load` stores as they are. -/
def plainVal (flatten : Bool) : Any α κ → Bool
  | .nil | .atom _ => true
  | .list _ | .maps _ | .amaps _ => !flatten
  | .map _ | .amap _ | .pkg _ => false

theorem leaves_plain {fl : Bool} {str : κ → Str} {x : Any α κ} (h : plainVal fl x = true) : leaves fl str x = [([], x)] := by
  cases x <;> simp_all [plainVal, leaves]

theorem plain_keysNE {str : κ → Str} {x : Any α κ} (h : plainVal true x = true) : keysNE str x := by
  cases x <;> simp_all [plainVal, keysNE]

theorem plain_nomap {fl : Bool} {x : Any α κ} (h : plainVal fl x = true) : x.isMap = false := by
  cases x <;> simp_all [plainVal, Any.isMap]

/-- **C38** Loading the nested export of a store into an empty store (in any iteration order, with any
handlers and slice mode) gives a store whose trie answers `MustGet` as that of the exported one for every exported key.
Partial: besides the two conditions of the property (no key is a component-prefix of another, no value is a
map), the exported keys must have no empty component and no blank, and a value must not be a
`map[any]any`, a `ValPkg` or, if the target flattens slices, a slice. `C38_empty_component_fails` and
`C38_map_value_fails` show that these are needed. `Store.MustGet` itself may differ (`C38_store_mustGet_fails`). -/
theorem C38_roundtrip_partial (str : κ → Str) {s : Store α κ} (h : Reach (NoRoute s.view.delim) s.tree) (hpre : s.view.pre = [])
    (fl : Bool) (hs : Handlers)
    (hkey : ∀ k c, s.tree.contents k = some c → c.leaf = true → endsW s.view.delim k = false →
      ([] ∉ splitOn s.view.delim k ∧ ' ' ∉ k ∧ plainVal fl c.data = true) ∧
      ∀ k' c', s.tree.contents k' = some c' → c'.leaf = true → endsW s.view.delim k' = false →
        splitOn s.view.delim k' <+: splitOn s.view.delim k → k' = k) :
    ∃ (flat m : SMap α κ), s.view.getM s.tree [] MOpts.default = .ok (some flat) ∧
      s.view.getM s.tree [] ⟨false, true, none⟩ = .ok (some m) ∧
      ∀ m', SameMap m m' → uniqM m' → ∀ k x, mget flat k = some x →
        s.view.mustGet s.tree k = .ok x ∧
        ∃ s' : Store α κ, s' = ((Store.new s.view.delim fl hs).load str none none (.once (some m'))).1 ∧
          s'.view.mustGet s'.tree k = .ok x := by
  obtain ⟨flat, g1, g2, g3⟩ := C19_getM_exact h hpre
  have hk1 : ∀ k x, (k, x) ∈ flat → ([] ∉ splitOn s.view.delim k ∧ ' ' ∉ k ∧ plainVal fl x = true) := by
    intro k x hx
    obtain ⟨c, a1, a2, a3, rfl⟩ := (g3 k x).mp hx
    exact (hkey k c a1 a2 a3).1
  have hk2 : ∀ k x, (k, x) ∈ flat → ∀ a ∈ flat, splitOn s.view.delim a.1 <+: splitOn s.view.delim k → a.1 = k := by
    rintro k x hx ⟨k', x'⟩ ha
    obtain ⟨c, a1, a2, a3, rfl⟩ := (g3 k x).mp hx
    obtain ⟨c', b1, b2, b3, rfl⟩ := (g3 k' x').mp ha
    exact (hkey k c a1 a2 a3).2 k' c' b1 b2 b3
  have hroute : ∀ k x, (k, x) ∈ flat → NoRoute s.view.delim k := by
    intro k x hx
    obtain ⟨c, a1, -⟩ := (g3 k x).mp hx
    exact h.plain k c a1
  have g4 : s.view.getM s.tree [] ⟨false, true, none⟩ = .ok (some (splitCompactKeys s.view.delim flat)) := by
    have e1 := (getM_root h hpre MOpts.default).1
    have e2 := (getM_root h hpre ⟨false, true, none⟩).1
    rw [g1] at e1
    simp only [MOpts.default, Bool.false_eq_true, if_false, Except.ok.injEq, Option.some.injEq] at e1
    rw [e2, e1]
    rfl
  have hv : ∀ a ∈ flat, a.2.isMap = false := by
    rintro ⟨k, x⟩ ha
    exact plain_nomap (hk1 k x ha).2.2
  have hval := fun ks x => C20_values s.view.delim g2 hv ks x
  refine ⟨flat, _, g1, g4, fun m' hm hu k x hx => ?_⟩
  have hx' : (k, x) ∈ flat := (assoc_eq_some g2).mp hx
  have hfull : s.view.full k = k := by simp [View.full, hpre]
  refine ⟨C19_readback h hpre g1 hx s.view rfl k hfull, ?_⟩
  have hst : ∀ ks y, status m' ks = some (some y) ↔ ∃ k, (k, y) ∈ flat ∧ ks = splitOn s.view.delim k := by
    intro ks y
    rw [← hm ks, hval]
    constructor
    · rintro ⟨k, a1, a2, -⟩; exact ⟨k, a1, a2⟩
    · rintro ⟨k, a1, a2⟩; exact ⟨k, a1, a2, hk2 k y a1⟩
  obtain ⟨l1, l2⟩ := leavesM_status fl str m' hu (fun ks y hy => by
    obtain ⟨k, a1, -⟩ := (hst ks y).mp hy
    exact leaves_plain (hk1 k y a1).2.2)
  have hjoin : ∀ k x, (k, x) ∈ flat → leafKey s.view.delim [] (splitOn s.view.delim k) = k := by
    intro k x hx
    obtain ⟨b1, b2, -⟩ := hk1 k x hx
    unfold leafKey
    have : joinSpec s.view.delim ([] :: splitOn s.view.delim k) = k := by
      rw [joinSpec_eq, List.filter_cons_of_neg (by simp), List.filter_eq_self.mpr, joinWith_splitOn]
      intro w hw
      simp only [decide_eq_true_eq]
      rintro rfl
      exact b1 hw
    rw [this]
    have := keyOf_nospace (v := s.view) (p := k) (by simpa [View.full, hpre] using b2)
    simpa [keyOf, View.dash, View.full, hpre] using this
  have hL : ∀ l y, (l, y) ∈ leavesM fl str m' → ∃ k, (k, y) ∈ flat ∧ l = splitOn s.view.delim k ∧ leafKey s.view.delim [] l = k := by
    intro l y hl
    obtain ⟨k, a1, a2⟩ := (hst l y).mp ((l1 l y).mp hl)
    exact ⟨k, a1, a2, by rw [a2]; exact hjoin k y a1⟩
  have hne : fl = true → keysNEM str m' := by
    intro hfl
    refine keysNEM_status str m' hu ?_ ?_
    · intro ks st hst'
      have : ks = [] ∨ ∃ k x, (k, x) ∈ flat ∧ ks <+: splitOn s.view.delim k := by
        cases st with
        | none =>
          rw [← hm ks, (splitCompactKeys_spec s.view.delim flat g2 hv).dir] at hst'
          rcases hst'.1 with e | ⟨a, ha, hp⟩
          · exact .inl e
          · obtain ⟨⟨k, x⟩, hb, rfl⟩ := List.mem_map.mp ha
            exact .inr ⟨k, x, hb, hp⟩
        | some y =>
          obtain ⟨k, a1, a2⟩ := (hst ks y).mp hst'
          exact .inr ⟨k, y, a1, a2 ▸ List.prefix_refl _⟩
      rcases this with rfl | ⟨k, x, hx, hp⟩
      · simp
      · exact fun h' => (hk1 k x hx).1 (hp.subset h')
    · intro ks y hy
      obtain ⟨k, a1, -⟩ := (hst ks y).mp hy
      have := (hk1 k y a1).2.2
      exact plain_keysNE (hfl ▸ this)
  have hload := (C29_load str (s := Store.new s.view.delim fl hs) rfl Reach.new none none (.once (some m'))
    (L := leavesM fl str m') rfl hne (fun l y hl => by
      obtain ⟨k, a1, a2, a3⟩ := hL l y hl
      exact (congrArg (NoRoute s.view.delim) a3).mpr (hroute k y a1)) (by
      have : (leavesM fl str m').map (fun a => leafKey s.view.delim [] a.1) =
          ((leavesM fl str m').map (·.1)).map (joinWith s.view.delim) := by
        rw [List.map_map]
        refine List.map_congr_left ?_
        rintro ⟨l, y⟩ hl
        obtain ⟨k, a1, a2, a3⟩ := hL l y hl
        simp only [Function.comp, a3]
        rw [a2, joinWith_splitOn]
      refine (congrArg List.Nodup this).mpr ?_
      refine List.Nodup.map_on ?_ l2
      intro a ha b hb e
      obtain ⟨⟨l, y⟩, hl, rfl⟩ := List.mem_map.mp ha
      obtain ⟨⟨l', y'⟩, hl', rfl⟩ := List.mem_map.mp hb
      obtain ⟨k, a1, a2, -⟩ := hL l y hl
      obtain ⟨k', a1', a2', -⟩ := hL l' y' hl'
      simp only at e ⊢
      rw [a2, a2', joinWith_splitOn, joinWith_splitOn] at e
      rw [a2, a2', e]) (View.new s.view.delim) rfl k).1
  have hv' : ((Store.new s.view.delim fl hs).load str none none (.once (some m'))).1.view = View.new s.view.delim := by
    obtain ⟨s', e, -, hvw, -⟩ := C29_load_is_sets str (Store.new s.view.delim fl hs : Store α κ) rfl none none (.once (some m'))
      (L := leavesM fl str m') rfl hne
    rw [e]; exact hvw
  refine ⟨_, rfl, ?_⟩
  rw [hv']
  refine hload (splitOn s.view.delim k) x ((l1 _ _).mpr ((hst _ _).mpr ⟨k, hx', rfl⟩)) ?_
  exact (show (View.new s.view.delim).full k = k by simp [View.full, View.new]).trans (hjoin k x hx').symm

/-- An empty component is lost: "a..b" is loaded as "a.b". -/
theorem C38_empty_component_fails : ∃ s : S0, s = sset (S0.new false) "a..b" 1 ∧
    (match s.view.getM s.tree [] ⟨false, true, none⟩ with
      | .ok (some m) => isNilA (((S0.new false).load itoa none none (.once (some m))).1.mustGet "a..b".toList)
      | _ => false) = true ∧ isAtom 1 (s.mustGet "a..b".toList) = true :=
  ⟨_, rfl, by decide +kernel, by decide +kernel⟩

/-- A map stored as a value is opened by `Load`: its key no longer holds it. -/
theorem C38_map_value_fails : ∃ s : S0, s = (((S0.new false).setKV "a".toList (.map [("x".toList, .atom 1)]) true []).1) ∧
    (match s.view.getM s.tree [] ⟨false, true, none⟩ with
      | .ok (some m) => isNilA (((S0.new false).load itoa none none (.once (some m))).1.mustGet "a".toList)
      | _ => false) = true ∧ isNilA (s.mustGet "a".toList) = false :=
  ⟨_, rfl, by decide +kernel, by decide +kernel⟩

/-- `Store.MustGet` also wants the loaded entry to be a leaf: with "app" and "apple", if the map is iterated in an unlucky
order, "app" ends up on a branch, and reads as nil. -/
theorem C38_store_mustGet_fails : ∃ (s : S0) (m m' : SMap Nat Nat), s = sset (sset (S0.new false) "app" 1) "apple" 2 ∧
    isAtom 1 (s.mustGet "app".toList) = true ∧ s.view.getM s.tree [] ⟨false, true, none⟩ = .ok (some m) ∧ m.Perm m' ∧
    isAtom 1 (((S0.new false).load itoa none none (.once (some m))).1.mustGet "app".toList) = true ∧
    isNilA (((S0.new false).load itoa none none (.once (some m'))).1.mustGet "app".toList) = true :=
  ⟨_, [("app".toList, .atom 1), ("apple".toList, .atom 2)], [("apple".toList, .atom 2), ("app".toList, .atom 1)], rfl, by decide +kernel, rfl,
    List.Perm.swap _ _ _, by decide +kernel, by decide +kernel⟩

/-- A key that extends another by a component hides it: with "a" and "a.b" stored, only "a" survives. -/
theorem C38_component_prefix_fails : ∃ s : S0, s = sset (sset (S0.new false) "a" 1) "a.b" 2 ∧
    (match s.view.getM s.tree [] ⟨false, true, none⟩ with
      | .ok (some m) => isNilA (((S0.new false).load itoa none none (.once (some m))).1.mustGet "a.b".toList)
      | _ => false) = true ∧ isAtom 2 (s.mustGet "a.b".toList) = true :=
  ⟨_, rfl, by decide +kernel, by decide +kernel⟩

section examples
def exE : S0 := sset (sset (sset (S0.new false) "app.debug" 1) "app.log.file" 2) "name" 3
/-- A store satisfying the hypotheses, and what is exported from it. -/
example : mkeys (exE.view.getM exE.tree [] MOpts.default) = ["name".toList, "app.debug".toList, "app.log.file".toList] ∨
    mkeys (exE.view.getM exE.tree [] MOpts.default) = ["app.debug".toList, "app.log.file".toList, "name".toList] := by decide +kernel
example : (exE.tree.root.entries []).all (fun a => !a.2.leaf || endsW '.' a.1 ||
    ((splitOn '.' a.1).all (fun w => !w.isEmpty) && !a.1.contains ' ' && plainVal true a.2.data &&
      (exE.tree.root.entries []).all (fun b => !b.2.leaf || endsW '.' b.1 || b.1 == a.1 || !(splitOn '.' b.1).isPrefixOf (splitOn '.' a.1)))) = true := by
  decide +kernel
example : (match exE.view.getM exE.tree [] ⟨false, true, none⟩ with
    | .ok (some m) => isAtom 2 (((S0.new true).load itoa none none (.once (some m))).1.mustGet "app.log.file".toList) &&
        isAtom 3 (((S0.new true).load itoa none none (.once (some m))).1.mustGet "name".toList)
    | _ => false) = true := by decide +kernel
example : mkeys (sset ((S0.new false).load itoa none none (.once (some [("a".toList, .atom 1), ("b".toList, .atom 2)]))).1 "b" 5).saveMap =
    ["b".toList] := by decide +kernel
end examples

end Store

section examples
/-- The hypotheses of C20 for a map with keys that extend each other. -/
example : let m : SMap Nat Nat := [("a.b.c".toList, .atom 1), ("a.b".toList, .atom 2), ("x".toList, .atom 3)]
    (m.map (·.1)).Nodup ∧ (∀ a ∈ m, a.2.isMap = false) ∧
    (status (splitCompactKeys '.' m) ["a".toList, "b".toList, "c".toList]).isNone = true ∧
    (status (splitCompactKeys '.' m) ["a".toList, "b".toList]).isSome = true := by
  refine ⟨by decide +kernel, by simp [Any.isMap], by decide +kernel, by decide +kernel⟩
end examples
end Verif

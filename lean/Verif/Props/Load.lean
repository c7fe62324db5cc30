import Verif.Lemmas.Load
import Verif.Props.Remove
/-
C29 loading and merging of nested maps.
-/
namespace Verif
variable {α κ : Type}

/-- `(l, x)` is a leaf of the map: following the keys `l` leads to the leaf value `x`. -/
def IsLeaf (fl : Bool) (str : κ → Str) (m : SMap α κ) (l : List Str) (x : Any α κ) : Prop :=
  (l, x) ∈ leavesM fl str m

theorem lastWrite_of_nodup {β : Type} {l : List (Str × β)} (h : (l.map (·.1)).Nodup) {q : Str} {x : β}
    (hx : (q, x) ∈ l) : lastWrite l q = some x := by
  induction l with
  | nil => simp at hx
  | cons a l ih =>
    obtain ⟨k, y⟩ := a
    simp only [List.map_cons, List.nodup_cons, List.mem_map, not_exists, not_and] at h
    simp only [List.mem_cons, Prod.mk.injEq] at hx
    rcases hx with ⟨rfl, rfl⟩ | hx
    · have : lastWrite l q = none := (lastWrite_none l q).mpr (fun z hz => h.1 _ hz rfl)
      simp [lastWrite, this]
    · simp [lastWrite, ih h.2 hx]

/-- Reading after a sequence of writes. -/
theorem putTrees_read {β : Type} [Inhabited β] {user : Bool} {t : Tree β} {r : View} (h : Reach (NoRoute r.delim) t)
    {l : List (Str × β)} (hl : ∀ a ∈ l, NoRoute r.delim a.1) {p : Str} {x : β}
    (hx : lastWrite l (r.full p) = some x) : r.mustGet (putTrees user t l) p = .ok x := by
  have h' := putTrees_reach h user hl
  obtain ⟨c, h1, h2, h3, _⟩ := (putTrees_spec h.ok user l).val _ _ hx
  rw [mustGet_hit h'.ok h'.plain (resolve_at h1), h2, h3]; rfl

theorem putTrees_frame {β : Type} [Inhabited β] {user : Bool} {t : Tree β} {r : View} (h : Reach (NoRoute r.delim) t)
    {l : List (Str × β)} (hl : ∀ a ∈ l, NoRoute r.delim a.1) {p : Str} {c : Core β}
    (hc : t.contents (r.full p) = some c) (hx : ∀ x, (r.full p, x) ∉ l) :
    r.query (putTrees user t l) p = r.query t p ∧ r.mustGet (putTrees user t l) p = r.mustGet t p := by
  have h' := putTrees_reach h user hl
  have h1 := (putTrees_spec h.ok user l).keep _ c ((lastWrite_none _ _).mpr hx) hc
  exact ⟨by rw [query_hit h'.ok h'.plain (resolve_at h1), query_hit h.ok h.plain (resolve_at hc)],
    by rw [mustGet_hit h'.ok h'.plain (resolve_at h1), mustGet_hit h.ok h.plain (resolve_at hc)]⟩

namespace Store

theorem mem_leafPuts {d : Char} {pos : Str} {L : List (List Str × Any α κ)} {q : Str} {x : Any α κ} :
    (q, x) ∈ leafPuts d pos L ↔ ∃ l, (l, x) ∈ L ∧ q = leafKey d pos l := by
  simp only [leafPuts, List.mem_map, Prod.mk.injEq]
  constructor
  · rintro ⟨⟨l, y⟩, h, rfl, rfl⟩; exact ⟨l, h, rfl⟩
  · rintro ⟨l, h, rfl⟩; exact ⟨(l, x), h, rfl, rfl⟩

/-! ## C29 Merge -/

/-- **C29** `Merge(at, m)` stores every leaf of `m` at the joined path of `at` and the keys leading to
it, in whatever order the maps are iterated, if those paths differ; it is read back through any view. Other
entries are unchanged. With slice flattening the keys must not be empty. -/
theorem C29_merge (str : κ → Str) {s : Store α κ} (h : Reach (NoRoute s.view.delim) s.tree) (pos : Str) (m : SMap α κ)
    (hne : s.flatten = true → keysNEM str m)
    (hroute : ∀ l x, IsLeaf s.flatten str m l x → NoRoute s.view.delim (leafKey s.view.delim pos l))
    (hnd : ((leavesM s.flatten str m).map (fun a => leafKey s.view.delim pos a.1)).Nodup)
    (r : View) (hr : r.delim = s.view.delim) (p : Str) :
    (∀ l x, IsLeaf s.flatten str m l x → r.full p = leafKey s.view.delim pos l →
      r.mustGet (s.merge str pos m).1.tree p = .ok x) ∧
    (∀ c, s.tree.contents (r.full p) = some c →
      (∀ l x, IsLeaf s.flatten str m l x → r.full p ≠ leafKey s.view.delim pos l) →
      r.query (s.merge str pos m).1.tree p = r.query s.tree p ∧
      r.mustGet (s.merge str pos m).1.tree p = r.mustGet s.tree p) := by
  rw [merge, loadMap_eq str false [] s (.inr rfl) pos m hne]
  simp only [loaded]
  rw [← hr] at h hroute hnd ⊢
  have hl : ∀ a ∈ leafPuts r.delim pos (leavesM s.flatten str m), NoRoute r.delim a.1 := by
    rintro ⟨q, x⟩ ha
    obtain ⟨l, h1, rfl⟩ := mem_leafPuts.mp ha
    exact hroute l x h1
  constructor
  · intro l x hx hp
    refine putTrees_read h hl (lastWrite_of_nodup ?_ (mem_leafPuts.mpr ⟨l, hx, hp⟩))
    simpa [leafPuts, List.map_map, Function.comp_def] using hnd
  · intro c hc hx
    refine putTrees_frame h hl hc (fun x hm => ?_)
    obtain ⟨l, h1, h2⟩ := mem_leafPuts.mp hm
    exact hx l x h1 h2

/-- **C29** Without the distinctness: among the leaves that share a path the one iterated last wins. -/
theorem C29_merge_last (str : κ → Str) {s : Store α κ} (h : Reach (NoRoute s.view.delim) s.tree) (pos : Str) (m : SMap α κ)
    (hne : s.flatten = true → keysNEM str m)
    (hroute : ∀ l x, IsLeaf s.flatten str m l x → NoRoute s.view.delim (leafKey s.view.delim pos l))
    (r : View) (hr : r.delim = s.view.delim) (p : Str) (x : Any α κ)
    (hx : lastWrite (leafPuts s.view.delim pos (leavesM s.flatten str m)) (r.full p) = some x) :
    r.mustGet (s.merge str pos m).1.tree p = .ok x := by
  rw [merge, loadMap_eq str false [] s (.inr rfl) pos m hne]
  simp only [loaded]
  rw [← hr] at h hroute hx ⊢
  refine putTrees_read h ?_ hx
  rintro ⟨q, x⟩ ha
  obtain ⟨l, h1, rfl⟩ := mem_leafPuts.mp ha
  exact hroute l x h1

/-- **C29** Merging is writing leaf by leaf: nothing but the tree changes, and the resulting tree is reachable. -/
theorem C29_merge_is_sets (str : κ → Str) (s : Store α κ) (pos : Str) (m : SMap α κ)
    (hne : s.flatten = true → keysNEM str m) :
    s.merge str pos m = ({ s with tree := (putTrees (!s.loading) s.tree
      (leafPuts s.view.delim pos (leavesM s.flatten str m))) }, []) := by
  rw [merge, loadMap_eq str false [] s (.inr rfl) pos m hne]; rfl

/-! ## C29 Load -/

/-- The leaves of what `Read` returns. -/
def pkgLeaves (fl : Bool) (str : κ → Str) : List (Str × ValPkg α κ) → List (List Str × Any α κ)
  | [] => []
  | (k, p) :: m => under k (leaves fl str p.value) ++ pkgLeaves fl str m

def pkgNE (str : κ → Str) (m : List (Str × ValPkg α κ)) : Prop := ∀ a ∈ m, a.1 ≠ [] ∧ keysNE str a.2.value

theorem loadDedicated_eq (str : κ → Str) (s : Store α κ) (h : s.loading = true) (pos : Str) (m : List (Str × ValPkg α κ))
    (hne : s.flatten = true → pkgNE str m) :
    loadDedicated str true s pos m = (s.loaded pos (pkgLeaves s.flatten str m), []) := by
  induction m generalizing s with
  | nil => rfl
  | cons a m ih =>
    obtain ⟨k, p⟩ := a
    simp only [loadDedicated, pkgLeaves]
    have h1 := loadVal_eq str true [.setComment p.desc p.comment, .setTag (some p.tag)] s (.inl h) pos k
      (fun hf => (hne hf (k, p) (by simp)).1) p.value (fun hf => (hne hf (k, p) (by simp)).2)
    rw [h1]
    have h2 := ih (s.loaded (joinSpec s.view.delim [pos, k]) (leaves s.flatten str p.value)) h
      (fun hf a ha => hne hf a (by simp [ha]))
    simp only [h2]
    rw [loaded_append, loaded_under]; rfl

/-- Where `Load` puts things: the argument of `WithStorePrefix`, else the prefix of the store. -/
def loadAt (s : Store α κ) (prefix' : Option Str) : Str := prefix'.getD s.view.pre

/-- The leaves of a source, for providers that deliver a map. -/
def Source.leaves (fl : Bool) (str : κ → Str) : Source α κ → Option (List (List Str × Any α κ))
  | .read m => some (pkgLeaves fl str m)
  | .once (some m) => some (leavesM fl str m)
  | _ => Option.none

def Source.NE (str : κ → Str) : Source α κ → Prop
  | .read m => pkgNE str m
  | .once (some m) => keysNEM str m
  | _ => True

/-- **C29** `Load` of a provider that delivers a map writes its leaves, without marking them modified and
without calling handlers. -/
theorem C29_load_is_sets (str : κ → Str) (s : Store α κ) (hs : s.loading = false) (prefix' : Option Str) (flat : Option Bool)
    (src : Source α κ) {L : List (List Str × Any α κ)} (hL : src.leaves (flat.getD s.flatten) str = some L)
    (hne : flat.getD s.flatten = true → src.NE str) :
    ∃ s' , s.load str prefix' flat src = (s', [], true) ∧
      s'.tree = putTrees false s.tree (leafPuts s.view.delim (s.loadAt prefix') L) ∧
      s'.view = s.view ∧ s'.hs = s.hs ∧ s'.loading = false := by
  have hpre : ∀ p : Str, View.join s.view.delim [p] = p := fun p => rfl
  cases src with
  | none => simp [Source.leaves] at hL
  | stream _ _ => simp [Source.leaves] at hL
  | fail => simp [Source.leaves] at hL
  | read m =>
    simp only [Source.leaves, Option.some.injEq] at hL
    simp only [Source.NE] at hne
    subst hL
    cases prefix' <;> cases flat <;> simp only [Option.getD_none, Option.getD_some] at hne <;>
      simp only [load, hs, Bool.false_eq_true, if_false] <;>
      rw [loadDedicated_eq] <;> first | exact ⟨_, rfl, rfl, rfl, rfl, rfl⟩ | exact hne | rfl
  | once o =>
    cases o with
    | none => simp [Source.leaves] at hL
    | some m =>
      simp only [Source.leaves, Option.some.injEq] at hL
      simp only [Source.NE] at hne
      subst hL
      cases prefix' <;> cases flat <;> simp only [Option.getD_none, Option.getD_some] at hne <;>
        simp only [load, hs, Bool.false_eq_true, if_false] <;>
        rw [loadMap_eq] <;> first | exact ⟨_, rfl, rfl, rfl, rfl, rfl⟩ | exact hne | exact .inr rfl

/-- **C29** After `Load` every leaf is read back at the joined path of the load position and its keys. -/
theorem C29_load (str : κ → Str) {s : Store α κ} (hs : s.loading = false) (h : Reach (NoRoute s.view.delim) s.tree)
    (prefix' : Option Str) (flat : Option Bool) (src : Source α κ) {L : List (List Str × Any α κ)}
    (hL : src.leaves (flat.getD s.flatten) str = some L) (hne : flat.getD s.flatten = true → src.NE str)
    (hroute : ∀ l x, (l, x) ∈ L → NoRoute s.view.delim (leafKey s.view.delim (s.loadAt prefix') l))
    (hnd : (L.map (fun a => leafKey s.view.delim (s.loadAt prefix') a.1)).Nodup)
    (r : View) (hr : r.delim = s.view.delim) (p : Str) :
    (∀ l x, (l, x) ∈ L → r.full p = leafKey s.view.delim (s.loadAt prefix') l →
      r.mustGet (s.load str prefix' flat src).1.tree p = .ok x) ∧
    (∀ c, s.tree.contents (r.full p) = some c →
      (∀ l x, (l, x) ∈ L → r.full p ≠ leafKey s.view.delim (s.loadAt prefix') l) →
      r.mustGet (s.load str prefix' flat src).1.tree p = r.mustGet s.tree p) := by
  obtain ⟨s', e, ht, -⟩ := C29_load_is_sets str s hs prefix' flat src hL hne
  rw [e]
  simp only [ht]
  rw [← hr] at h hroute hnd ⊢
  have hl : ∀ a ∈ leafPuts r.delim (s.loadAt prefix') L, NoRoute r.delim a.1 := by
    rintro ⟨q, x⟩ ha
    obtain ⟨l, h1, rfl⟩ := mem_leafPuts.mp ha
    exact hroute l x h1
  constructor
  · intro l x hx hp
    refine putTrees_read h hl (lastWrite_of_nodup ?_ (mem_leafPuts.mpr ⟨l, hx, hp⟩))
    simpa [leafPuts, List.map_map, Function.comp_def] using hnd
  · intro c hc hx
    refine (putTrees_frame h hl hc (fun x hm => ?_)).2
    obtain ⟨l, h1, h2⟩ := mem_leafPuts.mp hm
    exact hx l x h1 h2

/-- **C29** A `Load` that starts while the store is loading does nothing and reports no error. -/
theorem C29_load_nested (str : κ → Str) (s : Store α κ) (hs : s.loading = true) (prefix' flat) (src : Source α κ) :
    s.load str prefix' flat src = (s, [], true) := by simp [load, hs]

/-! ## Deviations -/

abbrev S0 : Type := Store Nat Nat
def S0.new (flatten : Bool) : S0 := Store.new '.' flatten ⟨[], [], []⟩
def isAtom (n : Nat) (x : Go (Any Nat Nat)) : Bool :=
  match x with
  | .ok (.atom m) => m == n
  | _ => false
def isNilA (x : Go (Any Nat Nat)) : Bool :=
  match x with
  | .ok .nil => true
  | _ => false

/-- `Merge` on a prefixed view ignores the prefix: on a view at "app", `Merge("x", {k: 7})` writes "x.k". -/
theorem C29_merge_prefix_fails : ∃ s : S0, s = ((S0.new false).withPrefix ["app".toList] : Store Nat Nat) ∧
    isNilA ((s.merge itoa "x".toList [("k".toList, .atom 7)]).1.mustGet "x.k".toList) = true ∧
    isAtom 7 ((View.new '.').mustGet (s.merge itoa "x".toList [("k".toList, .atom 7)]).1.tree "x.k".toList) = true :=
  ⟨_, rfl, by decide +kernel, by decide +kernel⟩

/-- The restriction on empty keys is needed: with flattening, `{"": [7]}` is written to ".0" instead of "0". -/
theorem C29_empty_key_fails : ∃ s : S0, s = S0.new true ∧
    isAtom 7 ((s.merge itoa [] [([], .list [.atom 7])]).1.mustGet ".0".toList) = true ∧
    isNilA ((s.merge itoa [] [([], .list [.atom 7])]).1.mustGet "0".toList) = true :=
  ⟨_, rfl, by decide +kernel, by decide +kernel⟩

/-- The restriction on coinciding paths is needed: `{"a.b": 1, "a": {"b": 2}}` depends on the iteration order. -/
theorem C29_order_fails : ∃ s : S0, s = S0.new false ∧
    isAtom 2 ((s.merge itoa [] [("a.b".toList, .atom 1), ("a".toList, .map [("b".toList, .atom 2)])]).1.mustGet "a.b".toList) = true ∧
    isAtom 1 ((s.merge itoa [] [("a".toList, .map [("b".toList, .atom 2)]), ("a.b".toList, .atom 1)]).1.mustGet "a.b".toList) = true :=
  ⟨_, rfl, by decide +kernel, by decide +kernel⟩

/-- The description, comment and tag that a provider delivers with a value are never stored: the callback that would
store them only runs when the store is not loading. -/
theorem C29_meta_fails : ∃ s : S0, s = S0.new false ∧
    let s' := (s.load itoa none none (.read [("a".toList, ⟨.atom 1, "desc".toList, "cmt".toList, .atom 2⟩)])).1
    isAtom 1 (s'.mustGet "a".toList) = true ∧ s'.view.getDesc s'.tree "a".toList = .ok (some []) ∧
    s'.view.getComment s'.tree "a".toList = .ok (some []) :=
  ⟨_, rfl, by decide +kernel, by decide +kernel, by decide +kernel⟩

/-- `Load` from a stream provider without codec stores the pairs but reports an error (it goes on to decode nil bytes
as JSON). -/
theorem C29_stream_fails : ∃ s : S0, s = S0.new false ∧
    (s.load itoa none none (.stream [("a".toList, .atom 1)] none)).2.2 = false ∧
    isAtom 1 ((s.load itoa none none (.stream [("a".toList, .atom 1)] none)).1.mustGet "a".toList) = true :=
  ⟨_, rfl, by decide +kernel, by decide +kernel⟩

section examples
def exM : SMap Nat Nat :=
  [("app".toList, .map [("debug".toList, .atom 1), ("list".toList, .list [.atom 2, .map [("x".toList, .atom 3)]])]),
   ("n".toList, .amap [(7, .pkg (.atom 4))])]
/-- All hypotheses of `C29_merge` are met by a nested map with slices, on a store that is not empty. -/
example : let s : S0 := ((S0.new true).merge itoa [] [("old".toList, .atom 9)]).1
    keysNEM itoa exM ∧ ((leavesM s.flatten itoa exM).map (fun a => leafKey s.view.delim "pos".toList a.1)).Nodup ∧
    ((leavesM s.flatten itoa exM).map (fun a => leafKey s.view.delim "pos".toList a.1)) =
      ["pos.app.debug".toList, "pos.app.list.0".toList, "pos.app.list.1.x".toList, "pos.n.7".toList] := by
  refine ⟨by simp [exM, keysNEM, keysNE, keysNEL, keysNEA, itoa_ne], by decide +kernel, by decide +kernel⟩
example : let s : S0 := ((S0.new true).merge itoa [] [("old".toList, .atom 9)]).1
    isAtom 3 ((s.merge itoa "pos".toList exM).1.mustGet "pos.app.list.1.x".toList) = true ∧
    isAtom 4 ((s.merge itoa "pos".toList exM).1.mustGet "pos.n.7".toList) = true ∧
    isAtom 9 ((s.merge itoa "pos".toList exM).1.mustGet "old".toList) = true := by
  refine ⟨by decide +kernel, by decide +kernel, by decide +kernel⟩
example : isAtom 3 (((S0.new false).load itoa (some "pos".toList) (some true) (.once (some exM))).1.mustGet
    "pos.app.list.1.x".toList) = true := by decide +kernel
end examples

end Store
end Verif

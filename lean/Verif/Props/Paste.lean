import Verif.Props.Subset
import Verif.Props.Load
import Verif.Props.Env
/-
C69: cutting a part out of one store and laying it out in another (README "Easily Cutting", "Extract A Subset").
-/
namespace Verif
namespace Store
variable {α κ : Type} {P : Str → Prop}

/-- Where `Merge(pos, …)` is expected to put the key `k`. -/
def place (d : Char) (pos k : Str) : Str := if pos = [] then k else pos ++ d :: k

/-- The entry `k` of the trie is one that `GetM("")` exports and `f` accepts. -/
def Cut (d : Char) (f : Core (Any α κ) → Bool) (t : Tree (Any α κ)) (k : Str) (c : Core (Any α κ)) : Prop :=
  t.contents k = some c ∧ c.leaf = true ∧ f c = true ∧ endsW d k = false

theorem leafKey_place {d : Char} {pos k : Str} (hd : d ≠ ' ') (hp : ' ' ∉ pos) (hk : ' ' ∉ k) (hk0 : k ≠ []) :
    leafKey d pos [k] = place d pos k := by
  have h1 : joinSpec d [pos, k] = place d pos k := by
    unfold place
    by_cases h : pos = []
    · subst h; simp [joinSpec, hk0]
    · rw [if_neg h, ← joinSpec_dotted' d h hk0]
  unfold leafKey
  rw [h1]
  apply EnvProv.dash_nospace
  unfold place
  split
  · exact hk
  · simp [hp, hk, Ne.symm hd]
where
  joinSpec_dotted' (d : Char) {a b : Str} (ha : a ≠ []) (hb : b ≠ []) : a ++ d :: b = joinSpec d [a, b] := by
    rw [joinSpec_eq]
    simp [ha, hb, joinWith]

theorem place_inj {d : Char} {pos k k' : Str} (h : place d pos k = place d pos k') : k = k' := by
  unfold place at h
  split at h
  · exact h
  · simpa using h

/-- Maps with plain values are their own leaves. -/
theorem leavesM_plain {fl : Bool} {str : κ → Str} {m : SMap α κ} (h : ∀ a ∈ m, plainVal fl a.2 = true) :
    leavesM fl str m = m.map (fun a => ([a.1], a.2)) := by
  induction m with
  | nil => rfl
  | cons a m ih =>
    obtain ⟨k, x⟩ := a
    rw [leavesM, ih (fun b hb => h b (by simp [hb])), leaves_plain (h (k, x) (by simp))]
    simp [under]

theorem keysNEM_plain {str : κ → Str} {m : SMap α κ} (h : ∀ a ∈ m, a.1 ≠ [] ∧ plainVal true a.2 = true) : keysNEM str m := by
  induction m with
  | nil => trivial
  | cons a m ih =>
    obtain ⟨k, x⟩ := a
    have := h (k, x) (by simp)
    exact ⟨this.1, plain_keysNE this.2, ih (fun b hb => h b (by simp [hb]))⟩

/-- **C69** The part of a store that a filter accepts, merged into another store at `pos` (in any iteration order): below
`pos`, the other store has every accepted leaf entry with its value; every other entry of it answers as before. Keys that
extend one another are no problem here, because the exported keys are not nested. Partial: data stored on a branch is not
exported (`C69_branch_fails`); keys with blanks and values that `Merge` takes apart are left out. -/
theorem C69_paste_partial (str : κ → Str) {s t : Store α κ} (h : Reach P s.tree) (hpre : s.view.pre = [])
    (f : Core (Any α κ) → Bool) (ht : Reach (NoRoute t.view.delim) t.tree) (pos : Str) (hd : t.view.delim ≠ ' ')
    (hpos : ' ' ∉ pos)
    (hk : ∀ k c, Cut s.view.delim f s.tree k c → k ≠ [] ∧ ' ' ∉ k ∧ plainVal t.flatten c.data = true ∧
      NoRoute t.view.delim (place t.view.delim pos k)) :
    ∃ m, s.view.getM s.tree [] (MOpts.filtered f) = .ok (some m) ∧
      ∀ m', m.Perm m' → ∀ (r : View), r.delim = t.view.delim → ∀ p,
        (∀ k c, Cut s.view.delim f s.tree k c → r.full p = place t.view.delim pos k →
          r.mustGet (t.merge str pos m').1.tree p = .ok c.data) ∧
        (∀ c', t.tree.contents (r.full p) = some c' →
          (∀ k c, Cut s.view.delim f s.tree k c → r.full p ≠ place t.view.delim pos k) →
          r.query (t.merge str pos m').1.tree p = r.query t.tree p ∧
          r.mustGet (t.merge str pos m').1.tree p = r.mustGet t.tree p) := by
  obtain ⟨h1, h2⟩ := getM_root h hpre (MOpts.filtered f)
  refine ⟨_, h1, ?_⟩
  simp only [MOpts.filtered, Bool.false_eq_true, if_false] at h2 ⊢
  intro m' hm r hr p
  have hmem : ∀ k x, (k, x) ∈ m' ↔ ∃ c, Cut s.view.delim f s.tree k c ∧ c.data = x := by
    intro k x
    rw [← hm.mem_iff, mem_selected h s.view.delim _ f (fun _ => rfl)]
    constructor
    · rintro ⟨c, a1, a2, a3, a4, a5⟩; exact ⟨c, ⟨a1, a2, a3, a4⟩, a5⟩
    · rintro ⟨c, ⟨a1, a2, a3, a4⟩, a5⟩; exact ⟨c, a1, a2, a3, a4, a5⟩
  have hnd : (m'.map (·.1)).Nodup := (hm.map _).nodup_iff.mp h2
  have hok : ∀ a ∈ m', a.1 ≠ [] ∧ ' ' ∉ a.1 ∧ plainVal t.flatten a.2 = true ∧
      NoRoute t.view.delim (place t.view.delim pos a.1) := by
    rintro ⟨k, x⟩ ha
    obtain ⟨c, hc, rfl⟩ := (hmem k x).mp ha
    exact hk k c hc
  have hL : leavesM t.flatten str m' = m'.map (fun a => ([a.1], a.2)) := leavesM_plain (fun a ha => (hok a ha).2.2.1)
  have hleaf : ∀ l x, IsLeaf t.flatten str m' l x → ∃ k, l = [k] ∧ (k, x) ∈ m' := by
    intro l x hx
    unfold IsLeaf at hx
    rw [hL] at hx
    obtain ⟨⟨k, y⟩, hb, e⟩ := List.mem_map.mp hx
    cases e
    exact ⟨k, rfl, hb⟩
  have hkey : ∀ k x, (k, x) ∈ m' → leafKey t.view.delim pos [k] = place t.view.delim pos k := by
    intro k x hx
    have := hok _ hx
    exact leafKey_place hd hpos this.2.1 this.1
  obtain ⟨m1, m2⟩ := C29_merge str ht pos m'
    (fun hf => keysNEM_plain (fun a ha => ⟨(hok a ha).1, hf ▸ (hok a ha).2.2.1⟩))
    (fun l x hx => by
      obtain ⟨k, rfl, hb⟩ := hleaf l x hx
      rw [hkey k x hb]; exact (hok _ hb).2.2.2)
    (by
      rw [hL, List.map_map]
      have he : m'.map ((fun a => leafKey t.view.delim pos a.1) ∘ fun a => ([a.1], a.2)) = (m'.map (·.1)).map (place t.view.delim pos) := by
        rw [List.map_map]
        exact List.map_congr_left (fun a ha => hkey a.1 a.2 ha)
      rw [he]
      exact hnd.map (fun _ _ => place_inj))
    r hr p
  refine ⟨?_, ?_⟩
  · intro k c hc hp
    have hb := (hmem k c.data).mpr ⟨c, hc, rfl⟩
    refine m1 [k] c.data ?_ (by rw [hp, hkey k _ hb])
    unfold IsLeaf
    rw [hL]
    exact List.mem_map.mpr ⟨(k, c.data), hb, rfl⟩
  · intro c' hc' hne
    refine m2 c' hc' ?_
    intro l x hx
    obtain ⟨k, rfl, hb⟩ := hleaf l x hx
    obtain ⟨c, hc, -⟩ := (hmem k x).mp hb
    rw [hkey k x hb]
    exact hne k c hc

/-- What `Merge("new", GetM(""))` does to an empty store. -/
def pasted (s : S0) : S0 :=
  match s.view.getM s.tree [] MOpts.default with
  | .ok (some m) => ((S0.new false).merge itoa "new".toList m).1
  | _ => S0.new false

/-- Data that sits on a branch does not come along. -/
theorem C69_branch_fails : ∃ s : S0, s = sset (sset (S0.new false) "apple" 1) "app" 2 ∧
    isAtom 2 (s.view.mustGet s.tree "app".toList) = true ∧
    isAtom 1 ((pasted s).view.mustGet (pasted s).tree "new.apple".toList) = true ∧
    isNilA ((pasted s).view.mustGet (pasted s).tree "new.app".toList) = true :=
  ⟨_, rfl, by decide +kernel, by decide +kernel, by decide +kernel⟩

/-- `SetPrefix` (radix/load.go:35-37, store.go:481-483) moves nothing, although the README says that it moves a store with its
whole subtree: the entries stay where they are, and the store does not see them any more. -/
theorem C69_setPrefix_fails : ∃ s : S0, s = sset (S0.new false) "k" 7 ∧
    isAtom 7 (s.mustGet "k".toList) = true ∧
    isNilA (({ s with view := s.view.withPrefixReplaced ["new".toList] } : S0).mustGet "k".toList) = true ∧
    isNilA (s.mustGet "new.k".toList) = true :=
  ⟨_, rfl, by decide +kernel, by decide +kernel, by decide +kernel⟩

section examples
/-- A source with keys that extend each other; everything below "app" is cut out and arrives below "new". -/
def ex69 : S0 := sset (sset (sset (S0.new false) "app" 1) "app.debug" 2) "zoo" 3
def ex69f (c : Core (Any Nat Nat)) : Bool := decide (utf8 "app".toList <+: c.pathS)
example : ((ex69.tree.root.entries []).filter (fun a => a.2.leaf && ex69f a.2)).map (·.1) = ["app".toList, "app.debug".toList] := by decide +kernel
example : (match ex69.view.getM ex69.tree [] (MOpts.filtered ex69f) with
    | .ok (some m) => isAtom 2 (((S0.new false).merge itoa "new".toList m).1.mustGet "new.app.debug".toList) &&
        isNilA (((S0.new false).merge itoa "new".toList m).1.mustGet "new.zoo".toList)
    | _ => false) = true := by decide +kernel
example : (ex69.tree.root.entries []).all (fun a => !(a.2.leaf && ex69f a.2 && !endsW '.' a.1) ||
    (a.1 ≠ [] && !a.1.contains ' ' && plainVal false a.2.data)) = true := by decide +kernel
end examples

end Store
end Verif

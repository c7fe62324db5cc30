import Verif.Lemmas.Cvt
import Verif.Lemmas.Export
/-
C30 Deflate, C31 Normalize.
-/
namespace Verif
variable {α κ : Type}

/-! ## C30 -/

/-- **C30** The components of a key are free of the delimiter and joining them gives the key back. -/
theorem C30_components {sep : Str} (hs : sep ≠ []) (k : Str) :
    joinStr sep (splitStr sep k) = k ∧ ∀ w ∈ splitStr sep k, ¬ sep <:+: w :=
  ⟨splitStr_join hs k, splitStr_pieces hs k⟩

/-- **C30** `Deflate` of a map whose keys do not extend each other, in any iteration order: the components of
every key lead to its value (and on into that value), every other path that leads to something is a proper
part of the components of a key and leads to a map, so there are no other leaves. -/
theorem C30_deflate {sep : Str} (hs : sep ≠ []) (m : SMap α κ)
    (hpf : m.Pairwise (fun a b => ¬ splitStr sep a.1 <+: splitStr sep b.1 ∧ ¬ splitStr sep b.1 <+: splitStr sep a.1)) :
    ∃ out, deflate sep m = .ok out ∧
      (∀ a ∈ m, ∀ r, look (.map out) (splitStr sep a.1 ++ r) = look a.2 r) ∧
      (∀ ks x, look (.map out) ks = some x → (∀ a ∈ m, ¬ splitStr sep a.1 <+: ks) →
        x.isMap = true ∧ (ks = [] ∨ ∃ a ∈ m, ks <+: splitStr sep a.1)) := by
  refine ⟨_, deflate_eq hs m, ?_⟩
  have S := deflates_spec (m.map (fun a => (splitStr sep a.1, a.2)))
    (fun a ha => by obtain ⟨b, _, rfl⟩ := List.mem_map.mp ha; exact splitStr_ne hs b.1)
    (List.pairwise_map.mpr hpf)
  refine ⟨fun a ha r => S.value _ (List.mem_map_of_mem ha) r, fun ks x hx hno => ?_⟩
  have hno' : ∀ a ∈ m.map (fun a => (splitStr sep a.1, a.2)), ¬ a.1 <+: ks := by
    intro a ha
    obtain ⟨b, hb, rfl⟩ := List.mem_map.mp ha
    exact hno b hb
  by_cases h : ks = [] ∨ ∃ a ∈ m, ks <+: splitStr sep a.1
  · obtain ⟨m', hm'⟩ := S.inner ks (by
      rcases h with h | ⟨a, ha, h⟩
      · exact .inl h
      · exact .inr ⟨_, List.mem_map_of_mem ha, h⟩) hno'
    rw [hm'] at hx
    cases hx
    exact ⟨rfl, h⟩
  · simp only [not_or, not_exists, not_and] at h
    rw [S.other ks h.1 (by
      intro a ha
      obtain ⟨b, hb, rfl⟩ := List.mem_map.mp ha
      exact h.2 b hb) hno'] at hx
    simp at hx

/-- **C30** The result does not depend on the iteration order. -/
theorem C30_order_independent {sep : Str} (hs : sep ≠ []) {m m' : SMap α κ} (hp : m.Perm m')
    (hpf : m.Pairwise (fun a b => ¬ splitStr sep a.1 <+: splitStr sep b.1 ∧ ¬ splitStr sep b.1 <+: splitStr sep a.1)) :
    ∃ out out', deflate sep m = .ok out ∧ deflate sep m' = .ok out' ∧
      ∀ ks x, x.isMap = false → (look (.map out) ks = some x ↔ look (.map out') ks = some x) := by
  have hpf' := hp.pairwise hpf (fun h => ⟨h.2, h.1⟩)
  obtain ⟨out, h1, h2, h3⟩ := C30_deflate hs m hpf
  obtain ⟨out', h1', h2', h3'⟩ := C30_deflate hs m' hpf'
  refine ⟨out, out', h1, h1', fun ks x hx => ?_⟩
  constructor
  · intro h
    by_cases h4 : ∃ a ∈ m, splitStr sep a.1 <+: ks
    · obtain ⟨a, ha, r, rfl⟩ := h4
      rw [h2 a ha] at h
      rw [h2' a (hp.mem_iff.mp ha)]; exact h
    · have := (h3 ks x h (fun a ha hh => h4 ⟨a, ha, hh⟩)).1
      rw [hx] at this; simp at this
  · intro h
    by_cases h4 : ∃ a ∈ m', splitStr sep a.1 <+: ks
    · obtain ⟨a, ha, r, rfl⟩ := h4
      rw [h2' a ha] at h
      rw [h2 a (hp.mem_iff.mpr ha)]; exact h
    · have := (h3' ks x h (fun a ha hh => h4 ⟨a, ha, hh⟩)).1
      rw [hx] at this; simp at this

def isAtomAt (n : Nat) (x : Option (Any Nat Nat)) : Bool :=
  match x with
  | some (.atom m) => m == n
  | _ => false

/-- The condition on the keys is needed: with "a" and "a.b" the result depends on the iteration order, and
either "a.b" ends up under "b" or it is lost. -/
theorem C30_extending_fails : ∃ m m' out out' : SMap Nat Nat, m.Perm m' ∧
    deflate ".".toList m = .ok out ∧ deflate ".".toList m' = .ok out' ∧
    isAtomAt 2 (look (.map out) ["b".toList]) = true ∧ (look (.map out) ["a".toList, "b".toList]).isNone = true ∧
    (look (.map out') ["b".toList]).isNone = true ∧ (look (.map out') ["a".toList, "b".toList]).isNone = true :=
  ⟨[("a".toList, .atom 1), ("a.b".toList, .atom 2)], [("a.b".toList, .atom 2), ("a".toList, .atom 1)], _, _,
    List.Perm.swap _ _ _, rfl, rfl, by decide +kernel, by decide +kernel, by decide +kernel, by decide +kernel⟩

/-- The condition on the delimiter is needed: empty delimiter and empty key panic. -/
theorem C30_empty_panics (v : Any α κ) : deflate [] [([], v)] = .error .panic := rfl

example : let m : SMap Nat Nat := [("parent::child::k".toList, .atom 1), ("parent::x".toList, .map [("y".toList, .atom 2)]), ("z".toList, .atom 3)]
    m.Pairwise (fun a b => ¬ splitStr "::".toList a.1 <+: splitStr "::".toList b.1 ∧ ¬ splitStr "::".toList b.1 <+: splitStr "::".toList a.1) := by
  decide +kernel
example : splitStr "::".toList "parent::child::k".toList = ["parent".toList, "child".toList, "k".toList] := by decide +kernel

/-! ## C31 -/

mutual
/-- No map with non-string keys is reachable through maps and slices. -/
def cleanV : Any α κ → Prop
  | .amap _ => False
  | .amaps l => l = []
  | .map m => cleanM m
  | .maps l => cleanMs l
  | .list l => cleanL l
  | .nil => True
  | .atom _ => True
  | .pkg _ => True
def cleanM : List (Str × Any α κ) → Prop
  | [] => True
  | (_, v) :: m => cleanV v ∧ cleanM m
def cleanMs : List (List (Str × Any α κ)) → Prop
  | [] => True
  | m :: l => cleanM m ∧ cleanMs l
def cleanL : List (Any α κ) → Prop
  | [] => True
  | v :: l => cleanV v ∧ cleanL l
end

mutual
/-- The typed slices of maps and the slices directly within slices contain no map with non-string keys. -/
def plainSlices : Any α κ → Prop
  | .amap z => plainSlicesA z
  | .amaps l => l = []
  | .map m => plainSlicesM m
  | .maps l => cleanMs l
  | .list l => plainSlicesL l
  | .nil => True
  | .atom _ => True
  | .pkg _ => True
def plainSlicesE : Any α κ → Prop
  | .amap z => plainSlicesA z
  | .amaps l => l = []
  | .map m => plainSlicesM m
  | .maps l => cleanMs l
  | .list l => cleanL l
  | .nil => True
  | .atom _ => True
  | .pkg _ => True
def plainSlicesL : List (Any α κ) → Prop
  | [] => True
  | v :: l => plainSlicesE v ∧ plainSlicesL l
def plainSlicesM : List (Str × Any α κ) → Prop
  | [] => True
  | (_, v) :: m => plainSlices v ∧ plainSlicesM m
def plainSlicesA : List (κ × Any α κ) → Prop
  | [] => True
  | (_, v) :: m => plainSlices v ∧ plainSlicesA m
end

theorem cleanM_iff (m : List (Str × Any α κ)) : cleanM m ↔ ∀ a ∈ m, cleanV a.2 := by
  induction m with
  | nil => simp [cleanM]
  | cons a m ih => obtain ⟨k, v⟩ := a; simp [cleanM, ih]

theorem mput_mem {m : SMap α κ} {k : Str} {v : Any α κ} {a} (h : a ∈ mput m k v) : a ∈ m ∨ a = (k, v) := by
  induction m with
  | nil => simp only [mput, List.mem_singleton] at h; exact .inr h
  | cons b m ih =>
    obtain ⟨k', v'⟩ := b
    simp only [mput] at h
    split at h
    · simp only [List.mem_cons] at h
      rcases h with h | h
      · exact .inr h
      · exact .inl (by simp [h])
    · simp only [List.mem_cons] at h
      rcases h with h | h
      · exact .inl (by simp [h])
      · rcases ih h with h | h
        · exact .inl (by simp [h])
        · exact .inr h

theorem foldl_mput_mem (l acc : SMap α κ) {a} (h : a ∈ l.foldl (fun m a => mput m a.1 a.2) acc) : a ∈ acc ∨ a ∈ l := by
  induction l generalizing acc with
  | nil => exact .inl h
  | cons b l ih =>
    rcases ih _ h with h | h
    · rcases mput_mem h with h | h
      · exact .inl h
      · exact .inr (by simp [h])
    · exact .inr (by simp [h])

mutual
theorem normV_clean (str : κ → Str) : (v : Any α κ) → plainSlices v → cleanV (normV str v)
  | .amap z, h => by
    simp only [normV, cleanV, cleanM_iff]
    intro a ha
    rcases foldl_mput_mem _ _ ha with ha | ha
    · simp at ha
    · exact normA_clean str z h a ha
  | .amaps _, h => h
  | .map m, h => normM_clean str m h
  | .maps _, h => h
  | .list l, h => normL_clean str l h
  | .nil, _ => trivial
  | .atom _, _ => trivial
  | .pkg _, _ => trivial
theorem normE_clean (str : κ → Str) : (v : Any α κ) → plainSlicesE v → cleanV (normE str v)
  | .amap z, h => by
    simp only [normE, cleanV, cleanM_iff]
    intro a ha
    rcases foldl_mput_mem _ _ ha with ha | ha
    · simp at ha
    · exact normA_clean str z h a ha
  | .amaps _, h => h
  | .map m, h => normM_clean str m h
  | .maps _, h => h
  | .list _, h => h
  | .nil, _ => trivial
  | .atom _, _ => trivial
  | .pkg _, _ => trivial
theorem normL_clean (str : κ → Str) : (l : List (Any α κ)) → plainSlicesL l → cleanL (normL str l)
  | [], _ => trivial
  | v :: l, h => ⟨normE_clean str v h.1, normL_clean str l h.2⟩
theorem normM_clean (str : κ → Str) : (m : List (Str × Any α κ)) → plainSlicesM m → cleanM (normM str m)
  | [], _ => trivial
  | (_, v) :: m, h => ⟨normV_clean str v h.1, normM_clean str m h.2⟩
theorem normA_clean (str : κ → Str) : (m : List (κ × Any α κ)) → plainSlicesA m → ∀ a ∈ normA str m, cleanV a.2
  | [], _ => by simp [normA]
  | (k, v) :: m, h => by
    intro a ha
    simp only [normA, List.mem_cons] at ha
    rcases ha with rfl | ha
    · exact normV_clean str v h.1
    · exact normA_clean str m h.2 a ha
end

/-- **C31** After `Normalize` no map with non-string keys is reachable. Partial: provided that slices directly
within slices, `[]map[string]any` and `[]map[any]any` contain none in the input, because the code does
not look into those (`C31_nested_slice_fails`, `C31_map_slice_fails`). -/
theorem C31_clean_partial (str : κ → Str) (m : SMap α κ) (h : plainSlicesM m) : cleanM (normM str m) := normM_clean str m h

/-- `Normalize` leaves a `map[any]any` in a slice within a slice as it is. -/
theorem C31_nested_slice_fails : ∃ m : SMap Nat Nat, ¬ cleanM (normM itoa m) ∧
    m = [("a".toList, .list [.list [.amap [(1, .atom 2)]]])] :=
  ⟨_, by simp [normM, normV, normL, normE, cleanM, cleanV, cleanL], rfl⟩

/-- `Normalize` leaves `[]map[any]any` and what is in `[]map[string]any` as it is. -/
theorem C31_map_slice_fails : ∃ m : SMap Nat Nat, ¬ cleanM (normM itoa m) ∧
    m = [("a".toList, .maps [[("b".toList, .amap [(1, .atom 2)])]])] :=
  ⟨_, by simp [normM, normV, cleanM, cleanV, cleanMs], rfl⟩

mutual
/-- The keys of every `map[any]any` differ as text. -/
def textKeys (str : κ → Str) : Any α κ → Prop
  | .amap z => ((texts str z).map (·.1)).Nodup ∧ textKeysA str z
  | .map m => textKeysM str m
  | .list l => textKeysL str l
  | _ => True
def textKeysL (str : κ → Str) : List (Any α κ) → Prop
  | [] => True
  | v :: l => textKeys str v ∧ textKeysL str l
def textKeysM (str : κ → Str) : List (Str × Any α κ) → Prop
  | [] => True
  | (_, v) :: m => textKeys str v ∧ textKeysM str m
def textKeysA (str : κ → Str) : List (κ × Any α κ) → Prop
  | [] => True
  | (_, v) :: m => textKeys str v ∧ textKeysA str m
end

theorem normE_cases (str : κ → Str) (v : Any α κ) : normE str v = v ∨ normE str v = normV str v := by
  cases v <;> simp [normE, normV]

theorem normL_get (str : κ → Str) (l : List (Any α κ)) (i : Nat) : (normL str l)[i]? = (l[i]?).map (normE str) := by
  induction l generalizing i with
  | nil => simp [normL]
  | cons v l ih => cases i with
    | zero => simp [normL]
    | succ i => simp [normL, ih]

theorem normM_get (str : κ → Str) (m : List (Str × Any α κ)) (k : Str) : assoc (normM str m) k = (assoc m k).map (normV str) := by
  induction m with
  | nil => rfl
  | cons a m ih =>
    obtain ⟨k', v⟩ := a
    simp only [normM, assoc]
    split
    · rfl
    · exact ih

theorem normA_eq (str : κ → Str) (m : List (κ × Any α κ)) : normA str m = (texts str m).map (fun a => (a.1, normV str a.2)) := by
  induction m with
  | nil => rfl
  | cons a m ih => obtain ⟨k', v⟩ := a; simp only [normA, texts, List.map_cons, ih]

theorem foldl_mput_nodup (l acc : SMap α κ) (h : (l.map (·.1)).Nodup) (hacc : ∀ a ∈ acc, a.1 ∉ l.map (·.1)) :
    l.foldl (fun m a => mput m a.1 a.2) acc = acc ++ l := by
  induction l generalizing acc with
  | nil => simp
  | cons b l ih =>
    simp only [List.map_cons, List.nodup_cons] at h
    simp only [List.foldl_cons]
    rw [mput_fresh (fun a ha e => hacc a ha (by simp [e])), ih _ h.2]
    · simp
    · intro a ha
      simp only [List.mem_append, List.mem_singleton] at ha
      rcases ha with ha | rfl
      · intro hh; exact hacc a ha (by simp only [List.map_cons]; exact List.mem_cons_of_mem _ hh)
      · exact h.1

theorem assoc_map_val {β γ : Type} (f : β → γ) (l : List (Str × β)) (k : Str) :
    assoc (l.map (fun a => (a.1, f a.2))) k = (assoc l k).map f := by
  induction l with
  | nil => rfl
  | cons a l ih =>
    obtain ⟨k', v⟩ := a
    simp only [List.map_cons, assoc]
    split
    · rfl
    · exact ih

theorem textKeys_list {str : κ → Str} {l : List (Any α κ)} (h : textKeysL str l) {i : Nat} {a} (e : l[i]? = some a) : textKeys str a := by
  induction l generalizing i with
  | nil => simp at e
  | cons v l ih => cases i with
    | zero => simp only [List.getElem?_cons_zero, Option.some.injEq] at e; exact e ▸ h.1
    | succ i => exact ih h.2 (by simpa using e)

theorem textKeys_map {str : κ → Str} {m : List (Str × Any α κ)} (h : textKeysM str m) {k : Str} {a} (e : assoc m k = some a) : textKeys str a := by
  induction m with
  | nil => simp [assoc] at e
  | cons b m ih =>
    obtain ⟨k', v⟩ := b
    simp only [assoc] at e
    split at e
    · cases e; exact h.1
    · exact ih h.2 e

theorem textKeys_amap {str : κ → Str} {m : List (κ × Any α κ)} (h : textKeysA str m) {k : Str} {a} (e : assoc (texts str m) k = some a) :
    textKeys str a := by
  induction m with
  | nil => simp [assoc, texts] at e
  | cons b m ih =>
    obtain ⟨k', v⟩ := b
    simp only [texts, List.map_cons, assoc] at e
    split at e
    · cases e; exact h.1
    · exact ih h.2 e

theorem shape_norm (str : κ → Str) (v : Any α κ) : shape (normV str v) = shape v := by cases v <;> rfl

theorem normV_look (str : κ → Str) (p : List Step) : ∀ v : Any α κ, textKeys str v →
    (lookS str (normV str v) p).map shape = (lookS str v p).map shape := by
  induction p with
  | nil => intro v _; simp [lookS, shape_norm]
  | cons s p ih =>
    intro v h
    cases v with
    | nil => rfl
    | atom x => rfl
    | pkg v => rfl
    | maps l => rfl
    | amaps l => rfl
    | map m =>
      cases s with
      | idx i => rfl
      | key k =>
        simp only [normV, lookS, normM_get]
        cases e : assoc m k with
        | none => rfl
        | some a => simpa using ih a (textKeys_map h e)
    | amap z =>
      cases s with
      | idx i => rfl
      | key k =>
        have hnd : ((normA str z).map (·.1)).Nodup := by
          rw [normA_eq, List.map_map]; exact h.1
        simp only [normV]
        rw [foldl_mput_nodup _ _ hnd (by simp)]
        simp only [List.nil_append, lookS, normA_eq]
        rw [assoc_map_val]
        cases e : assoc (texts str z) k with
        | none => rfl
        | some a => simpa using ih a (textKeys_amap h.2 e)
    | list l =>
      cases s with
      | key k => rfl
      | idx i =>
        simp only [normV, lookS, normL_get]
        cases e : l[i]? with
        | none => rfl
        | some a =>
          simp only [Option.map_some, Option.bind_some]
          rcases normE_cases str a with h1 | h1
          · rw [h1]
          · rw [h1]; exact ih a (textKeys_list h e)

/-- **C31** `Normalize` agrees with its input on every path through maps and slices: the same paths exist and
lead to the same opaque values, to maps where maps were and to slices where slices were. The keys of each
`map[any]any` must differ as text. -/
theorem C31_agrees (str : κ → Str) (m : SMap α κ) (h : textKeysM str m) (p : List Step) :
    (lookS str (.map (normM str m)) p).map shape = (lookS str (.map m) p).map shape :=
  normV_look str p (.map m) h

/-- The condition on keys is needed: keys 1 and "1" collide, one value is lost (which one depends on the
iteration order). -/
theorem C31_collision_fails : ∃ m : SMap Nat Nat, m = [("a".toList, .amap [(1, .atom 5), (2, .atom 6)])] ∧
    isAtomAt 6 (lookS (fun _ => "1".toList) (.map (normM (fun _ => "1".toList) m)) [.key "a".toList, .key "1".toList]) = true ∧
    isAtomAt 5 (lookS (fun _ => "1".toList) (.map m) [.key "a".toList, .key "1".toList]) = true :=
  ⟨_, rfl, by decide +kernel, by decide +kernel⟩

section examples
def exN : SMap Nat Nat := [("a".toList, .amap [(1, .amap [(2, .atom 5)])]), ("l".toList, .list [.amap [(3, .atom 6)], .atom 7])]
example : plainSlicesM exN ∧ textKeysM itoa exN := by
  refine ⟨by simp [exN, plainSlicesM, plainSlices, plainSlicesA, plainSlicesL, plainSlicesE], ?_⟩
  simp [exN, textKeysM, textKeys, textKeysA, textKeysL, texts]
example : isAtomAt 6 (lookS itoa (.map (normM itoa exN)) [.key "l".toList, .idx 0, .key "3".toList]) = true := by decide +kernel
end examples

end Verif

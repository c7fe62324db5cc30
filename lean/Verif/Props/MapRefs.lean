import Verif.Lemmas.MapExport
/-
C87: exporting does not change what is stored. Maps are references (Model/MapRefs.lean).
-/
namespace Verif
variable {α κ : Type}
open MapHeap

section
variable {P : Str → Prop}

/-- What the values of the store lead to is what they led to before. -/
theorem Kept.follow {t : Tree (Any (RVal α) κ)} {H H' : MapHeap α κ} (hst : Stored t H) (hk : Kept H H') {k : Str} {c : Core (Any (RVal α) κ)}
    (hc : t.contents k = some c) (ks : List Str) : H'.follow c.data ks = H.follow c.data ks :=
  follow_old hst.closed hk.2 ks (hst.ref k c hc)

theorem Kept.stored {t : Tree (Any (RVal α) κ)} {H H' : MapHeap α κ} (hst : Stored t H) (hk : Kept H H') (hc : H'.Closed) : Stored t H' :=
  ⟨hc, hst.val, fun k c h r hr => Nat.lt_of_lt_of_le (hst.ref k c h r hr) hk.1⟩

/-- **C87** `GetM`, on any view, path, with any options, after any history and for every iteration order: if no
map is stored, or none above another entry and the export uses full paths, then no map that existed is changed, the
returned map is new, every value of the store leads to what it led to, and the next export finds the same situation. -/
theorem C87_getM_partial {t : Tree (Any (RVal α) κ)} (h : Reach P t) {v : View} {path : Str} {o : MOpts (RVal α) κ}
    {ord : SMap (RVal α) κ → SMap (RVal α) κ} (hord : ∀ m, (ord m).Perm m) {H H' : MapHeap α κ} {out : Option Nat}
    (hst : Stored t H) (hh : Harmless v t path o) (e : v.getMR t path o ord H = .ok (H', out)) :
    (∀ r, r < H.next → H'.maps r = H.maps r) ∧ (∀ r, out = some r → H.next ≤ r) ∧
    (∀ k c, t.contents k = some c → ∀ ks, H'.follow c.data ks = H.follow c.data ks) ∧ Stored t H' := by
  obtain ⟨h1, h2, h3⟩ := getMR_spec h (fun m a ha => (hord m).mem_iff.mp ha) hst hh e
  exact ⟨h1.2, fun r hr => (h3 r hr).1, fun k c hc ks => h1.follow hst hc ks, h1.stored hst h2⟩

/-- **C87** `To` and `GetSectionFrom`, likewise. -/
theorem C87_to_partial {t : Tree (Any (RVal α) κ)} (h : Reach P t) {v : View} {path : Str} {o : MOpts (RVal α) κ}
    {ord : SMap (RVal α) κ → SMap (RVal α) κ} (hord : ∀ m, (ord m).Perm m) {H H' : MapHeap α κ} {out : Option Nat}
    (hst : Stored t H) (hh : Harmless v t path o) (e : v.toR t path o ord H = .ok (H', out)) :
    (∀ r, r < H.next → H'.maps r = H.maps r) ∧ (∀ r, out = some r → H.next ≤ r) ∧
    (∀ k c, t.contents k = some c → ∀ ks, H'.follow c.data ks = H.follow c.data ks) ∧ Stored t H' := by
  have hord' : ∀ m a, a ∈ ord m → a ∈ m := fun m a ha => (hord m).mem_iff.mp ha
  have main : Kept H H' ∧ H'.Closed ∧ ∀ r, out = some r → H.next ≤ r := by
    unfold View.toR at e
    cases hg : v.getMR t path o ord H with
    | error x => rw [hg] at e; cases e
    | ok q =>
      obtain ⟨H1, r⟩ := q
      obtain ⟨h1, h2, h3⟩ := getMR_spec h hord' hst hh hg
      rw [hg] at e
      cases r with
      | some r =>
        cases e
        obtain ⟨s1, s2, s3, s4⟩ := h3 r rfl
        obtain ⟨k1, k2⟩ := split_kept (d := v.delim) (m := ord (H1.maps r)) h2 (fun a ha => s3 a (hord' _ _ ha))
          (fun a ha r' hr' => h2 r a s2 (hord' _ _ ha) r' hr') (by
            intro a ha b hb
            obtain ⟨a', ha', rfl⟩ := List.mem_map.mp ha
            obtain ⟨b', hb', rfl⟩ := List.mem_map.mp hb
            exact s4 _ (List.mem_map.mpr ⟨a', hord' _ _ ha', rfl⟩) _ (List.mem_map.mpr ⟨b', hord' _ _ hb', rfl⟩))
        refine ⟨h1.trans k1, k2, ?_⟩
        intro r' hr'
        cases hr'
        exact h1.1
      | none =>
        have hnone : v.getR t path = .ok none ∧ H1 = H := by
          unfold View.getMR at hg
          unfold View.getR
          by_cases hroot : path = [] ∨ path = ".".toList ∨ path = "(root)".toList
          · simp only [if_pos hroot] at hg
            split at hg
            · cases hg
            · split at hg <;> cases hg
          · simp only [if_neg hroot] at hg ⊢
            split at hg
            · cases hg
            · rename_i n b pm found hl
              split at hg
              · split at hg
                · cases hg
                · split at hg <;> cases hg
              · rename_i hfp
                cases hg
                rw [hl]
                simp only [if_neg hfp, and_true]
        simp only [View.getRR, hnone.1] at e
        cases e
        rw [hnone.2]
        exact ⟨⟨Nat.le_refl _, fun _ _ => rfl⟩, hst.closed, by simp⟩
  exact ⟨main.1.2, main.2.2, fun k c hc ks => main.1.follow hst hc ks, main.1.stored hst main.2.1⟩

/-- **C87** `GetR`, and `GetM("")` without `WithoutFlattenKeys`, never change a map, whatever is stored. -/
theorem C87_flat (v : View) (t : Tree (Any (RVal α) κ)) (path : Str) (o : MOpts (RVal α) κ)
    (ord : SMap (RVal α) κ → SMap (RVal α) κ) (H H' : MapHeap α κ) (out : Option Nat) :
    (v.getRR t path H = .ok (H', out) → Kept H H' ∧ ∀ r, out = some r → H.next ≤ r) ∧
    (path = [] → o.noFlatten = false → v.getMR t path o ord H = .ok (H', out) → Kept H H' ∧ ∀ r, out = some r → H.next ≤ r) := by
  constructor
  · intro e
    unfold View.getRR at e
    split at e
    · cases e
    · cases e; exact ⟨⟨Nat.le_refl _, fun _ _ => rfl⟩, by simp⟩
    · cases e
      exact ⟨kept_alloc _ _, fun r hr => by cases hr; exact Nat.le_refl _⟩
  · rintro rfl hn e
    unfold View.getMR at e
    simp only [true_or, if_true, hn, Bool.false_eq_true, if_false] at e
    split at e
    · cases e
    · cases e
      exact ⟨kept_alloc _ _, fun r hr => by cases hr; exact Nat.le_refl _⟩

/-- **C87** The second attempt that `To` makes, with `GetR`, never finds anything. -/
theorem C87_to_second (v : View) (t : Tree (Any (RVal α) κ)) (path : Str) (o : MOpts (RVal α) κ)
    (ord : SMap (RVal α) κ → SMap (RVal α) κ) (H H' : MapHeap α κ) (e : v.getMR t path o ord H = .ok (H', none)) :
    v.getRR t path H' = .ok (H', none) ∧ v.toR t path o ord H = .ok (H', none) := by
  have key : v.getRR t path H' = .ok (H', none) := by
    unfold View.getMR at e
    unfold View.getRR View.getR
    by_cases hp : path = [] ∨ path = ".".toList ∨ path = "(root)".toList
    · rw [if_pos hp] at e
      simp only at e
      cases hf : foldGo (rootStep v.delim (utf8 v.pre).length o) [] t.root.walk with
      | error x => rw [hf] at e; cases e
      | ok r =>
        rw [hf] at e
        simp only at e
        split at e <;> cases e
    · rw [if_neg hp] at e ⊢
      cases hl : v.locate t path with
      | error x => rw [hl] at e; cases e
      | ok r =>
        obtain ⟨n, b, pm, found⟩ := r
        rw [hl] at e
        simp only at e ⊢
        by_cases hf : (found || pm) = true
        · rw [if_pos hf] at e
          cases n with
          | none => cases e
          | some n => simp only at e; split at e <;> cases e
        · rw [if_neg hf]
  exact ⟨key, by rw [View.toR, e]; simp only; rw [key]⟩

/-- **C87** The nested export of a whole trie (`GetM("", WithoutFlattenKeys)`, what saving writes): the components of an
exported key lead to what the stored value leads to, unless a shorter key is in the way; and whatever can be found in it is
found in the value of an entry, or is one of its own new maps. -/
theorem C87_nested {t : Tree (Any (RVal α) κ)} (h : Reach P t) {v : View} (hpre : v.pre = []) {o : MOpts (RVal α) κ}
    (hn : o.noFlatten = true) {f : Core (Any (RVal α) κ) → Bool} (hf : ∀ n, o.pass n = f n.core)
    {ord : SMap (RVal α) κ → SMap (RVal α) κ} (hord : ∀ m, (ord m).Perm m) {H : MapHeap α κ}
    (hst : Stored t H) (ha : Apart v.delim t) :
    ∃ H' r, v.getMR t [] o ord H = .ok (H', some r) ∧ H.next ≤ r ∧
      (∀ k x, Exported t v.delim f k x → (∀ k' x', Exported t v.delim f k' x' → ¬ (k' ++ [v.delim]) <+: k) →
        ∀ ks, H'.follow (.atom (.ref r)) (splitOn v.delim k ++ ks) = H.follow x ks) ∧
      (∀ ks x, H'.follow (.atom (.ref r)) ks = some x →
        (∃ r', H.next ≤ r' ∧ x = .atom (.ref r')) ∨
        ∃ k y rest, Exported t v.delim f k y ∧ ks = splitOn v.delim k ++ rest ∧ H.follow y rest = some x) := by
  have hp : ∀ a ∈ t.root.nodes [], a.2.core.leaf = true → a.2.core.pathS = utf8 a.1 := fun a ha =>
    (h.inv keyInv_leaf).2 a.1 a.2.core ((Tree.contents_node h.ok).mpr ⟨a.2, ha, rfl⟩)
  have hnd : ((t.root.nodes []).map (·.1)).Nodup := Node.keys_nodup h.ok.wf []
  generalize hret : (t.root.nodes []).filterMap (selected v.delim o) = ret
  have hfold : foldGo (rootStep v.delim (utf8 v.pre).length o) [] t.root.walk = .ok ret := by
    rw [hpre, utf8_nil, Node.walk_eq [], List.length_nil, foldGo_rootStep _ _ hp hnd (by simp), List.nil_append, hret]
  have hmem : ∀ k x, (k, x) ∈ ret ↔ Exported t v.delim f k x := fun k x => by
    rw [← hret]; exact mem_selected h v.delim o f hf k x
  have hndr : (ret.map (·.1)).Nodup := by rw [← hret]; exact (getM_root h hpre o).2
  have hmem' : ∀ k x, (k, x) ∈ ord ret ↔ Exported t v.delim f k x := fun k x => by rw [(hord ret).mem_iff, hmem]
  have he : v.getMR t [] o ord H = .ok ((H.alloc ret).split v.delim (ord ret), some (H.next + 1)) := by
    unfold View.getMR
    simp only [true_or, if_true, hfold, hn]
    rfl
  obtain ⟨k1, -, k3, -⟩ := C87_getM_partial h hord hst (.inr ⟨ha, .inr ⟨.inl rfl, hpre⟩⟩) he
  refine ⟨_, _, he, Nat.le_succ _, ?_⟩
  generalize hF : (ord ret).map (fun a => (splitOn v.delim a.1, a.2)) = F
  have hFm : ∀ ks x, (ks, x) ∈ F ↔ ∃ k, Exported t v.delim f k x ∧ ks = splitOn v.delim k := by
    intro ks x
    rw [← hF, List.mem_map]
    constructor
    · rintro ⟨⟨k, y⟩, h1, h2⟩; cases h2; exact ⟨k, (hmem' k y).mp h1, rfl⟩
    · rintro ⟨k, h1, rfl⟩; exact ⟨(k, x), (hmem' k x).mpr h1, rfl⟩
  have hv : ∀ a ∈ F, a.2.isMap = false := by
    rintro ⟨ks, x⟩ ha'
    obtain ⟨k, ⟨c, c1, -, -, -, c2⟩, -⟩ := (hFm ks x).mp ha'
    rw [← c2]; exact hst.val k c c1
  have hS : NestSpec F (Verif.submaps F) := by
    refine submaps_spec F ?_ hv ?_
    · rintro ⟨ks, x⟩ ha'
      obtain ⟨k, -, rfl⟩ := (hFm ks x).mp ha'
      exact splitOn_ne_nil _ _
    · rw [← hF, List.map_map]
      have : ((fun a : List Str × Any (RVal α) κ => a.1) ∘ fun a : Str × Any (RVal α) κ => (splitOn v.delim a.1, a.2)) =
          splitOn v.delim ∘ (·.1) := rfl
      rw [this, ← List.map_map]
      exact List.Nodup.map (fun s t h => splitOn_inj h) (((hord ret).map _).nodup_iff.mpr hndr)
  obtain ⟨S, q1, -⟩ := submaps_rep (H := H.alloc ret) F hv (by
      rintro ⟨ks, x⟩ ha' r hr
      obtain ⟨k, ⟨c, c1, -, -, -, c2⟩, -⟩ := (hFm ks x).mp ha'
      exact Nat.lt_succ_of_lt (hst.ref k c c1 r (by rw [c2]; exact hr)))
    (apart_sep ha (by
      rintro ⟨ks, x⟩ ha'
      obtain ⟨k, ⟨c, c1, c3, -, -, c2⟩, rfl⟩ := (hFm ks x).mp ha'
      exact ⟨k, c, c1, c3, c2, rfl⟩))
  have hsp : (H.alloc ret).split v.delim (ord ret) = ((H.alloc ret).alloc []).submaps (H.alloc ret).next F := by
    rw [split_eq, hF]
  rw [← hsp] at q1
  generalize hH' : (H.alloc ret).split v.delim (ord ret) = H' at *
  have hfol := fun ks => repM_follow (r := H.next + 1) ks q1 (Nat.le_refl _)
  constructor
  · intro k x hx hno ks
    obtain ⟨c, c1, c2, c3, c4, c5⟩ := hx
    have hl : status (Verif.submaps F) (splitOn v.delim k) = some (some x) := by
      refine (hS.leaf _ _).mpr ⟨(hFm _ _).mpr ⟨k, ⟨c, c1, c2, c3, c4, c5⟩, rfl⟩, ?_⟩
      rintro ⟨ks', x'⟩ ha' hp'
      obtain ⟨k', he', rfl⟩ := (hFm ks' x').mp ha'
      rcases splitOn_prefix hp' with rfl | h5
      · rfl
      · exact absurd h5 (hno k' x' he')
    rw [follow_append, (hfol _).1 x hl, ← c5]
    exact k3 k c c1 ks
  · intro ks x hx
    have old : ∀ ks y q, status (Verif.submaps F) ks = some (some y) → H'.follow y q = some x →
        ∃ k rest, Exported t v.delim f k y ∧ ks ++ q = splitOn v.delim k ++ rest ∧ H.follow y rest = some x := by
      intro ks y q h1 h2
      obtain ⟨k, he', rfl⟩ := (hFm ks y).mp ((hS.leaf _ _).mp h1).1
      refine ⟨k, q, he', rfl, ?_⟩
      obtain ⟨c, c1, -, -, -, c5⟩ := he'
      have := k3 k c c1 q
      rw [c5] at this
      rw [← this]; exact h2
    cases hs : status (Verif.submaps F) ks with
    | none =>
      rcases (hfol ks).2.2 hs with h1 | ⟨p, q, y, rfl, h1, h2⟩
      · rw [h1] at hx; cases hx
      · obtain ⟨k, rest, r1, r2, r3⟩ := old p y q h1 (h2 ▸ hx)
        exact .inr ⟨k, y, rest, r1, r2, r3⟩
    | some st =>
      cases st with
      | none =>
        obtain ⟨r', r1, r2⟩ := (hfol ks).2.1 hs
        rw [r2] at hx
        cases hx
        exact .inl ⟨r', Nat.le_trans (Nat.le_succ _) r1, rfl⟩
      | some y =>
        have := (hfol ks).1 y hs
        rw [this] at hx
        cases hx
        obtain ⟨k, rest, r1, r2, r3⟩ := old ks x [] hs rfl
        rw [List.append_nil] at r2
        exact .inr ⟨k, x, rest, r1, r2, r3⟩

/-- **C87** The maps that an export made can be written to without changing what the store holds. -/
theorem C87_own {t : Tree (Any (RVal α) κ)} {H H' : MapHeap α κ} (hst : Stored t H)
    (hk : ∀ r, r < H.next → H'.maps r = H.maps r) {r : Nat} (hr : H.next ≤ r) (key : Str) (x : Any (RVal α) κ) :
    ∀ k c, t.contents k = some c → ∀ ks, (H'.put r key x).follow c.data ks = H.follow c.data ks := by
  intro k c hc ks
  refine follow_old hst.closed ?_ ks (hst.ref k c hc)
  intro i hi
  have : i ≠ r := by omega
  simp only [MapHeap.put, this, if_false]
  exact hk i hi

end

/-! ## Maps above other entries -/

/-- A trie of numbers and maps, filled by `Set`. -/
def rset (l : List (String × Any (RVal Nat) Nat)) : Tree (Any (RVal Nat) Nat) :=
  l.foldl (fun t a => ((View.new '.').set t a.1.toList a.2).1) Tree.new

/-- One map `{"c": 1}` in memory, at the address 0. -/
def rmem : MapHeap Nat Nat := ⟨fun _ => [("c".toList, .atom (.val 1))], 1⟩

/-- The map 0, and a number. -/
def rmap : Any (RVal Nat) Nat := .atom (.ref 0)
def rnum (n : Nat) : Any (RVal Nat) Nat := .atom (.val n)

/-- The keys of the map that `Get(path)` returns after the call with the result `x`. -/
def keysAfter (t : Tree (Any (RVal Nat) Nat)) (path : String) (x : Go (MapHeap Nat Nat × Option Nat)) : List Str :=
  match x, (View.new '.').mustGet t path.toList with
  | .ok (H, _), .ok y => match asRef y with
    | some r => (H.maps r).map (·.1)
    | none => []
  | _, _ => []

/-- **C87** fails when an entry that holds a map has an entry below it: `Set("x.a", m)`, `Set("x.a.b", 2)`, and
`GetM("x")` has put `b` into the user's map `m`, so that `Get("x.a")` returns something else than before. -/
theorem C87_getM_fails : ∃ t, t = rset [("x.a", rmap), ("x.a.b", rnum 2)] ∧
    keysAfter t "x.a" (.ok (rmem, none)) = ["c".toList] ∧
    keysAfter t "x.a" ((View.new '.').getMR t "x".toList MOpts.default id rmem) = ["c".toList, "b".toList] := by
  refine ⟨_, rfl, ?_, ?_⟩ <;> decide +kernel

/-- So does reading a section into a struct (`To`, `GetSectionFrom`). -/
theorem C87_to_fails : ∃ t, t = rset [("x.a", rmap), ("x.a.b", rnum 2)] ∧
    keysAfter t "x.a" ((View.new '.').toR t [] MOpts.default id rmem) = ["c".toList, "b".toList] := by
  refine ⟨_, rfl, ?_⟩; decide +kernel

/-- So does the export behind saving (`WithoutFlattenKeys`), but only for one of the two iteration orders: in the other
one the entry `x.a.b` is missing in what is saved. -/
theorem C87_save_fails : ∃ t, t = rset [("x.a", rmap), ("x.a.b", rnum 2)] ∧
    keysAfter t "x.a" ((View.new '.').getMR t [] ⟨false, true, none⟩ id rmem) = ["c".toList, "b".toList] ∧
    keysAfter t "x.a" ((View.new '.').getMR t [] ⟨false, true, none⟩ List.reverse rmem) = ["c".toList] ∧
    (match (View.new '.').getMR t [] ⟨false, true, none⟩ List.reverse rmem with
      | .ok (H, some r) => (H.follow (.atom (.ref r)) ["x".toList, "a".toList, "b".toList]).isNone
      | _ => false) = true := by
  refine ⟨_, rfl, ?_, ?_, ?_⟩ <;> decide +kernel

/-- `GetM(path)` drops components of the keys (C42), so that it writes into stored maps that have nothing below them. -/
theorem C87_apart_fails : ∃ t, t = rset [("x.a.b.k", rmap), ("x.a.c.k.z", rnum 2)] ∧
    keysAfter t "x.a.b.k" (.ok (rmem, none)) = ["c".toList] ∧
    keysAfter t "x.a.b.k" ((View.new '.').getMR t "x.a".toList MOpts.default id rmem) = ["c".toList, "z".toList] := by
  refine ⟨_, rfl, ?_, ?_⟩ <;> decide +kernel

/-- Taking the map at `ks` out of an export and writing to it. -/
def writeInto (x : Go (MapHeap Nat Nat × Option Nat)) (ks : List Str) (k : Str) (y : Any (RVal Nat) Nat) :
    Go (MapHeap Nat Nat × Option Nat) :=
  match x with
  | .ok (H, some r) => match (H.follow (.atom (.ref r)) ks).bind asRef with
    | some s => .ok (H.put s k y, some r)
    | none => .error .panic
  | x => x

/-- An export shares the stored maps: writing into one that was found in the result changes what the store returns.
Writing into a map that the export made does not (C87_own). -/
theorem C87_shared_fails : ∃ t, t = rset [("x.a", rmap), ("x.b.d", rnum 4)] ∧
    keysAfter t "x.a" (writeInto ((View.new '.').getMR t "x".toList MOpts.default id rmem) ["a".toList] "new".toList (rnum 3)) =
      ["c".toList, "new".toList] ∧
    keysAfter t "x.a" (writeInto ((View.new '.').getMR t "x".toList MOpts.default id rmem) ["b".toList] "new".toList (rnum 3)) =
      ["c".toList] := by
  refine ⟨_, rfl, ?_, ?_⟩ <;> decide +kernel

/-! ## Examples -/

/-- A trie with two maps in it, none above another entry. -/
def exR : Tree (Any (RVal Nat) Nat) := rset [("x.a", rmap), ("x.b.d", rnum 4), ("y", rmap), ("z", rnum 5)]

theorem exR_reach : Reach (fun _ => True) exR := by
  unfold exR rset
  simp only [List.foldl_cons, List.foldl_nil]
  exact (((Reach.new.set trivial _).set trivial _).set trivial _).set trivial _

/-- The hypotheses of the theorems hold of it, the export succeeds, and the shared map is found under both keys. -/
example : Stored exR rmem ∧ Apart '.' exR ∧
    (match (View.new '.').getMR exR [] ⟨false, true, none⟩ List.reverse rmem with
      | .ok (H, some r) => (H.follow (.atom (.ref r)) ["x".toList, "a".toList, "c".toList]).isSome &&
          (H.follow (.atom (.ref r)) ["y".toList, "c".toList]).isSome && (H.follow (.atom (.ref r)) ["z".toList]).isSome
      | _ => false) = true := by
  have mem : ∀ {k c}, exR.contents k = some c → (k, c) ∈ exR.root.entries [] := by
    intro k c h
    unfold Tree.contents at h
    generalize exR.root.entries [] = l at h
    induction l with
    | nil => simp [assoc] at h
    | cons a l ih =>
      obtain ⟨k', b⟩ := a
      simp only [assoc] at h
      split at h
      · rename_i e; cases h; simp [e]
      · exact List.mem_cons_of_mem _ (ih h)
  have all1 : (exR.root.entries []).all (fun e => !e.2.data.isMap && (asRef e.2.data).all (fun r => decide (r < 1))) = true := by
    decide +kernel
  have all2 : (exR.root.entries []).all (fun a => (exR.root.entries []).all (fun b =>
      !(a.2.leaf && (asRef a.2.data).isSome && b.2.leaf && (a.1 ++ ['.']).isPrefixOf b.1))) = true := by
    decide +kernel
  rw [List.all_eq_true] at all1 all2
  refine ⟨⟨?_, ?_, ?_⟩, ?_, by decide +kernel⟩
  · intro r e _ he r' hr'
    simp only [rmem, List.mem_singleton] at he
    rw [he] at hr'
    cases hr'
  · intro k c hc
    have := all1 _ (mem hc)
    simp only [Bool.and_eq_true, Bool.not_eq_true'] at this
    exact this.1
  · intro k c hc r hr
    have := all1 _ (mem hc)
    simp only [Bool.and_eq_true, hr, Option.all_some, decide_eq_true_eq] at this
    exact this.2
  · intro k c k' c' hc h1 h2 hc' h3 h4
    have := all2 _ (mem hc)
    rw [List.all_eq_true] at this
    have := this _ (mem hc')
    simp only [h1, h2, h3, List.isPrefixOf_iff_prefix.mpr h4] at this
    cases this

end Verif

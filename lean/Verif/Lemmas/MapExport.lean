import Verif.Lemmas.MapRefs
import Verif.Lemmas.TTL
import Verif.Props.SubExport
/-
Exports of tries that hold references to maps.
-/
namespace Verif
variable {α κ : Type}

theorem splitOn_prefix {d : Char} {k k' : Str} (h : splitOn d k <+: splitOn d k') : k = k' ∨ (k ++ [d]) <+: k' := by
  obtain ⟨l, hl⟩ := h
  by_cases e : l = []
  · subst e
    rw [List.append_nil] at hl
    exact .inl (splitOn_inj hl)
  · have := joinWith_append (d := d) (splitOn_ne_nil d k) e
    rw [hl, joinWith_splitOn, joinWith_splitOn] at this
    exact .inr ⟨joinWith d l, by rw [this]; simp⟩

theorem Kept.trans {H H' H'' : MapHeap α κ} (h : Kept H H') (h' : Kept H' H'') : Kept H H'' :=
  ⟨Nat.le_trans h.1 h'.1, fun r hr => (h'.2 r (Nat.lt_of_lt_of_le hr h.1)).trans (h.2 r hr)⟩

theorem kept_alloc (H : MapHeap α κ) (m : SMap (RVal α) κ) : Kept H (H.alloc m) :=
  ⟨Nat.le_succ _, fun r hr => by have : r ≠ H.next := Nat.ne_of_lt hr; simp [MapHeap.alloc, this]⟩

open MapHeap

theorem sep_none {F : List (List Str × Any (RVal α) κ)} (h : ∀ a ∈ F, asRef a.2 = none) : Sep F := by
  intro a ha _ _ h1
  rw [h a ha] at h1
  simp at h1

/-- `splitCompactKeys` writes to new maps only. -/
theorem split_kept {d : Char} {H : MapHeap α κ} (hc : H.Closed) {m : SMap (RVal α) κ} (hv : ∀ a ∈ m, a.2.isMap = false)
    (hr : ∀ a ∈ m, ∀ r, asRef a.2 = some r → r < H.next)
    (hs : Sep (m.map (fun a => (splitOn d a.1, a.2)))) : Kept H (H.split d m) ∧ (H.split d m).Closed := by
  have hv' : ∀ a ∈ m.map (fun a => (splitOn d a.1, a.2)), a.2.isMap = false := by
    intro a ha; obtain ⟨b, hb, rfl⟩ := List.mem_map.mp ha; exact hv b hb
  have hr' : ∀ a ∈ m.map (fun a => (splitOn d a.1, a.2)), ∀ r, asRef a.2 = some r → r < H.next := by
    intro a ha; obtain ⟨b, hb, rfl⟩ := List.mem_map.mp ha; exact hr b hb
  obtain ⟨S, -, -, -, -, h1, h2⟩ := submaps_rep (H := H) _ hv' hr' hs
  have h3 := (hc.alloc (m := []) (by simp)).submaps (r := H.next) (F := m.map (fun a => (splitOn d a.1, a.2)))
    (fun a ha r h => Nat.lt_succ_of_lt (hr' a ha r h))
  rw [split_eq]
  exact ⟨⟨Nat.le_of_lt h1, h2⟩, h3.1⟩

/-- The maps made since `lo` have keys without delimiter, and no `.map` in them. -/
def Clean (d : Char) (lo : Nat) (H : MapHeap α κ) : Prop := ∀ r, lo ≤ r → r < H.next → ∀ e ∈ H.maps r, d ∉ e.1 ∧ e.2.isMap = false

theorem Clean.put {d : Char} {lo : Nat} {H : MapHeap α κ} (h : Clean d lo H) {r : Nat} {k : Str} {v : Any (RVal α) κ} (hk : d ∉ k)
    (hv : v.isMap = false) : Clean d lo (H.put r k v) := by
  intro i hi hn e he
  simp only [MapHeap.put] at he hn
  split at he
  · rename_i e1; subst e1
    rcases mem_mput he with he | rfl
    · exact h _ hi hn e he
    · exact ⟨hk, hv⟩
  · exact h _ hi hn e he

theorem Clean.alloc {d : Char} {lo : Nat} {H : MapHeap α κ} (h : Clean d lo H) : Clean d lo (H.alloc []) := by
  intro i hi hn e he
  simp only [MapHeap.alloc] at he hn
  split at he
  · simp at he
  · exact h _ hi (by omega) e he

theorem Clean.submap {d : Char} {lo : Nat} {H : MapHeap α κ} (h : Clean d lo H) {r : Nat} {ks : List Str} {v : Any (RVal α) κ}
    (hk : ∀ k ∈ ks, d ∉ k) (hv : v.isMap = false) : Clean d lo (H.submap r ks v) := by
  induction ks generalizing H r with
  | nil => exact h
  | cons k ks ih =>
    cases ks with
    | nil => exact h.put (hk k (by simp)) hv
    | cons k2 ks =>
      simp only [MapHeap.submap]
      split
      · split
        · exact ih h (fun w hw => hk w (by simp [hw]))
        · exact h
      · exact ih (h.alloc.put (hk k (by simp)) rfl) (fun w hw => hk w (by simp [hw]))

theorem Clean.submaps {d : Char} {lo : Nat} {F : List (List Str × Any (RVal α) κ)} {H : MapHeap α κ} (h : Clean d lo H) {r : Nat}
    (hk : ∀ a ∈ F, (∀ k ∈ a.1, d ∉ k) ∧ a.2.isMap = false) : Clean d lo (H.submaps r F) := by
  induction F generalizing H with
  | nil => exact h
  | cons a F ih =>
    exact ih (H := H.submap r a.1 a.2) (h.submap (hk a (by simp)).1 (hk a (by simp)).2)
      (fun b hb => hk b (List.mem_cons_of_mem _ hb))

/-- Splitting a map whose keys have no delimiter. -/
theorem split_clean {d : Char} {H : MapHeap α κ} (hc : H.Closed) {m : SMap (RVal α) κ} (hm : ∀ a ∈ m, d ∉ a.1 ∧ a.2.isMap = false)
    (hr : ∀ a ∈ m, ∀ r, asRef a.2 = some r → r < H.next) : Kept H (H.split d m) ∧ (H.split d m).Closed := by
  refine split_kept hc (fun a ha => (hm a ha).2) hr ?_
  intro a ha b hb _ hp
  obtain ⟨a', ha', rfl⟩ := List.mem_map.mp ha
  obtain ⟨b', hb', rfl⟩ := List.mem_map.mp hb
  simp only [splitOn_self (hm _ ha').1, splitOn_self (hm _ hb').1] at hp ⊢
  obtain ⟨e, -⟩ := List.cons_prefix_cons.mp hp
  rw [e]

section
variable {P : Str → Prop}

/-- What a node visited from the root knows. -/
theorem visited {t : Tree (Any (RVal α) κ)} (h : Reach P t) {n : Node (Any (RVal α) κ)} (hn : n ∈ t.root.walk) :
    ∃ k, t.contents k = some n.core ∧ (n.core.leaf = true → n.core.pathS = utf8 k) := by
  rw [Node.walk_eq []] at hn
  obtain ⟨⟨q, m⟩, h1, rfl⟩ := List.mem_map.mp hn
  have hc := (Tree.contents_node h.ok).mpr ⟨m, h1, rfl⟩
  exact ⟨q, hc, (h.inv keyInv_leaf).2 q m.core hc⟩

theorem below_walk {t : Tree (Any (RVal α) κ)} (h : Reach P t) {v : View} {p : Str} {n : Node (Any (RVal α) κ)} {b1 b2 b3 : Bool}
    (e : v.locate t p = .ok (some n, b1, b2, b3)) {m : Node (Any (RVal α) κ)} (hm : m ∈ n.walk) : m ∈ t.root.walk := by
  unfold View.locate at e
  split at e
  · cases e
  · rename_i n' _ _ _ es
    cases e
    obtain ⟨q, hq⟩ := Sys.search_mem es
    obtain ⟨w, h1, h2, h3⟩ := Node.nodes_at h.ok.wf hq
    rw [Node.walk_eq w] at hm
    obtain ⟨a, ha, rfl⟩ := List.mem_map.mp hm
    rw [Node.walk_eq []]
    exact List.mem_map_of_mem (h2.subset ha)
  · cases e

/-- The assignments that `GetM(path)` makes. -/
def pathPuts (d : Char) (p npre : Nat) (o : MOpts (RVal α) κ) (L : List (Node (Any (RVal α) κ))) :
    List (List Str × Any (RVal α) κ) :=
  L.filterMap (fun n => (pathKeys d p npre o n).map (fun ks => (ks, n.core.data)))

theorem pathFold_eq (d : Char) (p npre : Nat) (o : MOpts (RVal α) κ) (L : List (Node (Any (RVal α) κ))) (r : Nat) (H : MapHeap α κ) :
    L.foldl (fun H' n => H'.putNode r (pathKeys d p npre o n) n.core.data) H = H.submaps r (pathPuts d p npre o L) := by
  induction L generalizing H with
  | nil => rfl
  | cons n L ih =>
    simp only [List.foldl_cons, ih, pathPuts, List.filterMap_cons]
    cases pathKeys d p npre o n <;> rfl

/-- The two models of `GetM(path)` put a node under the same keys. -/
theorem pathStep_keys (d : Char) (p npre : Nat) (o : MOpts (RVal α) κ) (ret : SMap (RVal α) κ) (n : Node (Any (RVal α) κ)) :
    pathStep d p npre o ret n = match pathKeys d p npre o n with
      | some ks => Verif.submap ret ks n.core.data
      | none => ret := by
  unfold pathStep pathKeys putPrefixed
  simp only [if_true, Bool.false_eq_true, if_false]
  repeat' split
  all_goals first | rfl | simp_all

theorem pathKeys_clean {d : Char} {p npre : Nat} {o : MOpts (RVal α) κ} {n : Node (Any (RVal α) κ)} {ks : List Str}
    (h : pathKeys d p npre o n = some ks) : ∀ k ∈ ks, d ∉ k := by
  have hput : ∀ s : Str, ∀ k ∈ (if npre ≤ (splitOn d s).length then
      if ((splitOn d s).drop npre).length > 0 then (splitOn d s).drop npre else (splitOn d s).drop (npre - 1)
    else splitOn d s), d ∉ k := by
    intro s k hk
    apply splitOn_pieces d s
    split at hk
    · split at hk <;> exact List.mem_of_mem_drop hk
    · exact hk
  unfold pathKeys at h
  simp only [] at h
  split at h
  · split at h
    · cases h
    · split at h
      · cases h; exact splitOn_pieces d _
      · split at h
        · cases h; exact hput _
        · split at h
          · cases h; exact hput _
          · cases h
  · cases h

theorem pathKeys_keep {d : Char} {p npre : Nat} {o : MOpts (RVal α) κ} (hk : o.keepPrefix = true) {n : Node (Any (RVal α) κ)}
    {ks : List Str} (h : pathKeys d p npre o n = some ks) : n.core.leaf = true ∧ ks = splitOn d (runes n.core.pathS) := by
  unfold pathKeys at h
  simp only [hk, if_true] at h
  split at h
  · rename_i hc
    split at h
    · cases h
    · cases h
      simp only [Core.isBranch, Bool.and_eq_true, Bool.not_not] at hc
      exact ⟨hc.2, rfl⟩
  · cases h

/-- The keys of the root export come from the entries. -/
theorem root_entries {t : Tree (Any (RVal α) κ)} (h : Reach P t) {v : View} {o : MOpts (RVal α) κ} {ret : SMap (RVal α) κ}
    (e : foldGo (rootStep v.delim (utf8 v.pre).length o) [] t.root.walk = .ok ret) :
    (∀ a ∈ ret, ∃ k c, t.contents k = some c ∧ c.leaf = true ∧ c.data = a.2) ∧
    (v.pre = [] ∨ o.keepPrefix = true → ∀ a ∈ ret, ∃ c, t.contents a.1 = some c ∧ c.leaf = true ∧ c.data = a.2) := by
  have gen : ∀ (L : List (Node (Any (RVal α) κ))) (acc ret : SMap (RVal α) κ), (∀ n ∈ L, n ∈ t.root.walk) →
      foldGo (rootStep v.delim (utf8 v.pre).length o) acc L = .ok ret →
      ((∀ a ∈ acc, ∃ k c, t.contents k = some c ∧ c.leaf = true ∧ c.data = a.2) →
        ∀ a ∈ ret, ∃ k c, t.contents k = some c ∧ c.leaf = true ∧ c.data = a.2) ∧
      (v.pre = [] ∨ o.keepPrefix = true → (∀ a ∈ acc, ∃ c, t.contents a.1 = some c ∧ c.leaf = true ∧ c.data = a.2) →
        ∀ a ∈ ret, ∃ c, t.contents a.1 = some c ∧ c.leaf = true ∧ c.data = a.2) := by
    intro L
    induction L with
    | nil => intro acc ret _ e; cases e; exact ⟨id, fun _ => id⟩
    | cons n L ih =>
      intro acc ret hL e
      obtain ⟨k, h1, h2⟩ := visited h (hL n (by simp))
      have ih' := fun acc => ih acc ret (fun n hn => hL n (by simp [hn]))
      simp only [foldGo] at e
      unfold rootStep at e
      by_cases hx : exportable v.delim n = true
      · have hl : n.core.leaf = true := by
          unfold exportable Core.isBranch at hx
          simp only [Bool.and_eq_true, Bool.not_not] at hx
          exact hx.2
        rw [if_pos hx] at e
        by_cases hp : (!o.pass n) = true
        · rw [if_pos hp] at e; exact ih' _ e
        · rw [if_neg hp] at e
          by_cases hk : (o.keepPrefix || decide ((utf8 v.pre).length = 0)) = true
          · rw [if_pos hk] at e
            obtain ⟨i1, i2⟩ := ih' _ e
            refine ⟨fun ha => i1 ?_, fun hv ha => i2 hv ?_⟩
            · intro a ha'
              rcases mem_mput ha' with h | rfl
              · exact ha a h
              · exact ⟨k, n.core, h1, hl, rfl⟩
            · intro a ha'
              rcases mem_mput ha' with h | rfl
              · exact ha a h
              · refine ⟨n.core, ?_, hl, rfl⟩
                rw [h2 hl, runes_utf8]; exact h1
          · rw [if_neg hk] at e
            have hv : ¬ (v.pre = [] ∨ o.keepPrefix = true) := by
              rintro (hv | hv)
              · simp [hv, utf8_nil] at hk
              · simp [hv] at hk
            refine ⟨?_, fun hv' => absurd hv' hv⟩
            by_cases c1 : (utf8 v.pre).length + 1 ≤ n.core.pathS.length
            · rw [if_pos c1] at e
              by_cases c2 : (utf8 v.pre).length + 2 ≤ n.core.pathS.length
              · rw [if_pos c2] at e
                obtain ⟨i1, -⟩ := ih' _ e
                refine fun ha => i1 ?_
                intro a ha'
                rcases mem_mput ha' with h | rfl
                · exact ha a h
                · exact ⟨k, n.core, h1, hl, rfl⟩
              · rw [if_neg c2] at e; cases e
            · rw [if_neg c1] at e; exact (ih' _ e).1
      · rw [if_neg hx] at e; exact ih' _ e
  obtain ⟨g1, g2⟩ := gen _ _ _ (fun _ h => h) e
  exact ⟨g1 (by simp), fun hv => g2 hv (by simp)⟩

theorem apart_sep {d : Char} {t : Tree (Any (RVal α) κ)} (ha : Apart d t) {F : List (List Str × Any (RVal α) κ)}
    (hF : ∀ a ∈ F, ∃ k c, t.contents k = some c ∧ c.leaf = true ∧ c.data = a.2 ∧ a.1 = splitOn d k) : Sep F := by
  intro a h1 b h2 h3 h4
  obtain ⟨k, c, c1, c2, c3, c4⟩ := hF a h1
  obtain ⟨k', c', d1, d2, d3, d4⟩ := hF b h2
  rw [c4, d4] at h4 ⊢
  rcases splitOn_prefix h4 with rfl | h5
  · rfl
  · exact absurd h5 (ha k c k' c' c1 c2 (by rw [c3]; exact h3) d1 d2)

/-- The map that `GetM` returned is new, and its values are values of the store or new maps. -/
theorem getMR_spec {t : Tree (Any (RVal α) κ)} (h : Reach P t) {v : View} {path : Str} {o : MOpts (RVal α) κ}
    {ord : SMap (RVal α) κ → SMap (RVal α) κ} (hord : ∀ m a, a ∈ ord m → a ∈ m) {H H' : MapHeap α κ} {out : Option Nat}
    (hst : Stored t H) (hh : Harmless v t path o) (e : v.getMR t path o ord H = .ok (H', out)) :
    Kept H H' ∧ H'.Closed ∧ ∀ r, out = some r → H.next ≤ r ∧ r < H'.next ∧
      (∀ a ∈ H'.maps r, a.2.isMap = false) ∧ Sep ((H'.maps r).map (fun a => (splitOn v.delim a.1, a.2))) := by
  -- a second map, made from `m`
  have second : ∀ (H1 : MapHeap α κ) (m : SMap (RVal α) κ), H1.Closed → (∀ a ∈ m, a.2.isMap = false) →
      (∀ a ∈ m, ∀ r, asRef a.2 = some r → r < H1.next) → Sep (m.map (fun a => (splitOn v.delim a.1, a.2))) →
      Kept H1 (H1.split v.delim m) ∧ (H1.split v.delim m).Closed ∧ H1.next < (H1.split v.delim m).next ∧
      ∀ a ∈ (H1.split v.delim m).maps H1.next, v.delim ∉ a.1 ∧ a.2.isMap = false := by
    intro H1 m hc hv hr hs
    obtain ⟨k1, k2⟩ := split_kept hc hv hr hs
    have hlt : H1.next < (H1.split v.delim m).next := by
      rw [split_eq]
      obtain ⟨S, -, -, -, -, q, -⟩ := submaps_rep (H := H1) (m.map (fun a => (splitOn v.delim a.1, a.2)))
        (by intro a ha; obtain ⟨b, hb, rfl⟩ := List.mem_map.mp ha; exact hv b hb)
        (by intro a ha; obtain ⟨b, hb, rfl⟩ := List.mem_map.mp ha; exact hr b hb) hs
      exact q
    refine ⟨k1, k2, hlt, ?_⟩
    have hcl : Clean v.delim H1.next (H1.split v.delim m) := by
      rw [split_eq]
      refine Clean.submaps (Clean.alloc (fun r h1 h2 => by omega)) ?_
      intro a ha
      obtain ⟨b, hb, rfl⟩ := List.mem_map.mp ha
      exact ⟨splitOn_pieces _ _, hv b hb⟩
    exact hcl _ (Nat.le_refl _) hlt
  have cleanSep : ∀ m : SMap (RVal α) κ, (∀ a ∈ m, v.delim ∉ a.1 ∧ a.2.isMap = false) →
      Sep (m.map (fun a => (splitOn v.delim a.1, a.2))) := by
    intro m hm a ha b hb _ hp
    obtain ⟨a', ha', rfl⟩ := List.mem_map.mp ha
    obtain ⟨b', hb', rfl⟩ := List.mem_map.mp hb
    simp only [splitOn_self (hm _ ha').1, splitOn_self (hm _ hb').1] at hp ⊢
    obtain ⟨e, -⟩ := List.cons_prefix_cons.mp hp
    rw [e]
  have hsub : ∀ m : SMap (RVal α) κ, Sep (m.map (fun a => (splitOn v.delim a.1, a.2))) →
      Sep ((ord m).map (fun a => (splitOn v.delim a.1, a.2))) := by
    intro m hs a ha b hb
    obtain ⟨a', ha', rfl⟩ := List.mem_map.mp ha
    obtain ⟨b', hb', rfl⟩ := List.mem_map.mp hb
    exact hs _ (List.mem_map.mpr ⟨a', hord _ _ ha', rfl⟩) _ (List.mem_map.mpr ⟨b', hord _ _ hb', rfl⟩)
  unfold View.getMR at e
  by_cases hroot : path = [] ∨ path = ".".toList ∨ path = "(root)".toList
  · simp only [if_pos hroot] at e
    cases hf : foldGo (rootStep v.delim (utf8 v.pre).length o) [] t.root.walk with
    | error x => rw [hf] at e; cases e
    | ok ret =>
      obtain ⟨g1, g2⟩ := root_entries h hf
      have hv : ∀ a ∈ ret, a.2.isMap = false := fun a ha => by
        obtain ⟨k, c, c1, -, c3⟩ := g1 a ha; rw [← c3]; exact hst.val k c c1
      have hr : ∀ a ∈ ret, ∀ r, asRef a.2 = some r → r < H.next := fun a ha => by
        obtain ⟨k, c, c1, -, c3⟩ := g1 a ha; rw [← c3]; exact hst.ref k c c1
      have hs : Sep (ret.map (fun a => (splitOn v.delim a.1, a.2))) := by
        rcases hh with hh | ⟨ha, hk⟩
        · refine sep_none ?_
          intro a ha
          obtain ⟨b, hb, rfl⟩ := List.mem_map.mp ha
          obtain ⟨k, c, c1, -, c3⟩ := g1 b hb
          simp only [← c3]; exact hh k c c1
        · refine apart_sep ha ?_
          intro a ha
          obtain ⟨b, hb, rfl⟩ := List.mem_map.mp ha
          obtain ⟨c, c1, c2, c3⟩ := g2 (hk.elim .inr (fun x => .inl x.2)) b hb
          exact ⟨b.1, c, c1, c2, c3, rfl⟩
      rw [hf] at e
      simp only [] at e
      have hk := kept_alloc H ret
      have hc := hst.closed.alloc hr
      have hm : (H.alloc ret).maps H.next = ret := by simp [MapHeap.alloc]
      by_cases hn : o.noFlatten = true
      · rw [if_pos hn] at e
        cases e
        obtain ⟨s1, s2, s3, s4⟩ := second (H.alloc ret) (ord ret) hc (fun a ha => hv a (hord _ _ ha))
          (fun a ha r h => Nat.lt_succ_of_lt (hr a (hord _ _ ha) r h)) (hsub _ hs)
        refine ⟨hk.trans s1, s2, ?_⟩
        intro r hr'
        cases hr'
        exact ⟨hk.1, s3, fun a ha => (s4 a ha).2, cleanSep _ s4⟩
      · rw [if_neg hn] at e
        cases e
        refine ⟨hk, hc, ?_⟩
        intro r hr'
        cases hr'
        rw [hm]
        exact ⟨Nat.le_refl _, Nat.lt_succ_self _, hv, hs⟩
  · simp only [if_neg hroot] at e
    cases hl : v.locate t path with
    | error x => rw [hl] at e; cases e
    | ok q =>
      obtain ⟨n, b1, pm, found⟩ := q
      rw [hl] at e
      simp only [] at e
      by_cases hfp : (found || pm) = true
      · rw [if_pos hfp] at e
        cases n with
        | none => cases e
        | some n =>
          simp only [pathFold_eq] at e
          generalize hF : pathPuts v.delim (if (utf8 v.pre).length = 0 then (utf8 path).length - 1
            else (utf8 v.pre).length + 1 + (utf8 path).length) (splitOn v.delim (View.join v.delim [v.pre, path])).length o n.walk = F at e
          have hmem : ∀ a ∈ F, ∃ m ∈ t.root.walk, ∃ p npre, pathKeys v.delim p npre o m = some a.1 ∧ m.core.data = a.2 := by
            intro a ha
            rw [← hF] at ha
            obtain ⟨m, hm1, hm2⟩ := List.mem_filterMap.mp ha
            cases hpk : pathKeys v.delim (if (utf8 v.pre).length = 0 then (utf8 path).length - 1
              else (utf8 v.pre).length + 1 + (utf8 path).length) (splitOn v.delim (View.join v.delim [v.pre, path])).length o m with
            | none => rw [hpk] at hm2; cases hm2
            | some ks =>
              rw [hpk] at hm2
              cases hm2
              exact ⟨m, below_walk h hl hm1, _, _, hpk, rfl⟩
          have hval : ∀ a ∈ F, ∃ k c, t.contents k = some c ∧ c.data = a.2 := by
            intro a ha
            obtain ⟨m, hm1, p, np, -, hm3⟩ := hmem a ha
            obtain ⟨k, hk, -⟩ := visited h hm1
            exact ⟨k, m.core, hk, hm3⟩
          have hv : ∀ a ∈ F, a.2.isMap = false := fun a ha => by
            obtain ⟨k, c, c1, c3⟩ := hval a ha; rw [← c3]; exact hst.val k c c1
          have hr : ∀ a ∈ F, ∀ r, asRef a.2 = some r → r < H.next := fun a ha => by
            obtain ⟨k, c, c1, c3⟩ := hval a ha; rw [← c3]; exact hst.ref k c c1
          have hs : Sep F := by
            rcases hh with hh | ⟨ha, hk⟩
            · refine sep_none ?_
              intro a ha
              obtain ⟨k, c, c1, c3⟩ := hval a ha
              rw [← c3]; exact hh k c c1
            · refine apart_sep ha ?_
              intro a ha
              obtain ⟨m, hm1, p, np, hm2, hm3⟩ := hmem a ha
              obtain ⟨k, hk1, hk2⟩ := visited h hm1
              have hkeep : o.keepPrefix = true := hk.elim id (fun x => absurd x.1 hroot)
              obtain ⟨q1, q2⟩ := pathKeys_keep hkeep hm2
              refine ⟨k, m.core, hk1, q1, hm3, ?_⟩
              rw [q2, hk2 q1, runes_utf8]
          obtain ⟨S, -, -, -, -, q1, q2⟩ := submaps_rep (H := H) F hv hr hs
          have q3 := (hst.closed.alloc (m := []) (by simp)).submaps (r := H.next) (F := F)
            (fun a ha r h => Nat.lt_succ_of_lt (hr a ha r h))
          have q4 : Clean v.delim H.next ((H.alloc []).submaps H.next F) := by
            refine Clean.submaps (Clean.alloc (fun r h1 h2 => by omega)) ?_
            intro a ha
            obtain ⟨m, hm1, p, np, hm2, hm3⟩ := hmem a ha
            exact ⟨pathKeys_clean hm2, hv a ha⟩
          generalize (H.alloc []).submaps H.next F = H1 at *
          have hk : Kept H H1 := ⟨Nat.le_of_lt q1, q2⟩
          have q5 := q4 H.next (Nat.le_refl _) q1
          by_cases hn : o.noFlatten = true
          · rw [if_pos hn] at e
            cases e
            obtain ⟨s1, s2, s3, s4⟩ := second H1 (ord (H1.maps H.next)) q3.1 (fun a ha => (q5 a (hord _ _ ha)).2)
              (fun a ha r h => q3.1 _ a q1 (hord _ _ ha) r h) (hsub _ (cleanSep _ q5))
            refine ⟨hk.trans s1, s2, ?_⟩
            intro r hr'
            cases hr'
            exact ⟨hk.1, s3, fun a ha => (s4 a ha).2, cleanSep _ s4⟩
          · rw [if_neg hn] at e
            cases e
            refine ⟨hk, q3.1, ?_⟩
            intro r hr'
            cases hr'
            exact ⟨Nat.le_refl _, q1, fun a ha => (q5 a ha).2, cleanSep _ q5⟩
      · rw [if_neg hfp] at e
        cases e
        exact ⟨⟨Nat.le_refl _, fun _ _ => rfl⟩, hst.closed, by simp⟩

end
end Verif

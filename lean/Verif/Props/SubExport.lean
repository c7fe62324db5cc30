import Mathlib.Data.List.Nodup
import Verif.Props.Export
/-
C42: exporting the part of a trie below a path (`GetR(path)`, `GetM(path)`).
-/
namespace Verif
variable {α κ : Type}

namespace Node
variable {β : Type}

/-- The nodes below a node of the tree are the nodes of the tree whose path extends its path. -/
theorem nodes_at {n : Node β} (hw : n.WF) {u q m} (h : (q, m) ∈ nodes u n) :
    ∃ w, q = w ++ m.path ∧ (nodes w m).Sublist (nodes u n) ∧ ∀ x, x ∈ nodes w m ↔ x ∈ nodes u n ∧ q <+: x.1 := by
  induction n using ind generalizing u with
  | h i p c k ih =>
    have hw' := (wf_mk ..).mp hw
    rw [mem_nodes] at h
    rcases h with h | ⟨c', hc, h⟩
    · simp only [path_mk, Prod.mk.injEq] at h
      obtain ⟨rfl, rfl⟩ := h
      exact ⟨u, rfl, List.Sublist.refl _, fun x => ⟨fun hx => ⟨hx, prefix_of_mem_nodes (m := x.2) hx⟩, fun hx => hx.1⟩⟩
    · obtain ⟨w, h1, h2, h3⟩ := ih c' hc (hw'.2 c' hc).2 h
      refine ⟨w, h1, ?_, fun x => ?_⟩
      · refine h2.trans ?_
        rw [nodes_eq u]
        refine List.Sublist.trans ?_ (List.sublist_cons_self _ _)
        simp only [path_mk, kids_mk] at hc ⊢
        rw [nodesL_eq]
        obtain ⟨l1, l2, rfl⟩ := List.append_of_mem hc
        simp only [List.flatMap_append, List.flatMap_cons]
        exact (List.sublist_append_left _ _).trans (List.sublist_append_right _ _)
      · constructor
        · intro hx
          obtain ⟨h4, h5⟩ := (h3 x).mp hx
          exact ⟨(mem_nodes ..).mpr (.inr ⟨c', hc, h4⟩), h5⟩
        · rintro ⟨h4, h5⟩
          refine (h3 x).mpr ⟨?_, h5⟩
          have h6 : ((u ++ p) ++ c'.path) <+: x.1 := (prefix_of_mem_nodes h).trans h5
          rw [mem_nodes] at h4
          rcases h4 with rfl | ⟨c'', hc'', h4⟩
          · exfalso
            have := h6.length_le
            have := List.length_pos_iff.mpr (hw'.2 c' hc).1
            simp only [path_mk, List.length_append] at *
            omega
          · have h7 : ((u ++ p) ++ c''.path) <+: x.1 := prefix_of_mem_nodes (m := x.2) h4
            have : c'' = c' := by
              refine List.inj_on_of_nodup_map hw'.1 hc'' hc ?_
              obtain ⟨a, ha⟩ := h6
              obtain ⟨b, hb⟩ := h7
              rw [← hb, List.append_assoc (u ++ p), List.append_assoc (u ++ p), List.append_cancel_left_eq] at ha
              have n1 := (hw'.2 c' hc).1
              have n2 := (hw'.2 c'' hc'').1
              cases e1 : c'.path with
              | nil => exact absurd e1 n1
              | cons a1 as =>
                cases e2 : c''.path with
                | nil => exact absurd e2 n2
                | cons b1 bs =>
                  rw [e1, e2] at ha
                  simp at ha
                  simp [ha.1]
            subst this
            exact h4

end Node

/-- `k` is a leaf entry with value `x` that exports take: its path does not end with the delimiter and the filter accepts it. -/
def Exported (t : Tree (Any α κ)) (d : Char) (f : Core (Any α κ) → Bool) (k : Str) (x : Any α κ) : Prop :=
  ∃ c, t.contents k = some c ∧ c.leaf = true ∧ f c = true ∧ endsW d k = false ∧ c.data = x

section
variable {P : Str → Prop}

/-- What the walk below the entry at `q` sees. -/
theorem walk_below {t : Tree (Any α κ)} (h : Reach P t) {q : Str} {n : Node (Any α κ)} (hn : (q, n) ∈ t.root.nodes [])
    (d : Char) (o : MOpts α κ) (f : Core (Any α κ) → Bool) (hf : ∀ n, o.pass n = f n.core) :
    ∃ L : List (Str × Node (Any α κ)), n.walk = L.map (·.2) ∧ (L.map (·.1)).Nodup ∧
      (∀ a ∈ L, a ∈ t.root.nodes [] ∧ q <+: a.1) ∧
      (∀ a ∈ L, a.2.core.leaf = true → a.2.core.pathS = utf8 a.1) ∧
      ((L.filterMap (selected d o)).map (·.1)).Nodup ∧
      ∀ k x, (k, x) ∈ L.filterMap (selected d o) ↔ q <+: k ∧ Exported t d f k x := by
  obtain ⟨w, h1, h2, h3⟩ := Node.nodes_at h.ok.wf hn
  have hnd : ((t.root.nodes []).map (·.1)).Nodup := Node.keys_nodup h.ok.wf []
  have hnd2 : ((n.nodes w).map (·.1)).Nodup := hnd.sublist (h2.map _)
  refine ⟨n.nodes w, Node.walk_eq w n, hnd2, fun a ha => (h3 a).mp ha, fun a ha => ?_, ?_, fun k x => ?_⟩
  · exact (h.inv keyInv_leaf).2 a.1 a.2.core ((Tree.contents_node h.ok).mpr ⟨a.2, ((h3 a).mp ha).1, rfl⟩)
  · refine hnd2.sublist ?_
    generalize n.nodes w = L
    induction L with
    | nil => simp
    | cons a L ih =>
      simp only [List.filterMap_cons]
      unfold selected at ih ⊢
      split
      · exact ih.trans (List.sublist_cons_self _ _)
      · rename_i b hb
        split at hb
        · cases hb; exact List.Sublist.cons_cons _ ih
        · simp at hb
  · unfold Exported
    rw [← mem_selected h d o f hf]
    simp only [List.mem_filterMap, h3]
    constructor
    · rintro ⟨a, ⟨h4, h5⟩, h6⟩
      have : a.1 = k := by
        unfold selected at h6
        split at h6
        · cases h6; rfl
        · simp at h6
      exact ⟨this ▸ h5, a, h4, h6⟩
    · rintro ⟨h5, a, h4, h6⟩
      have : a.1 = k := by
        unfold selected at h6
        split at h6
        · cases h6; rfl
        · simp at h6
      exact ⟨a, ⟨h4, this ▸ h5⟩, h6⟩

/-- The three spellings of the root that `GetM` and `GetR` treat apart. -/
def RootName (p : Str) : Prop := p = [] ∨ p = ".".toList ∨ p = "(root)".toList

theorem locate_at {v : View} {t : Tree (Any α κ)} (h : Reach (NoRoute v.delim) t) (hm : v.mode ≠ .up) {p q : Str} {c : Core (Any α κ)}
    (hr : resolve v.delim t.contents (v.full p) = some (q, c)) :
    ∃ n br, v.locate t p = .ok (some n, br, false, true) ∧ (q, n) ∈ t.root.nodes [] := by
  rcases search_plain h.ok h.plain hm (v.full p) with ⟨q', m, par, h1, h2, _⟩ | ⟨hw, h1, _⟩
  · have hq : q' = q := by
      obtain ⟨a1, a2⟩ := resolve_cases h1
      obtain ⟨b1, b2⟩ := resolve_cases hr
      rw [Tree.contents_eq h.ok] at b1
      rcases a2 with rfl | ⟨rfl, a2, -⟩ <;> rcases b2 with rfl | ⟨rfl, b2, -⟩
      · rfl
      · rw [Tree.contents_eq h.ok, a1] at b2; simp at b2
      · rw [a2] at b1; simp at b1
      · rfl
    subst hq
    refine ⟨m, m.core.isBranch, ?_, (Tree.nodeAt_some h.ok).mp (resolve_some h1)⟩
    rw [View.locate, h2]
    simp
  · rw [resolve_none] at h1
    obtain ⟨b1, b2⟩ := resolve_cases hr
    rw [Tree.contents_eq h.ok] at b1
    rcases b2 with rfl | ⟨rfl, b2, hne⟩
    · rw [h1.1] at b1; simp at b1
    · rw [h1.2 hne] at b1; simp at b1

/-- **C42** `GetR(p)`, on any view: exactly the leaf entries at and below the entry that `p` names, under their full paths. -/
theorem C42_getR {v : View} {t : Tree (Any α κ)} (h : Reach (NoRoute v.delim) t) (hm : v.mode ≠ .up) {p q : Str} {c : Core (Any α κ)}
    (hp : ¬ RootName p) (hr : resolve v.delim t.contents (v.full p) = some (q, c)) :
    ∃ m, v.getR t p = .ok (some m) ∧ (m.map (·.1)).Nodup ∧
      ∀ k x, (k, x) ∈ m ↔ q <+: k ∧ Exported t v.delim (fun _ => true) k x := by
  obtain ⟨n, br, h1, h2⟩ := locate_at h hm hr
  obtain ⟨L, l1, l2, l3, l4, l5, l6⟩ := walk_below h h2 v.delim MOpts.default (fun _ => true) (fun _ => rfl)
  refine ⟨_, ?_, l5, l6⟩
  unfold RootName at hp
  unfold View.getR
  rw [if_neg hp, h1]
  simp only [Bool.true_or, if_true]
  rw [l1, collectR L [] l4 l2 (by simp)]
  simp

theorem pathFold {d : Char} {p npre : Nat} {o : MOpts α κ} (g : Str → List Str) (L : List (Str × Node (Any α κ))) (acc : SMap α κ)
    (h1 : ∀ a ∈ L, ∀ b, selected d o a = some b → ∀ ret, pathStep d p npre o ret a.2 = submap ret (g b.1) b.2)
    (h2 : ∀ a ∈ L, selected d o a = none → ∀ ret, pathStep d p npre o ret a.2 = ret) :
    (L.map (·.2)).foldl (pathStep d p npre o) acc = (L.filterMap (selected d o)).foldl (fun out b => submap out (g b.1) b.2) acc := by
  induction L generalizing acc with
  | nil => rfl
  | cons a L ih =>
    have ih' := fun acc => ih acc (fun a ha => h1 a (by simp [ha])) (fun a ha => h2 a (by simp [ha]))
    simp only [List.map_cons, List.foldl_cons, List.filterMap_cons]
    cases hs : selected d o a with
    | none => rw [h2 a (by simp) hs, ih']
    | some b => rw [h1 a (by simp) b hs, ih']; rfl

theorem pathStep_none {d : Char} {p npre : Nat} {o : MOpts α κ} {a : Str × Node (Any α κ)}
    (hp : a.2.core.leaf = true → a.2.core.pathS = utf8 a.1) (hs : selected d o a = none) (ret : SMap α κ) :
    pathStep d p npre o ret a.2 = ret := by
  unfold selected at hs
  unfold pathStep Core.isBranch
  cases hl : a.2.core.leaf with
  | false => simp
  | true =>
    simp only [hl, Bool.true_and] at hs
    have he : simpleEndsWith a.2.core.pathS d = endsW d a.1 := by rw [hp hl]; simp [simpleEndsWith, endsW, runes_utf8]
    rw [he]
    cases h1 : endsW d a.1 with
    | true => simp
    | false =>
      cases h2 : o.pass a.2 with
      | true => simp [h1, h2] at hs
      | false => simp

theorem pathStep_some {d : Char} {p npre : Nat} {o : MOpts α κ} {a : Str × Node (Any α κ)} {b : Str × Any α κ}
    (hp : a.2.core.leaf = true → a.2.core.pathS = utf8 a.1) (hs : selected d o a = some b) (ret : SMap α κ) :
    b = (a.1, a.2.core.data) ∧ pathStep d p npre o ret a.2 =
      if o.keepPrefix then submap ret (splitOn d b.1) b.2
      else if p + 1 = (utf8 b.1).length then putPrefixed false npre ret (splitOn d a.2.path) b.2
      else if p < (utf8 b.1).length then putPrefixed false npre ret (splitOn d (runes ((utf8 b.1).drop (p + 1)))) b.2
      else ret := by
  unfold selected at hs
  split at hs
  · rename_i hc
    cases hs
    simp only [Bool.and_eq_true, Bool.not_eq_true'] at hc
    refine ⟨rfl, ?_⟩
    have he : simpleEndsWith a.2.core.pathS d = false := by
      rw [hp hc.1.1]
      have := hc.1.2
      simpa [simpleEndsWith, endsW, runes_utf8] using this
    rw [hp hc.1.1] at he
    unfold pathStep Core.isBranch
    simp only [he, hc.1.1, hc.2, Bool.not_true, Bool.not_false, Bool.and_self, if_true, Bool.false_eq_true, if_false, hp hc.1.1, runes_utf8]
    cases o.keepPrefix <;> simp [putPrefixed]
  · simp at hs

/-- A nested map holding exactly the given assignments, less those below another one. -/
def Holds (m : SMap α κ) (A : List Str → Any α κ → Prop) : Prop :=
  ∀ ks x, status m ks = some (some x) ↔ A ks x ∧ ∀ ks' y, A ks' y → ks' <+: ks → ks' = ks

theorem nested_holds {F : SMap α κ} {g : Str → List Str} (hnd : (F.map (·.1)).Nodup) (hv : ∀ a ∈ F, a.2.isMap = false)
    (hne : ∀ a ∈ F, g a.1 ≠ []) (hg : ∀ a ∈ F, ∀ b ∈ F, g a.1 = g b.1 → a.1 = b.1) :
    Holds (F.foldl (fun out b => submap out (g b.1) b.2) []) (fun ks x => ∃ k, (k, x) ∈ F ∧ ks = g k) := by
  have e : F.foldl (fun out b => submap out (g b.1) b.2) [] = submaps (F.map (fun b => (g b.1, b.2))) := by
    unfold submaps; rw [List.foldl_map]
  have hnd2 : ((F.map (fun b => (g b.1, b.2))).map (·.1)).Nodup := by
    rw [List.map_map]
    have : F.Nodup := hnd.of_map _
    refine List.Nodup.map_on ?_ this
    intro a ha b hb hab
    have h1 : a.1 = b.1 := hg a ha b hb hab
    exact List.inj_on_of_nodup_map hnd ha hb h1
  have S := submaps_spec (F.map (fun b => (g b.1, b.2)))
    (by intro a ha; obtain ⟨b, hb, rfl⟩ := List.mem_map.mp ha; exact hne b hb)
    (by intro a ha; obtain ⟨b, hb, rfl⟩ := List.mem_map.mp ha; exact hv b hb) hnd2
  rw [e]
  intro ks x
  rw [S.leaf]
  constructor
  · rintro ⟨h1, h2⟩
    obtain ⟨⟨k, y⟩, hb, e⟩ := List.mem_map.mp h1
    cases e
    refine ⟨⟨k, hb, rfl⟩, ?_⟩
    rintro ks' y ⟨k', hk', rfl⟩ hp
    exact h2 (g k', y) (List.mem_map.mpr ⟨(k', y), hk', rfl⟩) hp
  · rintro ⟨⟨k, hb, rfl⟩, h2⟩
    refine ⟨List.mem_map.mpr ⟨(k, x), hb, rfl⟩, ?_⟩
    intro a ha hp
    obtain ⟨⟨k', y⟩, hb', rfl⟩ := List.mem_map.mp ha
    exact h2 _ y ⟨k', hb', rfl⟩ hp

theorem mput_keys (m : SMap α κ) (k : Str) (x : Any α κ) : (mput m k x).map (·.1) = if k ∈ m.map (·.1) then m.map (·.1) else m.map (·.1) ++ [k] := by
  induction m with
  | nil => simp [mput]
  | cons a m ih =>
    obtain ⟨k', y⟩ := a
    by_cases e : k' = k
    · subst e; simp [mput]
    · have e' : k ≠ k' := fun h => e h.symm
      simp only [mput, e, if_false, List.map_cons, ih, List.mem_cons, e', false_or]
      split <;> simp

/-- The top-level keys stay distinct and free of the delimiter. -/
def TopKeys (d : Char) (m : SMap α κ) : Prop := (m.map (·.1)).Nodup ∧ ∀ a ∈ m.map (·.1), d ∉ a

theorem TopKeys.put {d : Char} {m : SMap α κ} (h : TopKeys d m) {k : Str} (hk : d ∉ k) (x : Any α κ) : TopKeys d (mput m k x) := by
  unfold TopKeys
  rw [mput_keys]
  split
  · exact h
  · rename_i hn
    refine ⟨?_, ?_⟩
    · rw [List.nodup_append]
      exact ⟨h.1, by simp, by intro a ha b hb; simp at hb; subst hb; rintro rfl; exact hn ha⟩
    · intro a ha
      simp only [List.mem_append, List.mem_singleton] at ha
      rcases ha with ha | rfl
      · exact h.2 a ha
      · exact hk

theorem TopKeys.sub {d : Char} {m : SMap α κ} (h : TopKeys d m) {ks : List Str} (hk : ∀ w ∈ ks, d ∉ w) (x : Any α κ) :
    TopKeys d (submap m ks x) := by
  match ks with
  | [] => simpa [Verif.submap] using h
  | [k] => simp only [Verif.submap]; exact h.put (hk k (by simp)) x
  | k :: k2 :: rest =>
    simp only [Verif.submap]
    split
    · exact h.put (hk k (by simp)) _
    · exact h
    · exact h.put (hk k (by simp)) _

theorem splitCompact_id {d : Char} (m acc : SMap α κ) (h : ∀ a ∈ m, d ∉ a.1) (hnd : ((acc ++ m).map (·.1)).Nodup) :
    m.foldl (fun out a => if d ∈ a.1 then submap out (splitOn d a.1) a.2 else mput out a.1 a.2) acc = acc ++ m := by
  induction m generalizing acc with
  | nil => simp
  | cons a m ih =>
    rw [List.foldl_cons, if_neg (h a (by simp)), mput_fresh, ih _ (fun b hb => h b (by simp [hb]))]
    · simp
    · simpa using hnd
    · intro b hb e
      simp only [List.map_append, List.map_cons, List.nodup_append] at hnd
      exact hnd.2.2 b.1 (List.mem_map_of_mem hb) a.1 (by simp) e

theorem TopKeys.split {d : Char} {m : SMap α κ} (h : TopKeys d m) : splitCompactKeys d m = m := by
  unfold splitCompactKeys
  rw [splitCompact_id m [] (fun a ha => h.2 a.1 (List.mem_map_of_mem ha)) (by simpa using h.1)]
  simp

theorem TopKeys.fold {d : Char} {g : Str → List Str} (hg : ∀ k, ∀ w ∈ g k, d ∉ w) (F m : SMap α κ) (h : TopKeys d m) :
    TopKeys d (F.foldl (fun out b => submap out (g b.1) b.2) m) := by
  induction F generalizing m with
  | nil => exact h
  | cons b F ih => rw [List.foldl_cons]; exact ih _ (h.sub (hg b.1) b.2)

/-- The common part: the walk assigns along `g`. -/
theorem getM_path {v : View} {t : Tree (Any α κ)} (h : Reach (NoRoute v.delim) t) (hm : v.mode ≠ .up) {p q : Str} {c : Core (Any α κ)}
    (hp : ¬ RootName p) (hr : resolve v.delim t.contents (v.full p) = some (q, c)) {o : MOpts α κ}
    {f : Core (Any α κ) → Bool} (hf : ∀ n, o.pass n = f n.core) (hv : ∀ k x, q <+: k → Exported t v.delim f k x → x.isMap = false)
    (g : Str → List Str) (hne : ∀ k, g k ≠ []) (hgd : ∀ k, ∀ w ∈ g k, v.delim ∉ w)
    (hg : ∀ k x, q <+: k → Exported t v.delim f k x → ∀ k' x', q <+: k' → Exported t v.delim f k' x' → g k = g k' → k = k')
    (hstep : ∀ (k : Str) (n : Node (Any α κ)) x, q <+: k → Exported t v.delim f k x → ∀ ret : SMap α κ,
      (if o.keepPrefix then submap ret (splitOn v.delim k) x
      else if (if (utf8 v.pre).length = 0 then (utf8 p).length - 1 else (utf8 v.pre).length + 1 + (utf8 p).length) + 1 = (utf8 k).length
        then putPrefixed false (splitOn v.delim (View.join v.delim [v.pre, p])).length ret (splitOn v.delim n.path) x
      else if (if (utf8 v.pre).length = 0 then (utf8 p).length - 1 else (utf8 v.pre).length + 1 + (utf8 p).length) < (utf8 k).length
        then putPrefixed false (splitOn v.delim (View.join v.delim [v.pre, p])).length ret
          (splitOn v.delim (runes ((utf8 k).drop ((if (utf8 v.pre).length = 0 then (utf8 p).length - 1 else (utf8 v.pre).length + 1 + (utf8 p).length) + 1)))) x
      else ret) = submap ret (g k) x) :
    ∃ m, v.getM t p o = .ok (some m) ∧ Holds m (fun ks x => ∃ k, ks = g k ∧ q <+: k ∧ Exported t v.delim f k x) := by
  obtain ⟨n, br, h1, h2⟩ := locate_at h hm hr
  obtain ⟨L, l1, l2, l3, l4, l5, l6⟩ := walk_below h h2 v.delim o f hf
  have hF := nested_holds (F := L.filterMap (selected v.delim o)) (g := g) l5
    (by rintro ⟨k, x⟩ ha; obtain ⟨a1, a2⟩ := (l6 k x).mp ha; exact hv k x a1 a2)
    (fun a _ => hne a.1)
    (by
      rintro ⟨k, x⟩ ha ⟨k', x'⟩ hb e
      obtain ⟨a1, a2⟩ := (l6 k x).mp ha
      obtain ⟨b1, b2⟩ := (l6 k' x').mp hb
      exact hg k x a1 a2 k' x' b1 b2 e)
  refine ⟨(L.filterMap (selected v.delim o)).foldl (fun out b => submap out (g b.1) b.2) [], ?_, ?_⟩
  rotate_left
  · intro ks x
    rw [hF]
    simp only [l6]
    constructor
    · rintro ⟨⟨k, a1, a2⟩, h3⟩
      refine ⟨⟨k, a2, a1⟩, ?_⟩
      rintro ks' y ⟨k', b1, b2⟩ hpre
      exact h3 ks' y ⟨k', b2, b1⟩ hpre
    · rintro ⟨⟨k, a1, a2⟩, h3⟩
      refine ⟨⟨k, a2, a1⟩, ?_⟩
      rintro ks' y ⟨k', b1, b2⟩ hpre
      exact h3 ks' y ⟨k', b2, b1⟩ hpre
  · unfold RootName at hp
    unfold View.getM
    simp only
    rw [if_neg hp, h1]
    simp only [Bool.true_or, if_true]
    have hid := (TopKeys.fold (d := v.delim) hgd (L.filterMap (selected v.delim o)) [] (by simp [TopKeys])).split
    rw [l1, pathFold g L [], hid]
    · simp
    · intro a ha b hb ret
      obtain ⟨e, h4⟩ := pathStep_some (p := if (utf8 v.pre).length = 0 then (utf8 p).length - 1 else (utf8 v.pre).length + 1 + (utf8 p).length)
        (npre := (splitOn v.delim (View.join v.delim [v.pre, p])).length) (l4 a ha) hb ret
      rw [h4]
      have hm' : (b.1, b.2) ∈ L.filterMap (selected v.delim o) := List.mem_filterMap.mpr ⟨a, ha, hb⟩
      obtain ⟨c1, c2⟩ := (l6 b.1 b.2).mp hm'
      exact hstep b.1 a.2 b.2 c1 c2 ret
    · intro a ha hs ret
      exact pathStep_none (l4 a ha) hs ret

/-- **C42** `GetM(p, WithKeepPrefix(true))`, on any view and with any filter: the nested map of exactly the accepted
leaf entries at and below the entry that `p` names, each under the components of its full path. -/
theorem C42_getM_keepPrefix {v : View} {t : Tree (Any α κ)} (h : Reach (NoRoute v.delim) t) (hm : v.mode ≠ .up) {p q : Str}
    {c : Core (Any α κ)} (hp : ¬ RootName p) (hr : resolve v.delim t.contents (v.full p) = some (q, c)) {o : MOpts α κ}
    (hk : o.keepPrefix = true) {f : Core (Any α κ) → Bool} (hf : ∀ n, o.pass n = f n.core)
    (hv : ∀ k x, q <+: k → Exported t v.delim f k x → x.isMap = false) :
    ∃ m, v.getM t p o = .ok (some m) ∧
      Holds m (fun ks x => ∃ k, ks = splitOn v.delim k ∧ q <+: k ∧ Exported t v.delim f k x) :=
  getM_path h hm hp hr hf hv (splitOn v.delim) (splitOn_ne_nil _) (splitOn_pieces _) (fun _ _ _ _ _ _ _ _ e => splitOn_inj e)
    (fun k n x _ _ ret => by rw [if_pos hk])

/-- The rest of a key below the path `w`, split into components. -/
def below (d : Char) (w k : Str) : List Str := splitOn d (k.drop (w.length + 1))

theorem drop_past (d : Char) (w r : Str) : (w ++ d :: r).drop (w.length + 1) = r := by
  have : w ++ d :: r = (w ++ [d]) ++ r := by simp
  rw [this]
  exact List.drop_left' (by simp)

theorem below_inj {d : Char} {w k k' r r' : Str} (h : k = w ++ d :: r) (h' : k' = w ++ d :: r') (e : below d w k = below d w k') : k = k' := by
  subst h h'
  unfold below at e
  rw [drop_past, drop_past] at e
  rw [splitOn_inj e]

theorem below_eq {d : Char} {w r : Str} : below d w (w ++ d :: r) = splitOn d r := by
  unfold below
  rw [drop_past]

/-- **C42** `GetM(p)` of a one-component path on a trie without prefix: the nested map of exactly the leaf entries below
`p`, each under the components of its path after `p`. Partial: one component, and every leaf entry whose path starts
with the characters of `p` continues with the delimiter; the `C42_*_fails` theorems show that both are needed. -/
theorem C42_getM_partial {v : View} {t : Tree (Any α κ)} (h : Reach (NoRoute v.delim) t) (hm : v.mode ≠ .up) (hpre : v.pre = [])
    {p q : Str} {c : Core (Any α κ)} (hp : ¬ RootName p) (h1 : v.delim ∉ p)
    (hr : resolve v.delim t.contents p = some (q, c)) {o : MOpts α κ} (hk : o.keepPrefix = false)
    {f : Core (Any α κ) → Bool} (hf : ∀ n, o.pass n = f n.core)
    (hv : ∀ k x, p <+: k → Exported t v.delim f k x → x.isMap = false)
    (hb : ∀ k x, p <+: k → Exported t v.delim f k x → ∃ r, k = p ++ v.delim :: r) :
    ∃ m, v.getM t p o = .ok (some m) ∧
      Holds m (fun ks x => ∃ r, ks = splitOn v.delim r ∧ Exported t v.delim f (p ++ v.delim :: r) x) := by
  have hfull : v.full p = p := by simp [View.full, hpre]
  have hpq : p <+: q := by
    rcases (resolve_cases hr).2 with rfl | ⟨rfl, -⟩
    · exact List.prefix_refl _
    · exact List.prefix_append _ _
  have hq : ∀ k x, p <+: k → Exported t v.delim f k x → q <+: k := by
    intro k x h2 h3
    rcases (resolve_cases hr).2 with rfl | ⟨rfl, -⟩
    · exact h2
    · obtain ⟨r, rfl⟩ := hb k x h2 h3
      exact ⟨r, by simp⟩
  have hpos : 0 < (utf8 p).length := by
    rw [List.length_pos_iff]
    intro e
    exact hp (.inl (eq_nil_of_utf8 e))
  have hjoin : View.join v.delim [v.pre, p] = p := by
    rw [join_eq, joinSpec_eq, hpre]
    have : p ≠ [] := fun e => hp (.inl e)
    simp [joinWith, this]
  obtain ⟨m, e, hh⟩ := getM_path h hm hp (by rw [hfull]; exact hr) hf (fun k x h2 h3 => hv k x (hpq.trans h2) h3)
    (below v.delim p) (fun k => splitOn_ne_nil _ _) (fun k => splitOn_pieces _ _)
    (fun k x a1 a2 k' x' b1 b2 e => by
      obtain ⟨r, hr1⟩ := hb k x (hpq.trans a1) a2
      obtain ⟨r', hr2⟩ := hb k' x' (hpq.trans b1) b2
      exact below_inj hr1 hr2 e)
    (fun k n x a1 a2 ret => by
      obtain ⟨r, rfl⟩ := hb k x (hpq.trans a1) a2
      have e1 : (utf8 p).length - 1 + 1 = (utf8 p).length := by omega
      have e2 : 0 < (utf8 (v.delim :: r)).length := by
        rw [List.length_pos_iff]; intro e; exact absurd (eq_nil_of_utf8 e) (by simp)
      rw [if_neg (by rw [hk]; simp), hpre, utf8_nil, List.length_nil, if_pos rfl, e1, utf8_append, List.length_append,
        if_neg (by omega), if_pos (by omega), List.drop_left, runes_utf8, below_eq]
      rw [← hpre, hjoin, splitOn_self h1]
      have e3 : splitOn v.delim (v.delim :: r) = [] :: splitOn v.delim r := by simp [splitOn]
      rw [e3]
      have e4 := List.length_pos_iff.mpr (splitOn_ne_nil v.delim r)
      simp [putPrefixed, e4])
  refine ⟨m, e, fun ks x => ?_⟩
  have key : ∀ ks x, (∃ k, ks = below v.delim p k ∧ q <+: k ∧ Exported t v.delim f k x) ↔
      ∃ r, ks = splitOn v.delim r ∧ Exported t v.delim f (p ++ v.delim :: r) x := by
    intro ks x
    constructor
    · rintro ⟨k, rfl, h2, h3⟩
      obtain ⟨r, rfl⟩ := hb k x (hpq.trans h2) h3
      exact ⟨r, below_eq, h3⟩
    · rintro ⟨r, rfl, h3⟩
      exact ⟨_, below_eq.symm, hq _ x (List.prefix_append _ _) h3, h3⟩
  rw [hh]
  simp only [key]

/-- **C42** `GetM(p)` on a view with a prefix: each entry below under the components of its path after prefix and `p`.
Partial: the delimiter is ASCII, and every leaf entry in question lies below prefix and `p` by fewer components than
those have themselves (`C42_prefix_fails` shows that this is needed). -/
theorem C42_getM_prefix_partial {v : View} {t : Tree (Any α κ)} (h : Reach (NoRoute v.delim) t) (hm : v.mode ≠ .up) (hpre : v.pre ≠ [])
    (had : v.delim.toNat < 128) {p q : Str} {c : Core (Any α κ)} (hp : ¬ RootName p)
    (hr : resolve v.delim t.contents (v.full p) = some (q, c)) {o : MOpts α κ} (hk : o.keepPrefix = false)
    {f : Core (Any α κ) → Bool} (hf : ∀ n, o.pass n = f n.core)
    (hv : ∀ k x, v.full p <+: k → Exported t v.delim f k x → x.isMap = false)
    (hb : ∀ k x, v.full p <+: k → Exported t v.delim f k x →
      ∃ r, k = v.full p ++ v.delim :: r ∧ (splitOn v.delim r).length < (splitOn v.delim (v.full p)).length) :
    ∃ m, v.getM t p o = .ok (some m) ∧
      Holds m (fun ks x => ∃ r, ks = splitOn v.delim r ∧ Exported t v.delim f (v.full p ++ v.delim :: r) x) := by
  have hp0 : p ≠ [] := fun e => hp (.inl e)
  have hpq : v.full p <+: q := by
    rcases (resolve_cases hr).2 with rfl | ⟨rfl, -⟩
    · exact List.prefix_refl _
    · exact List.prefix_append _ _
  have hq : ∀ k x, v.full p <+: k → Exported t v.delim f k x → q <+: k := by
    intro k x h2 h3
    rcases (resolve_cases hr).2 with rfl | ⟨rfl, -⟩
    · exact h2
    · obtain ⟨r, rfl, -⟩ := hb k x h2 h3
      exact ⟨r, by simp⟩
  have hjoin : View.join v.delim [v.pre, p] = v.full p := by simp [View.full, hpre]
  have hlen : (utf8 (v.full p)).length = (utf8 v.pre).length + 1 + (utf8 p).length := by
    rw [full_eq, joinSpec_eq]
    simp only [List.filter_cons, List.filter_nil, hpre, hp0, ne_eq, not_false_eq_true, decide_true, if_true]
    simp only [joinWith, utf8_append, utf8_cons, List.length_append, utf8Char_ascii had]
    omega
  have hpre0 : (utf8 v.pre).length ≠ 0 := by
    intro e
    exact hpre (eq_nil_of_utf8 (List.length_eq_zero_iff.mp e))
  obtain ⟨m, e, hh⟩ := getM_path h hm hp hr hf (fun k x h2 h3 => hv k x (hpq.trans h2) h3)
    (below v.delim (v.full p)) (fun k => splitOn_ne_nil _ _) (fun k => splitOn_pieces _ _)
    (fun k x a1 a2 k' x' b1 b2 e => by
      obtain ⟨r, hr1, -⟩ := hb k x (hpq.trans a1) a2
      obtain ⟨r', hr2, -⟩ := hb k' x' (hpq.trans b1) b2
      exact below_inj hr1 hr2 e)
    (fun k n x a1 a2 ret => by
      obtain ⟨r, rfl, hlt⟩ := hb k x (hpq.trans a1) a2
      have hr0 : r ≠ [] := by
        rintro rfl
        obtain ⟨c', -, -, -, h5, -⟩ := a2
        simp [endsW] at h5
      have e2 : 0 < (utf8 r).length := by
        rw [List.length_pos_iff]; intro e; exact hr0 (eq_nil_of_utf8 e)
      have e3 : (utf8 (v.full p ++ v.delim :: r)).length = (utf8 (v.full p)).length + 1 + (utf8 r).length := by
        simp only [utf8_append, utf8_cons, List.length_append, utf8Char_ascii had]; omega
      have e4 : (utf8 (v.full p ++ v.delim :: r)).drop ((utf8 (v.full p)).length + 1) = utf8 r := by
        have : utf8 (v.full p ++ v.delim :: r) = utf8 (v.full p ++ [v.delim]) ++ utf8 r := by
          rw [← utf8_append]; simp
        rw [this]
        refine List.drop_left' ?_
        simp only [utf8_append, utf8_cons, List.length_append, utf8Char_ascii had, utf8_nil, List.length_nil]
      rw [if_neg (by rw [hk]; simp), if_neg hpre0, ← hlen, hjoin, e3, if_neg (by omega), if_pos (by omega), e4, runes_utf8, below_eq]
      unfold putPrefixed
      rw [if_neg (by simp), if_neg (by omega)])
  refine ⟨m, e, fun ks x => ?_⟩
  have key : ∀ ks x, (∃ k, ks = below v.delim (v.full p) k ∧ q <+: k ∧ Exported t v.delim f k x) ↔
      ∃ r, ks = splitOn v.delim r ∧ Exported t v.delim f (v.full p ++ v.delim :: r) x := by
    intro ks x
    constructor
    · rintro ⟨k, rfl, h2, h3⟩
      obtain ⟨r, rfl, -⟩ := hb k x (hpq.trans h2) h3
      exact ⟨r, below_eq, h3⟩
    · rintro ⟨r, rfl, h3⟩
      exact ⟨_, below_eq.symm, hq _ x (List.prefix_append _ _) h3, h3⟩
  rw [hh]
  simp only [key]

/-- **C42** A path that is neither an entry nor related to a stored path gives a nil map from `GetM` and `GetR`. -/
theorem C42_absent {v : View} {t : Tree (Any α κ)} {p : Str} (hp : ¬ RootName p) {n : Option (Node (Any α κ))} {br : Bool}
    (hl : v.locate t p = .ok (n, br, false, false)) (o : MOpts α κ) : v.getM t p o = .ok none ∧ v.getR t p = .ok none := by
  unfold RootName at hp
  constructor
  · unfold View.getM; simp only; rw [if_neg hp, hl]; simp
  · unfold View.getR; rw [if_neg hp, hl]; simp

end

/-! ### Where the code deviates -/

/-- Is there a value (no map) at the end of these keys? -/
def valueAt (x : Go (Option (SMap α κ))) (ks : List String) : Bool :=
  match x with
  | .ok (some m) => match status m (ks.map (·.toList)) with
    | some (some _) => true
    | _ => false
  | _ => false

/-- A path of two components loses a level: of "a.b.c.d", `GetM("a.b")` returns {d} instead of {c: {d}} ... -/
theorem C42_two_components_fails : ∃ (v : View) (t : Tree (Any Nat Nat)), v = View.new '.' ∧ t = tset Tree.new ["a.b.c.d", "a.b.e"] ∧
    valueAt (v.getM t "a.b".toList MOpts.default) ["c", "d"] = false ∧
    valueAt (v.getM t "a.b".toList MOpts.default) ["d"] = true :=
  ⟨_, _, rfl, rfl, by decide +kernel, by decide +kernel⟩

/-- ... so that two entries may fall on the same key: of "a.b.c.d" and "a.b.e.d" only one remains ... -/
theorem C42_collision_fails : ∃ (v : View) (t : Tree (Any Nat Nat)), v = View.new '.' ∧ t = tset Tree.new ["a.b.c.d", "a.b.e.d"] ∧
    mkeys (v.getM t "a.b".toList MOpts.default) = ["d".toList] :=
  ⟨_, _, rfl, rfl, by decide +kernel⟩

/-- ... and with three components an entry one level below is put under the empty key. -/
theorem C42_three_components_fails : ∃ (v : View) (t : Tree (Any Nat Nat)), v = View.new '.' ∧ t = tset Tree.new ["a.b.c.d", "a.b.c.e"] ∧
    valueAt (v.getM t "a.b.c".toList MOpts.default) ["d"] = false ∧
    valueAt (v.getM t "a.b.c".toList MOpts.default) ["", "d"] = true :=
  ⟨_, _, rfl, rfl, by decide +kernel, by decide +kernel⟩

/-- Entries that only share characters with the path are included, cut: `GetM("app")` returns "le" for "apple". -/
theorem C42_sibling_fails : ∃ (v : View) (t : Tree (Any Nat Nat)), v = View.new '.' ∧ t = tset Tree.new ["app.debug", "apple"] ∧
    valueAt (v.getM t "app".toList MOpts.default) ["debug"] = true ∧
    valueAt (v.getM t "app".toList MOpts.default) ["le"] = true ∧
    (match v.getR t "app".toList with | .ok (some m) => (mget m "apple".toList).isSome | _ => false) = true :=
  ⟨_, _, rfl, rfl, by decide +kernel, by decide +kernel, by decide +kernel⟩

/-- The entry at the path itself appears under its last fragment of the trie, which depends on what else is stored:
for "app" alone it is "app", but with "art" stored too it is "pp". -/
theorem C42_fragment_fails : ∃ (v : View) (t t' : Tree (Any Nat Nat)), v = View.new '.' ∧ t = tset Tree.new ["app"] ∧
    t' = tset Tree.new ["app", "art"] ∧ mkeys (v.getM t "app".toList MOpts.default) = ["app".toList] ∧
    mkeys (v.getM t' "app".toList MOpts.default) = ["pp".toList] :=
  ⟨_, _, _, rfl, rfl, rfl, by decide +kernel, by decide +kernel⟩

/-- With a prefix an entry as deep below as prefix and path are long loses levels. -/
theorem C42_prefix_fails : ∃ (v : View) (t : Tree (Any Nat Nat)), v = (View.new '.').withPrefix ["a".toList] ∧
    t = tset Tree.new ["a.b.c.d", "a.b.e"] ∧ valueAt (v.getM t "b".toList MOpts.default) ["e"] = true ∧
    valueAt (v.getM t "b".toList MOpts.default) ["c", "d"] = false ∧
    valueAt (v.getM t "b".toList MOpts.default) ["d"] = true :=
  ⟨_, _, rfl, rfl, by decide +kernel, by decide +kernel, by decide +kernel⟩

/-- A partial match exports the entry it stopped at: `GetR("ap")` returns "apple". -/
theorem C42_partial_match : ∃ (v : View) (t : Tree (Any Nat Nat)), v = View.new '.' ∧ t = tset Tree.new ["apple", "b"] ∧
    v.has t "ap".toList = .ok false ∧ mkeys (v.getR t "ap".toList) = ["apple".toList] :=
  ⟨_, _, rfl, rfl, by decide +kernel, by decide +kernel⟩

/-! ### Examples -/

def exT42 : Tree (Any Nat Nat) := tset Tree.new ["app.debug", "app.log.file", "zoo.x"]

example : (exT42.contents "app.".toList).isSome = true := by decide +kernel
example : valueAt ((View.new '.').getM exT42 "app".toList MOpts.default) ["log", "file"] = true := by decide +kernel
example : valueAt ((View.new '.').getM exT42 "app".toList MOpts.default) ["debug"] = true := by decide +kernel
example : mkeys ((View.new '.').getM exT42 "app".toList MOpts.default) = ["debug".toList, "log".toList] := by decide +kernel
example : valueAt ((View.new '.').getM exT42 "app".toList ⟨true, false, none⟩) ["app", "log", "file"] = true := by decide +kernel
example : mkeys ((View.new '.').getR exT42 "app".toList) = ["app.debug".toList, "app.log.file".toList] := by decide +kernel
example : mkeys (((View.new '.').withPrefix ["app".toList]).getM exT42 "log".toList MOpts.default) = ["file".toList] := by decide +kernel

end Verif

import Verif.Lemmas.Steps
import Verif.Lemmas.Reach
import Verif.Props.Write
/-
C84: reading while another goroutine writes.
-/
namespace Verif
namespace Steps
variable {α : Type} [Inhabited α]

/-- The longest beginning that `key` shares with a stored path is `m`. -/
def Meets (t : Tree α) (key m : Str) : Prop :=
  m <+: key ∧ (∃ s, (t.contents s).isSome ∧ m <+: s) ∧
    ∀ s z, (t.contents s).isSome → z <+: s → z <+: key → z <+: m

section helpers

theorem during_ok {t : Tree α} (h : t.OK) (key : Str) (x : α) {t' : Tree α} (ht : t' ∈ View.during t key x) :
    t'.OK ∧ ∃ m, Node.Near key x (t.root.entries []) (t'.root.entries []) m := by
  obtain ⟨n', hn, rfl⟩ := List.mem_map.mp ht
  have hs := Node.insSteps_ok t.next (utf8 key) x (key.length + 2) key t.root [] h.wf (.inl ⟨h.nil, by omega⟩) n' hn
  refine ⟨⟨hs.wf, hs.nil h.nil, ?_, ?_⟩, hs.near⟩
  · obtain ⟨ex, he, hp⟩ := hs.ids
    refine hp.nodup_iff.mpr (List.nodup_append.mpr ⟨h.nodup, he.nodup (by simp), ?_⟩)
    intro a ha b hb
    obtain ⟨y, hy, rfl⟩ := List.mem_map.mp ha
    have h1 := h.lt y hy
    have h2 := he.subset hb
    simp at h2
    omega
  · obtain ⟨ex, he, hp⟩ := hs.ids
    intro y hy
    have h1 := hp.mem_iff.mp (List.mem_map_of_mem (f := fun y => y.2.id) hy)
    rcases List.mem_append.mp h1 with h1 | h1
    · obtain ⟨z, hz, he⟩ := List.mem_map.mp h1
      have := h.lt z hz
      simp only at he ⊢
      omega
    · have h2 := he.subset h1
      simp at h2
      simp only
      omega

omit [Inhabited α] in
theorem contents_iff {t t' : Tree α} (h : t.OK) (h' : t'.OK) {q : Str}
    (he : ∀ c, (q, c) ∈ t'.root.entries [] ↔ (q, c) ∈ t.root.entries []) : t'.contents q = t.contents q := by
  cases h1 : t.contents q with
  | some c => rw [Tree.contents_some h', he, ← Tree.contents_some h, h1]
  | none =>
    cases h2 : t'.contents q with
    | none => rfl
    | some c =>
      rw [Tree.contents_some h', he, ← Tree.contents_some h, h1] at h2
      cases h2

/-- A prefix of `q` that parts from `w` inside a route-free key is not special. -/
theorem misses_key {d : Char} {key m w q : Str} (hk : NoRoute d key) (hm : m <+: key) (hw : ¬ m <+: w)
    (hq : m <+: q) : Misses d w q := by
  intro s a x b y h1 h2 hab he
  have hsa : s ++ [a] <+: q := ⟨x, by simp [h1]⟩
  rcases List.prefix_or_prefix_of_prefix hsa hq with h | h
  · obtain ⟨r, hr⟩ := h.trans hm
    obtain ⟨s', hs'⟩ : ∃ s', s = s' ++ [d] := by
      simp only [endsW, beq_iff_eq] at he
      exact (List.getLast?_eq_some_iff).mp he
    exact hk s' a r (by rw [← hr, hs']; simp)
  · rcases List.prefix_concat_iff.mp h with h | h
    · have : s ++ [a] <+: m := by rw [h]; exact List.prefix_refl _
      obtain ⟨r, hr⟩ := this.trans hm
      obtain ⟨s', hs'⟩ : ∃ s', s = s' ++ [d] := by
        simp only [endsW, beq_iff_eq] at he
        exact (List.getLast?_eq_some_iff).mp he
      exact hk s' a r (by rw [← hr, hs']; simp)
    · exact absurd (h.trans ⟨b :: y, h2.symm⟩) hw

theorem reach_default {P : Str → Prop} {t : Tree α} (h : Reach P t) :
    t.Inv (fun _ c => c.hasData = false → c.data = default) := by
  refine (h.inv ⟨fun _ => rfl, fun _ _ _ h => by simp [Node.leafCore] at h, fun _ _ _ _ _ _ _ => rfl,
    fun _ _ _ _ h => by simp at h, ?_, fun _ _ _ h => h⟩).2
  intro q c o h
  cases o with
  | setData x => intro h; simp [NodeOp.app] at h
  | setEmpty => intro _; rfl
  | setComment _ _ => exact h
  | setTag _ => exact h
  | setModified _ => exact h
  | toggleModified => exact h

end helpers

/-- **C84** The last of the trees is the one `Set` leaves. -/
theorem C84_final (t : Tree α) (key : Str) (x : α) :
    (View.during t key x).getLast? = some (View.insertAt t key x).1 := by
  rw [View.during, List.getLast?_map, Node.insSteps_last]
  rfl

/-- **C84** A reader whose path parts from the key earlier than the key parts from some stored path is not
disturbed: at every moment of the writing it is answered as before it. -/
theorem C84_apart {t : Tree α} {v : View} (h : Reach (NoRoute v.delim) t) (hm : v.mode ≠ .up)
    {key : Str} (hk : NoRoute v.delim key) (x : α) {s z : Str} (hs : (t.contents s).isSome)
    (hzs : z <+: s) (hzk : z <+: key) {p : Str} (hp : ¬ z <+: v.full p ++ [v.delim])
    {t' : Tree α} (ht : t' ∈ View.during t key x) :
    v.query t' p = v.query t p := by
  have hok := h.ok
  have hpl := h.plain
  obtain ⟨hok', m, hn⟩ := during_ok hok key x ht
  obtain ⟨c, hc⟩ := Option.isSome_iff_exists.mp hs
  have hzm : z <+: m := hn.longest s c ((Tree.contents_some hok).mp hc) z hzs hzk
  have hm1 : ¬ m <+: v.full p ++ [v.delim] := fun h => hp (hzm.trans h)
  have hm0 : ¬ m <+: v.full p := fun h => hm1 (h.trans (List.prefix_append _ _))
  have hcl : t'.ClearAt v.delim (v.full p) := by
    intro q c hq
    by_cases hmq : m <+: q
    · exact misses_key hk hn.below hm0 hmq
    · rw [Tree.contents_some hok', hn.away q c hmq, ← Tree.contents_some hok] at hq
      exact hpl.at _ q c hq
  rw [query_at hok' hm p hcl, query_at hok hm p (hpl.at _)]
  have e0 := contents_iff hok hok' (fun c => hn.away _ c hm0)
  have e1 := contents_iff hok hok' (fun c => hn.away _ c hm1)
  simp only [resolve, e0, e1]

section whole

omit [Inhabited α] in
theorem whole_near {t : Tree α} (hok : t.OK) {key m m' : Str} {x : α} {E' : List (Str × Core α)}
    (hm : Meets t key m) (hn : Node.Near key x (t.root.entries []) E' m') : m' = m := by
  obtain ⟨h1, ⟨s, hs, h2⟩, h3⟩ := hm
  have a : m' <+: m := by
    obtain ⟨s', c', hs', hms⟩ := hn.shared
    exact h3 s' m' (by rw [(Tree.contents_some hok).mpr hs']; rfl) hms hn.below
  have b : m <+: m' := by
    obtain ⟨c, hc⟩ := Option.isSome_iff_exists.mp hs
    exact hn.longest s c ((Tree.contents_some hok).mp hc) m h2 h1
  exact a.eq_of_length (Nat.le_antisymm a.length_le b.length_le)

theorem whole_clear {t t' : Tree α} {d : Char} (h : Reach (NoRoute d) t) (hok' : t'.OK) {key m : Str} {x : α}
    (hk : NoRoute d key) (hn : Node.Near key x (t.root.entries []) (t'.root.entries []) m)
    (hs : (t.contents m).isSome) (w : Str) : t'.ClearAt d w := by
  have hok := h.ok
  intro q c hq
  by_cases hqk : q = key
  · subst hqk; exact hk.clear w
  · obtain ⟨cm, hcm⟩ := Option.isSome_iff_exists.mp hs
    rw [Tree.contents_some hok', hn.whole ⟨cm, (Tree.contents_some hok).mp hcm⟩ q c hqk, ← Tree.contents_some hok] at hq
    exact h.plain.at _ q c hq

end whole

/-- **C84** When the longest beginning the key shares with the stored paths is itself a stored path (no node
has to be split), every reader of another path is answered as before at every moment. -/
theorem C84_whole {t : Tree α} {v : View} (h : Reach (NoRoute v.delim) t) (hm : v.mode ≠ .up)
    {key m : Str} (hk : NoRoute v.delim key) (x : α) (hmeet : Meets t key m) (hs : (t.contents m).isSome)
    {p : Str} (hp : v.full p ≠ key) (hp' : v.full p ++ [v.delim] ≠ key)
    {t' : Tree α} (ht : t' ∈ View.during t key x) :
    v.query t' p = v.query t p := by
  have hok := h.ok
  obtain ⟨hok', m', hn⟩ := during_ok hok key x ht
  obtain rfl := whole_near hok hmeet hn
  obtain ⟨cm, hcm⟩ := Option.isSome_iff_exists.mp hs
  have hw := hn.whole ⟨cm, (Tree.contents_some hok).mp hcm⟩
  rw [query_at hok' hm p (whole_clear h hok' hk hn hs _), query_at hok hm p (h.plain.at _)]
  have e0 := contents_iff hok hok' (fun c => hw _ c hp)
  have e1 := contents_iff hok hok' (fun c => hw _ c hp')
  simp only [resolve, e0, e1]

/-- **C84** In the same situation every reader of any path gets the value it had or the value being
written, and nothing else. -/
theorem C84_old_or_new {t : Tree α} {v : View} (h : Reach (NoRoute v.delim) t) (hm : v.mode ≠ .up)
    {key m : Str} (hk : NoRoute v.delim key) (x : α) (hmeet : Meets t key m) (hs : (t.contents m).isSome)
    (p : Str) {t' : Tree α} (ht : t' ∈ View.during t key x) :
    v.mustGet t' p = v.mustGet t p ∨
      v.mustGet t' p = .ok x ∧ (v.full p = key ∨ v.full p ++ [v.delim] = key) := by
  have hok := h.ok
  have hdef := reach_default h
  by_cases hp : v.full p ≠ key ∧ v.full p ++ [v.delim] ≠ key
  · exact .inl (by rw [View.mustGet, View.mustGet, C84_whole h hm hk x hmeet hs hp.1 hp.2 ht])
  · have hpk : v.full p = key ∨ v.full p ++ [v.delim] = key := by
      by_cases h1 : v.full p = key
      · exact .inl h1
      · exact .inr (Decidable.byContradiction fun h2 => hp ⟨h1, h2⟩)
    obtain ⟨hok', m', hn⟩ := during_ok hok key x ht
    obtain rfl := whole_near hok hmeet hn
    obtain ⟨cm, hcm⟩ := Option.isSome_iff_exists.mp hs
    have hmE : ∃ c, (m', c) ∈ t.root.entries [] := ⟨cm, (Tree.contents_some hok).mp hcm⟩
    rw [mustGet_at hok' hm p (whole_clear h hok' hk hn hs _), mustGet_at hok hm p (h.plain.at _)]
    -- the entry at the key
    have hkey : ∀ c', t'.contents key = some c' → (c'.hasData = true ∧ c'.data = x) ∨
        ∃ c0, t.contents key = some c0 ∧
          (if c'.hasData then c'.data else default) = (if c0.hasData then c0.data else default) := by
      intro c' hc'
      rcases hn.here hmE c' ((Tree.contents_some hok').mp hc') with ⟨h1, h2⟩ | ⟨c0, h1, rfl⟩
      · exact .inl ⟨h2, h1⟩
      · have h0 := (Tree.contents_some hok).mpr h1
        refine .inr ⟨c0, h0, ?_⟩
        cases hd : c0.hasData with
        | true => simp
        | false => simp [hdef key c0 h0 hd]
    have hnone : t'.contents key = none → t.contents key = none := by
      intro hc
      cases h0 : t.contents key with
      | none => rfl
      | some c0 =>
        obtain ⟨c, h1⟩ := hn.stays hmE c0 ((Tree.contents_some hok).mp h0)
        rw [(Tree.contents_some hok').mpr h1] at hc
        cases hc
    by_cases h1 : v.full p = key
    · rw [h1]
      cases hc : t'.contents key with
      | some c' =>
        rcases hkey c' hc with ⟨h2, h3⟩ | ⟨c0, h2, h3⟩
        · refine .inr ⟨?_, .inl rfl⟩
          rw [resolve_at hc]; simp [h2, h3]
        · refine .inl ?_
          rw [resolve_at hc, resolve_at h2]; simp only [h3]
      | none =>
        have h0 := hnone hc
        have e1 := contents_iff hok hok' (fun c => hn.whole hmE (key ++ [v.delim]) c (by simp))
        exact .inl (by simp only [resolve, hc, h0, e1])
    · have h2 : v.full p ++ [v.delim] = key := hpk.resolve_left h1
      have e0 := contents_iff hok hok' (fun c => hn.whole hmE (v.full p) c h1)
      simp only [resolve, e0, h2]
      cases hw : t.contents (v.full p) with
      | some c => exact .inl rfl
      | none =>
        by_cases hnil : v.full p = []
        · simp [hnil]
        · simp only [hnil, if_false]
          cases hc : t'.contents key with
          | some c' =>
            rcases hkey c' hc with ⟨h2, h3⟩ | ⟨c0, h2, h3⟩
            · exact .inr ⟨by simp [h2, h3], .inr trivial⟩
            · exact .inl (by simp only [h2, Option.map_some, h3])
          | none => exact .inl (by simp [hnone hc])

/-- **C84** Overwriting a stored key: every reader gets the value it had or, at that key, the new one. -/
theorem C84_overwrite {t : Tree α} {v : View} (h : Reach (NoRoute v.delim) t) (hm : v.mode ≠ .up)
    {key : Str} (hk : NoRoute v.delim key) (x : α) (hs : (t.contents key).isSome)
    (p : Str) {t' : Tree α} (ht : t' ∈ View.during t key x) :
    v.mustGet t' p = v.mustGet t p ∨
      v.mustGet t' p = .ok x ∧ (v.full p = key ∨ v.full p ++ [v.delim] = key) :=
  C84_old_or_new h hm hk x ⟨List.prefix_refl _, ⟨key, hs, List.prefix_refl _⟩, fun _ _ _ _ h => h⟩ hs p ht

/-! Where the claim fails: a node is split. -/

def top : View := ⟨[], '.', .none⟩

/-- `apple` and `applee` are set. -/
def orchard : Tree Nat := (top.set (top.set Tree.new "apple".toList 1).1 "applee".toList 2).1

/-- **C84, negated** While `Set("apply", 3)` is at work in one goroutine, readers in another may be given the
value of a different key, may miss a key that is stored, and may find a key that never was: `apple` (value 1)
reads as 2, `applee` is missing, and `appl` is found with the value of `apple`, and none of this is so before
or after. -/
theorem C84_disturbed_fails :
    (top.mustGet orchard "apple".toList = .ok 1 ∧ top.mustGet orchard "applee".toList = .ok 2 ∧
      top.has orchard "appl".toList = .ok false) ∧
    (∃ t' ∈ View.during orchard "apply".toList 3, top.mustGet t' "apple".toList = .ok 2) ∧
    (∃ t' ∈ View.during orchard "apply".toList 3, top.has t' "applee".toList = .ok false) ∧
    (∃ t' ∈ View.during orchard "apply".toList 3, top.mustGet t' "appl".toList = .ok 1) ∧
    (let t' := (View.insertAt orchard "apply".toList 3).1
     top.mustGet t' "apple".toList = .ok 1 ∧ top.mustGet t' "applee".toList = .ok 2 ∧
      top.mustGet t' "appl".toList = .ok 0) := by
  have hany : ∀ (P : Tree Nat → Prop) [DecidablePred P],
      (View.during orchard "apply".toList 3).any (fun t => decide (P t)) = true →
      ∃ t' ∈ View.during orchard "apply".toList 3, P t' := by
    intro P _ h
    obtain ⟨t', h1, h2⟩ := List.any_eq_true.mp h
    exact ⟨t', h1, of_decide_eq_true h2⟩
  exact ⟨⟨by decide +kernel, by decide +kernel, by decide +kernel⟩,
    hany (fun t' => top.mustGet t' "apple".toList = .ok 2) (by decide +kernel),
    hany (fun t' => top.has t' "applee".toList = .ok false) (by decide +kernel),
    hany (fun t' => top.mustGet t' "appl".toList = .ok 1) (by decide +kernel),
    by decide +kernel, by decide +kernel, by decide +kernel⟩

/-! Examples. -/

theorem orchard_reach : Reach (NoRoute '.') (top.set orchard "pear.a".toList 5).1 := by
  have hk : ∀ (q : Str) k, ((':' ∉ q) ∧ ('*' ∉ q)) → some q = some k → NoRoute '.' k := by
    intro q k h e; cases e; exact noRoute_of_plain h.1 h.2
  refine .step (.set top "pear.a".toList 5) (.step (.set top "applee".toList 2)
    (.step (.set top "apple".toList 1) .new ?_ rfl) ?_ rfl) ?_ rfl
  · intro k e; exact hk _ k (by decide +kernel) e
  · intro k e; exact hk _ k (by decide +kernel) e
  · intro k e; exact hk _ k (by decide +kernel) e

/-- While `apply` is set, a reader of `pear.a` is not disturbed (`app` is shared with `apple`). -/
example (t' : Tree Nat) (ht : t' ∈ View.during (top.set orchard "pear.a".toList 5).1 "apply".toList 3) :
    top.query t' "pear.a".toList = top.query (top.set orchard "pear.a".toList 5).1 "pear.a".toList :=
  C84_apart (v := top) orchard_reach (by decide) (noRoute_of_plain (by decide +kernel) (by decide +kernel)) 3
    (s := "apple".toList) (z := "app".toList) (by decide +kernel) (by decide +kernel) (by decide +kernel)
    (by decide +kernel) ht

/-- Overwriting `apple`. -/
example (t' : Tree Nat) (ht : t' ∈ View.during (top.set orchard "pear.a".toList 5).1 "apple".toList 3) :
    top.mustGet t' "apple".toList = .ok 1 ∨ top.mustGet t' "apple".toList = .ok 3 := by
  have h := C84_overwrite (v := top) orchard_reach (by decide)
    (noRoute_of_plain (by decide +kernel) (by decide +kernel)) 3 (by decide +kernel) "apple".toList ht
  rw [show top.mustGet (top.set orchard "pear.a".toList 5).1 "apple".toList = .ok 1 by decide +kernel] at h
  exact h.imp_right (·.1)

/-- `apple.pie` is put below the stored path `apple`. -/
example (t' : Tree Nat) (ht : t' ∈ View.during (top.set orchard "pear.a".toList 5).1 "apple.pie".toList 3) :
    top.query t' "applee".toList = top.query (top.set orchard "pear.a".toList 5).1 "applee".toList := by
  refine C84_whole (v := top) (m := "apple".toList) orchard_reach (by decide)
    (noRoute_of_plain (by decide +kernel) (by decide +kernel)) 3 ⟨by decide +kernel, ⟨"apple".toList, by decide +kernel, by decide +kernel⟩, ?_⟩
    (by decide +kernel) (by decide +kernel) (by decide +kernel) ht
  intro s z hs h1 h2
  obtain ⟨c, hc⟩ := Option.isSome_iff_exists.mp hs
  have hm := (Tree.contents_some orchard_reach.ok).mp hc
  have hks : s ∈ ((top.set orchard "pear.a".toList 5).1.root.entries []).map (·.1) := List.mem_map.mpr ⟨_, hm, rfl⟩
  have hkeys : ((top.set orchard "pear.a".toList 5).1.root.entries []).map (·.1) =
      [[], "apple".toList, "applee".toList, "pear.a".toList] := by decide +kernel
  rw [hkeys] at hks
  simp only [List.mem_cons, List.not_mem_nil, or_false] at hks
  rcases hks with rfl | rfl | rfl | rfl
  · exact h1.trans (List.nil_prefix)
  · exact h1
  · exact Node.prefix_of_part (u := "apple".toList) (p := "e".toList) (q := ".pie".toList) (by decide +kernel)
      h1 h2
  · exact (Node.prefix_of_part (u := []) (p := "pear.a".toList) (q := "apple.pie".toList) (by decide +kernel)
      h1 h2).trans (List.nil_prefix)

end Steps
end Verif

import Verif.Props.Mixed
import Verif.Props.Compact
/-
C67: what a loaded map means depends on its leaves only, not on how their keys are split or in which order they come.
-/
namespace Verif
variable {α : Type}

theorem lastWrite_isSome_iff {β : Type} (l : List (Str × β)) (q : Str) : (lastWrite l q).isSome ↔ ∃ a ∈ l, a.1 = q := by
  cases h : lastWrite l q with
  | none =>
    rw [lastWrite_none] at h
    simp only [Option.isSome_none, Bool.false_eq_true, false_iff, not_exists, not_and]
    rintro ⟨k, x⟩ ha rfl
    exact h x ha
  | some x =>
    simp only [Option.isSome_some, true_iff]
    cases hh : (decide (∃ a ∈ l, a.1 = q)) with
    | true => simpa using hh
    | false =>
      have : ∀ x, (q, x) ∉ l := by
        intro x hx
        have : ¬ ∃ a ∈ l, a.1 = q := by simpa using hh
        exact this ⟨_, hx, rfl⟩
      rw [(lastWrite_none l q).mpr this] at h
      cases h

section
variable [Inhabited α]

/-- The paths of the entries after some writes: the old ones, the keys, and the common prefixes of these. -/
theorem putTrees_dom {t : Tree α} (h : t.OK) (user : Bool) (l : List (Str × α)) (q : Str) :
    ((putTrees user t l).contents q).isSome ↔
      ∃ a b, ((t.contents a).isSome ∨ ∃ e ∈ l, e.1 = a) ∧ ((t.contents b).isSome ∨ ∃ e ∈ l, e.1 = b) ∧ q = lcp a b := by
  have hok := (putTrees_spec h user l).ok
  constructor
  · induction l using snocInd generalizing q with
    | h0 => exact fun hq => ⟨q, q, .inl hq, .inl hq, (lcp_self q).symm⟩
    | h1 l e ih =>
      have h1 := (putTrees_spec h user l).ok
      have ih := fun q => ih q h1
      intro hq
      have up : ∀ a, ((t.contents a).isSome ∨ ∃ e ∈ l, e.1 = a) → ((t.contents a).isSome ∨ ∃ e' ∈ l ++ [e], e'.1 = a) := by
        rintro a (h | ⟨e', h, h'⟩)
        · exact .inl h
        · exact .inr ⟨e', by simp [h], h'⟩
      have self : ((t.contents e.1).isSome ∨ ∃ e' ∈ l ++ [e], e'.1 = e.1) := .inr ⟨e, by simp, rfl⟩
      rw [putTrees_append] at hq
      have hq : ((putTree user (putTrees user t l) e.1 e.2).contents q).isSome := hq
      by_cases hk : q = e.1
      · subst hk; exact ⟨_, _, self, self, (lcp_self _).symm⟩
      · rw [(putTree_contents h1 user e.1 e.2).2.2 q hk] at hq
        cases hc : (putTrees user t l).contents q with
        | some c =>
          obtain ⟨a, b, ha, hb, e'⟩ := ih q (by rw [hc]; rfl)
          exact ⟨a, b, up a ha, up b hb, e'⟩
        | none =>
          obtain ⟨c, hq⟩ := Option.isSome_iff_exists.mp hq
          obtain ⟨k0, c0, g1, g2, g3, _⟩ := (View.insertAt_spec h1 e.1 e.2).new q c hk hc hq
          obtain ⟨a, b, ha, _, e'⟩ := ih k0 (by rw [g1]; rfl)
          refine ⟨a, e.1, up a ha, self, ?_⟩
          rw [lcp_extend (k0 := k0) (by rw [← g2]; exact g3) (by rw [e']; exact lcp_prefix_left ..)]
          exact g2
  · rintro ⟨a, b, ha, hb, rfl⟩
    have key : ∀ a, ((t.contents a).isSome ∨ ∃ e ∈ l, e.1 = a) → ∃ c, (putTrees user t l).contents a = some c := by
      intro a ha
      cases hw : lastWrite l a with
      | some x =>
        obtain ⟨c, hc, _⟩ := (putTrees_spec h user l).val a x hw
        exact ⟨c, hc⟩
      | none =>
        rcases ha with ha | ha
        · obtain ⟨c, hc⟩ := Option.isSome_iff_exists.mp ha
          exact ⟨c, (putTrees_spec h user l).keep a c hw hc⟩
        · rw [← lastWrite_isSome_iff, hw] at ha
          cases ha
    obtain ⟨c1, h1⟩ := key a ha
    obtain ⟨c2, h2⟩ := key b hb
    obtain ⟨c, hc⟩ := Tree.lcp_closed hok h1 h2
    rw [hc]; rfl

theorem foldl_upd {β : Type} (l : List (Str × β)) (m : Str → Option β) (q : Str) :
    l.foldl (fun m a => upd m a.1 a.2) m q = (match lastWrite l q with | some x => some x | none => m q) := by
  induction l generalizing m with
  | nil => rfl
  | cons a l ih =>
    rw [List.foldl_cons, ih]
    obtain ⟨k, x⟩ := a
    simp only [lastWrite]
    cases lastWrite l q with
    | some y => rfl
    | none =>
      simp only
      by_cases e : k = q
      · subst e; simp [upd]
      · rw [if_neg e]; simp [upd, e]

/-- The kind of an entry after some writes: an entry that was there keeps it; a new one that is a key and below which there is
nothing is a leaf. -/
theorem putTrees_leaf {t : Tree α} (h : t.OK) (user : Bool) (l : List (Str × α)) {q : Str} {c : Core α}
    (hc : (putTrees user t l).contents q = some c) :
    (∀ c0, t.contents q = some c0 → c.leaf = c0.leaf) ∧
    (t.contents q = none → c.leaf = false → ∃ q', q <+: q' ∧ q ≠ q' ∧ ((putTrees user t l).contents q').isSome) := by
  induction l using snocInd generalizing q c with
  | h0 =>
    have hc : t.contents q = some c := hc
    refine ⟨fun c0 h0 => ?_, fun h0 => ?_⟩
    · rw [hc] at h0; rw [Option.some.inj h0]
    · rw [hc] at h0; cases h0
  | h1 l e ih =>
    have h1 := (putTrees_spec h user l).ok
    have hspec := View.insertAt_spec h1 e.1 e.2
    have hpt : putTrees user t (l ++ [e]) = putTree user (putTrees user t l) e.1 e.2 := by rw [putTrees_append]; rfl
    have hcont := putTree_contents h1 user e.1 e.2
    have mono : ∀ q', ((putTrees user t l).contents q').isSome → ((putTrees user t (l ++ [e])).contents q').isSome := by
      intro q' hq'
      rw [putTrees_dom h] at hq' ⊢
      obtain ⟨a, b, ha, hb, e'⟩ := hq'
      refine ⟨a, b, ?_, ?_, e'⟩
      · rcases ha with ha | ⟨x, hx, hx'⟩
        · exact .inl ha
        · exact .inr ⟨x, by simp [hx], hx'⟩
      · rcases hb with hb | ⟨x, hx, hx'⟩
        · exact .inl hb
        · exact .inr ⟨x, by simp [hx], hx'⟩
    rw [hpt] at hc
    -- the entry before this write, if any
    have hstep : (∃ c1, (putTrees user t l).contents q = some c1 ∧ c.leaf = c1.leaf) ∨
        ((putTrees user t l).contents q = none ∧ (c.leaf = false → ∃ q', q <+: q' ∧ q ≠ q' ∧ ((putTrees user t l).contents q').isSome)) := by
      by_cases hk : q = e.1
      · subst hk
        obtain ⟨c', p1, p2⟩ := hcont.2.1
        rw [hc] at p2
        have hlf : c.leaf = c'.leaf := by
          rw [Option.some.inj p2]; cases user <;> rfl
        simp only [putCore] at p1
        cases h0 : (putTrees user t l).contents e.1 with
        | some c0 => rw [h0] at p1; exact .inl ⟨c0, rfl, by rw [hlf, p1]⟩
        | none =>
          rw [h0] at p1
          refine .inr ⟨rfl, fun hf => ?_⟩
          rcases p1 with ⟨p1, _⟩ | ⟨q', c0, p1, p3, p4, _⟩
          · rw [hlf, p1] at hf; cases hf
          · exact ⟨q', p3, p4, by rw [p1]; rfl⟩
      · rw [hcont.2.2 q hk] at hc
        cases h0 : (putTrees user t l).contents q with
        | some c1 =>
          have := hspec.keep q c1 hk h0
          rw [hc] at this
          exact .inl ⟨c1, rfl, by rw [Option.some.inj this]⟩
        | none =>
          obtain ⟨k0, c0, g1, g2, g3, _⟩ := hspec.new q c hk h0 hc
          exact .inr ⟨rfl, fun _ => ⟨k0, by rw [g2]; exact lcp_prefix_left .., g3, by rw [g1]; rfl⟩⟩
    rcases hstep with ⟨c1, k1, k2⟩ | ⟨k1, k2⟩
    · obtain ⟨i1, i2⟩ := ih k1
      refine ⟨fun c0 h0 => by rw [k2, i1 c0 h0], fun h0 hf => ?_⟩
      obtain ⟨q', a1, a2, a3⟩ := i2 h0 (by rw [← k2]; exact hf)
      exact ⟨q', a1, a2, mono q' a3⟩
    · refine ⟨fun c0 h0 => ?_, fun h0 hf => ?_⟩
      · have : ((putTrees user t l).contents q).isSome := by
          rw [putTrees_dom h]
          exact ⟨q, q, .inl (by rw [h0]; rfl), .inl (by rw [h0]; rfl), (lcp_self q).symm⟩
        rw [k1] at this; cases this
      · obtain ⟨q', a1, a2, a3⟩ := k2 hf
        exact ⟨q', a1, a2, mono q' a3⟩

/-- Two lists of writes that leave every key with the same value. -/
def SameWrites (l l' : List (Str × α)) : Prop := ∀ q, lastWrite l q = lastWrite l' q

theorem same_dom {t : Tree α} (h : t.OK) (user user' : Bool) {l l' : List (Str × α)} (e : SameWrites l l') (q : Str) :
    ((putTrees user t l).contents q).isSome = ((putTrees user' t l').contents q).isSome := by
  have he : ∀ a, (∃ e ∈ l, e.1 = a) ↔ ∃ e ∈ l', e.1 = a := fun a => by
    rw [← lastWrite_isSome_iff, ← lastWrite_isSome_iff, e a]
  rw [Bool.eq_iff_iff, putTrees_dom h, putTrees_dom h]
  simp only [he]

theorem same_data {t : Tree α} (h : t.OK) (user user' : Bool) {l l' : List (Str × α)} (e : SameWrites l l') :
    (putTrees user t l).dataAt = (putTrees user' t l').dataAt := by
  funext q
  rw [Store.putTrees_dataAt h, Store.putTrees_dataAt h, foldl_upd, foldl_upd, e q]

omit [Inhabited α] in
theorem resolve_shape {d : Char} {t t' : Tree α} (hdom : ∀ q, (t.contents q).isSome = (t'.contents q).isSome) (p : Str) :
    (∃ q c c', resolve d t.contents p = some (q, c) ∧ resolve d t'.contents p = some (q, c') ∧
      t.contents q = some c ∧ t'.contents q = some c') ∨
    (resolve d t.contents p = none ∧ resolve d t'.contents p = none) := by
  have h1 := hdom p
  have h2 := hdom (p ++ [d])
  simp only [resolve]
  cases ha : t.contents p with
  | some c =>
    rw [ha] at h1
    obtain ⟨c', hc'⟩ := Option.isSome_iff_exists.mp h1.symm
    rw [hc']
    exact .inl ⟨p, c, c', rfl, rfl, ha, hc'⟩
  | none =>
    rw [ha] at h1
    have hb : t'.contents p = none := by simpa using h1.symm
    rw [hb]
    simp only
    by_cases hp : p = []
    · exact .inr ⟨by rw [if_pos hp], by rw [if_pos hp]⟩
    · rw [if_neg hp, if_neg hp]
      cases hc : t.contents (p ++ [d]) with
      | some c =>
        rw [hc] at h2
        obtain ⟨c', hc'⟩ := Option.isSome_iff_exists.mp h2.symm
        rw [hc']
        exact .inl ⟨_, c, c', rfl, rfl, hc, hc'⟩
      | none =>
        rw [hc] at h2
        have : t'.contents (p ++ [d]) = none := by simpa using h2.symm
        rw [this]
        exact .inr ⟨rfl, rfl⟩

/-- Trees with the same paths and the same data at them answer alike. -/
theorem same_reads {d : Char} {r : View} {t t' : Tree α} (h : Reach (NoRoute d) t) (h' : Reach (NoRoute d) t') (hr : r.delim = d) (hm : r.mode ≠ .up)
    (hdom : ∀ q, (t.contents q).isSome = (t'.contents q).isSome) (hdata : t.dataAt = t'.dataAt) (p : Str) :
    r.mustGet t p = r.mustGet t' p ∧ r.has t p = r.has t' p := by
  subst hr
  rw [mustGet_plain h.ok h.plain hm, mustGet_plain h'.ok h'.plain hm, has_plain h.ok h.plain hm, has_plain h'.ok h'.plain hm]
  rcases resolve_shape (d := r.delim) hdom (r.full p) with ⟨q, c, c', e1, e2, e3, e4⟩ | ⟨e1, e2⟩
  · rw [e1, e2]
    refine ⟨?_, rfl⟩
    have := congrFun hdata q
    simp only [Tree.dataAt, e3, e4] at this
    cases hc : c.hasData <;> cases hc' : c'.hasData <;> simp_all
  · rw [e1, e2]; exact ⟨rfl, rfl⟩

/-- A path below which there is nothing gets the same answers, with all flags. -/
theorem same_query {r : View} {t : Tree α} (h : Reach (NoRoute r.delim) t) (hm : r.mode ≠ .up) (user user' : Bool) {l l' : List (Str × α)}
    (hl : ∀ a ∈ l, NoRoute r.delim a.1) (hl' : ∀ a ∈ l', NoRoute r.delim a.1) (e : SameWrites l l') {p : Str}
    (hend : ∀ q, r.full p <+: q → r.full p ≠ q → (putTrees user t l).contents q = none) :
    r.query (putTrees user t l) p = r.query (putTrees user' t l') p := by
  have h1 := putTrees_reach h user hl
  have h2 := putTrees_reach h user' hl'
  have hdom := same_dom h.ok user user' e
  rw [query_plain h1.ok h1.plain hm, query_plain h2.ok h2.plain hm]
  rcases resolve_shape (d := r.delim) hdom (r.full p) with ⟨q, c, c', e1, e2, e3, e4⟩ | ⟨e1, e2⟩
  · rw [e1, e2]
    have hq : q = r.full p := by
      rcases (resolve_cases e1).2 with hq | ⟨hq, _⟩
      · exact hq
      · have := hend q (by rw [hq]; exact List.prefix_append ..) (by rw [hq]; simp)
        rw [e3] at this; cases this
    have hend' : ∀ q', q <+: q' → q ≠ q' → ¬ ((putTrees user t l).contents q').isSome := by
      intro q' a b; rw [hend q' (hq ▸ a) (hq ▸ b)]; simp
    have hleaf : c.leaf = c'.leaf := by
      obtain ⟨i1, i2⟩ := putTrees_leaf h.ok user l e3
      obtain ⟨j1, j2⟩ := putTrees_leaf h.ok user' l' e4
      cases h0 : t.contents q with
      | some c0 => rw [i1 c0 h0, j1 c0 h0]
      | none =>
        have a1 : c.leaf = true := by
          cases hf : c.leaf with
          | true => rfl
          | false => obtain ⟨q', b1, b2, b3⟩ := i2 h0 hf; exact absurd b3 (hend' q' b1 b2)
        have a2 : c'.leaf = true := by
          cases hf : c'.leaf with
          | true => rfl
          | false =>
            obtain ⟨q', b1, b2, b3⟩ := j2 h0 hf
            rw [← hdom q'] at b3
            exact absurd b3 (hend' q' b1 b2)
        rw [a1, a2]
    have := congrFun (same_data h.ok user user' e) q
    simp only [Tree.dataAt, e3, e4] at this
    simp only [ansOf, hleaf]
    cases hc : c.hasData <;> cases hc' : c'.hasData <;> simp_all
  · rw [e1, e2]

end

theorem SameWrites.perm {l l' : List (Str × α)} (hp : l.Perm l') (hn : (l.map (·.1)).Nodup) : SameWrites l l' := by
  intro q
  have hn' : (l'.map (·.1)).Nodup := (hp.map _).nodup_iff.mp hn
  cases h : lastWrite l q with
  | some x =>
    have h1 : ∃ a ∈ l, a.1 = q := (lastWrite_isSome_iff l q).mp (by rw [h]; rfl)
    obtain ⟨⟨k, y⟩, h2, rfl⟩ := h1
    have h3 := lastWrite_of_nodup hn h2
    rw [h] at h3
    obtain rfl := Option.some.inj h3
    exact (lastWrite_of_nodup hn' (hp.mem_iff.mp h2)).symm
  | none =>
    rw [lastWrite_none] at h
    exact ((lastWrite_none l' q).mpr fun x hx => h x (hp.mem_iff.mpr hx)).symm

theorem SameWrites.twice (l : List (Str × α)) : SameWrites (l ++ l) l := by
  intro q
  rw [lastWrite_append]
  cases lastWrite l q <;> rfl

namespace Store
variable {κ : Type}

/-- **C67.** `Merge` of two maps with the same leaves, that is with the same values at the same joined keys, however these keys are split
and in whatever order Go iterates over the maps: `MustGet` of the trie and `Has` answer alike for every path, and a path
below which nothing is stored gets the same answer with all flags, from the store too. Missing for the full claim: a key with keys below it, or which is the
beginning of another key (`C67_order_fails`). -/
theorem C67_merge_partial (str : κ → Str) {s : Store α κ} (h : Reach (NoRoute s.view.delim) s.tree) (pos : Str) (m m' : SMap α κ)
    (hne : s.flatten = true → keysNEM str m) (hne' : s.flatten = true → keysNEM str m')
    (hroute : ∀ l x, IsLeaf s.flatten str m l x → NoRoute s.view.delim (leafKey s.view.delim pos l))
    (hroute' : ∀ l x, IsLeaf s.flatten str m' l x → NoRoute s.view.delim (leafKey s.view.delim pos l))
    (same : SameWrites (leafPuts s.view.delim pos (leavesM s.flatten str m)) (leafPuts s.view.delim pos (leavesM s.flatten str m')))
    (hmode : s.view.mode ≠ .up) (p : Str) :
    (∀ r : View, r.delim = s.view.delim → r.mode ≠ .up →
      r.mustGet (s.merge str pos m).1.tree p = r.mustGet (s.merge str pos m').1.tree p ∧
      r.has (s.merge str pos m).1.tree p = r.has (s.merge str pos m').1.tree p) ∧
    ((∀ q, s.view.full p <+: q → s.view.full p ≠ q → (s.merge str pos m).1.tree.contents q = Option.none) →
      (s.merge str pos m).1.mustGet p = (s.merge str pos m').1.mustGet p ∧ (s.merge str pos m).1.get p = (s.merge str pos m').1.get p) := by
  rw [C29_merge_is_sets str s pos m hne, C29_merge_is_sets str s pos m' hne']
  have hl : ∀ a ∈ leafPuts s.view.delim pos (leavesM s.flatten str m), NoRoute s.view.delim a.1 := by
    rintro ⟨q, x⟩ ha
    obtain ⟨l, h1, rfl⟩ := mem_leafPuts.mp ha
    exact hroute l x h1
  have hl' : ∀ a ∈ leafPuts s.view.delim pos (leavesM s.flatten str m'), NoRoute s.view.delim a.1 := by
    rintro ⟨q, x⟩ ha
    obtain ⟨l, h1, rfl⟩ := mem_leafPuts.mp ha
    exact hroute' l x h1
  refine ⟨fun r hr hrm => ?_, fun hend => ?_⟩
  · have h1 := putTrees_reach h (!s.loading) hl
    have h2 := putTrees_reach h (!s.loading) hl'
    exact same_reads h1 h2 hr hrm (same_dom h.ok _ _ same) (same_data h.ok _ _ same) p
  · have := same_query h hmode (!s.loading) (!s.loading) hl hl' same hend
    simp only [Store.mustGet, Store.get, View.get, this, and_self]

/-- **C67.** The same for `Load`. -/
theorem C67_load_partial (str : κ → Str) {s : Store α κ} (hs : s.loading = false) (h : Reach (NoRoute s.view.delim) s.tree)
    (prefix' : Option Str) (flat : Option Bool) (src src' : Source α κ) {L L' : List (List Str × Any α κ)}
    (hL : src.leaves (flat.getD s.flatten) str = some L) (hL' : src'.leaves (flat.getD s.flatten) str = some L')
    (hne : flat.getD s.flatten = true → src.NE str) (hne' : flat.getD s.flatten = true → src'.NE str)
    (hroute : ∀ l x, (l, x) ∈ L → NoRoute s.view.delim (leafKey s.view.delim (s.loadAt prefix') l))
    (hroute' : ∀ l x, (l, x) ∈ L' → NoRoute s.view.delim (leafKey s.view.delim (s.loadAt prefix') l))
    (same : SameWrites (leafPuts s.view.delim (s.loadAt prefix') L) (leafPuts s.view.delim (s.loadAt prefix') L'))
    (hmode : s.view.mode ≠ .up) (p : Str) :
    (∀ r : View, r.delim = s.view.delim → r.mode ≠ .up →
      r.mustGet (s.load str prefix' flat src).1.tree p = r.mustGet (s.load str prefix' flat src').1.tree p ∧
      r.has (s.load str prefix' flat src).1.tree p = r.has (s.load str prefix' flat src').1.tree p) ∧
    ((∀ q, s.view.full p <+: q → s.view.full p ≠ q → (s.load str prefix' flat src).1.tree.contents q = Option.none) →
      (s.load str prefix' flat src).1.mustGet p = (s.load str prefix' flat src').1.mustGet p ∧
      (s.load str prefix' flat src).1.get p = (s.load str prefix' flat src').1.get p) := by
  obtain ⟨s1, e1, t1, v1, -⟩ := C29_load_is_sets str s hs prefix' flat src hL hne
  obtain ⟨s2, e2, t2, v2, -⟩ := C29_load_is_sets str s hs prefix' flat src' hL' hne'
  rw [e1, e2]
  have hl : ∀ a ∈ leafPuts s.view.delim (s.loadAt prefix') L, NoRoute s.view.delim a.1 := by
    rintro ⟨q, x⟩ ha
    obtain ⟨l, h1, rfl⟩ := mem_leafPuts.mp ha
    exact hroute l x h1
  have hl' : ∀ a ∈ leafPuts s.view.delim (s.loadAt prefix') L', NoRoute s.view.delim a.1 := by
    rintro ⟨q, x⟩ ha
    obtain ⟨l, h1, rfl⟩ := mem_leafPuts.mp ha
    exact hroute' l x h1
  simp only [t1, t2]
  refine ⟨fun r hr hrm => ?_, fun hend => ?_⟩
  · have h1 := putTrees_reach h false hl
    have h2 := putTrees_reach h false hl'
    exact same_reads h1 h2 hr hrm (same_dom h.ok _ _ same) (same_data h.ok _ _ same) p
  · have := same_query h hmode false false hl hl' same hend
    simp only [Store.mustGet, Store.get, View.get, t1, t2, v1, v2, this, and_self]

theorem leavesM_perm (fl : Bool) (str : κ → Str) {m m' : SMap α κ} (hp : m.Perm m') : (leavesM fl str m).Perm (leavesM fl str m') := by
  induction hp with
  | nil => exact .refl _
  | cons a _ ih => obtain ⟨k, v⟩ := a; simp only [leavesM]; exact ih.append_left _
  | swap a b l =>
    obtain ⟨k, v⟩ := a
    obtain ⟨k', v'⟩ := b
    simp only [leavesM, ← List.append_assoc]
    exact List.perm_append_comm.append_right _
  | trans _ _ h1 h2 => exact h1.trans h2

/-- **C67.** Maps that differ in the order of iteration have the same leaves, provided no two leaves have the same joined key. -/
theorem C67_order (d : Char) (pos : Str) (fl : Bool) (str : κ → Str) {m m' : SMap α κ} (hp : m.Perm m')
    (hn : ((leavesM fl str m).map (fun a => leafKey d pos a.1)).Nodup) :
    SameWrites (leafPuts d pos (leavesM fl str m)) (leafPuts d pos (leavesM fl str m')) := by
  refine SameWrites.perm ((leavesM_perm fl str hp).map _) ?_
  simpa [leafPuts, List.map_map, Function.comp_def] using hn

theorem joinSpec_dotted (d : Char) {a b : Str} (ha : a ≠ []) (hb : b ≠ []) : a ++ d :: b = joinSpec d [a, b] := by
  rw [joinSpec_eq]
  simp [ha, hb, joinWith]

/-- **C67.** A dotted key and the nested map it abbreviates (README, "Split key with delimiter"), anywhere in a map and with any value: the two maps
are loaded by the very same writes. -/
theorem C67_dotted (d : Char) (pos : Str) (fl : Bool) (str : κ → Str) (m1 m2 : SMap α κ) {a b : Str} (ha : a ≠ []) (hb : b ≠ []) (v : Any α κ) :
    leafPuts d pos (leavesM fl str (m1 ++ (a ++ d :: b, v) :: m2)) =
      leafPuts d pos (leavesM fl str (m1 ++ (a, .map [(b, v)]) :: m2)) := by
  have happ : ∀ (x y : SMap α κ), leavesM fl str (x ++ y) = leavesM fl str x ++ leavesM fl str y := by
    intro x y
    induction x with
    | nil => rfl
    | cons c x ih => obtain ⟨k, w⟩ := c; simp only [List.cons_append, leavesM, ih, List.append_assoc]
  simp only [happ, leavesM, leafPuts_append, leaves, List.append_nil, leafPuts_under]
  rw [joinSpec_dotted d ha hb]
  have h1 := joinSpec_assoc d [pos] [a, b] []
  have h2 := joinSpec_assoc d [] [pos, a] [b]
  simp only [List.nil_append, List.cons_append] at h1 h2
  rw [h1, h2]

/-- **C67.** The same as a statement about `Merge`: the two stores are equal. -/
theorem C67_dotted_merge (str : κ → Str) (s : Store α κ) (pos : Str) (m1 m2 : SMap α κ) {a b : Str} (ha : a ≠ []) (hb : b ≠ []) (v : Any α κ)
    (hne : s.flatten = true → keysNEM str (m1 ++ (a ++ s.view.delim :: b, v) :: m2)) :
    s.merge str pos (m1 ++ (a ++ s.view.delim :: b, v) :: m2) = s.merge str pos (m1 ++ (a, .map [(b, v)]) :: m2) := by
  have hne' : s.flatten = true → keysNEM str (m1 ++ (a, .map [(b, v)]) :: m2) := by
    intro hf
    have := hne hf
    clear hne
    induction m1 with
    | nil =>
      simp only [List.nil_append, keysNEM, keysNE] at this ⊢
      exact ⟨ha, ⟨hb, this.2.1, trivial⟩, this.2.2⟩
    | cons c m1 ih =>
      obtain ⟨k, w⟩ := c
      simp only [List.cons_append, keysNEM] at this ⊢
      exact ⟨this.1, this.2.1, ih this.2.2⟩
  rw [C29_merge_is_sets str s pos _ hne, C29_merge_is_sets str s pos _ hne', C67_dotted _ pos s.flatten str m1 m2 ha hb v]

/-- **C67.** Loading a source twice leaves the answers as after the first time. -/
theorem C67_again (str : κ → Str) {s : Store α κ} (hs : s.loading = false) (h : Reach (NoRoute s.view.delim) s.tree)
    (prefix' : Option Str) (src : Source α κ) {L : List (List Str × Any α κ)} (hL : src.leaves s.flatten str = some L)
    (hne : s.flatten = true → src.NE str)
    (hroute : ∀ l x, (l, x) ∈ L → NoRoute s.view.delim (leafKey s.view.delim (s.loadAt prefix') l))
    (r : View) (hr : r.delim = s.view.delim) (hm : r.mode ≠ .up) (p : Str) :
    r.mustGet ((s.load str prefix' Option.none src).1.load str prefix' Option.none src).1.tree p = r.mustGet (s.load str prefix' Option.none src).1.tree p ∧
    r.has ((s.load str prefix' Option.none src).1.load str prefix' Option.none src).1.tree p = r.has (s.load str prefix' Option.none src).1.tree p := by
  obtain ⟨s1, e1, t1, v1, -, l1⟩ := C29_load_is_sets str s hs prefix' Option.none src (by simpa using hL) (by simpa using hne)
  have hf : s1.flatten = s.flatten := by
    have : (s.load str prefix' Option.none src).1.flatten = s.flatten := by
      simp only [load, hs, Bool.false_eq_true, if_false]
      cases prefix' <;> rfl
    rw [e1] at this; exact this
  obtain ⟨s2, e2, t2, v2, -⟩ := C29_load_is_sets str s1 l1 prefix' Option.none src (by simpa [hf] using hL) (by simpa [hf] using hne)
  have hat : s1.loadAt prefix' = s.loadAt prefix' := by simp only [loadAt, v1]
  rw [e1]
  simp only
  rw [e2]
  simp only
  rw [t2, t1, v1, hat, ← putTrees_append]
  have hl : ∀ a ∈ leafPuts s.view.delim (s.loadAt prefix') L, NoRoute s.view.delim a.1 := by
    rintro ⟨q, x⟩ ha
    obtain ⟨l, h1, rfl⟩ := mem_leafPuts.mp ha
    exact hroute l x h1
  have same := SameWrites.twice (leafPuts s.view.delim (s.loadAt prefix') L)
  have h1 := putTrees_reach h false hl
  have h2 := putTrees_reach (l := leafPuts s.view.delim (s.loadAt prefix') L ++ leafPuts s.view.delim (s.loadAt prefix') L) h false
    (fun a ha => (List.mem_append.mp ha).elim (hl a) (hl a))
  exact same_reads h2 h1 hr hm (same_dom h.ok _ _ same) (same_data h.ok _ _ same) p

/-! ### Where the claim fails -/

/-- The answer depends on the order in which Go iterates over the map, which is random: after loading `{port: 1, ports: 2}` in this order
`MustGet("port")` of the store is 1 and `Get` finds it; in the other order `MustGet` is nil and `Get` reports that there is nothing. -/
theorem C67_order_fails : ∃ s : S0, s = S0.new false ∧
    let a := (s.load itoa none none (.once (some [("port".toList, .atom 1), ("ports".toList, .atom 2)]))).1
    let b := (s.load itoa none none (.once (some [("ports".toList, .atom 2), ("port".toList, .atom 1)]))).1
    isAtom 1 (a.mustGet "port".toList) = true ∧ isNilA (b.mustGet "port".toList) = true ∧
    (a.get "port".toList).map (·.2) = .ok true ∧ (b.get "port".toList).map (·.2) = .ok false :=
  ⟨_, rfl, by decide +kernel, by decide +kernel, by decide +kernel, by decide +kernel⟩

/-! ### Examples -/

def ex67a : SMap Nat Nat := [("app.log".toList, .map [("file".toList, .atom 1)]), ("app".toList, .map [("mode".toList, .atom 2)])]
def ex67b : SMap Nat Nat := [("app".toList, .map [("mode".toList, .atom 2), ("log".toList, .map [("file".toList, .atom 1)])])]

/-- Both maps of the README kind on a store that is not empty. -/
example : let s : S0 := ((S0.new false).merge itoa [] [("app.x".toList, .atom 9)]).1
    isAtom 1 ((s.merge itoa [] ex67a).1.mustGet "app.log.file".toList) = true ∧
    isAtom 1 ((s.merge itoa [] ex67b).1.mustGet "app.log.file".toList) = true ∧
    isAtom 2 ((s.merge itoa [] ex67b).1.mustGet "app.mode".toList) = true ∧
    isAtom 9 ((s.merge itoa [] ex67b).1.mustGet "app.x".toList) = true := by
  refine ⟨by decide +kernel, by decide +kernel, by decide +kernel, by decide +kernel⟩

/-- Their leaves are the same (hypothesis `same` of `C67_merge_partial`). -/
example : SameWrites (leafPuts '.' [] (leavesM false itoa ex67a)) (leafPuts '.' [] (leavesM false itoa ex67b)) := by
  refine SameWrites.perm (l := leafPuts '.' [] (leavesM false itoa ex67a)) (l' := leafPuts '.' [] (leavesM false itoa ex67b)) ?_ (by decide +kernel)
  exact List.Perm.swap _ _ _

end Store
end Verif

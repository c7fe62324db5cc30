import Verif.Props.Annot
/-
C71: what Locate reports, in every case.
-/
namespace Verif
variable {α : Type}

/-- On an empty tree every path is a partial match. -/
theorem Node.PM.emptyRoot {d : Char} {n : Node α} {w : Str} {par : Option (Node α)} {r : MR α}
    (h : PM d n w par r) (hp : n.path = []) (hk : n.kids = []) : r.part = true := by
  cases h <;> simp_all

/-- A failed lookup is flagged as a partial match when it ends at a node, or when the tree is empty. -/
theorem search_miss_part {v : View} {t : Tree α} (h : t.OK) (hp : t.Plain v.delim) (hm : v.mode ≠ .up) {w : Str} (hw : w ≠ [])
    (hno : resolve v.delim t.nodeAt w = none) :
    ∃ c par pm, v.search t w = .ok (c, par, pm, []) ∧ Node.MissNode [] w t.root c ∧ (pm = true ↔ c.isSome = true ∨ t.root.kids = []) := by
  obtain ⟨c, par, pm, hs, hmn⟩ := search_missNode h hp hm hw hno
  refine ⟨c, par, pm, hs, hmn, ?_⟩
  rcases search_plain h hp hm w with ⟨q, m, par', h1, _⟩ | ⟨_, _, c', par', pm', h2, h3⟩
  · rw [hno] at h1; cases h1
  · rw [hs] at h2
    simp only [Except.ok.injEq, Prod.mk.injEq, and_true] at h2
    obtain ⟨rfl, rfl, rfl⟩ := h2
    cases h3 with
    | nothing h4 =>
      simp only [Bool.false_eq_true, Option.isSome_none, false_or, false_iff]
      intro hk
      obtain ⟨r, h5, h6⟩ := Node.matchR_plain v.delim t.root h.wf [] w false none [] hw (by simp [endsW]) (hp.keys h)
      rw [View.search, h5] at hs
      simp [h6.emptyRoot h.nil hk] at hs
    | ext => simp
    | dead => simp
    | empty hk => simp [hk]

/-- A node without children is an entry with nothing below it. -/
theorem noBelow_iff {t : Tree α} (hok : t.OK) {q : Str} {m : Node α} (hq : (q, m) ∈ t.root.nodes []) :
    m.kids = [] ↔ ∀ q' c', t.contents q' = some c' → q <+: q' → q' = q := by
  constructor
  · intro hk q' c' hc' hp'
    obtain ⟨m', hm', -⟩ := (Tree.contents_node hok).mp hc'
    rcases Node.below_of_prefix hok.wf hq hm' hp' with h1 | h1
    · exact h1.1
    · rw [hk] at h1; cases h1
  · intro hall
    cases hk : m.kids with
    | nil => rfl
    | cons a as =>
      exfalso
      obtain ⟨w', e1, -, e3⟩ := Node.nodes_at hok.wf hq
      have hmem : (q ++ a.path, a) ∈ t.root.nodes [] := by
        refine ((e3 _).mp ?_).1
        rw [Node.mem_nodes]
        exact .inr ⟨a, by rw [hk]; simp, e1 ▸ (by rw [Node.nodes_eq]; simp)⟩
      have h1 := hall _ _ ((Tree.contents_node hok).mpr ⟨_, hmem, rfl⟩) (List.prefix_append ..)
      have hwm := (Node.wf_iff _).mp (Node.wf_of_mem hok.wf hq)
      have h2 := (hwm.2 a (by rw [hk]; simp)).1
      exact h2 (by simpa using h1)

/-- What `Locate` answers, with the node given by what it holds. -/
def View.locates (v : View) (t : Tree α) (p : Str) : Go (Option (Core α) × Bool × Bool × Bool) :=
  (v.locate t p).map fun (n, r) => (n.map Node.core, r)

section
variable [Inhabited α]

/-- **C71** `Locate` outside of the RecursiveUp mode, on a trie without route patterns. A path that is stored (or that is, with the delimiter, a
branch) is found, with its entry. Otherwise `found` is false, and: if some entries extend the path, the shortest of them is returned as a partial
match; if not, and a stored proper prefix of the path has no entry below it, that one is returned as a partial match; otherwise no node is returned,
and `partialMatched` is true exactly in an empty trie. Missing for the documented claim: `found` is false on a partial match (`C71_doc_fails`). -/
theorem C71_locate_partial {v : View} {t : Tree α} (h : Reach (NoRoute v.delim) t) (hm : v.mode ≠ .up) (p : Str) :
    (∀ q c, resolve v.delim t.contents (v.full p) = some (q, c) → v.locates t p = .ok (some c, c.isBranch, false, true)) ∧
    (resolve v.delim t.contents (v.full p) = none →
      (∀ q c, t.contents q = some c → v.full p <+: q → (∀ q' c', t.contents q' = some c' → v.full p <+: q' → q <+: q') →
        v.locates t p = .ok (some c, c.isBranch, true, false)) ∧
      ((∃ q c, t.contents q = some c ∧ v.full p <+: q) →
        ∃ q c, t.contents q = some c ∧ v.full p <+: q ∧ ∀ q' c', t.contents q' = some c' → v.full p <+: q' → q <+: q') ∧
      ((∀ q c, t.contents q = some c → ¬ v.full p <+: q) →
        (∀ q c, t.contents q = some c → q ≠ [] → q <+: v.full p → (∀ q' c', t.contents q' = some c' → q <+: q' → q' = q) →
          v.locates t p = .ok (some c, c.isBranch, true, false)) ∧
        ((∀ q c, t.contents q = some c → q ≠ [] → q <+: v.full p → ∃ q' c', t.contents q' = some c' ∧ q <+: q' ∧ q' ≠ q) →
          ∃ pm, v.locates t p = .ok (none, false, pm, false) ∧ (pm = true ↔ ∀ q, q ≠ [] → t.contents q = none)))) := by
  have hok := h.ok
  have toC : ∀ {q m}, (q, m) ∈ t.root.nodes [] → t.contents q = some m.core := fun hq => (Tree.contents_node hok).mpr ⟨_, hq, rfl⟩
  rw [resolve_contents hok]
  constructor
  · intro q c hr
    cases hn : resolve v.delim t.nodeAt (v.full p) with
    | none => rw [hn] at hr; cases hr
    | some x =>
      rw [hn] at hr
      simp only [Option.map_some, Option.some.injEq, Prod.mk.injEq] at hr
      obtain ⟨par, hs, -⟩ := search_hit hok h.plain (q := x.1) (m := x.2) hn
      simp [View.locates, View.locate, hs, Except.map, hr.2]
  · intro hno
    rw [Option.map_eq_none_iff] at hno
    have hw : v.full p ≠ [] := by
      intro e
      rw [e] at hno
      simp [resolve, (Tree.nodeAt_some hok).mpr hok.root_mem] at hno
    obtain ⟨c, par, pm, hs, hmn, hpm⟩ := search_miss_part hok h.plain hm hw hno
    have root : ∀ {m : Node α}, (([] : Str), m) ∈ t.root.nodes [] → m.path = [] := by
      intro m hmm
      have := List.inj_on_of_nodup_map (Node.keys_nodup hok.wf []) hmm hok.root_mem rfl
      rw [(Prod.mk.inj this).2, hok.nil]
    have ans : ∀ {q m}, (q, m) ∈ t.root.nodes [] → c = some m →
        v.locates t p = .ok (some m.core, m.core.isBranch, true, false) := by
      rintro q m hq rfl
      have : pm = true := hpm.mpr (.inl rfl)
      subst this
      simp [View.locates, View.locate, hs, Except.map]
    refine ⟨?_, ?_, ?_⟩
    · intro q0 c0 hq0 hp0 hmin
      obtain ⟨m0, hm0, rfl⟩ := (Tree.contents_node hok).mp hq0
      cases hmn with
      | ext q m h1 h2 h3 =>
        have e : q = q0 := (List.IsPrefix.eq_of_length_le (h3 q0 m0 hm0 hp0) (hmin q _ (toC h1) h2).length_le)
        subst e
        have := List.inj_on_of_nodup_map (Node.keys_nodup hok.wf []) hm0 h1 rfl
        rw [(Prod.mk.inj this).2]
        exact ans h1 rfl
      | dead q m _ _ _ _ hno => exact absurd hp0 (hno q0 m0 hm0)
      | nothing hno _ => exact absurd hp0 (hno q0 m0 hm0)
    · rintro ⟨q0, c0, hq0, hp0⟩
      obtain ⟨m0, hm0, -⟩ := (Tree.contents_node hok).mp hq0
      cases hmn with
      | ext q m h1 h2 h3 =>
        refine ⟨q, m.core, toC h1, h2, ?_⟩
        intro q' c' hq' hp'
        obtain ⟨m', hm', -⟩ := (Tree.contents_node hok).mp hq'
        exact h3 q' m' hm' hp'
      | dead q m _ _ _ _ hno => exact absurd hp0 (hno q0 m0 hm0)
      | nothing hno _ => exact absurd hp0 (hno q0 m0 hm0)
    · intro hnoext
      constructor
      · intro q cq hcq hq hpq hmax
        obtain ⟨m, hm', rfl⟩ := (Tree.contents_node hok).mp hcq
        have hkm := (noBelow_iff hok hm').mpr hmax
        have hmp : m.path ≠ [] := by
          rcases Node.path_ne_of_mem_nodes hok.wf hm' with h1 | h1
          · exact absurd (by rw [h1.1, hok.nil]; rfl) hq
          · exact h1
        refine ans hm' ?_
        cases hmn with
        | ext q' m' h1 h2 _ => exact absurd h2 (hnoext q' _ (toC h1))
        | nothing _ h2 => exact absurd hkm (h2 q m hm' (by simpa using hpq) hmp)
        | dead q' m' h1 h2 h3 h4 h5 =>
          have hq' : q' = q := by
            rcases List.prefix_or_prefix_of_prefix (by simpa using h4) hpq with h6 | h6
            · exact ((noBelow_iff hok h1).mp h2 q _ hcq h6).symm
            · exact hmax q' _ (toC h1) h6
          subst hq'
          have := List.inj_on_of_nodup_map (Node.keys_nodup hok.wf []) hm' h1 rfl
          rw [(Prod.mk.inj this).2]
      · intro hall
        have hnone : c = none := by
          cases hmn with
          | nothing _ _ => rfl
          | ext q' m' h1 h2 _ => exact absurd h2 (hnoext q' _ (toC h1))
          | dead q' m' h1 h2 h3 h4 h5 =>
            have hne : q' ≠ [] := by rintro rfl; exact h3 (root h1)
            obtain ⟨q2, c2, h6, h7, h8⟩ := hall q' _ (toC h1) hne (by simpa using h4)
            exact absurd ((noBelow_iff hok h1).mp h2 q2 c2 h6 h7) h8
        subst hnone
        refine ⟨pm, by simp [View.locates, View.locate, hs, Except.map], ?_⟩
        rw [hpm]
        simp only [Option.isSome_none, Bool.false_eq_true, false_or]
        rw [noBelow_iff hok hok.root_mem]
        constructor
        · intro h1 q hq
          cases hc : t.contents q with
          | none => rfl
          | some c => exact absurd (h1 q c hc (List.nil_prefix)) hq
        · intro h1 q c hc _
          cases q with
          | nil => rfl
          | cons a as => rw [h1 _ (by simp)] at hc; cases hc

/-- **C71** The documented example (new.go, `Locate`): "When querying "app.logging.f" on a tree holding "app.logging.file", Locate will return
found = true, partialMatched = true, branch = false, and node is pointed to "app.logging.file"". Everything is so but `found`. -/
theorem C71_doc_fails : ∃ t : Tree Nat, Reach (NoRoute '.') t ∧
    ((View.new '.').locates t "app.logging.f".toList).map (fun r => (r.1.map (fun c => (c.pathS, c.data)), r.2)) =
      .ok (some (utf8 "app.logging.file".toList, 1), false, true, false) := by
  refine ⟨sets [(View.new '.', "app.logging.file".toList, 1)] Tree.new, ?_, by decide +kernel⟩
  refine Reach.sets .new _ ?_
  have g : ∀ d k, ':' ∉ k → '*' ∉ k → NoRoute d k := by
    rintro d k h1 h2 u c v rfl
    simp at h1 h2
    exact ⟨fun e => h1.2.2.1 e.symm, fun e => h2.2.2.1 e.symm⟩
  simp only [List.mem_singleton, forall_eq]
  exact g _ _ (by decide) (by decide)

/-- One lookup for each case. -/
def ex71 : Bool :=
  let t : Tree Nat := sets [(View.new '.', "app.logging.file".toList, 1), (View.new '.', "app.lite".toList, 2)] Tree.new
  let v := View.new '.'
  let at_ := fun (t : Tree Nat) (p : String) => match v.locates t p.toList with
    | .ok (n, r) => some (n.map (·.pathS), r)
    | .error _ => none
  at_ t "app.lite" == some (some (utf8 "app.lite".toList), false, false, true) &&
  at_ t "ap" == some (some (utf8 "app.l".toList), true, true, false) &&
  at_ t "app.li" == some (some (utf8 "app.lite".toList), false, true, false) &&
  at_ t "app.lite.x" == some (some (utf8 "app.lite".toList), false, true, false) &&
  at_ t "app.x" == some (none, false, false, false) && at_ Tree.new "app" == some (none, false, true, false)

example : ex71 = true := by decide +kernel

end
end Verif

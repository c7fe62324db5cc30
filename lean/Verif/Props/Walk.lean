import Verif.Props.SubExport
/-
C46: walking the part of a trie below a path.
-/
namespace Verif
variable {α : Type} [Inhabited α]

/-- `Walk(p)` visits exactly the entries whose full path starts with `q`, each of them once. -/
def Visits (v : View) (t : Tree α) (p q : Str) : Prop :=
  ∃ L : List (Str × Node α), v.walk t p = .ok (L.map (·.2)) ∧ (L.map (·.1)).Nodup ∧
    ∀ k c, (∃ n, (k, n) ∈ L ∧ n.core = c) ↔ q <+: k ∧ t.contents k = some c

/-- The walk from a node of the tree. -/
theorem walk_from {P : Str → Prop} {t : Tree α} (h : Reach P t) {q : Str} {n : Node α} (hn : (q, n) ∈ t.root.nodes []) :
    ∃ L : List (Str × Node α), n.walk = L.map (·.2) ∧ (L.map (·.1)).Nodup ∧
      ∀ k c, (∃ n, (k, n) ∈ L ∧ n.core = c) ↔ q <+: k ∧ t.contents k = some c := by
  obtain ⟨w, h1, h2, h3⟩ := Node.nodes_at h.ok.wf hn
  have hnd : ((t.root.nodes []).map (·.1)).Nodup := Node.keys_nodup h.ok.wf []
  refine ⟨n.nodes w, Node.walk_eq w n, hnd.sublist (h2.map _), fun k c => ?_⟩
  constructor
  · rintro ⟨m, hm, rfl⟩
    exact ⟨((h3 _).mp hm).2, (Tree.contents_node h.ok).mpr ⟨m, ((h3 _).mp hm).1, rfl⟩⟩
  · rintro ⟨hk, hc⟩
    obtain ⟨m, hm, e⟩ := (Tree.contents_node h.ok).mp hc
    exact ⟨m, (h3 (k, m)).mpr ⟨hm, hk⟩, e⟩

/-- **C46** `Walk(p)` of a path that ends with the delimiter and has an entry visits exactly the entries whose full
path starts with `p`, each of them once. -/
theorem C46_subtree_partial {v : View} {t : Tree α} (h : Reach (NoRoute v.delim) t) {p : Str}
    (he : endsW v.delim p = true) (hc : (t.contents p).isSome) : Visits v t p p := by
  have hp : p ≠ [] := by rintro rfl; simp [endsW] at he
  obtain ⟨c, hc⟩ := Option.isSome_iff_exists.mp hc
  obtain ⟨m, hm, -⟩ := (Tree.contents_node h.ok).mp hc
  obtain ⟨par, h2, -⟩ := search_hit h.ok h.plain (resolve_at (d := v.delim) ((Tree.nodeAt_some h.ok).mpr hm))
  obtain ⟨L, h3, h4⟩ := walk_from h hm
  refine ⟨L, ?_, h4⟩
  have he' : p.getLast? = some v.delim := by simpa [endsW] using he
  rw [View.walk, if_neg hp, h2]
  simp [he', h3]

omit [Inhabited α] in
/-- The path of a child, and that nothing lies between a node and its children. -/
theorem parent_between {t : Tree α} (h : t.OK) {qp q : Str} {p m : Node α} (hp : (qp, p) ∈ t.root.nodes [])
    (hk : m ∈ p.kids) (hm : (q, m) ∈ t.root.nodes []) :
    qp <+: q ∧ qp ≠ q ∧ ∀ r n, (r, n) ∈ t.root.nodes [] → r <+: q → r ≠ q → r <+: qp := by
  obtain ⟨w, h1, -, h3⟩ := Node.nodes_at h.wf hp
  have k1 : p.WF := Node.wf_of_mem h.wf hp
  have hw := (Node.wf_mk ..).mp (show (Node.mk p.id p.path p.core p.kids).WF by cases p; exact k1)
  have hin : ∀ c ∈ p.kids, ∀ x, x ∈ c.nodes qp → x ∈ t.root.nodes [] := fun c hc x hx =>
    ((h3 x).mp (by cases p; exact (Node.mem_nodes ..).mpr (.inr ⟨c, hc, h1 ▸ hx⟩))).1
  have hself : (qp ++ m.path, m) ∈ t.root.nodes [] := hin m hk _ (by rw [Node.nodes_eq]; simp)
  have hq : q = qp ++ m.path := by
    have := List.inj_on_of_nodup_map h.nodup hm hself rfl
    simpa using this
  have hne := (hw.2 m hk).1
  refine ⟨hq ▸ List.prefix_append _ _, ?_, ?_⟩
  · rw [hq]; simpa using hne
  · intro r n hr hrq hrne
    by_cases hqr : qp <+: r
    · have hr' := (h3 (r, n)).mpr ⟨hr, hqr⟩
      have hr' : (r, n) = (qp, p) ∨ ∃ c ∈ p.kids, (r, n) ∈ c.nodes qp := by
        cases p
        rw [Node.mem_nodes] at hr'
        rw [h1]; exact hr'
      rcases hr' with e | ⟨c, hc, hr'⟩
      · simp only [Prod.mk.injEq] at e; rw [e.1]; exact List.prefix_refl _
      · exfalso
        have h7 : (qp ++ c.path) <+: r := Node.prefix_of_mem_nodes hr'
        have : c = m := by
          refine List.inj_on_of_nodup_map hw.1 hc hk ?_
          obtain ⟨a, ha⟩ := h7.trans hrq
          rw [hq, List.append_assoc, List.append_cancel_left_eq] at ha
          have n2 := (hw.2 c hc).1
          cases e1 : m.path with
          | nil => exact absurd e1 hne
          | cons a1 as =>
            cases e2 : c.path with
            | nil => exact absurd e2 n2
            | cons b1 bs =>
              rw [e1, e2] at ha
              simp at ha
              simp [ha.1]
        subst this
        rw [← hq] at h7
        exact hrne (hrq.eq_of_length (Nat.le_antisymm hrq.length_le h7.length_le))
    · rcases List.prefix_or_prefix_of_prefix hrq (hq ▸ List.prefix_append qp m.path : qp <+: q) with h8 | h8
      · exact h8
      · exact absurd h8 hqr

/-- **C46** For a path that does not end with the delimiter the walk starts at the parent of the entry: it visits the
entries whose full path starts with the longest stored path that is shorter than the entry's. -/
theorem C46_parent {v : View} {t : Tree α} (h : Reach (NoRoute v.delim) t) {p q : Str} {c : Core α} (hp : p ≠ [])
    (he : endsW v.delim p = false) (hr : resolve v.delim t.contents p = some (q, c)) :
    ∃ q0, (t.contents q0).isSome ∧ q0 <+: q ∧ q0 ≠ q ∧ (∀ r, (t.contents r).isSome → r <+: q → r ≠ q → r <+: q0) ∧
      Visits v t p q0 := by
  obtain ⟨hq, hcase⟩ := resolve_cases hr
  obtain ⟨m, hm, -⟩ := (Tree.contents_node h.ok).mp hq
  have hres : resolve v.delim t.nodeAt p = some (q, m) := by
    rcases hcase with rfl | ⟨rfl, hno, -⟩
    · exact resolve_at ((Tree.nodeAt_some h.ok).mpr hm)
    · have hno' : t.nodeAt p = none := by
        rw [Tree.contents_eq h.ok] at hno
        simpa using hno
      simp [resolve, hno', hp, (Tree.nodeAt_some h.ok).mpr hm]
  obtain ⟨par, h2, h3⟩ := search_hit h.ok h.plain hres
  rcases h3 with ⟨h3, -⟩ | ⟨qp, pn, rfl, hpn, hk⟩
  · exact absurd h3 hp
  obtain ⟨a1, a2, a3⟩ := parent_between h.ok hpn hk hm
  obtain ⟨L, h4, h5⟩ := walk_from h hpn
  refine ⟨qp, ?_, a1, a2, fun r hr => ?_, L, ?_, h5⟩
  · rw [(Tree.contents_node h.ok).mpr ⟨pn, hpn, rfl⟩]; rfl
  · obtain ⟨cr, hcr⟩ := Option.isSome_iff_exists.mp hr
    obtain ⟨mr, hmr, -⟩ := (Tree.contents_node h.ok).mp hcr
    exact a3 r mr hmr
  · have he' : p.getLast? ≠ some v.delim := by simpa [endsW] using he
    rw [View.walk, if_neg hp, h2]
    simp [he', h4]

/-- **C46** A path without entry of its own of which some stored path is an extension: the whole tree is visited. -/
theorem C46_partial_match {v : View} {t : Tree α} (h : Reach (NoRoute v.delim) t) (hm : v.mode ≠ .up) {p k : Str}
    (hr : resolve v.delim t.contents p = none) (hk : (t.contents k).isSome) (hpk : p <+: k) : Visits v t p [] := by
  have hp : p ≠ [] := by rintro rfl; simp [resolve, Tree.contents_root h.ok] at hr
  obtain ⟨c, hc⟩ := Option.isSome_iff_exists.mp hk
  obtain ⟨m, hmem, -⟩ := (Tree.contents_node h.ok).mp hc
  rcases search_plain h.ok h.plain hm p with ⟨q, n, par, h1, h2, _⟩ | ⟨hw, h1, c, par, pm, h2, h3⟩
  · exfalso
    obtain ⟨b1, b2⟩ := resolve_cases h1
    have : (t.contents q).isSome := by rw [Tree.contents_eq h.ok, b1]; rfl
    rcases b2 with rfl | ⟨rfl, -, -⟩
    · obtain ⟨c', hc'⟩ := Option.isSome_iff_exists.mp this
      rw [resolve_at hc'] at hr; simp at hr
    · unfold resolve at hr
      split at hr
      · simp at hr
      · rw [if_neg hp] at hr
        rw [Option.map_eq_none_iff] at hr
        rw [hr] at this; simp at this
  · have hpm : pm = true := by
      cases h3 with
      | nothing h => exact absurd hpk (h k m hmem)
      | ext => rfl
      | dead => rfl
      | empty => rfl
    subst hpm
    obtain ⟨L, h4, h5⟩ := walk_from h h.ok.root_mem
    refine ⟨L, ?_, h5⟩
    rw [View.walk, if_neg hp, h2]
    simp [h4]

/-- **C46** A path that no stored path extends visits nothing, or (below a childless entry) the whole tree. -/
theorem C46_unrelated {v : View} {t : Tree α} (h : Reach (NoRoute v.delim) t) (hm : v.mode ≠ .up) {p : Str}
    (hk : ∀ k, (t.contents k).isSome → ¬ p <+: k) :
    v.walk t p = .ok [] ∨ (Visits v t p [] ∧
      ∃ q, (t.contents q).isSome ∧ q <+: p ∧ ∀ k, (t.contents k).isSome → q <+: k → k = q) := by
  have hp : p ≠ [] := by
    rintro rfl
    exact hk [] (by rw [Tree.contents_root h.ok]; rfl) (List.prefix_refl _)
  have hnode : ∀ k, (t.contents k).isSome → ∃ n, (k, n) ∈ t.root.nodes [] := fun k hk => by
    obtain ⟨c, hc⟩ := Option.isSome_iff_exists.mp hk
    obtain ⟨m, hm, -⟩ := (Tree.contents_node h.ok).mp hc
    exact ⟨m, hm⟩
  have hstored : ∀ k n, (k, n) ∈ t.root.nodes [] → (t.contents k).isSome := fun k n hn => by
    rw [(Tree.contents_node h.ok).mpr ⟨n, hn, rfl⟩]; rfl
  have whole : ∀ c par, v.search t p = .ok (c, par, true, []) → Visits v t p [] := by
    intro c par h2
    obtain ⟨L, h4, h5⟩ := walk_from h h.ok.root_mem
    refine ⟨L, ?_, h5⟩
    rw [View.walk, if_neg hp, h2]
    simp [h4]
  have childless : ∀ q m, (q, m) ∈ t.root.nodes [] → m.kids = [] → ∀ k, (t.contents k).isSome → q <+: k → k = q := by
    intro q m hqm hmk k hk hqk
    obtain ⟨n, hn⟩ := hnode k hk
    obtain ⟨w, h1, -, h3⟩ := Node.nodes_at h.ok.wf hqm
    have := (h3 (k, n)).mpr ⟨hn, hqk⟩
    cases m
    simp only [Node.kids_mk] at hmk
    subst hmk
    rw [Node.mem_nodes] at this
    rcases this with e | ⟨c, hc, -⟩
    · rw [h1]; exact (Prod.mk.inj e).1
    · simp at hc
  rcases matchR_root h.ok h.plain p [] with ⟨q, m, par, h1, -, -⟩ | ⟨hw, h1, r, h2, h3, h4, h5⟩
  · exfalso
    obtain ⟨b1, b2⟩ := resolve_cases h1
    have := hstored q m ((Tree.nodeAt_some h.ok).mp b1)
    rcases b2 with rfl | ⟨rfl, -, -⟩
    · exact hk _ this (List.prefix_refl _)
    · exact hk _ this (List.prefix_append _ _)
  · cases hpart : r.part with
    | false =>
      left
      have := h5 hpart
      subst this
      have : v.search t p = .ok (none, none, false, []) := by
        rw [View.search, h2]
        simp [hm]
      rw [View.walk, if_neg hp, this]
      simp
    | true =>
      right
      have hs : v.search t p = .ok (r.child, r.parent, true, []) := by
        rw [View.search, h2]
        simp [hpart]
      refine ⟨whole _ _ hs, ?_⟩
      rw [hpart] at h4
      generalize r.child = ch at h4
      cases h4 with
      | ext q m h hp => exact absurd hp (hk q (hstored q m h))
      | dead q m h hk hp hne hm hno => exact ⟨q, hstored q m h, hp, childless q m h hk⟩
      | empty hkids => exact ⟨[], hstored [] _ h.ok.root_mem, List.nil_prefix, childless [] _ h.ok.root_mem hkids⟩

/-! ### Where the code deviates -/

/-- The keys (`Key()` of the visited entries) of a walk. -/
def walked (v : View) (t : Tree Nat) (p : String) : List String :=
  match v.walk t p.toList with
  | .ok l => l.map (fun n => String.ofList (runes n.core.pathS))
  | .error _ => ["error"]

def wtree (v : View) (ks : List String) : Tree Nat := sets (ks.map (fun k => (v, k.toList, 1))) Tree.new

/-- Without a trailing delimiter the siblings of the entry are visited too ... -/
theorem C46_siblings_fails : ∃ (v : View) (t : Tree Nat), v = View.new '.' ∧ t = wtree v ["a.b.c", "x.y"] ∧
    "x.y" ∈ walked v t "a.b.c" :=
  ⟨_, _, rfl, rfl, by decide +kernel⟩

/-- ... and if the path has no entry of its own (here "app.a." with "app.a.x" stored) the whole tree. -/
theorem C46_no_entry_fails : ∃ (v : View) (t : Tree Nat), v = View.new '.' ∧ t = wtree v ["app.a.x", "app.b.y", "z"] ∧
    "z" ∈ walked v t "app.a." :=
  ⟨_, _, rfl, rfl, by decide +kernel⟩

/-- The prefix of a view is ignored: the view with prefix "app" walks "a." of the whole tree. -/
theorem C46_prefix_fails : ∃ (v w : View) (t : Tree Nat), v = View.new '.' ∧ w = v.withPrefix ["app".toList] ∧
    t = wtree v ["app.a.x", "app.a.y", "a.x", "a.y"] ∧ walked w t "a." = ["a.", "a.x", "a.y"] :=
  ⟨_, _, _, rfl, rfl, rfl, by decide +kernel⟩

/-- An instance of the hypotheses of `C46_subtree_partial`: "app.a." has an entry because two keys share it. -/
example : let v := View.new '.'
    let t := wtree v ["app.a.x", "app.a.y", "app.b", "z"]
    endsW v.delim "app.a.".toList = true ∧ (t.contents "app.a.".toList).isSome ∧
      walked v t "app.a." = ["app.a.", "app.a.x", "app.a.y"] := by
  decide +kernel

/-- An instance of the hypotheses of `C46_parent`. -/
example : let v := View.new '.'
    let t := wtree v ["app.a.x", "app.a.y", "app.b", "z"]
    endsW v.delim "app.a.x".toList = false ∧ (resolve v.delim t.contents "app.a.x".toList).isSome ∧
      walked v t "app.a.x" = ["app.a.", "app.a.x", "app.a.y"] := by
  decide +kernel

/-- Instances of the hypotheses of `C46_partial_match` and `C46_unrelated`. -/
example : let v := View.new '.'
    let t := wtree v ["app.a.x", "app.a.y", "app.b", "z"]
    (resolve v.delim t.contents "ap".toList).isNone ∧ (t.contents "app.b".toList).isSome ∧
      walked v t "q" = [] ∧ (walked v t "z.z").length = 7 := by
  decide +kernel

end Verif

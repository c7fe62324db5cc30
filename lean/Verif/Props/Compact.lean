import Verif.Props.Mixed
import Verif.Props.Walk
import Mathlib.Data.List.Perm.Subperm
/-
C64: how many nodes a trie has.
-/
namespace Verif
variable {α : Type}

theorem walk_paths (t : Tree α) : t.root.walk.length = (t.root.keys []).length := by
  rw [Node.walk_eq [] t.root]; simp [Node.keys]

theorem mem_paths {t : Tree α} (h : t.OK) {q : Str} : q ∈ t.root.keys [] ↔ (t.contents q).isSome := by
  simp only [Node.keys, List.mem_map, Option.isSome_iff_exists]
  constructor
  · rintro ⟨⟨q, m⟩, hm, rfl⟩
    exact ⟨_, (Tree.contents_node h).mpr ⟨m, hm, rfl⟩⟩
  · rintro ⟨c, hc⟩
    obtain ⟨m, hm, -⟩ := (Tree.contents_node h).mp hc
    exact ⟨_, hm, rfl⟩

/-- Any list of paths that covers the entries bounds the number of nodes. -/
theorem walk_le {t : Tree α} (h : t.OK) {S : List Str} (hS : ∀ q, (t.contents q).isSome → q ∈ S) : t.root.walk.length ≤ S.length := by
  rw [walk_paths]
  exact (List.subperm_of_subset (Node.keys_nodup h.wf []) (fun q hq => hS q ((mem_paths h).mp hq))).length_le

/-- ... and distinct paths that have entries bound it from below. -/
theorem le_walk {t : Tree α} (h : t.OK) {S : List Str} (hn : S.Nodup) (hS : ∀ q ∈ S, (t.contents q).isSome) : S.length ≤ t.root.walk.length := by
  rw [walk_paths]
  exact (List.subperm_of_subset hn (fun q hq => (mem_paths h).mpr (hS q hq))).length_le

theorem walk_mono {t t' : Tree α} (h : t.OK) (h' : t'.OK) (hs : ∀ q, (t'.contents q).isSome → (t.contents q).isSome) :
    t'.root.walk.length ≤ t.root.walk.length := by
  rw [walk_paths t]
  exact walk_le h' (fun q hq => (mem_paths h).mpr (hs q hq))

/-- Two strings of which neither begins with the other part at a first differing rune. -/
theorem lcp_diverge {a b : Str} (h1 : lcp a b ≠ a) (h2 : lcp a b ≠ b) : ∃ x y : Char, x ≠ y ∧ lcp a b ++ [x] <+: a ∧ lcp a b ++ [y] <+: b := by
  induction a generalizing b with
  | nil => simp [lcp] at h1
  | cons x a ih =>
    cases b with
    | nil => simp [lcp] at h2
    | cons y b =>
      by_cases e : x = y
      · subst e
        simp only [lcp, if_true] at h1 h2 ⊢
        obtain ⟨u, v, huv, h3, h4⟩ := ih (fun e => h1 (by rw [e])) (fun e => h2 (by rw [e]))
        exact ⟨u, v, huv, by simpa using h3, by simpa using h4⟩
      · refine ⟨x, y, e, ?_, ?_⟩ <;> simp [lcp, e]

variable [Inhabited α]

/-- At most one entry appears besides that of the key. -/
theorem insert_new {t : Tree α} (h : t.OK) (k : Str) (x : α) :
    ∃ q0, ∀ q, ((View.insertAt t k x).1.contents q).isSome → q = k ∨ q = q0 ∨ (t.contents q).isSome := by
  have hs := View.insertAt_spec h k x
  by_cases hex : ∃ q, q ≠ k ∧ t.contents q = none ∧ ((View.insertAt t k x).1.contents q).isSome
  · obtain ⟨q0, n1, n2, n3⟩ := hex
    refine ⟨q0, fun q hq => ?_⟩
    by_cases e1 : q = k
    · exact .inl e1
    by_cases e2 : q = q0
    · exact .inr (.inl e2)
    refine .inr (.inr ?_)
    cases hc : t.contents q with
    | some c => rfl
    | none =>
      exfalso
      obtain ⟨c, hc'⟩ := Option.isSome_iff_exists.mp hq
      obtain ⟨c0, hc0⟩ := Option.isSome_iff_exists.mp n3
      obtain ⟨k1, c1, a1, a2, a3, -⟩ := hs.new q c e1 hc hc'
      obtain ⟨k2, c2, b1, b2, b3, -⟩ := hs.new q0 c0 n1 n2 hc0
      have hcl := Tree.lcp_closed h a1 b1
      obtain ⟨x1, y1, d1, p1, p1'⟩ := lcp_diverge (a := k1) (b := k) (fun e => a3 (a2.trans e)) (fun e => e1 (a2.trans e))
      obtain ⟨x2, y2, d2, p2, p2'⟩ := lcp_diverge (a := k2) (b := k) (fun e => b3 (b2.trans e)) (fun e => n1 (b2.trans e))
      rw [← a2] at p1 p1'
      rw [← b2] at p2 p2'
      have step : ∀ {q q0 k1 k2 : Str} {x1 y1 : Char}, q.length < q0.length → x1 ≠ y1 → q ++ [x1] <+: k1 → q ++ [y1] <+: k → q0 <+: k → q0 <+: k2 →
          lcp k1 k2 = q := by
        intro q q0 k1 k2 x1 y1 hlt hne ⟨u, hu⟩ hk hk0 hk2
        have : q ++ [y1] <+: q0 := List.prefix_of_prefix_length_le hk hk0 (by simp; omega)
        obtain ⟨v, hv⟩ := this.trans hk2
        rw [← hu, ← hv, List.append_assoc, List.append_assoc, List.singleton_append, List.singleton_append, lcp_append hne]
      have hq0k : q0 <+: k := (List.prefix_append _ _).trans p2'
      have hqk : q <+: k := (List.prefix_append _ _).trans p1'
      rcases Nat.lt_trichotomy q.length q0.length with hl | hl | hl
      · rw [step hl d1 p1 p1' hq0k ((List.prefix_append _ _).trans p2)] at hcl
        rw [hc] at hcl; simp at hcl
      · exact e2 ((List.prefix_of_prefix_length_le hqk hq0k (by omega)).eq_of_length hl)
      · rw [lcp_comm, step hl d2 p2 p2' hqk ((List.prefix_append _ _).trans p1)] at hcl
        rw [n2] at hcl; simp at hcl
  · refine ⟨k, fun q hq => ?_⟩
    by_cases e1 : q = k
    · exact .inl e1
    · refine .inr (.inr ?_)
      cases hc : t.contents q with
      | some c => rfl
      | none => exact absurd ⟨q, e1, hc, hq⟩ hex

theorem insert_walk {t : Tree α} (h : t.OK) (k : Str) (x : α) :
    (View.insertAt t k x).1.root.walk.length ≤ t.root.walk.length + 2 ∧
    ((t.contents k).isSome → (View.insertAt t k x).1.root.walk.length ≤ t.root.walk.length) ∧
    ((∀ q, (t.contents q).isSome → q = []) → (View.insertAt t k x).1.root.walk.length ≤ 2) := by
  have hs := View.insertAt_spec h k x
  have hok := View.insertAt_ok h k x
  refine ⟨?_, fun hk => ?_, fun hr => ?_⟩
  · obtain ⟨q0, hq⟩ := insert_new h k x
    rw [walk_paths t]
    refine walk_le hok (S := k :: q0 :: t.root.keys []) (fun q h1 => ?_)
    rcases hq q h1 with e | e | e
    · simp [e]
    · simp [e]
    · simp [mem_paths h, e]
  · refine walk_mono h hok (fun q hq => ?_)
    by_cases e : q = k
    · rw [e]; exact hk
    · cases hc : t.contents q with
      | some c => rfl
      | none =>
        exfalso
        obtain ⟨c, hc'⟩ := Option.isSome_iff_exists.mp hq
        obtain ⟨k0, c0, a1, a2, -⟩ := hs.new q c e hc hc'
        obtain ⟨ck, hck⟩ := Option.isSome_iff_exists.mp hk
        have := Tree.lcp_closed h a1 hck
        rw [← a2, hc] at this
        simp at this
  · refine walk_le hok (S := [k, []]) (fun q hq => ?_)
    by_cases e : q = k
    · simp [e]
    · cases hc : t.contents q with
      | some c => simp [hr q (by simp [hc])]
      | none =>
        exfalso
        obtain ⟨c, hc'⟩ := Option.isSome_iff_exists.mp hq
        obtain ⟨k0, c0, a1, a2, a3, -⟩ := hs.new q c e hc hc'
        have := hr k0 (by simp [a1])
        subst this
        exact a3 (by rw [a2]; rfl)

/-- **C64** After `Set` calls with at most `n > 0` distinct keys (all of them in `ks`), `Walk("")` visits at most `2 * n` nodes. -/
theorem C64_size (h : List (View × Str × α)) (hne : h ≠ []) (ks : List Str) (hk : ∀ a ∈ h, keyOf a.1 a.2.1 ∈ ks) (v : View) :
    ∃ ns, v.walk (sets h Tree.new) [] = .ok ns ∧ ns.length ≤ 2 * ks.length := by
  refine ⟨_, by simp [View.walk]; rfl, ?_⟩
  have key : ∀ h : List (View × Str × α), ∃ L : List Str, L.Nodup ∧ (∀ q, q ∈ L ↔ ∃ a ∈ h, q = keyOf a.1 a.2.1) ∧
      (h ≠ [] → (sets h Tree.new).root.walk.length ≤ 2 * L.length) := by
    intro h
    induction h using snocInd with
    | h0 => exact ⟨[], List.nodup_nil, by simp, by simp⟩
    | h1 l a ih =>
      obtain ⟨L, h1, h2, h3⟩ := ih
      have hd := sets_denotes l
      have hw := insert_walk hd.ok (keyOf a.1 a.2.1) a.2.2
      rw [← sets_snoc] at hw
      by_cases hin : keyOf a.1 a.2.1 ∈ L
      · have hl : l ≠ [] := by
          rintro rfl
          obtain ⟨b, hb, -⟩ := (h2 _).mp hin
          simp at hb
        refine ⟨L, h1, fun q => ?_, fun _ => ?_⟩
        · rw [h2]
          constructor
          · rintro ⟨b, hb, e⟩; exact ⟨b, by simp [hb], e⟩
          · rintro ⟨b, hb, e⟩
            simp only [List.mem_append, List.mem_singleton] at hb
            rcases hb with hb | rfl
            · exact ⟨b, hb, e⟩
            · rw [e]; exact (h2 _).mp hin
        · refine Nat.le_trans (hw.2.1 ?_) (h3 hl)
          rw [hd.dom]
          obtain ⟨b, hb, e⟩ := (h2 _).mp hin
          refine Dom.self ((lastWrite_isSome _ _).mpr ⟨b.2.2, ?_⟩)
          simp only [assigns, List.mem_map]
          exact ⟨b, hb, by rw [e]⟩
      · refine ⟨keyOf a.1 a.2.1 :: L, List.nodup_cons.mpr ⟨hin, h1⟩, fun q => ?_, fun _ => ?_⟩
        · simp only [List.mem_cons, h2, List.mem_append, List.not_mem_nil, or_false]
          constructor
          · rintro (rfl | ⟨b, hb, e⟩)
            · exact ⟨a, .inr rfl, rfl⟩
            · exact ⟨b, .inl hb, e⟩
          · rintro ⟨b, hb | rfl, e⟩
            · exact .inr ⟨b, hb, e⟩
            · exact .inl e
        · by_cases hl : l = []
          · subst hl
            refine Nat.le_trans (hw.2.2 ?_) (by simp; omega)
            intro q hq
            rw [hd.dom] at hq
            rcases hq with e | ⟨k1, k2, a1, -⟩
            · exact e
            · simp [assigns, lastWrite] at a1
          · have := h3 hl
            simp only [List.length_cons]
            omega
  obtain ⟨L, h1, h2, h3⟩ := key h
  have hL : L.length ≤ ks.length :=
    (List.subperm_of_subset h1 (fun q hq => by obtain ⟨a, ha, e⟩ := (h2 q).mp hq; rw [e]; exact hk a ha)).length_le
  have := h3 hne
  omega

/-- **C64** After `Set` calls, every node without data (apart from the root) has at least two children. -/
theorem C64_branching (h : List (View × Str × α)) (v : View) :
    ∃ ns, v.walk (sets h Tree.new) [] = .ok ns ∧
      ∀ n ∈ ns, n.core.hasData = false → n = (sets h Tree.new).root ∨ 2 ≤ n.kids.length := by
  refine ⟨_, by simp [View.walk]; rfl, ?_⟩
  intro n hn hdat
  have hd := sets_denotes h
  rw [Node.walk_eq [] _] at hn
  obtain ⟨⟨q, n⟩, hmem, rfl⟩ := List.mem_map.mp hn
  have hc := (Tree.contents_node hd.ok).mpr ⟨n, hmem, rfl⟩
  have hm : lastWrite (assigns h) q = none := by
    cases e : lastWrite (assigns h) q with
    | none => rfl
    | some x => have := (hd.val q _ x hc e).1; simp only at hdat; rw [hdat] at this; cases this
  rcases (hd.dom q).mp (by simp [hc]) with e | ⟨k1, k2, a1, a2, e⟩
  · left
    subst e
    have : (([] : Str), (sets h Tree.new).root) ∈ (sets h Tree.new).root.nodes [] := by
      rw [Node.nodes_eq, hd.ok.nil]; simp
    exact Node.nodes_unique hd.ok.wf hmem this
  · right
    obtain ⟨x, y, hxy, p1, p2⟩ := lcp_diverge (a := k1) (b := k2) (fun e' => by rw [e, e'] at hm; rw [hm] at a1; cases a1)
      (fun e' => by rw [e, e'] at hm; rw [hm] at a2; cases a2)
    rw [← e] at p1 p2
    have below : ∀ {k z}, (lastWrite (assigns h) k).isSome → q ++ [z] <+: k → ∃ c ∈ n.kids, c.path.head? = some z := by
      intro k z hk hz
      obtain ⟨ck, hck⟩ := Option.isSome_iff_exists.mp ((hd.dom k).mpr (Dom.self hk))
      obtain ⟨mk, hmk, -⟩ := (Tree.contents_node hd.ok).mp hck
      rcases Node.below_of_prefix hd.ok.wf hmem hmk ((List.prefix_append _ _).trans hz) with ⟨rfl, -⟩ | hb
      · have := hz.length_le; simp at this; omega
      · rw [Node.mem_nodesL] at hb
        obtain ⟨c, hcm, hb⟩ := hb
        refine ⟨c, hcm, ?_⟩
        obtain ⟨w, hw⟩ := Node.prefix_of_mem_nodes hb
        obtain ⟨w', hw'⟩ := hz
        rw [← hw, List.append_assoc, List.append_assoc, List.append_cancel_left_eq] at hw'
        have hne : c.path ≠ [] := by
          have := Node.wf_of_mem hd.ok.wf hmem
          exact (((Node.wf_iff n).mp this).2 c hcm).1
        cases hp : c.path with
        | nil => exact absurd hp hne
        | cons a b => rw [hp] at hw'; simp at hw'; simp [hw'.1]
    obtain ⟨c1, m1, e1⟩ := below a1 p1
    obtain ⟨c2, m2, e2⟩ := below a2 p2
    cases hk : n.kids with
    | nil => rw [hk] at m1; simp at m1
    | cons c cs =>
      cases cs with
      | nil =>
        rw [hk] at m1 m2
        simp only [List.mem_singleton] at m1 m2
        subst m1; subst m2
        rw [e1] at e2
        exact absurd (Option.some.inj e2) hxy
      | cons _ _ => simp

/-! ## Other calls -/

omit [Inhabited α] in
/-- Writing through a node changes no number. -/
theorem writeCore_walk {t : Tree α} (h : t.OK) (i : Nat) (f : Core α → Core α) : (View.writeCore t i f).root.walk.length ≤ t.root.walk.length := by
  refine walk_mono h (writeCore_ok h i f) (fun q hq => ?_)
  obtain ⟨c, hc⟩ := Option.isSome_iff_exists.mp hq
  obtain ⟨c0, h0, -⟩ := writeCore_dom h i f hc
  simp [h0]

theorem remove_walk {v : View} {t t' : Tree α} {b : Bool} {P : Str → Prop} (h : Reach (NoRoute v.delim) t) (h' : Reach P t') (hm : v.mode ≠ .up) {p : Str}
    (e : v.remove t p = .ok (t', b)) : t'.root.walk.length ≤ t.root.walk.length := by
  cases b with
  | true =>
    obtain ⟨-, r, c, -, hc⟩ := remove_true h.ok h.plain hm e
    refine walk_mono h.ok h'.ok (fun q hq => ?_)
    rw [hc] at hq
    by_cases hp : r <+: q
    · simp [hp] at hq
    · rwa [if_neg hp] at hq
  | false =>
    obtain ⟨t1, b1, e1, -, h2⟩ := C08_remove_iff_has h hm p
    rw [e] at e1
    simp only [Except.ok.injEq, Prod.mk.injEq] at e1
    obtain ⟨rfl, rfl⟩ := e1
    rw [h2 rfl]
    exact Nat.le_refl _

/-- One call adds at most two nodes, and none unless it writes a value. -/
theorem Call.run_walk {c : Call α} {t t' : Tree α} {b : Bool} (h : Reach (NoRoute c.view.delim) t) (hm : c.view.mode ≠ .up)
    (e : c.run t = .ok (t', b)) : t'.root.walk.length ≤ t.root.walk.length + if c.key.isSome then 2 else 0 := by
  have hins : ∀ k (x : α), (View.insertAt t k x).1.root.walk.length ≤ t.root.walk.length + 2 := fun k x => (insert_walk h.ok k x).1
  have hw : ∀ k (x : α) (f : Core α → Core α),
      (View.writeCore (View.insertAt t k x).1 (View.insertAt t k x).2.hit.id f).root.walk.length ≤ t.root.walk.length + 2 :=
    fun k x f => Nat.le_trans (writeCore_walk (View.insertAt_ok h.ok k x) _ f) (hins k x)
  cases c with
  | set v p x =>
    simp only [run, Except.ok.injEq, Prod.mk.injEq] at e
    rw [← e.1]
    exact hins _ _
  | setEx v p x =>
    simp only [run, Except.ok.injEq, Prod.mk.injEq] at e
    rw [← e.1]
    exact hins _ _
  | setNode v p x tag ds =>
    simp only [run, Except.ok.injEq, Prod.mk.injEq] at e
    rw [← e.1]
    simp only [View.setNode]
    match ds with
    | [] => exact hins _ _
    | [a] => exact hw _ _ _
    | a :: b :: bs => exact hw _ _ _
  | setEmpty v p =>
    simp only [run, Except.ok.injEq, Prod.mk.injEq] at e
    rw [← e.1]
    exact hw _ _ _
  | update v p os =>
    simp only [run, Except.ok.injEq, Prod.mk.injEq] at e
    rw [← e.1]
    exact hw _ _ _
  | setComment v p d cm =>
    simp only [run, View.setComment] at e
    cases hs : v.search t (v.full p) with
    | error er => rw [hs] at e; cases e
    | ok r =>
      obtain ⟨n, a, b', kv⟩ := r
      rw [hs] at e
      cases n with
      | none => simp only [Except.ok.injEq, Prod.mk.injEq] at e; rw [← e.1]; simp
      | some n =>
        simp only [Except.ok.injEq, Prod.mk.injEq] at e
        rw [← e.1]
        exact writeCore_walk h.ok _ _
  | setTag v p tag =>
    simp only [run, View.setTag] at e
    cases hs : v.search t (v.full p) with
    | error er => rw [hs] at e; cases e
    | ok r =>
      obtain ⟨n, a, b', kv⟩ := r
      rw [hs] at e
      cases n with
      | none => simp only [Except.ok.injEq, Prod.mk.injEq] at e; rw [← e.1]; simp
      | some n =>
        simp only [Except.ok.injEq, Prod.mk.injEq] at e
        rw [← e.1]
        exact writeCore_walk h.ok _ _
  | remove v p =>
    exact remove_walk (v := v) h (run_reach (c := .remove v p) h (fun k hk => by simp [key] at hk) e) hm e

/-- **C64** After any history of calls, `Walk("")` visits at most one node more than twice the number of calls that write a value. -/
theorem C64_growth (d : Char) (cs : List (Call α)) (hf : Call.Fits d cs) (v : View) :
    ∃ t bs ns, Call.runs cs Tree.new = .ok (t, bs) ∧ v.walk t [] = .ok ns ∧
      ns.length ≤ 1 + 2 * (cs.filter (fun c => c.key.isSome)).length := by
  have key : ∀ (cs : List (Call α)), Call.Fits d cs → ∀ t, Reach (NoRoute d) t → ∃ t' bs, Call.runs cs t = .ok (t', bs) ∧
      t'.root.walk.length ≤ t.root.walk.length + 2 * (cs.filter (fun c => c.key.isSome)).length := by
    intro cs
    induction cs with
    | nil => exact fun _ t _ => ⟨t, [], rfl, by simp⟩
    | cons c cs ih =>
      intro hf t h
      obtain ⟨hd, hm, hk⟩ := hf c (by simp)
      have h0 : Reach (NoRoute c.view.delim) t := by rw [hd]; exact h
      obtain ⟨t1, b, e⟩ := Call.run_total h0 hm
      have h1 := Call.run_walk h0 hm e
      obtain ⟨t2, bs, e2, h2⟩ := ih (fun c hc => hf c (by simp [hc])) t1 (Call.run_reach h hk e)
      refine ⟨t2, b :: bs, by simp only [Call.runs, e, e2], ?_⟩
      by_cases hks : c.key.isSome = true
      · rw [if_pos hks] at h1
        rw [List.filter_cons_of_pos (by exact hks)]
        simp only [List.length_cons]
        omega
      · rw [if_neg hks] at h1
        rw [List.filter_cons_of_neg (by exact hks)]
        omega
  obtain ⟨t, bs, e, h⟩ := key cs hf _ (Reach.new (α := α))
  refine ⟨t, bs, _, e, by simp [View.walk]; rfl, ?_⟩
  have : (Tree.new : Tree α).root.walk.length = 1 := rfl
  omega

/-! ## Removed keys -/

/-- "aaa...ab" is set and removed again, for every length below `n`. -/
def leakCalls (x : α) : Nat → List (Call α)
  | 0 => []
  | n + 1 => .set (View.new '.') (List.replicate n 'a' ++ ['b']) x :: .remove (View.new '.') (List.replicate n 'a' ++ ['b']) :: leakCalls x n

theorem leak_run (x : α) (n m : Nat) (hmn : m ≤ n) (t : Tree α) (h : Reach (NoRoute '.') t)
    (hd : t.dataAt = upd (fun _ => none) (List.replicate n 'a') x) :
    ∃ t' bs, Call.runs (leakCalls x m) t = .ok (t', bs) ∧ Reach (NoRoute '.') t' ∧ t'.dataAt = upd (fun _ => none) (List.replicate n 'a') x ∧
      (∀ j, j < m → (t'.contents (List.replicate j 'a')).isSome) ∧
      (∀ j, (t.contents (List.replicate j 'a')).isSome → (t'.contents (List.replicate j 'a')).isSome) := by
  induction m generalizing t with
  | zero => exact ⟨t, [], rfl, h, hd, by simp, fun j hj => hj⟩
  | succ m ih =>
    have hkey : keyOf (View.new '.') (List.replicate m 'a' ++ ['b']) = List.replicate m 'a' ++ ['b'] := by
      refine keyOf_nospace (fun hmem => ?_)
      simp [View.full, View.new, List.mem_replicate] at hmem
    have hr : NoRoute '.' (List.replicate m 'a' ++ ['b']) := noRoute_of_plain (by simp [List.mem_replicate]) (by simp [List.mem_replicate])
    have e1 : Call.run (.set (View.new '.') (List.replicate m 'a' ++ ['b']) x) t =
        .ok ((View.insertAt t (List.replicate m 'a' ++ ['b']) x).1, true) := by
      have : Call.run (.set (View.new '.') (List.replicate m 'a' ++ ['b']) x) t =
        .ok ((View.insertAt t (keyOf (View.new '.') (List.replicate m 'a' ++ ['b'])) x).1, true) := rfl
      rw [this, hkey]
    have h1 := Call.run_reach (P := NoRoute '.') h (fun k hk => by simp only [Call.key, hkey, Option.some.injEq] at hk; rw [← hk]; exact hr) e1
    have d1 := dataAt_insert h.ok (List.replicate m 'a' ++ ['b']) x
    have hs := View.insertAt_spec h.ok (List.replicate m 'a' ++ ['b']) x
    generalize (View.insertAt t (List.replicate m 'a' ++ ['b']) x).1 = t1 at *
    obtain ⟨c1, hc1, -⟩ := hs.atKey
    have hfull : (View.new '.').full (List.replicate m 'a' ++ ['b']) = List.replicate m 'a' ++ ['b'] := by simp [View.full, View.new]
    have hne : ∀ j, List.replicate j 'a' ≠ List.replicate m 'a' ++ ['b'] := by
      intro j e
      have : 'b' ∈ List.replicate j 'a' := by rw [e]; simp
      simp [List.mem_replicate] at this
    have hnp : ∀ j, ¬ List.replicate m 'a' ++ ['b'] <+: List.replicate j 'a' := by
      intro j e
      have : 'b' ∈ List.replicate j 'a' := e.subset (by simp)
      simp [List.mem_replicate] at this
    obtain ⟨t2, b, e2, h3, -⟩ := C08_remove_iff_has (v := View.new '.') h1 (by decide) (List.replicate m 'a' ++ ['b'])
    have hb : b = true := by
      rw [h3, has_plain h1.ok h1.plain (by decide), hfull, resolve_at hc1]
      simp
    subst hb
    have e2' : Call.run (.remove (View.new '.') (List.replicate m 'a' ++ ['b'])) t1 = .ok (t2, true) := e2
    have h2 := Call.run_reach (P := NoRoute '.') h1 (fun k hk => by simp [Call.key] at hk) e2'
    obtain ⟨-, r, c, hres, hcon⟩ := remove_true h1.ok h1.plain (by decide) e2
    rw [hfull, resolve_at hc1] at hres
    obtain ⟨rfl, rfl⟩ := Prod.mk.inj (Option.some.inj hres)
    have d2 := dataAt_remove h1.ok h1.plain (by decide) e2
    have hd2 : t2.dataAt = upd (fun _ => none) (List.replicate n 'a') x := by
      funext q
      rw [d2 q, hfull, d1, hd]
      by_cases hq : List.replicate m 'a' ++ ['b'] <+: q
      · rw [if_pos hq, upd_ne]
        rintro rfl
        exact hnp n hq
      · rw [if_neg hq, upd_ne]
        rintro rfl
        exact hq (List.prefix_refl _)
    have keep : ∀ j, (t1.contents (List.replicate j 'a')).isSome → (t2.contents (List.replicate j 'a')).isSome := by
      intro j hj
      rw [hcon, if_neg (hnp j)]
      exact hj
    have hn : (t.contents (List.replicate n 'a')).isSome := by
      have := congrFun hd (List.replicate n 'a')
      rw [upd_same] at this
      simp only [Tree.dataAt] at this
      cases hc : t.contents (List.replicate n 'a') with
      | none => rw [hc] at this; cases this
      | some c => rfl
    have keep0 : ∀ j, (t.contents (List.replicate j 'a')).isSome → (t1.contents (List.replicate j 'a')).isSome := by
      intro j hj
      obtain ⟨c, hc⟩ := Option.isSome_iff_exists.mp hj
      rw [hs.keep _ c (hne j) hc]; rfl
    have hm : (t1.contents (List.replicate m 'a')).isSome := by
      obtain ⟨c, hc⟩ := Option.isSome_iff_exists.mp (keep0 n hn)
      have := Tree.lcp_closed h1.ok hc hc1
      have e : List.replicate n 'a' = List.replicate m 'a' ++ 'a' :: List.replicate (n - m - 1) 'a' := by
        rw [← List.replicate_succ, List.replicate_append_replicate]
        congr 1
        omega
      rw [e, lcp_append (by decide)] at this
      exact Option.isSome_iff_exists.mpr this
    obtain ⟨t3, bs, e3, h4, h5, h6, h7⟩ := ih (by omega) t2 h2 hd2
    refine ⟨t3, true :: true :: bs, by simp only [leakCalls, Call.runs, e1, e2', e3], h4, h5, fun j hj => ?_, fun j hj => h7 j (keep j (keep0 j hj))⟩
    by_cases ej : j = m
    · rw [ej]; exact h7 m (keep m hm)
    · exact h6 j (by omega)

/-- **C64** is false once keys have been removed: `Remove` leaves the branches behind that the removed keys caused. For every `n` there
is a history after which only one path has a value, and yet more than `n` nodes are visited. -/
theorem C64_leak_fails (x : α) (n : Nat) :
    ∃ t bs ns, Call.runs (.set (View.new '.') (List.replicate n 'a') x :: leakCalls x n) Tree.new = .ok (t, bs) ∧
      (∀ q y, t.dataAt q = some y → q = List.replicate n 'a') ∧ (View.new '.').walk t [] = .ok ns ∧ n < ns.length := by
  have hkey : keyOf (View.new '.') (List.replicate n 'a') = List.replicate n 'a' := by
    refine keyOf_nospace (fun hmem => ?_)
    simp [View.full, View.new, List.mem_replicate] at hmem
  have hr : NoRoute '.' (List.replicate n 'a') := noRoute_of_plain (by simp [List.mem_replicate]) (by simp [List.mem_replicate])
  have e1 : Call.run (.set (View.new '.') (List.replicate n 'a') x) Tree.new = .ok ((View.insertAt Tree.new (List.replicate n 'a') x).1, true) := by
    have : Call.run (.set (View.new '.') (List.replicate n 'a') x) Tree.new =
      .ok ((View.insertAt Tree.new (keyOf (View.new '.') (List.replicate n 'a')) x).1, true) := rfl
    rw [this, hkey]
  have h1 := Call.run_reach (P := NoRoute '.') Reach.new (fun k hk => by simp only [Call.key, hkey, Option.some.injEq] at hk; rw [← hk]; exact hr) e1
  have d1 := dataAt_insert Tree.OK.new (List.replicate n 'a') x
  rw [show (Tree.new : Tree α).dataAt = fun _ => none from funext dataAt_new] at d1
  obtain ⟨t, bs, e, h2, h3, h4, -⟩ := leak_run x n n (Nat.le_refl _) _ h1 d1
  refine ⟨t, true :: bs, _, by simp only [Call.runs, e1, e], ?_, by simp [View.walk]; rfl, ?_⟩
  · intro q y hq
    rw [h3] at hq
    by_cases e : q = List.replicate n 'a'
    · exact e
    · rw [upd_ne _ _ e] at hq; cases hq
  · have hlen := le_walk h2.ok (S := (List.range (n + 1)).map (fun j => List.replicate j 'a')) ?_ ?_
    · simp only [List.length_map, List.length_range] at hlen; omega
    · refine List.Pairwise.map _ ?_ List.nodup_range
      intro a b hab e
      exact hab (by simpa using congrArg List.length e)
    · intro q hq
      simp only [List.mem_map, List.mem_range] at hq
      obtain ⟨j, hj, rfl⟩ := hq
      by_cases ej : j = n
      · have := congrFun h3 (List.replicate n 'a')
        rw [upd_same] at this
        simp only [Tree.dataAt] at this
        rw [ej]
        cases hc : t.contents (List.replicate n 'a') with
        | none => rw [hc] at this; cases this
        | some c => rfl
      · exact h4 j (by omega)

/-- Six keys, one of them twice; eleven nodes: the root, the keys, "ap", "app", "app." and "app.x". -/
def ex64 : List (View × Str × Nat) :=
  [(exV, "app.xa".toList, 1), (exV, "app.xb".toList, 2), (exW, "y".toList, 3), (exV, "apple".toList, 4), (exV, "api".toList, 5),
   (exV, "z".toList, 6), (exV, "z".toList, 7)]
example : (sets ex64 Tree.new).root.walk.length = 11 ∧ ex64 ≠ [] := by decide +kernel

end Verif

import Verif.Lemmas.Among
import Verif.Props.Pattern
/-
C62: route patterns among other entries.

`Misses d w q`: the path `w` does not leave the key `q` at a route marker, that is, where the two differ for the first time, `q` does
not have a ':' or '*' right behind a delimiter.
-/
namespace Verif
variable {α : Type} [Inhabited α]

omit [Inhabited α] in
theorem Misses.prefix {d : Char} {w p q : Str} (h : Misses d w q) (hp : p <+: q) : Misses d w p := by
  intro s a x b y e1 e2
  obtain ⟨z, rfl⟩ := hp
  exact h s a (x ++ z) b y (by simp [e1]) e2

omit [Inhabited α] in
theorem Misses.nil {d : Char} {w : Str} : Misses d w [] := by
  intro s a x b y e1
  simp at e1

omit [Inhabited α] in
/-- A key never misses itself. -/
theorem Misses.self {d : Char} {w : Str} : Misses d w w := by
  intro s a x b y e1 e2 h
  rw [e1] at e2
  simp at e2
  exact absurd e2.1 h

theorem Reach.clearAt {d : Char} {w : Str} {t : Tree α} (h : Reach (Misses d w) t) : t.ClearAt d w :=
  (h.inv (entryInv_prefix Misses.nil Misses.prefix)).2

/-! ## Patterns elsewhere do no harm -/

/-- **C62** Read your own write in any tree, whatever route patterns it holds, as long as the path leaves none of its keys at a route
marker. -/
theorem C62_read_own_write {r v : View} {t : Tree α} {p p' : Str} (h : Reach (Misses r.delim (r.full p')) t) (hp : r.full p' = keyOf v p) (x : α) :
    r.mustGet (v.set t p x).1 p' = .ok x := by
  have h' : Reach (Misses r.delim (r.full p')) (v.set t p x).1 := h.set (by rw [← hp]; exact Misses.self) x
  obtain ⟨c, h1, h2⟩ := (set_spec h.ok v p x).atKey
  rw [← hp] at h1
  rw [mustGet_hit_at h'.ok h'.clearAt (resolve_at h1), (putCore_data h2).1, (putCore_data h2).2]
  rfl

/-- **C62** Last write wins at every path that leaves no key at a route marker. -/
theorem C62_last_write_wins (h : List (View × Str × α)) (r : View) (p : Str)
    (hk : ∀ a ∈ h, Misses r.delim (r.full p) (keyOf a.1 a.2.1)) (x : α)
    (hx : lastWrite (assigns h) (r.full p) = some x) :
    r.mustGet (sets h Tree.new) p = .ok x := by
  have hr : Reach (Misses r.delim (r.full p)) (sets h (Tree.new : Tree α)) := Reach.new.sets h hk
  have D := sets_denotes h
  obtain ⟨c, hc⟩ := Option.isSome_iff_exists.mp ((D.dom (r.full p)).mpr (Dom.self (by rw [hx]; rfl)))
  have hv := D.val _ c x hc hx
  rw [mustGet_hit_at hr.ok hr.clearAt (resolve_at hc), hv.1, hv.2]; rfl

/-- **C62** A path that was never set and leaves no key at a route marker reads as the zero value: no pattern answers for it. -/
theorem C62_never_written (h : List (View × Str × α)) (r : View) (hm : r.mode ≠ .up) (p : Str)
    (hk : ∀ a ∈ h, Misses r.delim (r.full p) (keyOf a.1 a.2.1))
    (hx : lastWrite (assigns h) (r.full p) = none) (hx' : lastWrite (assigns h) (r.full p ++ [r.delim]) = none) :
    r.mustGet (sets h Tree.new) p = .ok default := by
  have hr : Reach (Misses r.delim (r.full p)) (sets h (Tree.new : Tree α)) := Reach.new.sets h hk
  have D := sets_denotes h
  rw [mustGet_at hr.ok hm p hr.clearAt]
  cases hres : resolve r.delim (sets h (Tree.new : Tree α)).contents (r.full p) with
  | none => rfl
  | some y =>
    obtain ⟨q, c⟩ := y
    obtain ⟨h2, e | ⟨e, _⟩⟩ := resolve_cases hres
    · subst e; simp only [(D.noval _ c h2 hx).1]; rfl
    · subst e; simp only [(D.noval _ c h2 hx').1]; rfl

/-- **C62** A removed path is gone in the presence of patterns too, for every other path that leaves no key at a route marker the answer
is that of the entries: `Query` follows the entries alone. -/
theorem C62_entries_answer {v : View} {t t' : Tree α} {p : Str} (h : Reach (Misses v.delim (v.full p)) t)
    (h' : Reach (Misses v.delim (v.full p)) t') (hm : v.mode ≠ .up)
    (he : t.contents (v.full p) = t'.contents (v.full p))
    (he' : t.contents (v.full p ++ [v.delim]) = t'.contents (v.full p ++ [v.delim])) :
    v.query t p = v.query t' p := by
  rw [query_at h.ok hm p h.clearAt, query_at h'.ok hm p h'.clearAt]
  have : resolve v.delim t.contents (v.full p) = resolve v.delim t'.contents (v.full p) := by
    simp only [resolve, he, he']
  rw [this]

/-! ## Patterns still capture -/

/-- A set key that no other set key extends is a leaf. -/
theorem leaf_of_top (h : List (View × Str × α)) {q : Str} {c : Core α} (hq : q ≠ []) (hc : (sets h Tree.new).contents q = some c)
    (hw : (lastWrite (assigns h) q).isSome) (hext : ∀ k, (lastWrite (assigns h) k).isSome → k ≠ q → ¬ q <+: k) : c.leaf = true := by
  induction h using snocInd generalizing c with
  | h0 => simp [assigns, lastWrite] at hw
  | h1 l a ih =>
    have D := sets_denotes l
    have hs := View.insertAt_spec D.ok (keyOf a.1 a.2.1) a.2.2
    rw [sets_snoc] at hc
    have hl : ∀ k, lastWrite (assigns (l ++ [a])) k = if keyOf a.1 a.2.1 = k then some a.2.2 else lastWrite (assigns l) k := by
      intro k
      have : assigns (l ++ [a]) = assigns l ++ [(keyOf a.1 a.2.1, a.2.2)] := by simp [assigns]
      rw [this, lastWrite_snoc]
    have hmono : ∀ k, (lastWrite (assigns l) k).isSome → (lastWrite (assigns (l ++ [a])) k).isSome := by
      intro k hk; rw [hl]; split <;> simp [hk]
    have hext' : ∀ k, (lastWrite (assigns l) k).isSome → k ≠ q → ¬ q <+: k := fun k hk => hext k (hmono k hk)
    -- no entry extends `q` unless `q` was set before
    have hno : ∀ k c0, (sets l (Tree.new : Tree α)).contents k = some c0 → q <+: k → (lastWrite (assigns l) q).isSome := by
      intro k c0 hk hp
      rcases (D.dom k).mp (by rw [hk]; rfl) with e | ⟨k1, k2, h1, -, e⟩
      · rw [e, List.prefix_nil] at hp; exact absurd hp hq
      · by_cases hkq : k1 = q
        · rw [← hkq]; exact h1
        · exact absurd (hp.trans (e ▸ lcp_prefix_left k1 k2)) (hext' k1 h1 hkq)
    by_cases e : q = keyOf a.1 a.2.1
    · obtain ⟨c', h1, h2⟩ := hs.atKey
      rw [← e] at h1
      obtain rfl : c = c' := by rw [e] at hc; rw [← e, h1] at hc; simpa using hc.symm
      rw [← e] at h2
      simp only [putCore] at h2
      cases h0 : (sets l (Tree.new : Tree α)).contents q with
      | some c0 =>
        rw [h0] at h2
        simp only at h2
        subst h2
        exact ih (c := c0) h0 (hno q c0 h0 List.prefix_rfl) hext'
      | none =>
        rw [h0] at h2
        rcases h2 with ⟨rfl, -⟩ | ⟨k, c0, h3, h4, -, -⟩
        · rfl
        · obtain ⟨c1, hc1⟩ := Option.isSome_iff_exists.mp ((D.dom q).mpr (Dom.self (hno k c0 h3 h4)))
          rw [h0] at hc1; simp at hc1
    · have hw' : (lastWrite (assigns l) q).isSome := by
        rw [hl, if_neg (fun h => e h.symm)] at hw; exact hw
      obtain ⟨c1, hc1⟩ := Option.isSome_iff_exists.mp ((D.dom q).mpr (Dom.self hw'))
      have := hs.keep q c1 e hc1
      rw [this] at hc
      obtain rfl := Option.some.inj hc
      exact ih hc1 hw' hext'

omit [Inhabited α] in
theorem Node.kid_mem {n : Node α} (hw : n.WF) {u q : Str} {m ch : Node α} (h : (q, m) ∈ n.nodes u) (hc : ch ∈ m.kids) :
    (q ++ ch.path, ch) ∈ n.nodes u ∧ ch.path ≠ [] := by
  induction n using Node.ind generalizing u with
  | h i p c ks ih =>
    have hwn := (Node.wf_mk ..).mp hw
    rw [Node.mem_nodes] at h
    rcases h with h | ⟨c1, hc1, h⟩
    · simp at h
      obtain ⟨rfl, rfl⟩ := h
      exact ⟨(Node.mem_nodes ..).mpr (.inr ⟨ch, hc, by rw [Node.nodes_eq]; simp⟩), (hwn.2 ch hc).1⟩
    · obtain ⟨h1, h2⟩ := ih c1 hc1 (hwn.2 c1 hc1).2 h
      exact ⟨(Node.mem_nodes ..).mpr (.inr ⟨c1, hc1, h1⟩), h2⟩

omit [Inhabited α] in
/-- A node without children has no node below it. -/
theorem no_below {t : Tree α} (h : t.OK) {q k : Str} {m m' : Node α} (h1 : (q, m) ∈ t.root.nodes []) (h2 : (k, m') ∈ t.root.nodes [])
    (hk : m.kids = []) (hp : q <+: k) : k = q := by
  rcases Node.below_of_prefix h.wf h1 h2 hp with h3 | h3
  · exact h3.1
  · rw [hk] at h3; simp [Node.nodesL] at h3

/-- What the lookup of `W` does in a tree made by `Set` calls, when `P` is the one key that fits. -/
theorem among_lookup (h : List (View × Str × α)) (r : View) (hd : r.delim ≠ ':') (hd' : r.delim ≠ '*') {P : Str} (hP : P ≠ [])
    (hlast : P.getLast? ≠ some ':') {x : α} (hx : lastWrite (assigns h) P = some x)
    (htop : ∀ k, (lastWrite (assigns h) k).isSome → k ≠ P → ¬ P <+: k) (p : Str) (hp : r.full p ≠ [])
    (hother : ∀ k, (lastWrite (assigns h) k).isSome → k ≠ P → Misses r.delim (r.full p) k ∧ ¬ r.full p <+: k ∧
      (k <+: r.full p → ∃ k', (lastWrite (assigns h) k').isSome ∧ k' ≠ k ∧ k <+: k'))
    {kv : KV} (hf : Node.leafFound r.delim P (r.full p) = some kv) :
    r.queryKV (sets h Tree.new) p = .ok (⟨x, false, true, false⟩, kv) := by
  have D := sets_denotes h
  obtain ⟨c, hc⟩ := Option.isSome_iff_exists.mp ((D.dom P).mpr (Dom.self (by rw [hx]; rfl)))
  have hv := D.val _ c x hc hx
  have hleaf := leaf_of_top h hP hc (by rw [hx]; rfl) htop
  obtain ⟨m, hm, rfl⟩ := (Tree.contents_node D.ok).mp hc
  have hdom : ∀ q m', (q, m') ∈ (sets h (Tree.new : Tree α)).root.nodes [] → Dom (lastWrite (assigns h)) q := by
    intro q m' hq
    exact (D.dom q).mp (by rw [(Tree.contents_node D.ok).mpr ⟨m', hq, rfl⟩]; rfl)
  have hnode : ∀ k, (lastWrite (assigns h) k).isSome → ∃ m', (k, m') ∈ (sets h (Tree.new : Tree α)).root.nodes [] := by
    intro k hk
    obtain ⟨c', hc'⟩ := Option.isSome_iff_exists.mp ((D.dom k).mpr (Dom.self hk))
    obtain ⟨m', hm', -⟩ := (Tree.contents_node D.ok).mp hc'
    exact ⟨m', hm'⟩
  have hkids : m.kids = [] := by
    cases hk : m.kids with
    | nil => rfl
    | cons ch rest =>
      exfalso
      obtain ⟨hin, hne⟩ := Node.kid_mem D.ok.wf hm (ch := ch) (by rw [hk]; simp)
      rcases hdom _ _ hin with e | ⟨k1, k2, h1, -, e⟩
      · simp at e; exact hP e.1
      · have hpre : P ++ ch.path <+: k1 := e ▸ lcp_prefix_left k1 k2
        refine htop k1 h1 ?_ ((List.prefix_append _ _).trans hpre)
        rintro rfl
        have := hpre.length_le
        simp at this
        exact hne (List.length_eq_zero_iff.mp (by omega))
  obtain ⟨par, hq⟩ := Node.matchR_among hd hd' hP hlast hkids (sets h (Tree.new : Tree α)).root [] (r.full p) none D.ok.wf (.inr rfl) hm hp (by
    intro q m' hq hqP
    simp only [List.nil_append]
    rcases hdom q m' hq with rfl | ⟨k1, k2, h1, h2, e⟩
    · refine ⟨Misses.nil, by simpa using hp, fun hk0 => ?_⟩
      exact absurd (no_below D.ok hq hm hk0 List.nil_prefix) hP
    · have hone : ∃ k, (lastWrite (assigns h) k).isSome ∧ k ≠ P ∧ q <+: k := by
        by_cases e1 : k1 = P
        · by_cases e2 : k2 = P
          · rw [e1, e2, lcp_self] at e; exact absurd e hqP
          · exact ⟨k2, h2, e2, e ▸ lcp_prefix_right k1 k2⟩
        · exact ⟨k1, h1, e1, e ▸ lcp_prefix_left k1 k2⟩
      obtain ⟨k, hk, hkP, hqk⟩ := hone
      obtain ⟨o1, o2, o3⟩ := hother k hk hkP
      refine ⟨o1.prefix hqk, fun hW => o2 (hW.trans hqk), fun hk0 hqW => ?_⟩
      obtain ⟨mk, hmk⟩ := hnode k hk
      obtain rfl := no_below D.ok hq hmk hk0 hqk
      obtain ⟨k', g1, g2, g3⟩ := o3 hqW
      obtain ⟨mk', hmk'⟩ := hnode k' g1
      exact g2 (no_below D.ok hq hmk' hk0 g3)) (by simpa using hf)
  have he : endsW r.delim ([] : Str) = false := rfl
  rw [he] at hq
  simp [View.queryKV, View.search, hq, hv.1, hv.2, Core.isBranch, hleaf]

/-- **C62** A pattern among other keys captures as it does alone (`C33_captures_partial`), through any view and in any mode, whatever
the order of the `Set` calls. The delimiter is neither ':' nor '*', the pattern does not end with ':', no key extends the pattern, and
the path leaves every other key before its end, not at a route marker (or passes through it to longer keys). Missing: paths that leave
another key at a route marker, extend a stored key or stop inside it (`C62_shadow_fails`, `C62_rest_fails`, `C62_beyond_fails`,
`C62_inside_fails`), and patterns that share a position under different names (`C62_names_fail`). -/
theorem C62_route_partial (h : List (View × Str × α)) (r : View) (hd : r.delim ≠ ':') (hd' : r.delim ≠ '*') {P : Str} (hP : P ≠ [])
    (hlast : P.getLast? ≠ some ':') {x : α} (hx : lastWrite (assigns h) P = some x)
    (htop : ∀ k, (lastWrite (assigns h) k).isSome → k ≠ P → ¬ P <+: k) (p : Str) (hp : r.full p ≠ [])
    (hother : ∀ k, (lastWrite (assigns h) k).isSome → k ≠ P → Misses r.delim (r.full p) k ∧ ¬ r.full p <+: k ∧
      (k <+: r.full p → ∃ k', (lastWrite (assigns h) k').isSome ∧ k' ≠ k ∧ k <+: k'))
    {S0 : Str} {Ps Ws : List Str} (hPs : splitOn r.delim P = S0 :: Ps) (hWs : splitOn r.delim (r.full p) = S0 :: Ws)
    (hc : Corr Ps Ws) (hf : Fair Ps Ws) (hl : EndsLit Ps → (r.full p).length ≤ P.length) :
    r.queryKV (sets h Tree.new) p = .ok (⟨x, false, true, false⟩, caps r.delim Ps Ws) :=
  among_lookup h r hd hd' hP hlast hx htop p hp hother (leafFound_corr hPs hWs rfl hc hf hl)

/-- Decidable form of `Misses`, for the examples. -/
def missesB (d : Char) (prev : Bool) : Str → Str → Bool
  | b :: y, a :: x => if a = b then missesB d (a == d) y x else !(prev && (a == ':' || a == '*'))
  | _, _ => true

omit [Inhabited α] in
theorem misses_of_b {d : Char} : ∀ {u w q : Str}, missesB d (endsW d u) w q = true → ∀ s a x b y, q = s ++ a :: x → w = s ++ b :: y →
    a ≠ b → endsW d (u ++ s) = true → a ≠ ':' ∧ a ≠ '*' := by
  intro u w q h s
  induction s generalizing u w q with
  | nil =>
    intro a x b y e1 e2 hab he
    subst e1 e2
    simp only [List.nil_append, missesB, hab, if_false, List.append_nil] at h he
    rw [he] at h
    simpa using h
  | cons c s ih =>
    intro a x b y e1 e2 hab he
    subst e1 e2
    simp only [List.cons_append, missesB, if_true] at h
    have e3 : endsW d (u ++ [c]) = (c == d) := by simp [endsW]
    rw [← e3] at h
    exact ih (u := u ++ [c]) h a x b y rfl rfl hab (by simpa using he)

omit [Inhabited α] in
theorem Misses.of {d : Char} {w q : Str} (h : missesB d false w q = true) : Misses d w q :=
  fun s a x b y e1 e2 e3 e4 => misses_of_b (u := []) h s a x b y e1 e2 e3 (by simpa using e4)

namespace Among

/-- Two keys and a pattern, a pattern of another branch, and a rest pattern. -/
def hist : List (View × Str × Nat) :=
  [(View.new '/', "/users/list".toList, 1), (View.new '/', "/users/:id/edit".toList, 2), (View.new '/', "/users/:id/show".toList, 3),
   (View.new '/', "/users/a".toList, 4), (View.new '/', "/files/*rest".toList, 5)]

example : ("/users/".toList.isPrefixOf "/users/list".toList) = true := by decide +kernel

/-- The pattern answers although longer and shorter keys surround it. -/
example : (View.new '/').queryKV (sets hist Tree.new) "/files/x/y".toList =
    .ok (⟨5, false, true, false⟩, [("rest".toList, "x/y".toList)]) := by
  refine C62_route_partial hist (View.new '/') (by decide) (by decide) (P := "/files/*rest".toList) (by decide +kernel) (by decide +kernel)
    (x := 5) (by decide +kernel) ?_ "/files/x/y".toList (by decide +kernel) ?_ (S0 := []) (Ps := ["files".toList, "*rest".toList])
    (Ws := ["files".toList, "x".toList, "y".toList]) (by decide +kernel) (by decide +kernel) (by simp [Corr]) (by simp [Fair]) (by simp [EndsLit])
  · intro k hk hne
    obtain ⟨y, hy⟩ := (lastWrite_isSome ..).mp hk
    have hall : ∀ a ∈ assigns hist, a.1 ≠ "/files/*rest".toList → ¬ "/files/*rest".toList <+: a.1 := by decide +kernel
    exact hall _ hy hne
  · intro k hk hne
    obtain ⟨y, hy⟩ := (lastWrite_isSome ..).mp hk
    have hall : ∀ a ∈ assigns hist, a.1 ≠ "/files/*rest".toList → missesB '/' false "/files/x/y".toList a.1 = true ∧
        ¬ "/files/x/y".toList <+: a.1 ∧ ¬ a.1 <+: "/files/x/y".toList := by decide +kernel
    obtain ⟨h1, h2, h3⟩ := hall _ hy hne
    exact ⟨Misses.of h1, h2, fun h => absurd h h3⟩

/-- The literal "/users/list" stays what it is although two patterns sit beside it: the path meets the literal first. -/
example : (View.new '/').mustGet (sets (hist.take 1 ++ hist.drop 4) Tree.new) "/users/list".toList = .ok 1 :=
  C62_last_write_wins (hist.take 1 ++ hist.drop 4) (View.new '/') "/users/list".toList (by
    have hall : ∀ a ∈ hist.take 1 ++ hist.drop 4, missesB '/' false "/users/list".toList (keyOf a.1 a.2.1) = true := by decide +kernel
    exact fun a ha => Misses.of (hall a ha)) 1 (by decide +kernel)

def two (a b : String) : Tree Nat := sets [(View.new '/', a.toList, 1), (View.new '/', b.toList, 2)] Tree.new
def ask (a b p : String) : Go (View.Ans Nat × KV) := (View.new '/').queryKV (two a b) p.toList

end Among

open Among in
/-- A literal set after a pattern at the same position cannot be read: the pattern answers. Set before it, it can. -/
theorem C62_shadow_fails :
    ask "/users/:id" "/users/list" "/users/list" = .ok (⟨1, false, true, false⟩, [("id".toList, "list".toList)]) ∧
    ask "/users/list" "/users/:id" "/users/list" = .ok (⟨1, false, true, false⟩, []) := by decide +kernel

open Among in
/-- A rest pattern set first takes everything, even paths of a longer pattern. -/
theorem C62_rest_fails :
    ask "/*rest" "/users/:id" "/users/7" = .ok (⟨1, false, true, false⟩, [("rest".toList, "users/7".toList)]) ∧
    ask "/users/:id" "/*rest" "/users/7" = .ok (⟨1, false, true, false⟩, [("id".toList, "7".toList)]) := by decide +kernel

open Among in
/-- With "/users/list" set before the pattern, "/users/list2" is not captured (the other way round it is). -/
theorem C62_beyond_fails :
    ask "/users/list" "/users/:id" "/users/list2" = .ok (⟨0, false, false, true⟩, []) ∧
    ask "/users/:id" "/users/list" "/users/list2" = .ok (⟨1, false, true, false⟩, [("id".toList, "list2".toList)]) := by decide +kernel

open Among in
/-- ... nor is "/users/li". -/
theorem C62_inside_fails :
    ask "/users/list" "/users/:id" "/users/li" = .ok (⟨0, false, false, true⟩, []) ∧
    ask "/users/:id" "/users/list" "/users/li" = .ok (⟨1, false, true, false⟩, [("id".toList, "li".toList)]) := by decide +kernel

open Among in
/-- Two names for one position: the tree splits behind the common ':', and neither pattern is found any more. -/
theorem C62_names_fail :
    ask "/users/:id" "/users/:name/edit" "/users/7" = .ok (⟨0, false, false, true⟩, [([], "7".toList)]) ∧
    ask "/users/:id" "/users/:name/edit" "/users/7/edit" = .ok (⟨0, false, false, true⟩, [([], "7".toList)]) := by decide +kernel

end Verif

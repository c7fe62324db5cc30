import Verif.Props.Remove
import Verif.Lemmas.Utf8
/-
C09 Walk, C10 Key, C13 and C14 metadata, C15 SetEx, C17 agreement of the read methods, C18 HasPart,
C40 SetEmpty and Update.
-/
namespace Verif
variable {α : Type} [Inhabited α]

/-! ## C10 -/

theorem keyInv_leaf {P : Str → Prop} : EntryInv (α := α) P (fun q c => c.leaf = true → c.pathS = utf8 q) := by
  refine ⟨fun h => by simp [Core.zero] at h, fun k x _ _ => rfl, ?_, fun _ _ _ h => h, ?_, fun _ _ _ h => h⟩
  · intro q c k _ _ _ h; simp [Node.cutCore, Core.zero] at h
  · intro q c o h; cases o <;> exact h

theorem keyInv_ascii : EntryInv (α := α) Ascii (fun q c => Ascii q ∧ c.pathS = utf8 q) := by
  refine ⟨⟨by simp [Ascii], rfl⟩, fun k x hk => ⟨hk, rfl⟩, ?_, fun _ _ _ h => h, ?_, fun _ _ _ h => h⟩
  · rintro q c k ⟨h1, h2⟩ hp _
    exact ⟨h1.prefix hp, by simp only [Node.cutCore, h2]; exact utf8_take_prefix h1 hp⟩
  · intro q c o h; cases o <;> exact h

omit [Inhabited α] in
/-- The full path of the node that `Locate` finds. -/
theorem locate_plain {v : View} {t : Tree α} (h : t.OK) (hp : t.Plain v.delim) (hm : v.mode ≠ .up) {p : Str}
    {n : Node α} {br pm : Bool} (e : v.locate t p = .ok (some n, br, pm, true)) :
    (v.full p, n) ∈ t.root.nodes [] ∨ (v.full p ++ [v.delim], n) ∈ t.root.nodes [] := by
  rcases search_plain h hp hm (v.full p) with ⟨q, m, par, h1, h2, _⟩ | ⟨hw, h1, c, par, pm', h2, h3⟩
  · rw [View.locate, h2] at e
    simp at e
    obtain ⟨rfl, _⟩ := e
    obtain ⟨h4, h5⟩ := resolve_cases h1
    rw [Tree.nodeAt_some h] at h4
    rcases h5 with rfl | ⟨rfl, _⟩
    · exact .inl h4
    · exact .inr h4
  · rw [View.locate, h2] at e
    have := h3.not_found
    cases c with
    | none => simp at e
    | some c => simp at e this; simp [this] at e

/-- **C10** For ASCII keys, `Key()` of the entry found by `Locate(p)` is the full path (or its spelling
with trailing delimiter). -/
theorem C10_key_ascii {v : View} {t : Tree α} (h : Reach Ascii t) (hp : t.Plain v.delim) (hm : v.mode ≠ .up) {p : Str}
    {n : Node α} {br pm : Bool} (e : v.locate t p = .ok (some n, br, pm, true)) :
    n.core.pathS = utf8 (v.full p) ∨ n.core.pathS = utf8 (v.full p ++ [v.delim]) := by
  have inv := (h.inv keyInv_ascii).2
  rcases locate_plain h.ok hp hm e with h1 | h1
  · exact .inl (inv _ _ ((Tree.contents_node h.ok).mpr ⟨n, h1, rfl⟩)).2
  · exact .inr (inv _ _ ((Tree.contents_node h.ok).mpr ⟨n, h1, rfl⟩)).2

/-- **C10** For keys in any script the same holds for leaf entries. -/
theorem C10_key_leaf {v : View} {t : Tree α} (h : Reach (NoRoute v.delim) t) (hm : v.mode ≠ .up) {p : Str}
    {n : Node α} {br pm : Bool} (e : v.locate t p = .ok (some n, br, pm, true)) (hl : n.core.leaf = true) :
    n.core.pathS = utf8 (v.full p) ∨ n.core.pathS = utf8 (v.full p ++ [v.delim]) := by
  have inv := (h.inv keyInv_leaf).2
  rcases locate_plain h.ok h.plain hm e with h1 | h1
  · exact .inl (inv _ _ ((Tree.contents_node h.ok).mpr ⟨n, h1, rfl⟩) hl)
  · exact .inr (inv _ _ ((Tree.contents_node h.ok).mpr ⟨n, h1, rfl⟩) hl)

/-- Without these restrictions the claim fails: after setting "aé" and then "a", `Key()` of "a" is
"a" followed by the first byte of "é". -/
theorem C10_key_fails : ∃ v : View,
    (v.locate (sets [(v, "aé".toList, 1), (v, "a".toList, 2)] (Tree.new : Tree Nat)) "a".toList).map
      (fun r => (r.1.map (·.core.pathS), r.2.2.2)) = .ok (some [97, 195], true) ∧ utf8 "a".toList = [97] :=
  ⟨View.new '.', by decide +kernel, by decide +kernel⟩

/-! ## C09 -/

omit [Inhabited α] in
theorem Node.walk_eq (u : Str) (n : Node α) : n.walk = (n.nodes u).map (·.2) := by
  induction n using Node.ind generalizing u with
  | h i p c k ih =>
    rw [Node.nodes_eq]
    simp only [Node.walk, List.map_cons, List.cons.injEq, true_and, Node.path_mk, Node.kids_mk]
    generalize u ++ p = w
    induction k with
    | nil => simp [Node.walkL, Node.nodesL]
    | cons a as iha =>
      simp only [Node.walkL, Node.nodesL, List.map_append]
      rw [ih a (by simp) w, iha (fun n hn => ih n (by simp [hn]))]

/-- **C09** `Walk("")` visits no entry twice, each visited entry is the one its full path reads from,
and every full path with an entry is visited. -/
theorem C09_walk_exact {v : View} {t : Tree α} (h : Reach (NoRoute v.delim) t) :
    ∃ (l : List (Node α)) (ps : List Str), v.walk t [] = .ok l ∧ ps.length = l.length ∧ ps.Nodup ∧ (l.map (·.id)).Nodup ∧
      (∀ x ∈ ps.zip l, ∀ (r : View) (w : Str), r.delim = v.delim → r.full w = x.1 →
        r.has t w = .ok true ∧ r.mustGet t w = .ok x.2.core.data) ∧
      (∀ (r : View) (w : Str), r.delim = v.delim → r.mode ≠ .up → r.has t w = .ok true →
        r.full w ∈ ps ∨ r.full w ++ [r.delim] ∈ ps) := by
  refine ⟨t.root.walk, (t.root.nodes []).map (·.1), by simp [View.walk], by simp [Node.walk_eq []], ?_, ?_, ?_, ?_⟩
  · exact Node.keys_nodup h.ok.wf []
  · rw [Node.walk_eq []]
    rw [List.map_map]; exact h.ok.nodup
  · intro x hx r w hd hw
    rw [Node.walk_eq [], List.zip_map', List.mem_map] at hx
    obtain ⟨⟨q, m⟩, hm, rfl⟩ := hx
    simp only at hw ⊢
    have hpl : t.Plain r.delim := by rw [hd]; exact h.plain
    have hc : t.contents (r.full w) = some m.core := (Tree.contents_node h.ok).mpr ⟨m, hw ▸ hm, rfl⟩
    constructor
    · have hn : resolve r.delim t.nodeAt (r.full w) = some (r.full w, m) :=
        resolve_at ((Tree.nodeAt_some h.ok).mpr (hw ▸ hm))
      obtain ⟨par, h2, _⟩ := search_hit h.ok hpl hn
      rw [View.has, h2]; rfl
    · rw [mustGet_hit h.ok hpl (resolve_at hc)]
      cases hd : m.core.hasData with
      | true => rfl
      | false => rw [(h.inv noData_zero).2 _ _ hc hd]; rfl
  · intro r w hd hm hh
    have hh' : Reach (NoRoute r.delim) t := by rw [hd]; exact h
    rw [C05_has_exact hh' hm] at hh
    have key : ∀ q, (t.contents q).isSome → q ∈ (t.root.nodes []).map (·.1) := by
      intro q hq
      obtain ⟨c, hc⟩ := Option.isSome_iff_exists.mp hq
      obtain ⟨m, hm, _⟩ := (Tree.contents_node h.ok).mp hc
      exact List.mem_map.mpr ⟨_, hm, rfl⟩
    rcases hh with e | hh | hh
    · rw [e]; exact .inl (key [] (by rw [Tree.contents_root h.ok]; rfl))
    · exact .inl (key _ hh)
    · exact .inr (key _ hh)

/-- **C09** For a history of `Set` calls with ASCII keys: the pairs (`Key()`, `Data()`) of the visited
entries with data are exactly the live assignments, each visited once. -/
theorem C09_walk_live (h : List (View × Str × α)) (hk : ∀ a ∈ h, Ascii (keyOf a.1 a.2.1)) (v : View) :
    ∃ l, v.walk (sets h Tree.new) [] = .ok l ∧
      ((l.filter (fun n => n.core.hasData)).map (fun n => n.core.pathS)).Nodup ∧
      ∀ k x, lastWrite (assigns h) k = some x ↔
        ∃ n ∈ l, n.core.hasData = true ∧ n.core.pathS = utf8 k ∧ n.core.data = x := by
  have hr : Reach Ascii (sets h (Tree.new : Tree α)) := Reach.new.sets h hk
  have inv := (hr.inv keyInv_ascii).2
  have D := sets_denotes h
  have hpath : ∀ q m, (q, m) ∈ (sets h (Tree.new : Tree α)).root.nodes [] → m.core.pathS = utf8 q :=
    fun q m hm => (inv _ _ ((Tree.contents_node hr.ok).mpr ⟨m, hm, rfl⟩)).2
  refine ⟨(sets h (Tree.new : Tree α)).root.walk, by simp [View.walk], ?_, ?_⟩
  · have hnd : (((sets h (Tree.new : Tree α)).root.walk).map (fun n => n.core.pathS)).Nodup := by
      rw [Node.walk_eq [], List.map_map]
      have h1 := Node.keys_nodup hr.ok.wf []
      have h2 : ((sets h (Tree.new : Tree α)).root.nodes []).map ((fun n : Node α => n.core.pathS) ∘ fun x => x.2) =
          (((sets h (Tree.new : Tree α)).root.nodes []).map (·.1)).map utf8 := by
        rw [List.map_map]
        exact List.map_congr_left (fun x hx => hpath x.1 x.2 hx)
      rw [h2]
      refine List.Pairwise.map _ (fun a b hab e => hab (utf8_inj e)) h1
    exact hnd.sublist (List.filter_sublist.map _)
  · intro k x
    constructor
    · intro hx
      obtain ⟨c, hc⟩ := Option.isSome_iff_exists.mp ((D.dom k).mpr (Dom.self (by rw [hx]; rfl)))
      have hv := D.val _ c x hc hx
      obtain ⟨m, hm, rfl⟩ := (Tree.contents_node hr.ok).mp hc
      refine ⟨m, ?_, hv.1, hpath k m hm, hv.2⟩
      rw [Node.walk_eq []]
      exact List.mem_map.mpr ⟨_, hm, rfl⟩
    · rintro ⟨n, hn, hd, hp, rfl⟩
      rw [Node.walk_eq [], List.mem_map] at hn
      obtain ⟨⟨q, m⟩, hm, rfl⟩ := hn
      have e : q = k := utf8_inj ((hpath q m hm).symm.trans hp)
      subst e
      have hc : (sets h (Tree.new : Tree α)).contents q = some m.core := (Tree.contents_node hr.ok).mpr ⟨m, hm, rfl⟩
      cases hx : lastWrite (assigns h) q with
      | none => have := (D.noval _ _ hc hx).1; simp only at hd; rw [hd] at this; simp at this
      | some y => rw [(D.val _ _ y hc hx).2]

/-! ## C13 -/

/-- Entry fields other than the data. -/
def sameMeta (c c' : Core α) : Prop :=
  c'.desc = c.desc ∧ c'.comment = c.comment ∧ c'.tag = c.tag ∧ c'.pathS = c.pathS ∧ c'.leaf = c.leaf ∧ c'.modified = c.modified

theorem sets_meta (h : List (View × Str × α)) {t : Tree α} (hok : t.OK) {q : Str} {c : Core α} (hc : t.contents q = some c) :
    ∃ c', (sets h t).contents q = some c' ∧ sameMeta c c' ∧ (sets h t).OK := by
  induction h using snocInd with
  | h0 => exact ⟨c, hc, ⟨rfl, rfl, rfl, rfl, rfl, rfl⟩, hok⟩
  | h1 l a ih =>
    obtain ⟨c1, h1, h2, h3⟩ := ih
    rw [sets_snoc]
    have hs := View.insertAt_spec h3 (keyOf a.1 a.2.1) a.2.2
    have hok' := View.insertAt_ok h3 (keyOf a.1 a.2.1) a.2.2
    by_cases e : q = keyOf a.1 a.2.1
    · obtain ⟨c2, h4, h5⟩ := hs.atKey
      rw [← e] at h4 h5
      simp only [putCore, h1] at h5
      rw [e] at h4
      exact ⟨c2, by rw [e]; exact h4, by rw [h5]; exact h2, hok'⟩
    · exact ⟨c1, hs.keep q c1 e h1, h2, hok'⟩

/-- **C13** Description, comment and tag of an entry survive any later sequence of `Set` calls, of the
same or other keys. -/
theorem C13_meta_survives {r : View} {t : Tree α} (h : Reach (NoRoute r.delim) t) (hs : List (View × Str × α))
    (hk : ∀ a ∈ hs, NoRoute r.delim (keyOf a.1 a.2.1)) {p : Str} {c : Core α} (hc : t.contents (r.full p) = some c) :
    r.getDesc (sets hs t) p = r.getDesc t p ∧ r.getComment (sets hs t) p = r.getComment t p ∧
    r.getTag (sets hs t) p = r.getTag t p := by
  have h' := h.sets hs hk
  obtain ⟨c', h1, ⟨m1, m2, m3, m4, m5, m6⟩, _⟩ := sets_meta hs h.ok hc
  have e1 := getNodeFast_hit h'.ok h'.plain (resolve_at (d := r.delim) h1)
  have e2 := getNodeFast_hit h.ok h.plain (resolve_at (d := r.delim) hc)
  rw [m5] at e1
  revert e1 e2
  simp only [View.getDesc, View.getComment, View.getTag]
  generalize r.getNodeFast (sets hs t) p = g1
  generalize r.getNodeFast t p = g2
  intro e1 e2
  cases g1 with
  | error e => simp [Except.map] at e1
  | ok n1 =>
    cases g2 with
    | error e => simp [Except.map] at e2
    | ok n2 =>
      simp only [Except.map, Except.ok.injEq] at e1 e2
      by_cases hb : (c.leaf || endsW r.delim (r.full p)) = true
      · simp only [hb, if_true] at e1 e2
        cases n1 with
        | none => simp at e1
        | some n1 =>
          cases n2 with
          | none => simp at e2
          | some n2 =>
            simp at e1 e2
            subst e1 e2
            simp [m1, m2, m3]
      · simp only [hb, Bool.false_eq_true, if_false] at e1 e2
        cases n1 with
        | some n1 => simp at e1
        | none =>
          cases n2 with
          | some n2 => simp at e2
          | none => simp

/-- **C13** An entry created by `Set` starts without description, comment and tag. -/
theorem C13_fresh_meta {v : View} {t : Tree α} (h : t.OK) {p : Str} (hc : t.contents (keyOf v p) = none) (x : α) :
    ∃ c, (v.set t p x).1.contents (keyOf v p) = some c ∧ c.desc = [] ∧ c.comment = [] ∧ c.tag = none := by
  obtain ⟨c, h1, h2⟩ := (set_spec h v p x).atKey
  refine ⟨c, h1, ?_⟩
  simp only [putCore, hc] at h2
  rcases h2 with ⟨rfl, _⟩ | ⟨_, _, _, _, _, rfl⟩ <;> exact ⟨rfl, rfl, rfl⟩

/-! ## C14 -/

/-- **C14** When `Has(p)`, `SetComment(p)` returns true and changes the two fields of that entry and
nothing else. -/
theorem C14_setComment_has {v : View} {t : Tree α} (h : Reach (NoRoute v.delim) t) (hm : v.mode ≠ .up) {p : Str} (ds cm : Str)
    (hh : v.has t p = .ok true) :
    ∃ t' q c, v.setComment t p ds cm = .ok (t', true) ∧ (q = v.full p ∨ q = v.full p ++ [v.delim]) ∧
      t.contents q = some c ∧
      ∀ x, t'.contents x = if x = q then some { c with desc := ds, comment := cm } else t.contents x := by
  rw [has_plain h.ok h.plain hm] at hh
  rw [Except.ok.injEq] at hh
  rw [resolve_contents h.ok] at hh
  cases h1 : resolve v.delim t.nodeAt (v.full p) with
  | none => rw [h1] at hh; simp at hh
  | some y =>
    obtain ⟨q, m⟩ := y
    obtain ⟨par, h2, _⟩ := search_hit h.ok h.plain h1
    obtain ⟨h3, h4⟩ := resolve_cases h1
    have hmem := (Tree.nodeAt_some h.ok).mp h3
    refine ⟨_, q, m.core, by rw [View.setComment, h2], ?_, (Tree.contents_node h.ok).mpr ⟨m, hmem, rfl⟩, ?_⟩
    · rcases h4 with h4 | ⟨h4, _⟩
      · exact .inl h4
      · exact .inr h4
    · exact fun x => writeCore_contents h.ok hmem _ x

theorem C14_setTag_has {v : View} {t : Tree α} (h : Reach (NoRoute v.delim) t) (hm : v.mode ≠ .up) {p : Str} (tag : Option α)
    (hh : v.has t p = .ok true) :
    ∃ t' q c, v.setTag t p tag = .ok (t', true) ∧ (q = v.full p ∨ q = v.full p ++ [v.delim]) ∧
      t.contents q = some c ∧
      ∀ x, t'.contents x = if x = q then some { c with tag := tag } else t.contents x := by
  rw [has_plain h.ok h.plain hm] at hh
  rw [Except.ok.injEq] at hh
  rw [resolve_contents h.ok] at hh
  cases h1 : resolve v.delim t.nodeAt (v.full p) with
  | none => rw [h1] at hh; simp at hh
  | some y =>
    obtain ⟨q, m⟩ := y
    obtain ⟨par, h2, _⟩ := search_hit h.ok h.plain h1
    obtain ⟨h3, h4⟩ := resolve_cases h1
    have hmem := (Tree.nodeAt_some h.ok).mp h3
    refine ⟨_, q, m.core, by rw [View.setTag, h2], ?_, (Tree.contents_node h.ok).mpr ⟨m, hmem, rfl⟩, ?_⟩
    · rcases h4 with h4 | ⟨h4, _⟩
      · exact .inl h4
      · exact .inr h4
    · exact fun x => writeCore_contents h.ok hmem _ x

/-- **C14**, partial: when no entry is related to `p` by the prefix order, nothing happens, as documented. Missing: the case of a
related entry, where it is false (`C14_partial_match_fails`). -/
theorem C14_unrelated_partial {v : View} {t : Tree α} (h : Reach (NoRoute v.delim) t) (hm : v.mode ≠ .up) {p : Str} (ds cm : Str)
    (tag : Option α) (hh : v.has t p = .ok false)
    (hno : ∀ q c, q ≠ [] → t.contents q = some c → ¬ v.full p <+: q ∧ ¬ q <+: v.full p) :
    v.setComment t p ds cm = .ok (t, false) ∧ v.setTag t p tag = .ok (t, false) := by
  rcases search_plain h.ok h.plain hm (v.full p) with ⟨q, m, par, h1, h2, _⟩ | ⟨hw, h1, c, par, pm, h2, h3⟩
  · rw [has_plain h.ok h.plain hm, resolve_contents h.ok, h1] at hh; simp at hh
  · have hnone : c = none := by
      cases h3 with
      | nothing _ => rfl
      | empty _ => rfl
      | ext q m hq hp =>
        have hne : q ≠ [] := by rintro rfl; rw [List.prefix_nil] at hp; exact hw hp
        exact absurd hp (hno q m.core hne ((Tree.contents_node h.ok).mpr ⟨m, hq, rfl⟩)).1
      | dead q m hq _ hp _ hmn _ =>
        have hne : q ≠ [] := by
          rintro rfl
          have := h.ok.id_inj hq h.ok.root_mem
          have hh : m = t.root := by
            have := Node.nodes_unique h.ok.wf hq h.ok.root_mem
            exact this
          exact hmn (hh ▸ h.ok.nil)
        exact absurd hp (hno q m.core hne ((Tree.contents_node h.ok).mpr ⟨m, hq, rfl⟩)).2
    subst hnone
    exact ⟨by rw [View.setComment, h2], by rw [View.setTag, h2]⟩

/-- The documentation ("Nothing happens if the given path cannot be found") is wrong: on a trie with
the single key "apple", `SetComment("app")` reports success and annotates "apple". -/
theorem C14_partial_match_fails : ∃ (v : View) (t : Tree Nat), t = (v.set Tree.new "apple".toList 1).1 ∧
    v.has t "app".toList = .ok false ∧
    ((v.setComment t "app".toList "d".toList []).map (fun r => (r.2, v.getDesc r.1 "apple".toList)) =
      .ok (true, .ok (some "d".toList))) :=
  ⟨View.new '.', _, rfl, by decide +kernel, by decide +kernel⟩

/-! ## C40 -/

theorem insertAt_hit {t : Tree α} (h : t.OK) (k : Str) (x : α) :
    (k, (View.insertAt t k x).2.hit) ∈ (View.insertAt t k x).1.root.nodes [] := by
  have := (Node.insert_ok t.next k x t.root h.wf h.nil).hit
  simpa [View.insertAt] using this

/-- **C40** `SetEmpty(k)`: reading `k` gives zero; entries of other paths are kept. -/
theorem C40_setEmpty {v : View} {t : Tree α} (h : Reach (NoRoute v.delim) t) {p : Str} (hk : NoRoute v.delim (v.full p)) :
    v.mustGet (v.setEmpty t p).1 p = .ok default ∧
    ∀ q c, q ≠ v.full p → t.contents q = some c → (v.setEmpty t p).1.contents q = some c := by
  have h' : Reach (NoRoute v.delim) (v.setEmpty t p).1 :=
    .step (.setEmpty v p) h (fun k e => by simp only [Op.key, Option.some.injEq] at e; rw [← e]; exact hk) rfl
  have hok := View.insertAt_ok h.ok (v.full p) default
  have hs := View.insertAt_spec h.ok (v.full p) default
  have hw := writeCore_contents hok (insertAt_hit h.ok (v.full p) default) emptyCore
  constructor
  · have e := hw (v.full p)
    simp only [if_true] at e
    revert e
    generalize (View.insertAt t (v.full p) default).2.hit.core = c
    intro e
    rw [mustGet_hit h'.ok h'.plain (resolve_at (d := v.delim) e)]
    obtain ⟨_, _, _, _, _, _, hd, _⟩ := c
    cases hd <;> rfl
  · intro q c hne hc
    have e := hw q
    simp only [hne, if_false] at e
    exact e.trans (hs.keep q c hne hc)

/-- **C40** `Update(k, cb)`: the callback's writes act on the entry of `k` (created if missing, with
its old data replaced by zero beforehand); entries of other paths are kept. -/
theorem C40_update {v : View} {t : Tree α} (h : t.OK) (p : Str) (cb : Core α → Option α → List (NodeOp α)) :
    (∃ c, putCore t (v.full p) default c ∧ (View.insertAt t (v.full p) default).1.contents (v.full p) = some c ∧
      (v.update t p cb).contents (v.full p) =
        some (NodeOp.runs (cb c (View.insertAt t (v.full p) default).2.old) c)) ∧
    (∀ c0, t.contents (v.full p) = some c0 → (View.insertAt t (v.full p) default).2.old = some c0.data) ∧
    ∀ q c, q ≠ v.full p → t.contents q = some c → (v.update t p cb).contents q = some c := by
  have hok := View.insertAt_ok h (v.full p) default
  have hs := View.insertAt_spec h (v.full p) default
  have hhit := insertAt_hit h (v.full p) default
  have hw := writeCore_contents hok hhit
    (fun c => NodeOp.runs (cb c (View.insertAt t (v.full p) default).2.old) c)
  obtain ⟨c, hc, hput⟩ := hs.atKey
  have hcore : (View.insertAt t (v.full p) default).2.hit.core = c := by
    have := (Tree.contents_node hok).mpr ⟨_, hhit, rfl⟩
    rw [hc] at this
    exact (Option.some.inj this).symm
  refine ⟨⟨c, hput, hc, ?_⟩, hs.oldHit, ?_⟩
  · have e := hw (v.full p)
    simp only [if_true, hcore] at e
    exact e
  · intro q c hne hc
    have e := hw q
    simp only [hne, if_false] at e
    exact e.trans (hs.keep q c hne hc)

/-- `Update` with a callback that only sets the comment destroys the stored value. -/
theorem C40_update_wipes : ∃ (v : View) (t : Tree Nat), t = (v.set Tree.new "a".toList 5).1 ∧
    v.mustGet t "a".toList = .ok 5 ∧
    v.mustGet (v.update t "a".toList (fun _ _ => [.setComment "d".toList []])) "a".toList = .ok 0 :=
  ⟨View.new '.', _, rfl, by decide +kernel, by decide +kernel⟩

/-! ## C15 -/

namespace Node
theorem insertFuel_cbs (fresh : Nat) (ps : List UInt8) (v : α) (fuel : Nat) :
    ∀ (w : Str) (n : Node α), ∀ x ∈ (insertFuel fresh ps v fuel w n).cbs,
      x = ((insertFuel fresh ps v fuel w n).old, (insertFuel fresh ps v fuel w n).hit) := by
  induction fuel with
  | zero => intro w n x hx; simp [insertFuel] at hx
  | succ fuel ih =>
    intro w n x hx
    have hk : ∀ w' (k : List (Node α)), ∀ x ∈ (insKids (insertFuel fresh ps v fuel w') fresh w' ps v k).cbs,
        x = ((insKids (insertFuel fresh ps v fuel w') fresh w' ps v k).old, (insKids (insertFuel fresh ps v fuel w') fresh w' ps v k).hit) := by
      intro w' k
      induction k with
      | nil => intro x hx; simpa [insKids] using hx
      | cons a as ihk =>
        intro x hx
        simp only [insKids] at hx ⊢
        split
        · rename_i hc
          simp only [hc, if_true, List.mem_append, List.mem_singleton] at hx
          rcases hx with hx | hx
          · exact ih w' a x hx
          · exact hx
        · rename_i hc
          simp only [hc, if_false] at hx
          exact ihk x hx
    revert hx
    simp only [insertFuel]
    split
    · intro hx; simp at hx
    · generalize (if n.path.length > 0 ∧ w.length > 0 then commonPrefixLen w n.path else 0) = cp
      generalize (if cp < n.path.length then split fresh cp n else n) = n'
      generalize w.drop cp = w'
      split
      · exact hk _ _ x
      · intro hx; simpa using hx
end Node

/-- **C15**, partial: every call of the callback receives the entry of `k` and the same old value that
`SetEx` returns. Missing: the number of calls (`C15_count_fails`). -/
theorem C15_args_partial {v : View} {t : Tree α} (h : t.OK) (p : Str) (x : α) :
    (∀ y ∈ (v.setEx t p x).2.cbs, y = ((v.setEx t p x).2.old, (v.setEx t p x).2.hit)) ∧
    (v.full p, (v.setEx t p x).2.hit) ∈ (v.setEx t p x).1.root.nodes [] ∧ (v.setEx t p x).2.hit.core.data = x := by
  have hhit := insertAt_hit h (v.full p) x
  refine ⟨Node.insertFuel_cbs _ _ _ _ _ _, hhit, ?_⟩
  obtain ⟨c, h1, h2⟩ := (View.insertAt_spec h (v.full p) x).atKey
  have := (Tree.contents_node (View.insertAt_ok h (v.full p) x)).mpr ⟨_, hhit, rfl⟩
  rw [h1] at this
  rw [View.setEx, ← Option.some.inj this]
  exact (putCore_data h2).2

/-- **C15**: `SetEx` stores like `Set` (without the replacement of spaces). -/
theorem C15_stores {v : View} {t : Tree α} (h : Reach (NoRoute v.delim) t) {p : Str} (hk : NoRoute v.delim (v.full p)) (x : α) :
    v.mustGet (v.setEx t p x).1 p = .ok x := by
  have h' : Reach (NoRoute v.delim) (v.setEx t p x).1 :=
    .step (.setEx v p x) h (fun k e => by simp only [Op.key, Option.some.injEq] at e; rw [← e]; exact hk) rfl
  obtain ⟨c, h1, h2⟩ := (View.insertAt_spec h.ok (v.full p) x).atKey
  rw [mustGet_hit h'.ok h'.plain (resolve_at (d := v.delim) h1), (putCore_data h2).1, (putCore_data h2).2]; rfl

/-- The callback runs zero times for the first key of a trie, and twice for an overwrite. -/
theorem C15_count_fails : ∃ v : View,
    (v.setEx (Tree.new : Tree Nat) "a".toList 1).2.cbs.length = 0 ∧
    (v.setEx (v.setEx (Tree.new : Tree Nat) "a".toList 1).1 "a".toList 2).2.cbs.length = 2 :=
  ⟨View.new '.', by decide +kernel, by decide +kernel⟩

/-! ## C17 -/

/-- **C17** The read methods agree with each other, on every tree, in every mode, with or without
route patterns, including whether they return at all. -/
theorem C17_agree (v : View) (t : Tree α) (p : Str) :
    v.has t p = (v.locate t p).map (·.2.2.2) ∧
    v.get t p = (v.query t p).map (fun a => (a.data, a.found)) ∧
    v.mustGet t p = (v.query t p).map (·.data) ∧
    (∀ a, v.query t p = .ok a → (a.notFoundErr = !a.found) ∧ (a.found = true → v.has t p = .ok true) ∧
      (v.has t p = .ok true → a.found = false → a.branch = true)) ∧
    (v.getNodeFast t p).map (·.isSome) = (v.query t p).map (·.found) ∧
    (v.getNode t p).map (fun r => (r.2.1, r.2.2.1, r.2.2.2)) = (v.query t p).map (fun a => (a.data, a.branch, a.found)) := by
  simp only [View.has, View.locate, View.mustGet, View.get, View.query, View.queryKV, View.getNodeFast, View.getNode]
  cases v.search t (v.full p) with
  | error e => simp [Except.map]
  | ok r =>
    obtain ⟨n, par, pm, kv⟩ := r
    cases n with
    | none => cases pm <;> simp [Except.map]
    | some n =>
      cases pm with
      | true => simp [Except.map]
      | false =>
        cases hb : n.core.isBranch <;> cases he : n.endsWith v.delim <;> simp [Except.map, hb, he]

/-! ## C18 -/

/-- **C18** On a non-empty trie with ASCII keys and no route patterns, `HasPart(p)` holds exactly when
some stored full path starts with the full path of `p`. -/
theorem C18_hasPart_iff {v : View} {t : Tree α} (h : Reach Ascii t) (hp : t.Plain v.delim) (hm : v.mode ≠ .up)
    (hne : t.root.kids ≠ []) (p : Str) :
    ∃ b, v.hasPart t p = .ok b ∧ (b = true ↔ ∃ q c, t.contents q = some c ∧ v.full p <+: q) := by
  have inv := (h.inv keyInv_ascii).2
  rcases search_plain h.ok hp hm (v.full p) with ⟨q, m, par, h1, h2, _⟩ | ⟨hw, h1, c, par, pm, h2, h3⟩
  · refine ⟨true, by rw [View.hasPart, h2]; rfl, ?_⟩
    simp only [true_iff]
    obtain ⟨h4, h5⟩ := resolve_cases h1
    refine ⟨q, m.core, (Tree.contents_node h.ok).mpr ⟨m, (Tree.nodeAt_some h.ok).mp h4, rfl⟩, ?_⟩
    rcases h5 with e | ⟨e, _⟩ <;> rw [e]
    · exact List.prefix_rfl
    · exact List.prefix_append ..
  · have hno_of : (∀ q m, (q, m) ∈ t.root.nodes [] → ¬ v.full p <+: q) → ¬ ∃ q c, t.contents q = some c ∧ v.full p <+: q := by
      rintro H ⟨q, c, hc, hpre⟩
      obtain ⟨m, hm, _⟩ := (Tree.contents_node h.ok).mp hc
      exact H q m hm hpre
    cases h3 with
    | nothing hno =>
      refine ⟨false, by rw [View.hasPart, h2]; rfl, ?_⟩
      simp only [Bool.false_eq_true, false_iff]
      exact hno_of hno
    | empty hk => exact absurd hk hne
    | ext q m hq hpre =>
      have hc := (Tree.contents_node h.ok).mpr ⟨m, hq, rfl⟩
      refine ⟨true, ?_, by simp only [true_iff]; exact ⟨q, m.core, hc, hpre⟩⟩
      rw [View.hasPart, h2]
      simp only [(inv _ _ hc).2, Except.ok.injEq, List.isPrefixOf_iff_prefix]
      exact utf8_prefix hpre
    | dead q m hq hk hpre hqne hmn hno =>
      have hc := (Tree.contents_node h.ok).mpr ⟨m, hq, rfl⟩
      refine ⟨false, ?_, ?_⟩
      · rw [View.hasPart, h2]
        simp only [(inv _ _ hc).2, Except.ok.injEq]
        rw [← Bool.not_eq_true, List.isPrefixOf_iff_prefix]
        intro hx
        have := List.IsPrefix.eq_of_length_le (utf8_prefix hpre) hx.length_le
        exact hqne (utf8_inj this)
      · simp only [Bool.false_eq_true, false_iff]
        exact hno_of hno

/-- On an empty trie `HasPart` is true for every non-empty path. -/
theorem C18_empty_fails : ∃ v : View, v.hasPart (Tree.new : Tree Nat) "zzz".toList = .ok true :=
  ⟨View.new '.', by decide +kernel⟩

/-! ## Examples -/

section examples
def exT : Tree Nat := sets exH Tree.new
def exT2 : Tree Nat := ((exV.setComment exT "app.debug".toList "d".toList "c".toList).toOption.getD (exT, false)).1

theorem exT_ascii : Reach Ascii exT := by
  refine Reach.new.sets exH ?_
  intro a ha
  simp only [exH, List.mem_cons, List.not_mem_nil, or_false] at ha
  rcases ha with rfl | rfl | rfl | rfl <;> (simp only [Ascii]; decide +kernel)
theorem exT_reach : Reach (NoRoute exV.delim) exT := Reach.new.sets exH exH_plain

example : exV.getDesc exT2 "app.debug".toList = .ok (some "d".toList) := by decide +kernel
example : exV.getDesc (sets [(exV, "app.debug".toList, 8), (exV, "app.de".toList, 9)] exT2) "app.debug".toList =
    .ok (some "d".toList) := by decide +kernel
example : ∃ b, exV.hasPart exT "app.d".toList = .ok b ∧
    (b = true ↔ ∃ q c, exT.contents q = some c ∧ exV.full "app.d".toList <+: q) :=
  C18_hasPart_iff exT_ascii exT_reach.plain (by decide) (by decide +kernel) _
example : exV.hasPart exT "app.d".toList = .ok true := by decide +kernel
example : exV.hasPart exT "app.dz".toList = .ok false := by decide +kernel
example : exV.hasPart exT "applex".toList = .ok false := by decide +kernel
example : ((exV.walk exT []).map (fun l => (l.filter (fun n => n.core.hasData)).map (fun n => n.core.data))) =
    .ok [4, 2, 3] := by decide +kernel
example : exV.mustGet (exV.setEmpty exT "app.debug".toList).1 "app.debug".toList = .ok 0 :=
  (C40_setEmpty exT_reach (noRoute_of_plain (by decide) (by decide))).1
example : (exV.locate exT "app".toList).map (fun r => (r.1.map (·.core.pathS), r.2.2.2)) =
    .ok (some (utf8 "app".toList), true) := by decide +kernel
end examples

end Verif

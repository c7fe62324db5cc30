import Verif.Lemmas.Tree
/-
`search` and the read methods on tries without route patterns, in terms of the finite map.
-/
namespace Verif
variable {α : Type}

/-- The node stored at a full path. -/
def Tree.nodeAt (t : Tree α) : Str → Option (Node α) := assoc (t.root.nodes [])

theorem Tree.nodeAt_some {t : Tree α} (h : t.OK) {q m} :
    t.nodeAt q = some m ↔ (q, m) ∈ t.root.nodes [] :=
  assoc_eq_some (Node.keys_nodup h.wf [])

theorem Tree.nodeAt_none {t : Tree α} {q} : t.nodeAt q = none ↔ ∀ m, (q, m) ∉ t.root.nodes [] :=
  assoc_eq_none

theorem Tree.contents_eq {t : Tree α} (h : t.OK) (q : Str) : t.contents q = (t.nodeAt q).map (·.core) := by
  cases hn : t.nodeAt q with
  | none => rw [Option.map_none, Tree.contents_none, ← Tree.nodeAt_none]; exact hn
  | some m => rw [Option.map_some, Tree.contents_node h]; exact ⟨m, (Tree.nodeAt_some h).mp hn, rfl⟩

theorem resolve_some {β : Type} {d : Char} {m : Str → Option β} {p q : Str} {c : β}
    (h : resolve d m p = some (q, c)) : m q = some c := by
  simp only [resolve] at h
  cases hx : m p with
  | some y => rw [hx] at h; simp at h; rw [← h.1, hx, h.2]
  | none =>
    rw [hx] at h
    simp only at h
    split at h
    · simp at h
    · cases hy : m (p ++ [d]) with
      | none => rw [hy] at h; simp at h
      | some z => rw [hy] at h; simp at h; rw [← h.1, hy, h.2]

theorem resolve_cases {β : Type} {d : Char} {m : Str → Option β} {p q : Str} {c : β}
    (h : resolve d m p = some (q, c)) : m q = some c ∧ (q = p ∨ (q = p ++ [d] ∧ m p = none ∧ p ≠ [])) := by
  refine ⟨resolve_some h, ?_⟩
  simp only [resolve] at h
  cases hx : m p with
  | some y => rw [hx] at h; simp at h; exact .inl h.1.symm
  | none =>
    rw [hx] at h
    simp only at h
    split at h
    · simp at h
    · rename_i hne
      cases hy : m (p ++ [d]) with
      | none => rw [hy] at h; simp at h
      | some z => rw [hy] at h; simp at h; exact .inr ⟨h.1.symm, rfl, hne⟩

theorem resolve_none {β : Type} {d : Char} {m : Str → Option β} {p : Str} :
    resolve d m p = none ↔ m p = none ∧ (p ≠ [] → m (p ++ [d]) = none) := by
  simp only [resolve]
  cases hx : m p with
  | some y => simp
  | none =>
    by_cases e : p = []
    · simp [e]
    · simp [e]

theorem resolve_map {β γ : Type} (d : Char) (m : Str → Option β) (f : β → γ) (p : Str) :
    resolve d (fun q => (m q).map f) p = (resolve d m p).map (fun x => (x.1, f x.2)) := by
  simp only [resolve]
  cases h : m p with
  | some c => simp
  | none =>
    simp only [Option.map_none]
    split
    · rfl
    · cases h2 : m (p ++ [d]) <;> simp

theorem resolve_contents {t : Tree α} (h : t.OK) (d : Char) (p : Str) :
    resolve d t.contents p = (resolve d t.nodeAt p).map (fun x => (x.1, x.2.core)) := by
  rw [← resolve_map]
  congr 1
  funext q
  exact Tree.contents_eq h q

/-- Identities determine nodes and paths. -/
theorem Tree.OK.id_inj {t : Tree α} (h : t.OK) {x y} (hx : x ∈ t.root.nodes []) (hy : y ∈ t.root.nodes [])
    (hid : x.2.id = y.2.id) : x = y := by
  have hnd := h.nodup
  generalize t.root.nodes [] = l at *
  induction l with
  | nil => cases hx
  | cons a as ih =>
    simp only [List.map_cons, List.nodup_cons, List.mem_map, not_exists, not_and] at hnd
    rcases List.mem_cons.mp hx with h1 | hx <;> rcases List.mem_cons.mp hy with h2 | hy
    · rw [h1, h2]
    · exact absurd (by rw [← hid, h1]) (hnd.1 _ hy)
    · exact absurd (by rw [hid, h2]) (hnd.1 _ hx)
    · exact ih hx hy hnd.2

theorem Tree.OK.root_mem {t : Tree α} (h : t.OK) : ([], t.root) ∈ t.root.nodes [] := by
  rw [Node.mem_nodes]; simp [h.nil]

/-- What `search` reports when nothing resolves. -/
inductive SearchMiss (t : Tree α) (w : Str) : Option (Node α) → Bool → Prop
  | nothing (h : ∀ q m, (q, m) ∈ t.root.nodes [] → ¬ w <+: q) : SearchMiss t w none false
  | ext (q m) (h : (q, m) ∈ t.root.nodes []) (hp : w <+: q) : SearchMiss t w (some m) true
  | dead (q m) (h : (q, m) ∈ t.root.nodes []) (hk : m.kids = []) (hp : q <+: w) (hne : q ≠ w)
      (hm : m.path ≠ []) (hno : ∀ q m, (q, m) ∈ t.root.nodes [] → ¬ w <+: q) : SearchMiss t w (some m) true
  | empty (hk : t.root.kids = []) : SearchMiss t w none true

/-- First attempt of `search`. -/
theorem matchR_root_at {t : Tree α} (h : t.OK) {d : Char} (w : Str) (hp : t.ClearAt d w) (kv : KV) :
    (∃ q m par, resolve d t.nodeAt w = some (q, m) ∧
      t.root.matchR d w false none kv = .ok (⟨true, false, some m, par⟩, kv) ∧
      ((w = [] ∧ par = none ∧ m = t.root) ∨ ∃ qp p, par = some p ∧ (qp, p) ∈ t.root.nodes [] ∧ m ∈ p.kids)) ∨
    (w ≠ [] ∧ resolve d t.nodeAt w = none ∧
      ∃ r, t.root.matchR d w false none kv = .ok (r, kv) ∧ r.matched = false ∧ SearchMiss t w r.child r.part ∧
        (r.part = false → r = Node.MR.nothing)) := by
  by_cases hw : w = []
  · subst hw
    refine .inl ⟨[], t.root, none, ?_, ?_, .inl ⟨rfl, rfl, rfl⟩⟩
    · simp [resolve, (Tree.nodeAt_some h).mpr h.root_mem]
    · cases hr : t.root; simp [Node.matchR]
  · obtain ⟨r, h1, h2⟩ := Node.matchR_clear d t.root h.wf [] w false none kv hw (by simp [endsW])
      (hp.keys h)
    rcases h2.spec h.wf [] with hit | miss
    · left
      obtain ⟨m, hc, hm, hpar⟩ := hit.node
      simp only [List.nil_append] at hm
      obtain ⟨q, hq, hqm, hres⟩ : ∃ q, q ≠ [] ∧ (q, m) ∈ t.root.nodes [] ∧ resolve d t.nodeAt w = some (q, m) := by
        rcases hm with hm | ⟨hm, hno⟩
        · exact ⟨w, hw, hm, by simp [resolve, (Tree.nodeAt_some h).mpr hm]⟩
        · refine ⟨w ++ [d], by simp, hm, ?_⟩
          simp only [resolve, Tree.nodeAt_none.mpr hno, (Tree.nodeAt_some h).mpr hm, hw, if_false, Option.map_some]
      refine ⟨q, m, r.parent, hres, ?_, ?_⟩
      · rw [h1]
        have := hit.matched
        have := hit.part
        obtain ⟨a, b, c, e⟩ := r
        simp_all
      · rcases hpar with ⟨rfl, _⟩ | ⟨qp, p, h3, h4, h5⟩
        · have := h.id_inj hqm h.root_mem rfl
          simp at this; exact absurd this hq
        · exact .inr ⟨qp, p, h3, h4, h5⟩
    · right
      refine ⟨hw, ?_, r, h1, miss.matched, ?_, ?_⟩
      · have e1 : t.nodeAt w = none := Tree.nodeAt_none.mpr (by simpa using miss.noExact)
        have e2 : t.nodeAt (w ++ [d]) = none := Tree.nodeAt_none.mpr (by simpa using miss.noDelim)
        simp [resolve, e1, e2]
      · have hp' := miss.part
        simp only [List.nil_append] at hp'
        rcases hp' with ⟨rfl, hno⟩ | ⟨hp1, q, m, hq, hpre, hc⟩ | ⟨hp1, hno, q, m, hq, hk, hpre, hne, hc⟩
        · exact .nothing hno
        · rw [hp1, hc]; exact .ext q m hq hpre
        · rcases hc with ⟨hm, hc⟩ | ⟨rfl, _, hc⟩
          · rw [hp1, hc]; exact .dead q m hq hk hpre hne hm hno
          · rw [hp1, hc]; exact .empty hk
      · intro hf
        rcases miss.part with ⟨hp, _⟩ | ⟨hp1, _⟩ | ⟨hp1, _⟩
        · exact hp
        · rw [hf] at hp1; simp at hp1
        · rw [hf] at hp1; simp at hp1

theorem matchR_root {t : Tree α} (h : t.OK) {d : Char} (hp : t.Plain d) (w : Str) (kv : KV) :
    (∃ q m par, resolve d t.nodeAt w = some (q, m) ∧
      t.root.matchR d w false none kv = .ok (⟨true, false, some m, par⟩, kv) ∧
      ((w = [] ∧ par = none ∧ m = t.root) ∨ ∃ qp p, par = some p ∧ (qp, p) ∈ t.root.nodes [] ∧ m ∈ p.kids)) ∨
    (w ≠ [] ∧ resolve d t.nodeAt w = none ∧
      ∃ r, t.root.matchR d w false none kv = .ok (r, kv) ∧ r.matched = false ∧ SearchMiss t w r.child r.part ∧
        (r.part = false → r = Node.MR.nothing)) :=
  matchR_root_at h w (hp.at w) kv

/-- `search` outside of the RecursiveUp mode. -/
theorem search_at {v : View} {t : Tree α} (h : t.OK) (hm : v.mode ≠ .up) (w : Str) (hp : t.ClearAt v.delim w) :
    (∃ q m par, resolve v.delim t.nodeAt w = some (q, m) ∧
      v.search t w = .ok (some m, par, false, []) ∧
      ((w = [] ∧ par = none ∧ m = t.root) ∨ ∃ qp p, par = some p ∧ (qp, p) ∈ t.root.nodes [] ∧ m ∈ p.kids)) ∨
    (w ≠ [] ∧ resolve v.delim t.nodeAt w = none ∧
      ∃ c par pm, v.search t w = .ok (c, par, pm, []) ∧ SearchMiss t w c pm) := by
  rcases matchR_root_at h w hp [] with ⟨q, m, par, h1, h2, h3⟩ | ⟨hw, h1, r, h2, h3, h4, h5⟩
  · exact .inl ⟨q, m, par, h1, by simp [View.search, h2], h3⟩
  · right
    refine ⟨hw, h1, r.child, r.parent, r.part, ?_, h4⟩
    rw [View.search, h2]
    simp only [h3, Bool.false_or, hm, false_and, if_false]
    cases hpm : r.part with
    | true => simp
    | false =>
      have := h5 hpm
      subst this
      simp

theorem search_plain {v : View} {t : Tree α} (h : t.OK) (hp : t.Plain v.delim) (hm : v.mode ≠ .up) (w : Str) :
    (∃ q m par, resolve v.delim t.nodeAt w = some (q, m) ∧
      v.search t w = .ok (some m, par, false, []) ∧
      ((w = [] ∧ par = none ∧ m = t.root) ∨ ∃ qp p, par = some p ∧ (qp, p) ∈ t.root.nodes [] ∧ m ∈ p.kids)) ∨
    (w ≠ [] ∧ resolve v.delim t.nodeAt w = none ∧
      ∃ c par pm, v.search t w = .ok (c, par, pm, []) ∧ SearchMiss t w c pm) :=
  search_at h hm w (hp.at w)

/-- `search` in any mode when the path resolves. -/
theorem search_hit_at {v : View} {t : Tree α} (h : t.OK) {w q : Str} (hp : t.ClearAt v.delim w) {m : Node α}
    (hr : resolve v.delim t.nodeAt w = some (q, m)) :
    ∃ par, v.search t w = .ok (some m, par, false, []) ∧
      ((w = [] ∧ par = none ∧ m = t.root) ∨ ∃ qp p, par = some p ∧ (qp, p) ∈ t.root.nodes [] ∧ m ∈ p.kids) := by
  rcases matchR_root_at h w hp [] with ⟨q', m', par, h1, h2, h3⟩ | ⟨hw, h1, _⟩
  · rw [hr] at h1
    simp at h1
    obtain ⟨rfl, rfl⟩ := h1
    exact ⟨par, by simp [View.search, h2], h3⟩
  · rw [hr] at h1; simp at h1

theorem search_hit {v : View} {t : Tree α} (h : t.OK) (hp : t.Plain v.delim) {w q : Str} {m : Node α}
    (hr : resolve v.delim t.nodeAt w = some (q, m)) :
    ∃ par, v.search t w = .ok (some m, par, false, []) ∧
      ((w = [] ∧ par = none ∧ m = t.root) ∨ ∃ qp p, par = some p ∧ (qp, p) ∈ t.root.nodes [] ∧ m ∈ p.kids) :=
  search_hit_at h (hp.at _) hr

theorem SearchMiss.not_found {t : Tree α} {w : Str} {c pm} (h : SearchMiss t w c pm) :
    (c.isSome && !pm) = false := by
  cases h <;> rfl

theorem endsWith_of_mem {t : Tree α} (h : t.OK) {q m} (hm : (q, m) ∈ t.root.nodes []) (d : Char) :
    m.endsWith d = endsW d q := by
  have key : ∀ (n : Node α) (u : Str), n.WF → (n.path ≠ [] ∨ u = []) → (q, m) ∈ n.nodes u →
      m.endsWith d = endsW d q := by
    intro n
    induction n using Node.ind with
    | h i p c k ih =>
      intro u hw hne hm
      rw [Node.mem_nodes] at hm
      rcases hm with hm | ⟨c', hc', hm⟩
      · simp at hm
        obtain ⟨rfl, rfl⟩ := hm
        have e : endsW d (u ++ p) = endsW d p := by
          rcases hne with hne | rfl
          · exact Node.endsW_append hne
          · simp
        rw [e, Node.endsWith, Node.path_mk, endsW]
        cases hl : p.getLast? with
        | none => simp
        | some a => simp
      · have hwk := ((Node.wf_mk ..).mp hw).2 c' hc'
        exact ih c' hc' _ hwk.2 (.inl hwk.1) hm
  exact key t.root [] h.wf (.inr rfl) hm

section api
variable [Inhabited α]

/-- What the read methods answer for an entry. -/
def ansOf (d : Char) (q : Str) (c : Core α) : View.Ans α :=
  let found := c.leaf || endsW d q
  ⟨if c.hasData then c.data else default, !c.leaf, found, !found⟩

def ansNone : View.Ans α := ⟨default, false, false, true⟩

/-- `Query` in terms of the finite map. -/
theorem query_at {v : View} {t : Tree α} (h : t.OK) (hm : v.mode ≠ .up) (p : Str) (hp : t.ClearAt v.delim (v.full p)) :
    v.query t p = .ok (match resolve v.delim t.contents (v.full p) with
      | some (q, c) => ansOf v.delim q c
      | none => ansNone) := by
  rw [resolve_contents h]
  rcases search_at h hm (v.full p) hp with ⟨q, m, par, h1, h2, _⟩ | ⟨hw, h1, c, par, pm, h2, h3⟩
  · have hmem : (q, m) ∈ t.root.nodes [] := (Tree.nodeAt_some h).mp (resolve_some h1)
    rw [View.query, View.queryKV, h2, h1]
    simp only [Option.map_some, ansOf, endsWith_of_mem h hmem, Core.isBranch]
    cases m.core.leaf <;> cases endsW v.delim q <;> rfl
  · rw [View.query, View.queryKV, h2, h1]
    simp only [Option.map_none]
    cases h3 <;> rfl

theorem query_plain {v : View} {t : Tree α} (h : t.OK) (hp : t.Plain v.delim) (hm : v.mode ≠ .up) (p : Str) :
    v.query t p = .ok (match resolve v.delim t.contents (v.full p) with
      | some (q, c) => ansOf v.delim q c
      | none => ansNone) :=
  query_at h hm p (hp.at _)

omit [Inhabited α] in
theorem has_at {v : View} {t : Tree α} (h : t.OK) (hm : v.mode ≠ .up) (p : Str) (hp : t.ClearAt v.delim (v.full p)) :
    v.has t p = .ok (resolve v.delim t.contents (v.full p)).isSome := by
  rw [resolve_contents h]
  rcases search_at h hm (v.full p) hp with ⟨q, m, par, h1, h2, _⟩ | ⟨hw, h1, c, par, pm, h2, h3⟩
  · rw [View.has, h2, h1]; rfl
  · rw [View.has, h2, h1]
    simp only [Option.map_none, h3.not_found]; rfl

omit [Inhabited α] in
theorem has_plain {v : View} {t : Tree α} (h : t.OK) (hp : t.Plain v.delim) (hm : v.mode ≠ .up) (p : Str) :
    v.has t p = .ok (resolve v.delim t.contents (v.full p)).isSome :=
  has_at h hm p (hp.at _)

theorem mustGet_at {v : View} {t : Tree α} (h : t.OK) (hm : v.mode ≠ .up) (p : Str) (hp : t.ClearAt v.delim (v.full p)) :
    v.mustGet t p = .ok (match resolve v.delim t.contents (v.full p) with
      | some (_, c) => if c.hasData then c.data else default
      | none => default) := by
  rw [View.mustGet, query_at h hm p hp]
  cases resolve v.delim t.contents (v.full p) with
  | none => simp [ansNone]
  | some x =>
    obtain ⟨q, c⟩ := x
    have : (!(ansOf v.delim q c).found && !(ansOf v.delim q c).branch) = false := by
      simp only [ansOf]; cases c.leaf <;> simp
    simp only [this, Bool.false_eq_true, if_false]
    rfl

theorem mustGet_plain {v : View} {t : Tree α} (h : t.OK) (hp : t.Plain v.delim) (hm : v.mode ≠ .up) (p : Str) :
    v.mustGet t p = .ok (match resolve v.delim t.contents (v.full p) with
      | some (_, c) => if c.hasData then c.data else default
      | none => default) :=
  mustGet_at h hm p (hp.at _)

theorem get_at {v : View} {t : Tree α} (h : t.OK) (hm : v.mode ≠ .up) (p : Str) (hp : t.ClearAt v.delim (v.full p)) :
    v.get t p = .ok (match resolve v.delim t.contents (v.full p) with
      | some (q, c) => (if c.hasData then c.data else default, c.leaf || endsW v.delim q)
      | none => (default, false)) := by
  rw [View.get, query_at h hm p hp]
  cases resolve v.delim t.contents (v.full p) with
  | none => rfl
  | some x => rfl

theorem get_plain {v : View} {t : Tree α} (h : t.OK) (hp : t.Plain v.delim) (hm : v.mode ≠ .up) (p : Str) :
    v.get t p = .ok (match resolve v.delim t.contents (v.full p) with
      | some (q, c) => (if c.hasData then c.data else default, c.leaf || endsW v.delim q)
      | none => (default, false)) :=
  get_at h hm p (hp.at _)

omit [Inhabited α] in
theorem getNodeFast_plain {v : View} {t : Tree α} (h : t.OK) (hp : t.Plain v.delim) (hm : v.mode ≠ .up) (p : Str) :
    v.getNodeFast t p = .ok (match resolve v.delim t.nodeAt (v.full p) with
      | some (q, m) => if m.core.leaf || endsW v.delim q then some m else none
      | none => none) := by
  rcases search_plain h hp hm (v.full p) with ⟨q, m, par, h1, h2, _⟩ | ⟨hw, h1, c, par, pm, h2, h3⟩
  · have hmem : (q, m) ∈ t.root.nodes [] := (Tree.nodeAt_some h).mp (resolve_some h1)
    rw [View.getNodeFast, h2, h1]
    simp only [endsWith_of_mem h hmem, Core.isBranch]
    cases m.core.leaf <;> cases endsW v.delim q <;> rfl
  · rw [View.getNodeFast, h2, h1]
    cases h3 <;> rfl

/-- Reads of a path that resolves, in any mode. -/
theorem query_hit_at {v : View} {t : Tree α} (h : t.OK) {p q : Str} (hp : t.ClearAt v.delim (v.full p)) {c : Core α}
    (hr : resolve v.delim t.contents (v.full p) = some (q, c)) : v.query t p = .ok (ansOf v.delim q c) := by
  rw [resolve_contents h] at hr
  cases h1 : resolve v.delim t.nodeAt (v.full p) with
  | none => rw [h1] at hr; simp at hr
  | some x =>
    obtain ⟨q', m⟩ := x
    rw [h1] at hr
    simp at hr
    obtain ⟨rfl, rfl⟩ := hr
    obtain ⟨par, h2, _⟩ := search_hit_at h hp h1
    have hmem : (q', m) ∈ t.root.nodes [] := (Tree.nodeAt_some h).mp (resolve_some h1)
    rw [View.query, View.queryKV, h2]
    simp only [ansOf, endsWith_of_mem h hmem, Core.isBranch]
    cases m.core.leaf <;> cases endsW v.delim q' <;> rfl

theorem query_hit {v : View} {t : Tree α} (h : t.OK) (hp : t.Plain v.delim) {p q : Str} {c : Core α}
    (hr : resolve v.delim t.contents (v.full p) = some (q, c)) : v.query t p = .ok (ansOf v.delim q c) :=
  query_hit_at h (hp.at _) hr

theorem mustGet_hit_at {v : View} {t : Tree α} (h : t.OK) {p q : Str} (hp : t.ClearAt v.delim (v.full p)) {c : Core α}
    (hr : resolve v.delim t.contents (v.full p) = some (q, c)) :
    v.mustGet t p = .ok (if c.hasData then c.data else default) := by
  rw [View.mustGet, query_hit_at h hp hr]
  have : (!(ansOf v.delim q c).found && !(ansOf v.delim q c).branch) = false := by
    simp only [ansOf]; cases c.leaf <;> simp
  simp only [this, Bool.false_eq_true, if_false]
  rfl

theorem mustGet_hit {v : View} {t : Tree α} (h : t.OK) (hp : t.Plain v.delim) {p q : Str} {c : Core α}
    (hr : resolve v.delim t.contents (v.full p) = some (q, c)) :
    v.mustGet t p = .ok (if c.hasData then c.data else default) :=
  mustGet_hit_at h (hp.at _) hr

theorem get_hit_at {v : View} {t : Tree α} (h : t.OK) {p q : Str} (hp : t.ClearAt v.delim (v.full p)) {c : Core α}
    (hr : resolve v.delim t.contents (v.full p) = some (q, c)) :
    v.get t p = .ok (if c.hasData then c.data else default, c.leaf || endsW v.delim q) := by
  rw [View.get, query_hit_at h hp hr]; rfl

theorem get_hit {v : View} {t : Tree α} (h : t.OK) (hp : t.Plain v.delim) {p q : Str} {c : Core α}
    (hr : resolve v.delim t.contents (v.full p) = some (q, c)) :
    v.get t p = .ok (if c.hasData then c.data else default, c.leaf || endsW v.delim q) :=
  get_hit_at h (hp.at _) hr

omit [Inhabited α] in
/-- The entry that the metadata getters read. -/
theorem getNodeFast_core {v : View} {t : Tree α} (h : t.OK) (hp : t.Plain v.delim) (hm : v.mode ≠ .up) (p : Str) :
    (v.getNodeFast t p).map (·.map (·.core)) = .ok (match resolve v.delim t.contents (v.full p) with
      | some (q, c) => if c.leaf || endsW v.delim q then some c else none
      | none => none) := by
  rw [getNodeFast_plain h hp hm, resolve_contents h]
  cases resolve v.delim t.nodeAt (v.full p) with
  | none => rfl
  | some x =>
    obtain ⟨q, m⟩ := x
    simp only [Option.map_some, Except.map]
    split <;> rfl

omit [Inhabited α] in
theorem getNodeFast_hit {v : View} {t : Tree α} (h : t.OK) (hp : t.Plain v.delim) {p q : Str} {c : Core α}
    (hr : resolve v.delim t.contents (v.full p) = some (q, c)) :
    (v.getNodeFast t p).map (·.map (·.core)) = .ok (if c.leaf || endsW v.delim q then some c else none) := by
  rw [resolve_contents h] at hr
  cases h1 : resolve v.delim t.nodeAt (v.full p) with
  | none => rw [h1] at hr; simp at hr
  | some x =>
    obtain ⟨q', m⟩ := x
    rw [h1] at hr
    simp at hr
    obtain ⟨rfl, rfl⟩ := hr
    obtain ⟨par, h2, _⟩ := search_hit h hp h1
    have hmem : (q', m) ∈ t.root.nodes [] := (Tree.nodeAt_some h).mp (resolve_some h1)
    rw [View.getNodeFast, h2]
    simp only [endsWith_of_mem h hmem, Core.isBranch]
    cases m.core.leaf <;> cases endsW v.delim q' <;> rfl

omit [Inhabited α] in
theorem meta_of_core {v v' : View} {t t' : Tree α} {p p' : Str}
    (h : (v.getNodeFast t p).map (·.map (·.core)) = (v'.getNodeFast t' p').map (·.map (·.core))) :
    v.getDesc t p = v'.getDesc t' p' ∧ v.getComment t p = v'.getComment t' p' ∧ v.getTag t p = v'.getTag t' p' := by
  simp only [View.getDesc, View.getComment, View.getTag]
  cases h1 : v.getNodeFast t p with
  | error e =>
    cases h2 : v'.getNodeFast t' p' with
    | error e' => rw [h1, h2] at h; simp only [Except.map, Except.error.injEq] at h; simp [h]
    | ok y => rw [h1, h2] at h; simp [Except.map] at h
  | ok x =>
    cases h2 : v'.getNodeFast t' p' with
    | error e' => rw [h1, h2] at h; simp [Except.map] at h
    | ok y =>
      rw [h1, h2] at h
      simp only [Except.map, Except.ok.injEq] at h
      cases x <;> cases y <;> simp at h <;> simp [h]

theorem resolve_at {β : Type} {d : Char} {m : Str → Option β} {p : Str} {c : β} (h : m p = some c) :
    resolve d m p = some (p, c) := by
  simp [resolve, h]

end api
end Verif

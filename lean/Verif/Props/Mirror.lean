import Verif.Model.Mirror
import Verif.Props.Handlers
import Verif.Props.Env
/-
C55: a store that loads from etcd and watches follows the database.
-/
namespace Verif
namespace Etcd
open Store
open Remote hiding opCreate opWrite opRemove
variable {α κ : Type}

/-! ## The database -/

theorem get_filter (d : Db) (k k' : Str) (r : Nat) (h : k' ≠ k) :
    Db.get ⟨r, d.kv.filter (fun a => a.1 != k)⟩ k' = d.get k' := by
  obtain ⟨r0, l⟩ := d
  simp only [Db.get]
  induction l with
  | nil => rfl
  | cons a l ih =>
    by_cases e : a.1 = k
    · have : a.1 ≠ k' := fun e' => h (e'.symm.trans e)
      simp only [List.filter_cons, e, bne_self_eq_false, Bool.false_eq_true, if_false, List.find?_cons]
      rw [show (k == k') = false from by simpa using fun e' => h e'.symm]
      exact ih
    · simp only [List.filter_cons, bne_iff_ne, ne_eq, e, not_false_eq_true, if_true, List.find?_cons]
      split
      · rfl
      · exact ih

theorem get_filter_self (d : Db) (k : Str) (r : Nat) : Db.get ⟨r, d.kv.filter (fun a => a.1 != k)⟩ k = none := by
  simp only [Db.get, Option.map_eq_none_iff, List.find?_eq_none, List.mem_filter, bne_iff_ne, ne_eq, beq_iff_eq]
  exact fun a h => h.2

theorem exec_put (d : Db) (k : Str) (v : List UInt8) :
    (∃ c, (d.exec (.put k v)).1.get k = some (v, c)) ∧ ∀ k', k' ≠ k → (d.exec (.put k v)).1.get k' = d.get k' := by
  refine ⟨⟨_, by simp only [Db.exec, Db.get, List.find?_cons, beq_self_eq_true, Option.map_some]; rfl⟩, fun k' h => ?_⟩
  rw [← get_filter d k k' (d.rev + 1) h]
  simp only [Db.exec, Db.get, List.find?_cons]
  rw [show (k == k') = false from by simpa using fun e' => h e'.symm]

theorem exec_del (d : Db) (k : Str) :
    (d.exec (.del k)).1.get k = none ∧ ∀ k', k' ≠ k → (d.exec (.del k)).1.get k' = d.get k' := by
  simp only [Db.exec]
  cases h : d.get k with
  | none => exact ⟨h, fun _ _ => rfl⟩
  | some a => exact ⟨get_filter_self .., fun k' h' => get_filter d k k' _ h'⟩

theorem exec_frame (d : Db) (c : Cmd) (k : Str) (h : c.key ≠ k) : (d.exec c).1.get k = d.get k := by
  cases c with
  | put k' v => exact (exec_put d k' v).2 k (fun e => h e.symm)
  | del k' => exact (exec_del d k').2 k (fun e => h e.symm)

/-! ## Writes and removals -/

/-- A write: the entry of the key, the other entries, and nothing new except in front of the key. -/
theorem write_one {s : Store α κ} (h : Reach (NoRoute s.view.delim) s.tree) (hm : s.view.mode ≠ .up) {ev : Store.Change α κ}
    (hop : ev.has opCreate = true ∨ ev.has opWrite = true) {k : Str} {x : Any α κ} (hp : ev.pairs = [(k, x)])
    (hsp : ' ' ∉ s.view.full k) (hr : NoRoute s.view.delim (s.view.full k)) :
    ∃ s' evs, s.applyChanges ev = .ok (s', evs) ∧ s'.view = s.view ∧ Reach (NoRoute s.view.delim) s'.tree ∧
      (∃ c, s'.tree.contents (s.view.full k) = some c ∧ c.hasData = true ∧ c.data = x) ∧
      (∀ q c, q ≠ s.view.full k → s.tree.contents q = some c → s'.tree.contents q = some c) ∧
      (∀ q c, s.tree.contents q = none → s'.tree.contents q = some c → q <+: s.view.full k) := by
  have hko : keyOf s.view k = s.view.full k := keyOf_nospace hsp
  obtain ⟨evs, he⟩ := applyWrites_eq h (ev.has opCreate) ev.pairs (by rw [hp]; simpa [hko] using hr) hm
  have hc : (ev.has opCreate || ev.has opWrite) = true := by rcases hop with h | h <;> simp [h]
  rw [hp] at he
  simp only [List.map_cons, List.map_nil, hko] at he
  have ht : putTrees (!s.loading) s.tree [(s.view.full k, x)] = putTree (!s.loading) s.tree (s.view.full k) x := rfl
  rw [ht] at he
  obtain ⟨h1, -, h2⟩ := putTree_contents h.ok (!s.loading) (s.view.full k) x
  have hs := putTree_spec h.ok (!s.loading) (s.view.full k) x
  have he' : s.applyChanges ev = .ok ({ s with tree := putTree (!s.loading) s.tree (s.view.full k) x }, evs) := by
    rw [applyChanges, if_pos hc, hp]; exact he
  refine ⟨_, evs, he', rfl, putTree_reach h _ hr x, ?_, ?_, ?_⟩
  · obtain ⟨c, e1, e2, e3, -⟩ := hs.val (s.view.full k) x (by simp [lastWrite])
    exact ⟨c, e1, e2, e3⟩
  · intro q c hq hcq
    exact hs.keep q c (by simp [lastWrite, Ne.symm hq]) hcq
  · intro q c hq hcq
    by_cases e : q = s.view.full k
    · exact e ▸ List.prefix_rfl
    · have hcq : (putTree (!s.loading) s.tree (s.view.full k) x).contents q = some c := hcq
      rw [h2 q e] at hcq
      obtain ⟨k0, c0, -, e1, -⟩ := (View.insertAt_spec h.ok (s.view.full k) x).new q c e hq hcq
      rw [e1]
      exact lcp_prefix_right ..

/-- A removal of an existing entry: it and everything behind it is gone, the rest is kept. -/
theorem remove_one {s : Store α κ} (h : Reach (NoRoute s.view.delim) s.tree) (hm : s.view.mode ≠ .up) {ev : Store.Change α κ}
    (hop : ev.op = opRemove) {k : Str} {x : Any α κ} (hp : ev.pairs = [(k, x)]) {c0 : Core (Any α κ)}
    (hk : s.tree.contents (s.view.full k) = some c0) (hne : s.view.full k ≠ []) :
    ∃ s' evs, s.applyChanges ev = .ok (s', evs) ∧ s'.view = s.view ∧ Reach (NoRoute s.view.delim) s'.tree ∧
      (∀ q, s'.tree.contents q = if s.view.full k <+: q then none else s.tree.contents q) := by
  obtain ⟨t1, b, h1, h2, h3⟩ := C08_remove_iff_has h hm k
  have hb : b = true := by
    have := has_plain h.ok h.plain hm k
    rw [resolve_at hk] at this
    exact h2.mpr ⟨hne, this⟩
  subst hb
  obtain ⟨-, q0, c0', hres, hc⟩ := remove_true h.ok h.plain hm h1
  rw [resolve_at hk, Option.some.injEq, Prod.mk.injEq] at hres
  obtain ⟨rfl, -⟩ := hres
  obtain ⟨ev0, hrem⟩ : ∃ ev0, s.remove k = .ok ({ s with tree := t1 }, ev0, true) := by
    simp only [View.remove] at h1
    simp only [Store.remove]
    cases hq : s.view.removeEx s.tree k with
    | error e => rw [hq] at h1; simp at h1
    | ok y =>
      rw [hq] at h1
      obtain ⟨t2, r⟩ := y
      simp only [Except.ok.injEq, Prod.mk.injEq] at h1
      obtain ⟨rfl, h1⟩ := h1
      cases r with
      | none => simp at h1
      | some y => exact ⟨_, rfl⟩
  have e : s.applyChanges ev = .ok ({ s with tree := t1 }, ev0 ++ []) := by
    simp [applyChanges, Change.has, hop, opCreate, opWrite, opRemove, hp, removeAll, hrem]
  exact ⟨_, _, e, rfl, h.remove h1, hc⟩

/-! ## Following -/

/-- The store's path of a database key. -/
def Pvdr.path (p : Pvdr) (v : View) (k : Str) : Str := v.full (p.cfg.normalizeKey k)

/-- The keys are usable as store paths: not empty, without blanks and route patterns, and no path is a prefix of another. -/
structure Usable (p : Pvdr) (v : View) (ks : List Str) : Prop where
  ne : ∀ k ∈ ks, p.inScope k = true → p.cfg.normalizeKey k ≠ []
  noBlank : ∀ k ∈ ks, p.inScope k = true → ' ' ∉ p.path v k
  noRoute : ∀ k ∈ ks, p.inScope k = true → NoRoute v.delim (p.path v k)
  free : ∀ k ∈ ks, ∀ k' ∈ ks, p.inScope k = true → p.inScope k' = true → p.path v k <+: p.path v k' → k = k'

/-- The entries of the tree agree with the database. -/
def Mirrors (p : Pvdr) (txt : List UInt8 → α) (v : View) (t : Tree (Any α κ)) (d : Db) (ks : List Str) : Prop :=
  ∀ k ∈ ks, p.inScope k = true →
    (∀ a, d.get k = some a → ∃ c, t.contents (p.path v k) = some c ∧ c.hasData = true ∧ c.data = .atom (txt a.1)) ∧
    (d.get k = none → ∀ q c, t.contents q = some c → ¬ p.path v k <+: q)

theorem full_ne {v : View} {x : Str} (h : x ≠ []) : v.full x ≠ [] := by
  rw [full_eq, joinSpec]
  by_cases e : v.pre = []
  · simp [e, h]
  · simp [e, h]

theorem follow_spec {p : Pvdr} {txt : List UInt8 → α} {v : View} {ks : List Str} (hu : Usable p v ks) (hm : v.mode ≠ .up) (cs : List Cmd) :
    ∀ {w : Store α κ} {d : Db}, (∀ c ∈ cs, c.key ∈ ks) → w.view = v → Reach (NoRoute v.delim) w.tree → Mirrors p txt v w.tree d ks →
    ∃ w' evs, p.follow txt w (d.run cs).2 = .ok (w', evs) ∧ w'.view = v ∧ Reach (NoRoute v.delim) w'.tree ∧
      Mirrors p txt v w'.tree (d.run cs).1 ks ∧
      (∀ q c, w.tree.contents q = some c → (∀ k ∈ ks, p.inScope k = true → ¬ p.path v k <+: q) → w'.tree.contents q = some c) := by
  induction cs with
  | nil => intro w d _ hv hr hM; exact ⟨w, [], rfl, hv, hr, hM, fun _ _ h _ => h⟩
  | cons c cs ih =>
    intro w d hk hv hr hM
    have hkc := hk c (by simp)
    have hk' : ∀ c ∈ cs, c.key ∈ ks := fun c hc => hk c (by simp [hc])
    -- a step that leaves the store alone
    have skip : (d.exec c).2 = [] ∨ (∃ e, (d.exec c).2 = [e] ∧ p.inScope e.key = false) →
        Mirrors p txt v w.tree (d.exec c).1 ks →
        ∃ w' evs, p.follow txt w (d.run (c :: cs)).2 = .ok (w', evs) ∧ w'.view = v ∧ Reach (NoRoute v.delim) w'.tree ∧
          Mirrors p txt v w'.tree (d.run (c :: cs)).1 ks ∧
          (∀ q c, w.tree.contents q = some c → (∀ k ∈ ks, p.inScope k = true → ¬ p.path v k <+: q) → w'.tree.contents q = some c) := by
      intro he hM'
      obtain ⟨w', evs, h1, h2⟩ := ih hk' hv hr hM'
      refine ⟨w', evs, ?_, h2⟩
      rcases he with he | ⟨e, he, hs⟩
      · simp only [Db.run, he, List.nil_append]; exact h1
      · simp only [Db.run, he, List.cons_append, List.nil_append, Pvdr.follow, hs, Bool.false_eq_true, if_false]; exact h1
    -- a step that is applied
    have step : ∀ (e : EtcdEvent) (w1 : Store α κ) (ev1 : List (Event (Any α κ))), (d.exec c).2 = [e] → p.inScope e.key = true →
        w.applyChanges (p.change txt e) = .ok (w1, ev1) → w1.view = v → Reach (NoRoute v.delim) w1.tree →
        Mirrors p txt v w1.tree (d.exec c).1 ks →
        (∀ q c, w.tree.contents q = some c → (∀ k ∈ ks, p.inScope k = true → ¬ p.path v k <+: q) → w1.tree.contents q = some c) →
        ∃ w' evs, p.follow txt w (d.run (c :: cs)).2 = .ok (w', evs) ∧ w'.view = v ∧ Reach (NoRoute v.delim) w'.tree ∧
          Mirrors p txt v w'.tree (d.run (c :: cs)).1 ks ∧
          (∀ q c, w.tree.contents q = some c → (∀ k ∈ ks, p.inScope k = true → ¬ p.path v k <+: q) → w'.tree.contents q = some c) := by
      intro e w1 ev1 he hs ha hv1 hr1 hM1 hf1
      obtain ⟨w', evs, h1, h2, h3, h4, h5⟩ := ih hk' hv1 hr1 hM1
      refine ⟨w', ev1 ++ evs, ?_, h2, h3, h4, fun q c hc hq => h5 q c (hf1 q c hc hq) hq⟩
      simp only [Db.run, he, List.cons_append, List.nil_append, Pvdr.follow, hs, if_true, ha, h1]
    subst hv
    cases c with
    | put k x =>
      obtain ⟨⟨cr, hg⟩, hg'⟩ := exec_put d k x
      by_cases hs : p.inScope k = true
      · have hop : (Store.Change.has (p.change txt (κ := κ) ⟨false, k, x, (match d.get k with | some a => a.2 | none => d.rev + 1), d.rev + 1⟩) opCreate = true) ∨
            (Store.Change.has (p.change txt (κ := κ) ⟨false, k, x, (match d.get k with | some a => a.2 | none => d.rev + 1), d.rev + 1⟩) opWrite = true) := by
          generalize (match d.get k with | some a => a.2 | none => d.rev + 1) = n
          by_cases e : n = d.rev + 1
          · left; simp [Change.has, Pvdr.change, EtcdEvent.op, e, Remote.opCreate, opCreate]
          · right; simp [Change.has, Pvdr.change, EtcdEvent.op, e, Remote.opWrite, opWrite]
        obtain ⟨w1, ev1, h1, h2, h3, ⟨c, h4, h5, h6⟩, h7, h8⟩ := write_one (k := p.cfg.normalizeKey k) (x := .atom (txt x)) hr hm hop
          (by simp [Pvdr.change, EtcdEvent.next, List.range_succ]) (hu.noBlank k hkc hs) (hu.noRoute k hkc hs)
        refine step _ w1 ev1 rfl hs h1 h2 h3 ?_ ?_
        · intro k' hk' hs'
          by_cases e : k' = k
          · subst e
            rw [hg]
            exact ⟨fun a ha => ⟨c, h4, h5, by rw [h6]; simp at ha; rw [← ha]⟩, by simp⟩
          · rw [hg' k' e]
            refine ⟨fun a ha => ?_, fun hn q c hc hpq => ?_⟩
            · obtain ⟨c', e1, e2⟩ := (hM k' hk' hs').1 a ha
              exact ⟨c', h7 _ _ (fun e' => e (hu.free k' hk' k hkc hs' hs (e' ▸ List.prefix_rfl))) e1, e2⟩
            · cases hq : w.tree.contents q with
              | some c1 => exact (hM k' hk' hs').2 hn q c1 hq hpq
              | none => exact e (hu.free k' hk' k hkc hs' hs (hpq.trans (h8 q c hq hc)))
        · intro q c hc hq
          exact h7 q c (fun e' => hq k hkc hs (e' ▸ List.prefix_rfl)) hc
      · refine skip (.inr ⟨_, rfl, by simpa using hs⟩) ?_
        intro k' hk' hs'
        rw [hg' k' (fun e => hs (e ▸ hs'))]
        exact hM k' hk' hs'
    | del k =>
      obtain ⟨hg, hg'⟩ := exec_del d k
      cases hd : d.get k with
      | none =>
        have : (d.exec (.del k)) = (d, []) := by simp only [Db.exec, hd]
        exact skip (.inl (by rw [this])) (by rw [this]; exact hM)
      | some a =>
        have hev : (d.exec (.del k)).2 = [⟨true, k, [], 0, d.rev + 1⟩] := by simp only [Db.exec, hd]
        by_cases hs : p.inScope k = true
        · obtain ⟨c0, e1, -⟩ := (hM k hkc hs).1 a hd
          obtain ⟨w1, ev1, h1, h2, h3, h4⟩ := remove_one (k := p.cfg.normalizeKey k) (x := .atom (txt [])) (c0 := c0)
            (ev := p.change txt ⟨true, k, [], 0, d.rev + 1⟩) hr hm
            (by simp [Pvdr.change, EtcdEvent.op, Remote.opRemove, opRemove])
            (by simp [Pvdr.change, EtcdEvent.next, List.range_succ]) e1 (full_ne (hu.ne k hkc hs))
          have h4 : ∀ q, w1.tree.contents q = if p.path w.view k <+: q then none else w.tree.contents q := h4
          refine step _ w1 ev1 hev hs h1 h2 h3 ?_ ?_
          · intro k' hk' hs'
            by_cases e : k' = k
            · subst e
              rw [hg]
              refine ⟨by simp, fun _ q c hc hpq => ?_⟩
              rw [h4, if_pos hpq] at hc
              simp at hc
            · rw [hg' k' e]
              refine ⟨fun a' ha => ?_, fun hn q c hc hpq => ?_⟩
              · obtain ⟨c', e1, e2⟩ := (hM k' hk' hs').1 a' ha
                refine ⟨c', ?_, e2⟩
                rw [h4, if_neg (fun hp => e (hu.free k hkc k' hk' hs hs' hp).symm)]
                exact e1
              · rw [h4] at hc
                split at hc
                · simp at hc
                · exact (hM k' hk' hs').2 hn q c hc hpq
          · intro q c hc hq
            rw [h4, if_neg (hq k hkc hs)]
            exact hc
        · refine skip (.inr ⟨_, hev, by simpa using hs⟩) ?_
          intro k' hk' hs'
          rw [hg' k' (fun e => hs (e ▸ hs'))]
          exact hM k' hk' hs'

/-! ## Loading -/

theorem putTrees_new {β : Type} [Inhabited β] {user : Bool} (l : List (Str × β)) : ∀ {t : Tree β}, t.OK → ∀ q c, t.contents q = none →
    (putTrees user t l).contents q = some c → ∃ a ∈ l, q <+: a.1 := by
  induction l with
  | nil => intro t _ q c h1 h2; rw [show (putTrees user t []).contents q = t.contents q from rfl, h1] at h2; simp at h2
  | cons a l ih =>
    intro t ht q c h1 h2
    obtain ⟨g1, -, g2⟩ := putTree_contents ht user a.1 a.2
    cases hq : (putTree user t a.1 a.2).contents q with
    | none =>
      obtain ⟨b, hb, e⟩ := ih g1 q c hq h2
      exact ⟨b, by simp [hb], e⟩
    | some c1 =>
      refine ⟨a, by simp, ?_⟩
      by_cases e : q = a.1
      · exact e ▸ List.prefix_rfl
      · rw [g2 q e] at hq
        obtain ⟨k0, c0, -, e1, -⟩ := (View.insertAt_spec ht a.1 a.2).new q c1 e h1 hq
        rw [e1]
        exact lcp_prefix_right ..

theorem get_some {d : Db} (hd : (d.kv.map (·.1)).Nodup) {k : Str} {a : List UInt8 × Nat} : d.get k = some a ↔ (k, a) ∈ d.kv := by
  obtain ⟨r, l⟩ := d
  simp only [Db.get] at *
  induction l with
  | nil => simp
  | cons b l ih =>
    obtain ⟨k', a'⟩ := b
    simp only [List.map_cons, List.nodup_cons, List.mem_map, Prod.exists, exists_and_right, exists_eq_right, not_exists] at hd
    simp only [List.find?_cons, List.mem_cons, Prod.mk.injEq]
    by_cases e : k' = k
    · subst e
      simp only [beq_self_eq_true, Option.map_some, Option.some.injEq, true_and]
      constructor
      · exact fun h => .inl h.symm
      · rintro (h | h)
        · exact h.symm
        · exact absurd h (hd.1 _ _)
    · rw [show (k' == k) = false from by simpa using e]
      simp only [ih hd.2]
      constructor
      · exact .inr
      · rintro (⟨h, -⟩ | h)
        · exact absurd h.symm e
        · exact h

theorem watcher_view (s : Store α κ) (prefix' : Option Str) : (watcher s prefix').view = { s.view with pre := s.loadAt prefix' } := by
  cases prefix' with
  | none => rfl
  | some q => rfl

theorem watcher_tree (s : Store α κ) (prefix' : Option Str) : (watcher s prefix').tree = s.tree := by
  cases prefix' <;> rfl

/-- What `Load` leaves: the entries of the database's keys. -/
theorem load_mirrors (str : κ → Str) (txt : List UInt8 → α) {s : Store α κ} (hs : s.loading = false) (h : Reach (NoRoute s.view.delim) s.tree)
    (prefix' : Option Str) (p : Pvdr) {d : Db} (hd : (d.kv.map (·.1)).Nodup) {ks : List Str} (hks : ∀ a ∈ d.kv, a.1 ∈ ks)
    (hu : Usable p (watcher s prefix').view ks)
    (habs : ∀ k ∈ ks, p.inScope k = true → d.get k = none → ∀ q c, s.tree.contents q = some c → ¬ p.path (watcher s prefix').view k <+: q) :
    ∃ s', (s.load str prefix' none (p.read txt d)) = (s', [], true) ∧ s'.view = s.view ∧ Reach (NoRoute s.view.delim) s'.tree ∧
      Mirrors p txt (watcher s prefix').view s'.tree d ks ∧
      (∀ q c, s.tree.contents q = some c → (∀ k ∈ ks, p.inScope k = true → ¬ p.path (watcher s prefix').view k <+: q) →
        s'.tree.contents q = some c) := by
  have hleaves : ∀ fl (l : List (Str × List UInt8 × Nat)), pkgLeaves fl str
      (l.map (fun a => (p.cfg.normalizeKey a.1, (⟨.atom (txt a.2.1), [], [], .nil⟩ : ValPkg α κ)))) =
      l.map (fun a => ([p.cfg.normalizeKey a.1], .atom (txt a.2.1))) := by
    intro fl l
    induction l with
    | nil => rfl
    | cons a l ih => simp only [List.map_cons, pkgLeaves, leaves, under, List.map_nil, List.cons_append, List.nil_append, ih]
  obtain ⟨s', e1, e2, e3, -⟩ := C29_load_is_sets str s hs prefix' none (p.read txt d)
    (by simp only [Pvdr.read, Source.leaves, hleaves]; rfl)
    (fun _ => by
      simp only [Pvdr.read, Source.NE, pkgNE]
      intro a ha
      obtain ⟨b, hb, rfl⟩ := List.mem_map.mp ha
      obtain ⟨hb, hsc⟩ := List.mem_filter.mp hb
      exact ⟨hu.ne _ (hks b hb) hsc, trivial⟩)
  have hpath : leafPuts s.view.delim (s.loadAt prefix') ((d.kv.filter (fun a => p.inScope a.1)).map
      (fun a => ([p.cfg.normalizeKey a.1], (.atom (txt a.2.1) : Any α κ)))) =
      (d.kv.filter (fun a => p.inScope a.1)).map (fun a => (p.path (watcher s prefix').view a.1, .atom (txt a.2.1))) := by
    rw [leafPuts, List.map_map]
    refine List.map_congr_left (fun a ha => ?_)
    obtain ⟨ha, hsc⟩ := List.mem_filter.mp ha
    have e := full_eq (watcher s prefix').view (p.cfg.normalizeKey a.1)
    rw [watcher_view] at e
    have hb := hu.noBlank _ (hks a ha) hsc
    simp only [Function.comp, leafKey, Prod.mk.injEq, and_true]
    rw [Pvdr.path, watcher_view] at hb ⊢
    rw [e] at hb ⊢
    exact EnvProv.dash_nospace hb
  rw [hpath] at e2
  generalize hW : (d.kv.filter (fun a => p.inScope a.1)).map (fun a => (p.path (watcher s prefix').view a.1, (.atom (txt a.2.1) : Any α κ))) = W at e2
  have hmem : ∀ a ∈ W, ∃ b ∈ d.kv, p.inScope b.1 = true ∧ a = (p.path (watcher s prefix').view b.1, .atom (txt b.2.1)) := by
    intro a ha
    rw [← hW] at ha
    obtain ⟨b, hb, rfl⟩ := List.mem_map.mp ha
    obtain ⟨hb, hsc⟩ := List.mem_filter.mp hb
    exact ⟨b, hb, hsc, rfl⟩
  have hdel : (watcher s prefix').view.delim = s.view.delim := by rw [watcher_view]
  have hro : ∀ a ∈ W, NoRoute s.view.delim a.1 := by
    intro a ha
    obtain ⟨b, hb, hsc, rfl⟩ := hmem a ha
    exact hdel ▸ hu.noRoute _ (hks b hb) hsc
  have hnd : (W.map (·.1)).Nodup := by
    rw [← hW, List.map_map]
    have : (d.kv.filter (fun a => p.inScope a.1)).Nodup := (hd.of_map _).filter _
    refine List.Nodup.map_on ?_ this
    intro a ha b hb hab
    obtain ⟨ha, hsa⟩ := List.mem_filter.mp ha
    obtain ⟨hb, hsb⟩ := List.mem_filter.mp hb
    have hab : p.path (watcher s prefix').view a.1 = p.path (watcher s prefix').view b.1 := hab
    exact List.inj_on_of_nodup_map hd ha hb (hu.free _ (hks a ha) _ (hks b hb) hsa hsb (hab ▸ List.prefix_rfl))
  have hsp := putTrees_spec h.ok false W
  rw [← e2] at hsp
  refine ⟨s', e1, e3, e2 ▸ putTrees_reach h false hro, ?_, ?_⟩
  · intro k hk hsc
    refine ⟨fun a ha => ?_, fun hn q c hc hpq => ?_⟩
    · have hin : (p.path (watcher s prefix').view k, (.atom (txt a.1) : Any α κ)) ∈ W := by
        rw [← hW]
        exact List.mem_map.mpr ⟨(k, a), List.mem_filter.mpr ⟨(get_some hd).mp ha, hsc⟩, rfl⟩
      obtain ⟨c, g1, g2, g3, -⟩ := hsp.val _ _ (lastWrite_of_nodup hnd hin)
      exact ⟨c, g1, g2, g3⟩
    · cases hq : s.tree.contents q with
      | some c1 => exact habs k hk hsc hn q c1 hq hpq
      | none =>
        rw [e2] at hc
        obtain ⟨a, ha, hqa⟩ := putTrees_new W h.ok q c hq hc
        obtain ⟨b, hb, hsb, rfl⟩ := hmem a ha
        have := hu.free k hk _ (hks b hb) hsc hsb (hpq.trans hqa)
        rw [this, (get_some hd).mpr hb] at hn
        simp at hn
  · intro q c hc hq
    refine hsp.keep q c ((lastWrite_none _ _).mpr (fun x hx => ?_)) hc
    obtain ⟨b, hb, hsb, e⟩ := hmem _ hx
    simp only [Prod.mk.injEq] at e
    exact hq _ (hks b hb) hsb (e.1 ▸ List.prefix_rfl)

/-! ## The property -/

/-- **C55** The provider's range: the keys that begin with the prefix it was given or, when it was given a key, that key alone. -/
theorem C55_range (p : Pvdr) (k : Str) :
    p.inScope k = true ↔ (p.prefixOrKey = true ∧ p.pos <+: k) ∨ (p.prefixOrKey = false ∧ k = p.pos) := by
  cases h : p.prefixOrKey with
  | true => simp [Pvdr.inScope, h]
  | false => simp only [Pvdr.inScope, h, Bool.false_eq_true, if_false, beq_iff_eq, false_and, true_and, false_or]; exact eq_comm

/-- **C55** Load from etcd and watch: after any sequence of changes of the database, once their events have been handled, every key of
the database in the provider's range reads as its current value, every key that is not in the database any more is not in the store, and
no other entry is affected. Partial: the keys must be usable as store paths, and changes between the reading and the start of the
watching are not seen. -/
theorem C55_follows_partial (str : κ → Str) (txt : List UInt8 → α) {s : Store α κ} (hs : s.loading = false)
    (h : Reach (NoRoute s.view.delim) s.tree) (hm : s.view.mode ≠ .up) (prefix' : Option Str) (p : Pvdr) {d : Db}
    (hd : (d.kv.map (·.1)).Nodup) (cs : List Cmd) (hu : Usable p (watcher s prefix').view (d.kv.map (·.1) ++ cs.map Cmd.key))
    (habs : ∀ k ∈ cs.map Cmd.key, p.inScope k = true → d.get k = none →
      ∀ q c, s.tree.contents q = some c → ¬ p.path (watcher s prefix').view k <+: q) :
    ∃ w evs, loadAndFollow str txt p s prefix' d cs = .ok (w, evs) ∧ w.view = (watcher s prefix').view ∧
      (∀ k ∈ d.kv.map (·.1) ++ cs.map Cmd.key, p.inScope k = true →
        (∀ a, (d.run cs).1.get k = some a → w.view.mustGet w.tree (p.cfg.normalizeKey k) = .ok (.atom (txt a.1))) ∧
        ((d.run cs).1.get k = none → w.view.has w.tree (p.cfg.normalizeKey k) = .ok false)) ∧
      (∀ (r : View) (x : Str) c, r.delim = s.view.delim → s.tree.contents (r.full x) = some c →
        (∀ k ∈ d.kv.map (·.1) ++ cs.map Cmd.key, p.inScope k = true → ¬ p.path (watcher s prefix').view k <+: r.full x) →
        r.query w.tree x = r.query s.tree x) := by
  have hdel : (watcher s prefix').view.delim = s.view.delim := by rw [watcher_view]
  have hmode : (watcher s prefix').view.mode ≠ .up := by rw [watcher_view]; exact hm
  obtain ⟨s', e1, e2, e3, e4, e5⟩ := load_mirrors str txt hs h prefix' p hd (ks := d.kv.map (·.1) ++ cs.map Cmd.key)
    (fun a ha => by simp only [List.mem_append, List.mem_map]; exact .inl ⟨a, ha, rfl⟩) hu
    (fun k hk hsc hn => by
      rcases List.mem_append.mp hk with hk | hk
      · obtain ⟨b, hb, rfl⟩ := List.mem_map.mp hk
        rw [(get_some hd).mpr hb] at hn
        simp at hn
      · exact habs k hk hsc hn)
  have hv' : (watcher s' prefix').view = (watcher s prefix').view := by
    rw [watcher_view, watcher_view, loadAt, loadAt, e2]
  have hr' : Reach (NoRoute (watcher s prefix').view.delim) (watcher s' prefix').tree := by rw [watcher_tree, hdel]; exact e3
  obtain ⟨w, evs, f1, f2, f3, f4, f5⟩ := follow_spec (txt := txt) hu hmode cs (w := watcher s' prefix') (d := d)
    (fun c hc => List.mem_append.mpr (.inr (List.mem_map.mpr ⟨c, hc, rfl⟩))) hv' hr' (by rw [watcher_tree]; exact e4)
  refine ⟨w, evs, by rw [loadAndFollow, e1]; exact f1, f2, ?_, ?_⟩
  · intro k hk hsc
    rw [f2]
    refine ⟨fun a ha => ?_, fun hn => ?_⟩
    · obtain ⟨c, g1, g2, g3⟩ := (f4 k hk hsc).1 a ha
      rw [mustGet_hit f3.ok f3.plain (resolve_at g1), g2, g3]; rfl
    · rw [has_plain f3.ok f3.plain hmode]
      have hno := (f4 k hk hsc).2 hn
      have n1 : w.tree.contents (p.path (watcher s prefix').view k) = none := by
        cases e : w.tree.contents (p.path (watcher s prefix').view k) with
        | none => rfl
        | some c => exact absurd List.prefix_rfl (hno _ c e)
      have n2 : w.tree.contents (p.path (watcher s prefix').view k ++ [(watcher s prefix').view.delim]) = none := by
        cases e : w.tree.contents (p.path (watcher s prefix').view k ++ [(watcher s prefix').view.delim]) with
        | none => rfl
        | some c => exact absurd (List.prefix_append _ _) (hno _ c e)
      have : resolve (watcher s prefix').view.delim w.tree.contents (p.path (watcher s prefix').view k) = none := by
        simp only [resolve, n1, n2, Option.map_none, ite_self]
      rw [Pvdr.path] at this
      rw [this]; rfl
  · intro r x c hr hc hx
    have hc' := f5 _ c (by rw [watcher_tree]; exact e5 _ c hc hx) hx
    have f3' : Reach (NoRoute r.delim) w.tree := by rw [hr, ← hdel]; exact f3
    have h' : Reach (NoRoute r.delim) s.tree := by rw [hr]; exact h
    rw [query_hit f3'.ok f3'.plain (resolve_at hc'), query_hit h'.ok h'.plain (resolve_at hc)]

theorem applyWrites_silent (create : Bool) (l : List (Str × Any α κ)) : ∀ {s w : Store α κ} {evs}, s.hs = ⟨[], [], []⟩ →
    applyWrites s create l = .ok (w, evs) → w.hs = ⟨[], [], []⟩ ∧ w.loading = s.loading ∧ evs = [] := by
  induction l with
  | nil =>
    intro s w evs h e
    simp only [applyWrites, Except.ok.injEq, Prod.mk.injEq] at e
    obtain ⟨rfl, rfl⟩ := e
    exact ⟨h, rfl, rfl⟩
  | cons a l ih =>
    obtain ⟨k, v⟩ := a
    intro s w evs h e
    simp only [applyWrites] at e
    split at e
    · simp at e
    · split at e
      · simp at e
      · rename_i _ w' ev' he
        simp only [Except.ok.injEq, Prod.mk.injEq] at e
        obtain ⟨rfl, rfl⟩ := e
        obtain ⟨h1, h2, h3⟩ := ih (s := (s.setKV k v create []).1) h he
        exact ⟨h1, h2, by rw [h3, List.append_nil]; exact tryOnSet_nil h ..⟩

theorem removeAll_silent (l : List (Str × Any α κ)) : ∀ {s w : Store α κ} {evs}, s.hs = ⟨[], [], []⟩ →
    removeAll s l = .ok (w, evs) → w.hs = ⟨[], [], []⟩ ∧ w.loading = s.loading ∧ evs = [] := by
  induction l with
  | nil =>
    intro s w evs h e
    simp only [removeAll, Except.ok.injEq, Prod.mk.injEq] at e
    obtain ⟨rfl, rfl⟩ := e
    exact ⟨h, rfl, rfl⟩
  | cons a l ih =>
    obtain ⟨k, v⟩ := a
    intro s w evs h e
    simp only [removeAll] at e
    split at e
    · simp at e
    · rename_i _ s1 ev1 b he1
      split at e
      · simp at e
      · rename_i _ w' ev' he
        simp only [Except.ok.injEq, Prod.mk.injEq] at e
        obtain ⟨rfl, rfl⟩ := e
        have : s1.hs = s.hs ∧ s1.loading = s.loading ∧ ev1 = [] := by
          simp only [Store.remove] at he1
          split at he1
          · simp at he1
          · simp only [Except.ok.injEq, Prod.mk.injEq] at he1
            obtain ⟨rfl, rfl, rfl⟩ := he1
            exact ⟨rfl, rfl, by simp [tryOnDelete, h]⟩
          · simp only [Except.ok.injEq, Prod.mk.injEq] at he1
            obtain ⟨rfl, rfl, rfl⟩ := he1
            exact ⟨rfl, rfl, rfl⟩
        obtain ⟨h1, h2, h3⟩ := ih (this.1.trans h) he
        exact ⟨h1, h2.trans this.2.1, by rw [h3, this.2.2]; rfl⟩

theorem follow_silent (p : Pvdr) (txt : List UInt8 → α) (l : List EtcdEvent) : ∀ {s w : Store α κ} {evs}, s.hs = ⟨[], [], []⟩ →
    p.follow txt s l = .ok (w, evs) → w.hs = ⟨[], [], []⟩ ∧ w.loading = s.loading ∧ evs = [] := by
  induction l with
  | nil =>
    intro s w evs h e
    simp only [Pvdr.follow, Except.ok.injEq, Prod.mk.injEq] at e
    obtain ⟨rfl, rfl⟩ := e
    exact ⟨h, rfl, rfl⟩
  | cons a l ih =>
    intro s w evs h e
    simp only [Pvdr.follow] at e
    split at e
    · split at e
      · simp at e
      · rename_i _ s1 ev1 he1
        split at e
        · simp at e
        · rename_i _ w' ev' he
          simp only [Except.ok.injEq, Prod.mk.injEq] at e
          obtain ⟨rfl, rfl⟩ := e
          have : s1.hs = ⟨[], [], []⟩ ∧ s1.loading = s.loading ∧ ev1 = [] := by
            simp only [applyChanges] at he1
            split at he1
            · exact applyWrites_silent _ _ h he1
            · split at he1
              · exact removeAll_silent _ h he1
              · simp only [Except.ok.injEq, Prod.mk.injEq] at he1
                obtain ⟨rfl, rfl⟩ := he1
                exact ⟨h, rfl, rfl⟩
          obtain ⟨h1, h2, h3⟩ := ih this.1 he
          exact ⟨h1, h2.trans this.2.1, by rw [h3, this.2.2]; rfl⟩
    · exact ih h e

/-- **C55** When the store was loaded with `WithStorePrefix`, the watched changes call no handler at all, and the store object that
applies them believes for ever to be loading. -/
theorem C55_prefix_silent (str : κ → Str) (txt : List UInt8 → α) (p : Pvdr) (s : Store α κ) (q : Str) (d : Db) (cs : List Cmd) {w evs}
    (e : loadAndFollow str txt p s (some q) d cs = .ok (w, evs)) : evs = [] ∧ w.loading = true := by
  obtain ⟨-, h1, h2⟩ := follow_silent p txt _ (by rfl) e
  exact ⟨h2, h1.trans rfl⟩

/-! ## Examples and disagreements -/

/-- A provider for the keys under "app/", stripped and with "." for "/". -/
def exP : Pvdr := ⟨⟨"app".toList, [], ".".toList⟩, "app/".toList, true⟩
def exH : S0 := Store.new '.' false ⟨[some 1], [some 2], [some 3]⟩
def got (k : String) (r : Go (S0 × List (Event (Any Nat Nat)))) : Option Nat :=
  match r with
  | .ok (w, _) => match w.view.has w.tree k.toList, w.view.mustGet w.tree k.toList with
    | .ok true, .ok (.atom n) => some n
    | _, _ => none
  | .error _ => none
def calls (r : Go (S0 × List (Event (Any Nat Nat)))) : Option Nat :=
  match r with
  | .ok (_, e) => some e.length
  | .error _ => none
def marked (k : String) (r : Go (S0 × List (Event (Any Nat Nat)))) : Option Bool :=
  match r with
  | .ok (w, _) => (w.tree.contents k.toList).map (·.modified)
  | .error _ => none

/-- The hypotheses are met: keys are put, changed, deleted and put again; keys outside of the range play no role. -/
example : let d : Db := ⟨7, [("app/a/x".toList, [1], 3), ("app/b".toList, [1, 2], 5), ("other".toList, [], 6)]⟩
    let cs : List Cmd := [.put "app/a/y".toList [1, 2, 3], .del "app/b".toList, .put "other".toList [1], .put "app/a/x".toList [], .del "app/zz".toList]
    let r := loadAndFollow itoa List.length exP (S0.new false) none d cs
    (got "a.x" r, got "a.y" r, got "b" r, got "other" r) = (some 0, some 3, none, none) ∧
    ((exP.cfg.normalizeKey "app/a/x".toList), (d.run cs).1.get "app/b".toList) = ("a.x".toList, none) := by
  decide +kernel

example : let ks := ["app/a/x".toList, "app/b".toList, "other".toList]
    Usable exP (watcher (S0.new false) none).view ks := by
  refine ⟨by decide +kernel, by decide +kernel, ?_, by decide +kernel⟩
  intro k hk hs
  refine noRoute_of_plain ?_ ?_
  · revert k; decide +kernel
  · revert k; decide +kernel

/-- Why no path may be a prefix of another: when "app/a" is deleted the store also forgets "app/ab" and "app/a/x". -/
theorem C55_prefix_key_fails : let d : Db := ⟨7, [("app/a".toList, [1], 3), ("app/ab".toList, [1, 2], 5), ("app/a/x".toList, [], 6)]⟩
    let r := loadAndFollow itoa List.length exP (S0.new false) none d [.del "app/a".toList]
    (got "a" r, got "ab" r, got "a.x" r) = (none, none, none) ∧
    ((d.run [.del "app/a".toList]).1.get "app/ab".toList) = some ([1, 2], 5) := by decide +kernel

/-- Why the paths must differ: "app/a/b" and "app/a.b" have the same path; after the deletion of one the store has neither. -/
theorem C55_same_path_fails : let d : Db := ⟨7, [("app/a/b".toList, [1], 3), ("app/a.b".toList, [1, 2], 5)]⟩
    let r := loadAndFollow itoa List.length exP (S0.new false) none d [.del "app/a/b".toList]
    got "a.b" r = none ∧ ((d.run [.del "app/a/b".toList]).1.get "app/a.b".toList) = some ([1, 2], 5) := by decide +kernel

/-- Why blanks are excluded: the entry "a b" is written as "a-b", and the deletion of the key does not find it. -/
theorem C55_blank_fails : let d : Db := ⟨7, [("app/a b".toList, [1], 3)]⟩
    let r := loadAndFollow itoa List.length exP (S0.new false) none d [.del "app/a b".toList]
    got "a-b" r = some 1 := by decide +kernel

/-- Why the watching misses changes: it begins with the database as it is when `Watch` runs, not with the revision that `Read` has seen
(no `WithRev`). What happens in between never reaches the store. -/
theorem C55_gap_fails : let d : Db := ⟨7, [("app/a".toList, [1], 3)]⟩
    let between : List Cmd := [.del "app/a".toList, .put "app/b".toList [1, 2]]
    let after : List Cmd := [.put "app/c".toList []]
    let s1 := ((S0.new false).load itoa none none (exP.read List.length d)).1
    let r := exP.follow List.length s1 ((d.run between).1.run after).2
    (got "a" r, got "b" r, got "c" r) = (some 1, none, some 0) ∧
    ((d.run (between ++ after)).1.kv.map (·.1)) = ["app/c".toList, "app/b".toList] := by decide +kernel

/-- A watched change through the store itself calls the handlers and marks the entry modified; through a store prefix it does neither. -/
theorem C55_prefix_fails : let d : Db := ⟨7, []⟩
    let cs : List Cmd := [.put "app/a".toList [1]]
    let r := loadAndFollow itoa List.length exP exH none d cs
    let r' := loadAndFollow itoa List.length exP exH (some "q".toList) d cs
    (got "a" r, calls r, marked "a" r) = (some 1, some 1, some true) ∧
    (got "a" r', calls r', marked "q.a" r') = (some 1, some 0, some false) := by decide +kernel

end Etcd
end Verif

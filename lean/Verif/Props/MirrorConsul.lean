import Verif.Model.MirrorConsul
import Verif.Props.Mirror
import Verif.Props.Remote
/-
C57: a store that loads from consul and watches follows the database.
-/
namespace Verif
namespace Consul
open Store
open Remote hiding opCreate opWrite opRemove
variable {α κ : Type}

/-! ## The database -/

/-- Distinct keys, and no index in the future. -/
structure Db.OK (d : Db) : Prop where
  nodup : (d.kv.map (·.key)).Nodup
  create : ∀ p ∈ d.kv, p.create ≤ d.idx
  modify : ∀ p ∈ d.kv, p.modify ≤ d.idx

theorem get_some {d : Db} (h : d.OK) {k : Str} {p : Pair} : d.get k = some p ↔ p ∈ d.kv ∧ p.key = k := by
  have : ∀ l : List Pair, (l.map (·.key)).Nodup → (l.find? (fun p => p.key == k) = some p ↔ p ∈ l ∧ p.key = k) := by
    intro l hl
    induction l with
    | nil => simp
    | cons b l ih =>
      simp only [List.map_cons, List.nodup_cons, List.mem_map, not_exists, not_and] at hl
      simp only [List.find?_cons, List.mem_cons]
      by_cases e : b.key = k
      · simp only [e, beq_self_eq_true, Option.some.injEq]
        constructor
        · rintro rfl; exact ⟨.inl rfl, e⟩
        · rintro ⟨rfl | h1, h2⟩
          · rfl
          · exact absurd (h2.trans e.symm) (hl.1 p h1)
      · rw [show (b.key == k) = false from by simpa using e]
        simp only [ih hl.2]
        constructor
        · rintro ⟨h1, h2⟩; exact ⟨.inr h1, h2⟩
        · rintro ⟨rfl | h1, h2⟩
          · exact absurd h2 e
          · exact ⟨h1, h2⟩
  exact this d.kv h.nodup

theorem get_none {d : Db} {k : Str} : d.get k = none ↔ ∀ p ∈ d.kv, p.key ≠ k := by
  simp [Db.get]

theorem filter_ok {d : Db} (h : d.OK) (k : Str) : Db.OK ⟨d.idx + 1, d.kv.filter (fun p => p.key != k)⟩ :=
  ⟨h.nodup.sublist ((List.filter_sublist).map _), fun p hp => Nat.le_succ_of_le (h.create p (List.mem_filter.mp hp).1),
    fun p hp => Nat.le_succ_of_le (h.modify p (List.mem_filter.mp hp).1)⟩

theorem exec_ok {d : Db} (h : d.OK) (c : Etcd.Cmd) : (d.exec c).OK := by
  cases c with
  | put k v =>
    have hf := filter_ok h k
    refine ⟨?_, ?_, ?_⟩
    · simp only [Db.exec, List.map_cons, List.nodup_cons]
      refine ⟨?_, hf.nodup⟩
      intro hk
      obtain ⟨p, hp, e⟩ := List.mem_map.mp hk
      have := (List.mem_filter.mp hp).2
      simp [e] at this
    · intro p hp
      simp only [Db.exec, List.mem_cons] at hp
      rcases hp with rfl | hp
      · simp only [Db.exec]
        cases hg : d.get k with
        | none => simp
        | some p0 => exact Nat.le_succ_of_le (h.create p0 ((get_some h).mp hg).1)
      · exact hf.create p hp
    · intro p hp
      simp only [Db.exec, List.mem_cons] at hp
      rcases hp with rfl | hp
      · exact Nat.le_refl _
      · exact hf.modify p hp
  | del k =>
    simp only [Db.exec]
    cases d.get k with
    | none => exact h
    | some p => exact filter_ok h k

/-- The value of a key. -/
def Db.val (d : Db) (k : Str) : Option (List UInt8) := (d.get k).map (·.value)

theorem exec_put_mem {d : Db} (k : Str) (v : List UInt8) : ∃ c, (d.exec (.put k v)).kv =
    ⟨k, v, c, d.idx + 1⟩ :: d.kv.filter (fun p => p.key != k) ∧ ∀ p ∈ d.kv, p.key = k → d.OK → c ≤ d.idx := by
  refine ⟨_, rfl, ?_⟩
  intro p hp e h
  have hg : d.get k = some p := (get_some h).mpr ⟨hp, e⟩
  rw [hg]
  exact h.create p hp

theorem exec_frame {d : Db} (h : d.OK) (c : Etcd.Cmd) {k : Str} (hk : k ≠ c.key) : (d.exec c).get k = d.get k := by
  have hfil : ∀ k', k ≠ k' → ∀ n, (Db.get ⟨n, d.kv.filter (fun p => p.key != k')⟩ k) = d.get k := by
    intro k' hk' n
    cases hg : d.get k with
    | none =>
      rw [get_none] at hg ⊢
      exact fun p hp => hg p (List.mem_filter.mp hp).1
    | some p =>
      obtain ⟨h1, h2⟩ := (get_some h).mp hg
      have hf := filter_ok h k'
      have hm : p ∈ d.kv.filter (fun p => p.key != k') := List.mem_filter.mpr ⟨h1, by simpa [h2] using hk'⟩
      exact (get_some hf).mpr ⟨hm, h2⟩
  cases c with
  | put k' v =>
    have := hfil k' hk (d.idx + 1)
    rw [← this]
    simp only [Db.exec, Db.get, List.find?_cons]
    rw [show (k' == k) = false from by simpa using fun e => hk e.symm]
  | del k' =>
    simp only [Db.exec]
    cases d.get k' with
    | none => rfl
    | some p => exact hfil k' hk _

theorem exec_put_get (d : Db) (k : Str) (v : List UInt8) : ∃ c, (d.exec (.put k v)).get k = some ⟨k, v, c, d.idx + 1⟩ :=
  ⟨match d.get k with | some p => p.create | none => d.idx + 1, by simp only [Db.exec, Db.get, List.find?_cons, beq_self_eq_true]; rfl⟩

theorem exec_del_get (d : Db) (k : Str) : (d.exec (.del k)).get k = none := by
  simp only [Db.exec]
  cases hg : d.get k with
  | none => exact hg
  | some p =>
    rw [get_none]
    intro q hq
    simpa using (List.mem_filter.mp hq).2

/-! ## Agreement -/

/-- The store's path of a database key. -/
def path (cfg : Cfg) (v : View) (k : Str) : Str := v.full (cfg.normalizeKey k)

/-- The keys are usable as store paths: not empty, without blanks and route patterns, and no path is a prefix of another. -/
structure Usable (cfg : Cfg) (pos : Str) (v : View) (ks : List Str) : Prop where
  ne : ∀ k ∈ ks, pos <+: k → cfg.normalizeKey k ≠ []
  noBlank : ∀ k ∈ ks, pos <+: k → ' ' ∉ path cfg v k
  noRoute : ∀ k ∈ ks, pos <+: k → NoRoute v.delim (path cfg v k)
  free : ∀ k ∈ ks, ∀ k' ∈ ks, pos <+: k → pos <+: k' → path cfg v k <+: path cfg v k' → k = k'

/-- The entries of the tree agree with the database: a value is what `Read` or what a change makes of it. -/
def Agrees (txt raw : List UInt8 → α) (cfg : Cfg) (pos : Str) (v : View) (t : Tree (Any α κ)) (d : Db) (ks : List Str) : Prop :=
  ∀ k ∈ ks, pos <+: k →
    (∀ p, d.get k = some p → ∃ c, t.contents (path cfg v k) = some c ∧ c.hasData = true ∧
      (c.data = .atom (txt p.value) ∨ c.data = .atom (raw p.value))) ∧
    (d.get k = none → ∀ q c, t.contents q = some c → ¬ path cfg v k <+: q)

/-- The entries away from the keys are kept. -/
def Frame (cfg : Cfg) (pos : Str) (v : View) (t t' : Tree (Any α κ)) (ks : List Str) : Prop :=
  ∀ q c, t.contents q = some c → (∀ k ∈ ks, pos <+: k → ¬ path cfg v k <+: q) → t'.contents q = some c

variable {txt raw : List UInt8 → α} {cfg : Cfg} {pos : Str} {v : View} {ks : List Str}

/-- A change that writes the pairs `ps`. -/
theorem write_agrees (hu : Usable cfg pos v ks) (hm : v.mode ≠ .up) {w : Store α κ} (hv : w.view = v) (hr : Reach (NoRoute v.delim) w.tree)
    {d d' : Db} (hA : Agrees txt raw cfg pos v w.tree d ks) (ps : List Pair)
    (hps : ∀ p ∈ ps, p.key ∈ ks ∧ pos <+: p.key ∧ d'.get p.key = some p)
    (ho : ∀ k, pos <+: k → (∀ p ∈ ps, p.key ≠ k) → d'.get k = d.get k) {ev : Store.Change α κ}
    (hop : ev.has opCreate = true ∨ ev.has opWrite = true)
    (hp : ev.pairs = ps.map (fun p => (cfg.normalizeKey p.key, .atom (raw p.value)))) :
    ∃ w' evs, w.applyChanges ev = .ok (w', evs) ∧ w'.view = v ∧ Reach (NoRoute v.delim) w'.tree ∧
      Agrees txt raw cfg pos v w'.tree d' ks ∧ Frame cfg pos v w.tree w'.tree ks := by
  subst hv
  have hko : ∀ p ∈ ps, keyOf w.view (cfg.normalizeKey p.key) = path cfg w.view p.key := fun p h =>
    keyOf_nospace (hu.noBlank _ (hps p h).1 (hps p h).2.1)
  obtain ⟨evs, he⟩ := applyWrites_eq hr (ev.has opCreate) ev.pairs (by
    rw [hp]
    intro a ha
    obtain ⟨p, hpp, rfl⟩ := List.mem_map.mp ha
    rw [hko p hpp]
    exact hu.noRoute _ (hps p hpp).1 (hps p hpp).2.1) hm
  have hc : (ev.has opCreate || ev.has opWrite) = true := by rcases hop with h | h <;> simp [h]
  generalize hW : ps.map (fun p => (path cfg w.view p.key, (.atom (raw p.value) : Any α κ))) = W
  have hWe : ev.pairs.map (fun a => (keyOf w.view a.1, a.2)) = W := by
    rw [hp, ← hW, List.map_map]
    exact List.map_congr_left (fun p h => by simp only [Function.comp, hko p h])
  have hmem : ∀ a ∈ W, ∃ p ∈ ps, a = (path cfg w.view p.key, .atom (raw p.value)) := by
    intro a ha
    rw [← hW] at ha
    obtain ⟨p, hp, rfl⟩ := List.mem_map.mp ha
    exact ⟨p, hp, rfl⟩
  have he' : w.applyChanges ev = .ok ({ w with tree := putTrees (!w.loading) w.tree W }, evs) := by
    rw [applyChanges, if_pos hc, he, hWe]
  have hsp := putTrees_spec hr.ok (!w.loading) W
  refine ⟨_, evs, he', rfl, putTrees_reach hr _ (fun a ha => ?_), ?_, ?_⟩
  · obtain ⟨p, hp, rfl⟩ := hmem a ha
    exact hu.noRoute _ (hps p hp).1 (hps p hp).2.1
  · intro k hk hs
    refine ⟨fun p hg => ?_, fun hn q c hc hpq => ?_⟩
    · cases hl : lastWrite W (path cfg w.view k) with
      | some x =>
        obtain ⟨c, g1, g2, g3, -⟩ := hsp.val _ x hl
        refine ⟨c, g1, g2, .inr ?_⟩
        obtain ⟨p', hp', e⟩ := hmem _ (lastWrite_mem' hl)
        simp only [Prod.mk.injEq] at e
        obtain ⟨i1, i2, i3⟩ := hps p' hp'
        have ek : k = p'.key := hu.free k hk _ i1 hs i2 (e.1 ▸ List.prefix_rfl)
        rw [ek, i3, Option.some.injEq] at hg
        rw [g3, e.2, hg]
      | none =>
        have hne : ∀ p ∈ ps, p.key ≠ k := fun p' hp' e => by
          refine (lastWrite_none _ _).mp hl (.atom (raw p'.value)) ?_
          rw [← hW, ← e]
          exact List.mem_map.mpr ⟨p', hp', rfl⟩
        rw [ho k hs hne] at hg
        obtain ⟨c, g1, g2⟩ := (hA k hk hs).1 p hg
        exact ⟨c, hsp.keep _ c hl g1, g2⟩
    · have hne : ∀ p ∈ ps, p.key ≠ k := fun p hp e => by
        have := (hps p hp).2.2
        rw [e, hn] at this
        simp at this
      cases hq : w.tree.contents q with
      | some c1 => exact (hA k hk hs).2 (by rw [← ho k hs hne]; exact hn) q c1 hq hpq
      | none =>
        obtain ⟨a, ha, hqa⟩ := Etcd.putTrees_new W hr.ok q c hq hc
        obtain ⟨p, hp, rfl⟩ := hmem a ha
        exact hne p hp (hu.free k hk _ (hps p hp).1 hs (hps p hp).2.1 (hpq.trans hqa)).symm
  · intro q c hc hq
    refine hsp.keep q c ((lastWrite_none _ _).mpr (fun x hx => ?_)) hc
    obtain ⟨p, hp, e⟩ := hmem _ hx
    simp only [Prod.mk.injEq] at e
    exact hq _ (hps p hp).1 (hps p hp).2.1 (e.1 ▸ List.prefix_rfl)

/-- A change that removes one key. -/
theorem remove_agrees (hu : Usable cfg pos v ks) (hm : v.mode ≠ .up) {w : Store α κ} (hv : w.view = v) (hr : Reach (NoRoute v.delim) w.tree)
    {d d' : Db} (hA : Agrees txt raw cfg pos v w.tree d ks) {k : Str} (hk : k ∈ ks) (hs : pos <+: k) {p : Pair} (hg : d.get k = some p)
    (hg' : d'.get k = none) (ho : ∀ k', k' ≠ k → d'.get k' = d.get k') {ev : Store.Change α κ} {x : Any α κ}
    (hop : ev.op = opRemove) (hp : ev.pairs = [(cfg.normalizeKey k, x)]) :
    ∃ w' evs, w.applyChanges ev = .ok (w', evs) ∧ w'.view = v ∧ Reach (NoRoute v.delim) w'.tree ∧
      Agrees txt raw cfg pos v w'.tree d' ks ∧ Frame cfg pos v w.tree w'.tree ks := by
  subst hv
  obtain ⟨c0, e1, -⟩ := (hA k hk hs).1 p hg
  obtain ⟨w1, ev1, h1, h2, h3, h4⟩ := Etcd.remove_one hr hm hop hp (c0 := c0) e1 (Etcd.full_ne (hu.ne k hk hs))
  have h4 : ∀ q, w1.tree.contents q = if path cfg w.view k <+: q then none else w.tree.contents q := h4
  refine ⟨w1, ev1, h1, h2, h3, ?_, ?_⟩
  · intro k' hk' hs'
    by_cases e : k' = k
    · subst e
      refine ⟨fun p hp => by rw [hg'] at hp; simp at hp, fun _ q c hc hpq => ?_⟩
      rw [h4, if_pos hpq] at hc
      simp at hc
    · rw [ho k' e]
      refine ⟨fun a' ha => ?_, fun hn q c hc hpq => ?_⟩
      · obtain ⟨c', e1, e2⟩ := (hA k' hk' hs').1 a' ha
        refine ⟨c', ?_, e2⟩
        rw [h4, if_neg (fun hp => e (hu.free k hk k' hk' hs hs' hp).symm)]
        exact e1
      · rw [h4] at hc
        split at hc
        · simp at hc
        · exact (hA k' hk' hs').2 hn q c hc hpq
  · intro q c hc hq
    rw [h4, if_neg (hq k hk hs)]
    exact hc

/-! ## Following -/

theorem list_mem {d : Db} {p : Pair} : p ∈ d.list pos ↔ p ∈ d.kv ∧ pos <+: p.key := by
  simp [Db.list]

theorem filter_key {l : List Pair} (h : (l.map (·.key)).Nodup) {p : Pair} (hp : p ∈ l) : l.filter (fun a => a.key == p.key) = [p] := by
  induction l with
  | nil => simp at hp
  | cons a l ih =>
    simp only [List.map_cons, List.nodup_cons, List.mem_map, not_exists, not_and] at h
    rcases List.mem_cons.mp hp with rfl | hp
    · simp only [List.filter_cons, beq_self_eq_true, if_true, List.cons.injEq, true_and, List.filter_eq_nil_iff, beq_iff_eq]
      exact fun b hb e => h.1 b hb e
    · simp only [List.filter_cons]
      rw [show (a.key == p.key) = false from by simpa using fun e => h.1 p hp e.symm]
      exact ih h.2 hp

theorem list_out {d : Db} (c : Etcd.Cmd) (hs : ¬ pos <+: c.key) : (d.exec c).list pos = d.list pos := by
  have hf : ∀ k, ¬ pos <+: k → (d.kv.filter (fun p => p.key != k)).filter (fun p => pos.isPrefixOf p.key) = d.list pos := by
    intro k hk
    rw [List.filter_filter, Db.list]
    refine List.filter_congr (fun p _ => ?_)
    by_cases e : p.key = k
    · rw [e, show pos.isPrefixOf k = false from by rw [Bool.eq_false_iff, ne_eq, List.isPrefixOf_iff_prefix]; exact hk]; rfl
    · simp [e]
  cases c with
  | put k x =>
    have hk : pos.isPrefixOf k = false := by
      rw [Bool.eq_false_iff, ne_eq, List.isPrefixOf_iff_prefix]; exact hs
    simp only [Db.exec, Db.list, List.filter_cons, hk, Bool.false_eq_true, if_false]
    exact hf k hs
  | del k =>
    simp only [Db.exec]
    cases d.get k with
    | none => rfl
    | some p => exact hf k hs

theorem follow_spec (hu : Usable cfg pos v ks) (hm : v.mode ≠ .up) (cs : List Etcd.Cmd) :
    ∀ {w : Store α κ} {d : Db} {ch : Change}, (∀ c ∈ cs, c.key ∈ ks) → (∀ p ∈ d.kv, p.key ∈ ks) → w.view = v →
      Reach (NoRoute v.delim) w.tree → d.OK → ch.recursive = true → ch.cfg = cfg → ch.val = .pairs (d.list pos) →
      Agrees txt raw cfg pos v w.tree d ks →
    ∃ w' evs, follow raw ch w (d.snaps pos cs) = .ok (w', evs) ∧ w'.view = v ∧ Reach (NoRoute v.delim) w'.tree ∧
      Agrees txt raw cfg pos v w'.tree (d.run cs) ks ∧ Frame cfg pos v w.tree w'.tree ks := by
  induction cs with
  | nil => intro w d ch _ _ hv hr _ _ _ _ hA; exact ⟨w, [], rfl, hv, hr, hA, fun _ _ h _ => h⟩
  | cons c cs ih =>
    intro w d ch hk hdk hv hr hd h1 h2 h3 hA
    have hkc := hk c (by simp)
    have hk' : ∀ c ∈ cs, c.key ∈ ks := fun c hc => hk c (by simp [hc])
    have hd' := exec_ok hd c
    have hdk' : ∀ p ∈ (d.exec c).kv, p.key ∈ ks := by
      intro p hp
      by_cases e : p.key = c.key
      · exact e ▸ hkc
      · have := (get_some hd').mpr ⟨hp, rfl⟩
        rw [exec_frame hd c e] at this
        exact hdk p ((get_some hd).mp this).1
    by_cases hs : pos <+: c.key ∧ d.exec c ≠ d
    · -- the change is seen
      have hb : (pos.isPrefixOf c.key && decide (d.exec c ≠ d)) = true := by simp [hs.1, hs.2]
      have step : ∀ (w1 : Store α κ) (ev1 : List (Event (Any α κ))),
          (w.applyChanges ⟨(ch.handle (d.exec c).idx (.pairs ((d.exec c).list pos))).2.1,
            (ch.handle (d.exec c).idx (.pairs ((d.exec c).list pos))).2.2.map (fun a => (a.1, .atom (raw a.2)))⟩) = .ok (w1, ev1) →
          w1.view = v → Reach (NoRoute v.delim) w1.tree → Agrees txt raw cfg pos v w1.tree (d.exec c) ks → Frame cfg pos v w.tree w1.tree ks →
          (ch.handle (d.exec c).idx (.pairs ((d.exec c).list pos))).1.val = .pairs ((d.exec c).list pos) →
          (ch.handle (d.exec c).idx (.pairs ((d.exec c).list pos))).1.cfg = cfg →
          (ch.handle (d.exec c).idx (.pairs ((d.exec c).list pos))).1.recursive = true →
          ∃ w' evs, follow raw ch w (d.snaps pos (c :: cs)) = .ok (w', evs) ∧ w'.view = v ∧ Reach (NoRoute v.delim) w'.tree ∧
            Agrees txt raw cfg pos v w'.tree (d.run (c :: cs)) ks ∧ Frame cfg pos v w.tree w'.tree ks := by
        intro w1 ev1 ha g1 g2 g3 g4 g5 g6 g7
        obtain ⟨w', evs, i1, i2, i3, i4, i5⟩ := ih hk' hdk' g1 g2 hd' g7 g6 g5 g3
        refine ⟨w', ev1 ++ evs, ?_, i2, i3, i4, fun q c hc hq => i5 q c (g4 q c hc hq) hq⟩
        simp only [Db.snaps, hb, if_true, follow, ha, i1]
      cases c with
      | put k x =>
        obtain ⟨cr, hg⟩ := exec_put_get d k x
        obtain ⟨cr', hkv, -⟩ := exec_put_mem (d := d) k x
        have hnew : (⟨k, x, cr, d.idx + 1⟩ : Pair) ∈ (d.exec (.put k x)).list pos := list_mem.mpr ⟨((get_some hd').mp hg).1, hs.1⟩
        obtain ⟨j1, j2, j3, j4, j5⟩ := Change.C37_changed ch h1 (d.exec (.put k x)).idx ((d.exec (.put k x)).list pos)
          ⟨_, hnew, .inr rfl⟩
        have hfil : ((d.exec (.put k x)).list pos).filter (fun p => p.create == (d.exec (.put k x)).idx || p.modify == (d.exec (.put k x)).idx)
            = [⟨k, x, cr, d.idx + 1⟩] := by
          have hnd : (((d.exec (.put k x)).list pos).map (·.key)).Nodup := hd'.nodup.sublist ((List.filter_sublist).map _)
          rw [← filter_key hnd hnew]
          refine List.filter_congr (fun p hp => ?_)
          obtain ⟨hp, -⟩ := list_mem.mp hp
          by_cases e : p.key = k
          · have := (get_some hd').mpr ⟨hp, e⟩
            rw [hg, Option.some.injEq] at this
            subst this
            simp [Db.exec]
          · have := (get_some hd').mpr ⟨hp, rfl⟩
            rw [exec_frame hd _ e] at this
            obtain ⟨hp0, -⟩ := (get_some hd).mp this
            have a1 := hd.create p hp0
            have a2 := hd.modify p hp0
            have e1 : p.create ≠ d.idx + 1 := by omega
            have e2 : p.modify ≠ d.idx + 1 := by omega
            rw [show (d.exec (.put k x)).idx = d.idx + 1 from rfl, beq_eq_false_iff_ne.mpr e1, beq_eq_false_iff_ne.mpr e2,
              beq_eq_false_iff_ne.mpr e]
            rfl
        rw [hfil, h2] at j1
        obtain ⟨w1, ev1, g1, g2, g3, g4, g5⟩ := write_agrees (txt := txt) (raw := raw) (d' := d.exec (.put k x)) hu hm hv hr hA
          [⟨k, x, cr, d.idx + 1⟩] (by simpa using ⟨hkc, hs.1, hg⟩)
          (fun k' _ h => exec_frame hd _ (fun e => h _ (List.mem_singleton.mpr rfl) e.symm))
          (ev := ⟨(ch.handle (d.exec (.put k x)).idx (.pairs ((d.exec (.put k x)).list pos))).2.1,
            (ch.handle (d.exec (.put k x)).idx (.pairs ((d.exec (.put k x)).list pos))).2.2.map (fun a => (a.1, .atom (raw a.2)))⟩)
          (by
            rcases j2 with j2 | j2
            · left; simp [Change.has, j2, Remote.opCreate, opCreate]
            · right; simp [Change.has, j2, Remote.opWrite, opWrite])
          (by simp only [j1, List.map_cons, List.map_nil])
        exact step w1 ev1 g1 g2 g3 g4 g5 j3 (j4.trans h2) j5
      | del k =>
        cases hdg : d.get k with
        | none => exact absurd (by simp only [Db.exec, hdg]) hs.2
        | some p =>
          obtain ⟨hp, rfl⟩ := (get_some hd).mp hdg
          have hidx : (d.exec (.del p.key)).idx = d.idx + 1 := by simp only [Db.exec, hdg]
          have hkv : (d.exec (.del p.key)).kv = d.kv.filter (fun q => q.key != p.key) := by simp only [Db.exec, hdg]
          obtain ⟨j1, j2, j3, j4, j5⟩ := Change.C37_removed ch h1 (d.exec (.del p.key)).idx ((d.exec (.del p.key)).list pos) (by
            intro q hq
            obtain ⟨hq, -⟩ := list_mem.mp hq
            rw [hkv] at hq
            have hq := (List.mem_filter.mp hq).1
            have a1 := hd.create q hq
            have a2 := hd.modify q hq
            rw [hidx]
            exact ⟨by omega, by omega⟩)
          have hfil : (Change.prev ch.val).filter (fun a => decide (∀ q ∈ (d.exec (.del p.key)).list pos, q.key ≠ a.key)) = [p] := by
            have hnd : ((d.list pos).map (·.key)).Nodup := hd.nodup.sublist ((List.filter_sublist).map _)
            rw [h3, ← filter_key hnd (list_mem.mpr ⟨hp, hs.1⟩)]
            refine List.filter_congr (fun a ha => ?_)
            obtain ⟨ha, hsa⟩ := list_mem.mp ha
            by_cases e : a.key = p.key
            · rw [show (a.key == p.key) = true from by simpa using e, decide_eq_true_eq]
              intro q hq
              obtain ⟨hq, -⟩ := list_mem.mp hq
              rw [hkv] at hq
              rw [e]
              simpa using (List.mem_filter.mp hq).2
            · rw [show (a.key == p.key) = false from by simpa using e, decide_eq_false_iff_not]
              intro h
              refine h a (list_mem.mpr ⟨?_, hsa⟩) rfl
              rw [hkv]
              exact List.mem_filter.mpr ⟨ha, by simpa using e⟩
          rw [hfil, h2] at j1
          obtain ⟨w1, ev1, g1, g2, g3, g4, g5⟩ := remove_agrees (txt := txt) (raw := raw) (d' := d.exec (.del p.key)) hu hm hv hr hA hkc hs.1 hdg
            (exec_del_get d _) (fun k' e => exec_frame hd _ e)
            (ev := ⟨(ch.handle (d.exec (.del p.key)).idx (.pairs ((d.exec (.del p.key)).list pos))).2.1,
              (ch.handle (d.exec (.del p.key)).idx (.pairs ((d.exec (.del p.key)).list pos))).2.2.map (fun a => (a.1, .atom (raw a.2)))⟩)
            (x := .atom (raw p.value)) (by rw [j2]; rfl) (by simp only [j1, List.map_cons, List.map_nil]; rfl)
          exact step w1 ev1 g1 g2 g3 g4 g5 j3 (j4.trans h2) j5
    · -- nothing is seen
      have hb : (pos.isPrefixOf c.key && decide (d.exec c ≠ d)) = false := by
        rw [Bool.eq_false_iff]
        intro h
        simp only [Bool.and_eq_true, List.isPrefixOf_iff_prefix, decide_eq_true_eq] at h
        exact hs h
      have hl : (d.exec c).list pos = d.list pos := by
        by_cases e : pos <+: c.key
        · rw [show d.exec c = d from by by_contra e'; exact hs ⟨e, e'⟩]
        · exact list_out c e
      have hA' : Agrees txt raw cfg pos v w.tree (d.exec c) ks := by
        by_cases e : pos <+: c.key
        · rw [show d.exec c = d from by by_contra e'; exact hs ⟨e, e'⟩]; exact hA
        · intro k hk hsk
          rw [exec_frame hd c (fun e' => e (e' ▸ hsk))]
          exact hA k hk hsk
      obtain ⟨w', evs, i1, i2⟩ := ih hk' hdk' hv hr hd' h1 h2 (hl ▸ h3) hA'
      exact ⟨w', evs, by simp only [Db.snaps, hb, Bool.false_eq_true, if_false]; exact i1, i2⟩

/-! ## The property -/

/-- **C57** Load from consul and watch: after any sequence of changes of the database, when the plan's queries have returned once for each
change under the prefix, every key of the database under the prefix reads as its current value, every key that is not in the database any
more is not in the store, and no other entry is affected. Partial: the keys must be usable as store paths, changes between the reading and
the start of the watching are not seen, the value is a string or a byte slice depending on how it has arrived, and the server must not merge
changes. -/
theorem C57_follows_partial (str : κ → Str) (txt raw : List UInt8 → α) {s : Store α κ} (hs : s.loading = false)
    (h : Reach (NoRoute s.view.delim) s.tree) (hm : s.view.mode ≠ .up) (prefix' : Option Str) (cfg : Cfg) (pos : Str) {d : Db}
    (hd : d.OK) (i0 : Nat) (cs : List Etcd.Cmd)
    (hu : Usable cfg pos (Etcd.watcher s prefix').view (d.kv.map (·.key) ++ cs.map Etcd.Cmd.key))
    (habs : ∀ k ∈ cs.map Etcd.Cmd.key, pos <+: k → d.get k = none →
      ∀ q c, s.tree.contents q = some c → ¬ path cfg (Etcd.watcher s prefix').view k <+: q) :
    ∃ w evs, loadAndFollow str txt raw cfg pos s prefix' d i0 cs = .ok (w, evs) ∧ w.view = (Etcd.watcher s prefix').view ∧
      (∀ k ∈ d.kv.map (·.key) ++ cs.map Etcd.Cmd.key, pos <+: k →
        (∀ p, (d.run cs).get k = some p → ∃ x, (x = txt p.value ∨ x = raw p.value) ∧
          w.view.mustGet w.tree (cfg.normalizeKey k) = .ok (.atom x)) ∧
        ((d.run cs).get k = none → w.view.has w.tree (cfg.normalizeKey k) = .ok false)) ∧
      (∀ (r : View) (x : Str) c, r.delim = s.view.delim → s.tree.contents (r.full x) = some c →
        (∀ k ∈ d.kv.map (·.key) ++ cs.map Etcd.Cmd.key, pos <+: k → ¬ path cfg (Etcd.watcher s prefix').view k <+: r.full x) →
        r.query w.tree x = r.query s.tree x) := by
  have hdel : (Etcd.watcher s prefix').view.delim = s.view.delim := by rw [Etcd.watcher_view]
  have hmode : (Etcd.watcher s prefix').view.mode ≠ .up := by rw [Etcd.watcher_view]; exact hm
  generalize hks : d.kv.map (·.key) ++ cs.map Etcd.Cmd.key = ks at hu ⊢
  have hdk : ∀ p ∈ d.kv, p.key ∈ ks := fun p hp => by
    rw [← hks]; exact List.mem_append.mpr (.inl (List.mem_map.mpr ⟨p, hp, rfl⟩))
  -- the loading
  let e : Etcd.Db := ⟨0, d.kv.map (fun p => (p.key, p.value, p.create))⟩
  have eget : ∀ k, e.get k = (d.get k).map (fun p => (p.value, p.create)) := by
    intro k
    simp only [e, Etcd.Db.get, Db.get, List.find?_map, Option.map_map]
    rfl
  have esc : ∀ k, Etcd.Pvdr.inScope ⟨cfg, pos, true⟩ k = true ↔ pos <+: k := by
    intro k; simp [Etcd.Pvdr.inScope]
  have eread : (read cfg pos txt d : Store.Source α κ) = Etcd.Pvdr.read ⟨cfg, pos, true⟩ txt e := by
    simp only [read, Etcd.Pvdr.read, Db.list, e, List.filter_map, List.map_map]
    rfl
  obtain ⟨s', e1, e2, e3, e4, e5⟩ := Etcd.load_mirrors str txt hs h prefix' ⟨cfg, pos, true⟩ (d := e)
    (by simpa [e, List.map_map, Function.comp_def] using hd.nodup) (ks := ks)
    (by
      intro a ha
      obtain ⟨p, hp, rfl⟩ := List.mem_map.mp ha
      exact hdk p hp)
    ⟨fun k hk hsc => hu.ne k hk ((esc k).mp hsc), fun k hk hsc => hu.noBlank k hk ((esc k).mp hsc),
      fun k hk hsc => hu.noRoute k hk ((esc k).mp hsc), fun k hk k' hk' h1 h2 h3 => hu.free k hk k' hk' ((esc k).mp h1) ((esc k').mp h2) h3⟩
    (fun k hk hsc hn => by
      rw [eget, Option.map_eq_none_iff] at hn
      rw [← hks] at hk
      rcases List.mem_append.mp hk with hk | hk
      · obtain ⟨b, hb, rfl⟩ := List.mem_map.mp hk
        exact absurd rfl (get_none.mp hn b hb)
      · exact habs k hk ((esc k).mp hsc) hn)
  have hv' : (Etcd.watcher s' prefix').view = (Etcd.watcher s prefix').view := by
    rw [Etcd.watcher_view, Etcd.watcher_view, loadAt, loadAt, e2]
  have hr' : Reach (NoRoute (Etcd.watcher s prefix').view.delim) (Etcd.watcher s' prefix').tree := by
    rw [Etcd.watcher_tree, hdel]; exact e3
  have hA : Agrees txt raw cfg pos (Etcd.watcher s prefix').view (Etcd.watcher s' prefix').tree d ks := by
    rw [Etcd.watcher_tree]
    intro k hk hsk
    obtain ⟨m1, m2⟩ := e4 k hk ((esc k).mpr hsk)
    refine ⟨fun p hp => ?_, fun hn => m2 (by rw [eget, hn]; rfl)⟩
    obtain ⟨c, n1, n2, n3⟩ := m1 (p.value, p.create) (by rw [eget, hp]; rfl)
    exact ⟨c, n1, n2, .inl n3⟩
  -- the first query
  obtain ⟨w1, ev1, g1, g2, g3, g4, g5, g6, g7, g8⟩ : ∃ w1 ev1,
      ((Etcd.watcher s' prefix').applyChanges ⟨((Change.start true cfg).handle i0 (.pairs (d.list pos))).2.1,
        ((Change.start true cfg).handle i0 (.pairs (d.list pos))).2.2.map (fun a => (a.1, .atom (raw a.2)))⟩) = .ok (w1, ev1) ∧
      w1.view = (Etcd.watcher s prefix').view ∧ Reach (NoRoute (Etcd.watcher s prefix').view.delim) w1.tree ∧
      Agrees txt raw cfg pos (Etcd.watcher s prefix').view w1.tree d ks ∧
      Frame cfg pos (Etcd.watcher s prefix').view (Etcd.watcher s' prefix').tree w1.tree ks ∧
      ((Change.start true cfg).handle i0 (.pairs (d.list pos))).1.val = .pairs (d.list pos) ∧
      ((Change.start true cfg).handle i0 (.pairs (d.list pos))).1.cfg = cfg ∧
      ((Change.start true cfg).handle i0 (.pairs (d.list pos))).1.recursive = true := by
    by_cases hc : ∃ p ∈ d.list pos, p.create = i0 ∨ p.modify = i0
    · obtain ⟨j1, j2, j3, j4, j5⟩ := Change.C37_changed (Change.start true cfg) rfl i0 (d.list pos) hc
      obtain ⟨w1, ev1, g1, g2, g3, g4, g5⟩ := write_agrees (txt := txt) (raw := raw) (d' := d) hu hmode hv' hr' hA
        ((d.list pos).filter (fun p => p.create == i0 || p.modify == i0))
        (fun p hp => by
          obtain ⟨hp, hsp⟩ := list_mem.mp (List.mem_filter.mp hp).1
          exact ⟨hdk p hp, hsp, (get_some hd).mpr ⟨hp, rfl⟩⟩)
        (fun k _ _ => rfl)
        (ev := ⟨((Change.start true cfg).handle i0 (.pairs (d.list pos))).2.1,
          ((Change.start true cfg).handle i0 (.pairs (d.list pos))).2.2.map (fun a => (a.1, .atom (raw a.2)))⟩)
        (by
          rcases j2 with j2 | j2
          · left; simp [Change.has, j2, Remote.opCreate, opCreate]
          · right; simp [Change.has, j2, Remote.opWrite, opWrite])
        (by simp only [j1, List.map_map]; rfl)
      exact ⟨w1, ev1, g1, g2, g3, g4, g5, j3, j4, j5⟩
    · have hc' : ∀ p ∈ d.list pos, p.create ≠ i0 ∧ p.modify ≠ i0 := fun p hp =>
        ⟨fun e => hc ⟨p, hp, .inl e⟩, fun e => hc ⟨p, hp, .inr e⟩⟩
      obtain ⟨j1, j2, j3, j4, j5⟩ := Change.C37_removed (Change.start true cfg) rfl i0 (d.list pos) hc'
      refine ⟨Etcd.watcher s' prefix', [], ?_, hv', hr', hA, fun _ _ h _ => h, j3, j4, j5⟩
      rw [j1, j2, show Change.prev (Change.start true cfg).val = [] from rfl]
      simp [applyChanges, Change.has, opCreate, opWrite, opRemove, Remote.opRemove, removeAll]
  obtain ⟨w, evs, f1, f2, f3, f4, f5⟩ := follow_spec (txt := txt) (raw := raw) hu hmode cs (w := w1) (d := d)
    (fun c hc => by rw [← hks]; exact List.mem_append.mpr (.inr (List.mem_map.mpr ⟨c, hc, rfl⟩))) hdk g2 g3 hd g8 g7 g6 g4
  refine ⟨w, ev1 ++ evs, ?_, f2, ?_, ?_⟩
  · rw [loadAndFollow, eread, e1]
    simp only [follow, g1, f1]
  · intro k hk hsc
    rw [f2]
    refine ⟨fun p hp => ?_, fun hn => ?_⟩
    · obtain ⟨c, n1, n2, n3⟩ := (f4 k hk hsc).1 p hp
      rcases n3 with n3 | n3
      · exact ⟨_, .inl rfl, by rw [mustGet_hit f3.ok f3.plain (resolve_at n1), n2, n3]; rfl⟩
      · exact ⟨_, .inr rfl, by rw [mustGet_hit f3.ok f3.plain (resolve_at n1), n2, n3]; rfl⟩
    · rw [has_plain f3.ok f3.plain hmode]
      have hno := (f4 k hk hsc).2 hn
      have n1 : w.tree.contents (path cfg (Etcd.watcher s prefix').view k) = none := by
        cases e : w.tree.contents (path cfg (Etcd.watcher s prefix').view k) with
        | none => rfl
        | some c => exact absurd List.prefix_rfl (hno _ c e)
      have n2 : w.tree.contents (path cfg (Etcd.watcher s prefix').view k ++ [(Etcd.watcher s prefix').view.delim]) = none := by
        cases e : w.tree.contents (path cfg (Etcd.watcher s prefix').view k ++ [(Etcd.watcher s prefix').view.delim]) with
        | none => rfl
        | some c => exact absurd (List.prefix_append _ _) (hno _ c e)
      have : resolve (Etcd.watcher s prefix').view.delim w.tree.contents (path cfg (Etcd.watcher s prefix').view k) = none := by
        simp only [resolve, n1, n2, Option.map_none, ite_self]
      rw [path] at this
      rw [this]; rfl
  · intro r x c hr hc hx
    have hc' := f5 _ c (g5 _ c (by rw [Etcd.watcher_tree]; exact e5 _ c hc (fun k hk h => hx k hk ((esc k).mp h))) hx) hx
    have f3' : Reach (NoRoute r.delim) w.tree := by rw [hr, ← hdel]; exact f3
    have h' : Reach (NoRoute r.delim) s.tree := by rw [hr]; exact h
    rw [query_hit f3'.ok f3'.plain (resolve_at hc'), query_hit h'.ok h'.plain (resolve_at hc)]

/-! ## Examples and disagreements -/

/-- Strip "app/" and use "." for "/". -/
def exC : Cfg := ⟨"app".toList, [], ".".toList⟩
def exD : Db := ⟨7, [⟨"app/a/x".toList, [1], 3, 4⟩, ⟨"app/b".toList, [1, 2], 5, 5⟩, ⟨"other".toList, [], 6, 7⟩]⟩
/-- A value that `Read` has made (its length) and one that a change has made (its length and 100). -/
def exTxt (l : List UInt8) : Nat := l.length
def exRaw (l : List UInt8) : Nat := l.length + 100

example : exD.OK := ⟨by decide +kernel, by decide +kernel, by decide +kernel⟩

/-- The hypotheses are met: keys are put, changed, deleted and put again; keys outside of the prefix play no role. -/
example : let cs : List Etcd.Cmd := [.put "app/a/y".toList [1, 2, 3], .del "app/b".toList, .put "other".toList [1], .del "app/zz".toList,
      .put "app/c".toList [], .del "app/c".toList]
    let r := loadAndFollow itoa exTxt exRaw exC "app/".toList (S0.new false) none exD 5 cs
    (Etcd.got "a.x" r, Etcd.got "a.y" r, Etcd.got "b" r, Etcd.got "c" r, Etcd.got "other" r) = (some 1, some 103, none, none, none) ∧
    Usable exC "app/".toList (Etcd.watcher (S0.new false) none).view (exD.kv.map (·.key) ++ cs.map Etcd.Cmd.key) := by
  refine ⟨by decide +kernel, by decide +kernel, by decide +kernel, ?_, by decide +kernel⟩
  intro k hk hs
  refine noRoute_of_plain ?_ ?_
  · revert k; decide +kernel
  · revert k; decide +kernel

/-- A value changes its type although nobody has changed it: the plan's first query returns at once, and the pairs that carry its index are
written again, as byte slices, marked as modified, and reported to the handlers. The other pairs stay strings. -/
theorem C57_type_fails : let r := loadAndFollow itoa exTxt exRaw exC "app/".toList Etcd.exH none exD 5 []
    (Etcd.got "a.x" r, Etcd.got "b" r, Etcd.calls r, Etcd.marked "b" r) = (some 1, some 102, some 1, some true) := by decide +kernel

/-- When the server answers once for two changes, only the later one arrives: the store keeps the old value of "app/b" and never learns
of the deletion of "app/a/x". -/
theorem C57_merged_fails : let cs : List Etcd.Cmd := [.put "app/b".toList [], .del "app/a/x".toList, .put "app/c".toList [1]]
    let s1 := ((S0.new false).load itoa none none (read exC "app/".toList exTxt exD)).1
    let d' := exD.run cs
    let r := follow exRaw (Change.start true exC) s1 [(5, .pairs (exD.list "app/".toList)), (d'.idx, .pairs (d'.list "app/".toList))]
    (Etcd.got "a.x" r, Etcd.got "b" r, Etcd.got "c" r) = (some 1, some 102, some 101) ∧
    (d'.list "app/".toList).map (fun p => (p.key, p.value)) = [("app/c".toList, [1]), ("app/b".toList, [])] := by decide +kernel

/-- Changes between the reading and the start of the watching: a deletion is lost, and of the writes only the last arrives. -/
theorem C57_gap_fails : let cs : List Etcd.Cmd := [.put "app/b".toList [], .del "app/a/x".toList, .put "app/c".toList [1]]
    let s1 := ((S0.new false).load itoa none none (read exC "app/".toList exTxt exD)).1
    let d' := exD.run cs
    let r := follow exRaw (Change.start true exC) s1 [(d'.idx, .pairs (d'.list "app/".toList))]
    (Etcd.got "a.x" r, Etcd.got "b" r, Etcd.got "c" r) = (some 1, some 2, some 101) := by decide +kernel

end Consul
end Verif

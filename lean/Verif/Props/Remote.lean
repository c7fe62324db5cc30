import Verif.Model.Remote
import Mathlib.Tactic.ByContra
/-
C32: key normalisation; C37: change detection of the consul provider; C41: events of the etcd provider.
-/
namespace Verif
namespace Remote

/-! ## C32 -/

theorem trimPrefix_hit (p x : Str) : trimPrefix p (p ++ x) = x := by
  simp [trimPrefix]

theorem trimPrefix_miss {p s : Str} (h : ¬ p <+: s) : trimPrefix p s = s := by
  have : p.isPrefixOf s = false := by rw [Bool.eq_false_iff]; intro e; exact h (List.isPrefixOf_iff_prefix.mp e)
  simp [trimPrefix, this]

theorem replaceSlash_append (d a b : Str) : replaceSlash d (a ++ b) = replaceSlash d a ++ replaceSlash d b := by
  simp [replaceSlash]

theorem replaceSlash_free {d s : Str} (h : '/' ∉ s) : replaceSlash d s = s := by
  induction s with
  | nil => rfl
  | cons c s ih =>
    simp only [List.mem_cons, not_or] at h
    have := ih h.2
    simp only [replaceSlash, List.flatMap_cons] at *
    rw [this, if_neg (Ne.symm h.1)]
    rfl

/-- **C32.** The configured prefix is cut off exactly if a slash follows it; nothing else happens to the beginning. -/
theorem C32_strip (c : Cfg) (hs : c.strip ≠ []) :
    (∀ x, c.normalizeKey (c.strip ++ '/' :: x) = ({ c with strip := [] } : Cfg).normalizeKey x) ∧
    ∀ k, ¬ (c.strip ++ ['/']) <+: k → c.normalizeKey k = ({ c with strip := [] } : Cfg).normalizeKey k := by
  constructor
  · intro x
    have : trimPrefix (c.strip ++ ['/']) (c.strip ++ '/' :: x) = x := by
      rw [show c.strip ++ '/' :: x = (c.strip ++ ['/']) ++ x by simp]; exact trimPrefix_hit _ _
    simp [Cfg.normalizeKey, hs, this]
  · intro k h
    simp [Cfg.normalizeKey, hs, trimPrefix_miss h]

/-- **C32.** The configured prefix is put in front, separated by the delimiter. -/
theorem C32_prepend (c : Cfg) (hp : c.prepend ≠ []) (hd : '/' ∉ c.delim) (k : Str) :
    c.normalizeKey k = ({ c with strip := [], prepend := [] } : Cfg).normalizeKey c.prepend ++ c.delim ++
      ({ c with prepend := [] } : Cfg).normalizeKey k := by
  by_cases h0 : c.delim = []
  · simp [Cfg.normalizeKey, hp, h0]
  · simp [Cfg.normalizeKey, hp, h0, replaceSlash_append, replaceSlash_free hd]

/-- **C32.** No slash is left if the delimiter has none. -/
theorem C32_no_slash (c : Cfg) (h0 : c.delim ≠ []) (hd : '/' ∉ c.delim) (k : Str) : '/' ∉ c.normalizeKey k := by
  have key : ∀ s, '/' ∉ replaceSlash c.delim s := by
    intro s h
    obtain ⟨x, _, hx⟩ := List.mem_flatMap.mp h
    by_cases e : x = '/'
    · rw [if_pos e] at hx; exact hd hx
    · rw [if_neg e] at hx
      exact e (List.mem_singleton.mp hx).symm
  simp only [Cfg.normalizeKey, ne_eq, h0, not_false_eq_true, if_true]
  exact key _

theorem replaceSlash_inj {d : Str} {d0 : Char} {d' : Str} (hd : d = d0 :: d') : ∀ (x y : Str),
    (∀ c ∈ x, c = d0 → c = '/') → (∀ c ∈ y, c = d0 → c = '/') → replaceSlash d x = replaceSlash d y → x = y := by
  intro x
  induction x with
  | nil =>
    intro y _ _ h
    cases y with
    | nil => rfl
    | cons c y =>
      simp only [replaceSlash, List.flatMap_nil, List.flatMap_cons] at h
      by_cases e : c = '/' <;> simp [e, hd] at h
  | cons a x ih =>
    intro y hx hy h
    cases y with
    | nil =>
      simp only [replaceSlash, List.flatMap_nil, List.flatMap_cons] at h
      by_cases e : a = '/' <;> simp [e, hd] at h
    | cons b y =>
      have hx' : ∀ c ∈ x, c = d0 → c = '/' := fun c hc => hx c (by simp [hc])
      have hy' : ∀ c ∈ y, c = d0 → c = '/' := fun c hc => hy c (by simp [hc])
      simp only [replaceSlash, List.flatMap_cons] at h
      by_cases ea : a = '/' <;> by_cases eb : b = '/'
      · rw [if_pos ea, if_pos eb] at h
        rw [ea, eb, ih y hx' hy' (List.append_cancel_left h)]
      · rw [if_pos ea, if_neg eb, hd] at h
        simp only [List.cons_append, List.nil_append, List.cons.injEq] at h
        exact absurd (hy b (by simp) h.1.symm) eb
      · rw [if_neg ea, if_pos eb, hd] at h
        simp only [List.cons_append, List.nil_append, List.cons.injEq] at h
        exact absurd (hx a (by simp) h.1) ea
      · rw [if_neg ea, if_neg eb] at h
        simp only [List.cons_append, List.nil_append, List.cons.injEq] at h
        rw [h.1, ih y hx' hy' h.2]

/-- A key under the strip prefix. -/
def under (c : Cfg) (x : Str) : Str := if c.strip = [] then x else c.strip ++ '/' :: x

/-- **C32.** Injective on keys under the strip prefix which do not contain the delimiter, more exactly (for delimiters of several
characters) its first character. A delimiter that is not configured changes nothing. -/
theorem C32_injective (c : Cfg) (x y : Str)
    (hx : ∀ d0, c.delim.head? = some d0 → d0 ≠ '/' → d0 ∉ x) (hy : ∀ d0, c.delim.head? = some d0 → d0 ≠ '/' → d0 ∉ y)
    (h : c.normalizeKey (under c x) = c.normalizeKey (under c y)) : x = y := by
  have e : ∀ z, c.normalizeKey (under c z) = ({ c with strip := [] } : Cfg).normalizeKey z := by
    intro z
    by_cases hs : c.strip = []
    · simp [under, hs, Cfg.normalizeKey]
    · rw [under, if_neg hs, (C32_strip c hs).1]
  rw [e, e] at h
  have inj : ∀ a b : Str, (∀ d0, c.delim.head? = some d0 → d0 ≠ '/' → d0 ∉ a) →
      (∀ d0, c.delim.head? = some d0 → d0 ≠ '/' → d0 ∉ b) →
      c.delim ≠ [] → replaceSlash c.delim a = replaceSlash c.delim b → a = b := by
    intro a b ha hb h0 h
    cases hd : c.delim with
    | nil => exact absurd hd h0
    | cons d0 d' =>
      rw [hd] at ha hb h
      refine replaceSlash_inj rfl a b ?_ ?_ h
      · intro q hq e
        by_contra hc
        exact ha q (by rw [e]; rfl) hc hq
      · intro q hq e
        by_contra hc
        exact hb q (by rw [e]; rfl) hc hq
  by_cases h0 : c.delim = [] <;> by_cases hp : c.prepend = []
  · simpa [Cfg.normalizeKey, h0, hp] using h
  · simpa [Cfg.normalizeKey, h0, hp] using h
  · simp only [Cfg.normalizeKey, ne_eq, not_true_eq_false, if_false, h0, hp, not_false_eq_true, if_true] at h
    exact inj x y hx hy h0 h
  · simp only [Cfg.normalizeKey, ne_eq, not_true_eq_false, if_false, h0, hp, not_false_eq_true, if_true,
      replaceSlash_append] at h
    exact inj x y hx hy h0 (List.append_cancel_left h)

example : let c : Cfg := ⟨"app".toList, "x".toList, ".".toList⟩
    c.normalizeKey "app/db/host".toList = "x.db.host".toList ∧ c.normalizeKey "apps/y".toList = "x.apps.y".toList := by
  decide +kernel

/-- Without the restriction to one side of the strip prefix two keys can collide. -/
theorem C32_outside_fails : let c : Cfg := ⟨"app".toList, [], ".".toList⟩
    c.normalizeKey "app/db".toList = c.normalizeKey "db".toList := by decide +kernel

/-- A delimiter of several equal characters can run together with a character of the key, although the keys do not contain
the delimiter. -/
theorem C32_overlap_fails : let c : Cfg := ⟨[], [], "::".toList⟩
    c.normalizeKey "a:/b".toList = c.normalizeKey "a/:b".toList := by decide +kernel

/-- Keys with the delimiter collide. -/
theorem C32_delim_fails : let c : Cfg := ⟨[], [], ".".toList⟩
    c.normalizeKey "a.b".toList = c.normalizeKey "a/b".toList := by decide +kernel

/-- A prefix without a delimiter is put in front without a separator; a delimiter with a slash is expanded twice. -/
theorem C32_separator_fails :
    (⟨[], "app".toList, []⟩ : Cfg).normalizeKey "db".toList = "appdb".toList ∧
    (⟨[], "app".toList, "//".toList⟩ : Cfg).normalizeKey "db".toList = "app////db".toList := by decide +kernel

/-! ## C37 -/

namespace Change

/-- The pair was created or modified at the index. -/
def carries (i : Nat) (p : Pair) : Bool := p.create == i || p.modify == i

theorem checkOpIndex_eq (s : Change) (p : Pair) :
    s.checkOpIndex p = (if carries s.index p then { s with lastOp := if p.create = s.index then opCreate else opWrite } else s,
      carries s.index p) := by
  rw [checkOpIndex, carries]
  by_cases h1 : p.create = s.index
  · simp [h1]
  · by_cases h2 : p.modify = s.index <;> simp [h1, h2]

/-- The operation of an event with changed pairs: that of the first one. -/
def firstOp (i : Nat) (l : List Pair) : Nat :=
  match l.filter (carries i) with
  | p :: _ => if p.create = i then opCreate else opWrite
  | [] => opRemove

theorem findPair_eq (s : Change) (l : List Pair) :
    s.findPair l = (if l.any (carries s.index) then { s with lastOp := firstOp s.index l } else s, l.any (carries s.index)) := by
  induction l with
  | nil => rfl
  | cons p l ih =>
    rw [findPair, checkOpIndex_eq]
    cases h : carries s.index p with
    | true => simp [h, firstOp]
    | false => simp [h, ih, firstOp]

/-- Only the position and the last operation differ. -/
structure Same (s s' : Change) : Prop where
  val : s'.val = s.val
  cfg : s'.cfg = s.cfg
  index : s'.index = s.index
  recursive : s'.recursive = s.recursive

theorem Same.refl (s : Change) : Same s s := ⟨rfl, rfl, rfl, rfl⟩
theorem Same.trans {a b c : Change} (h : Same a b) (h' : Same b c) : Same a c :=
  ⟨h'.val.trans h.val, h'.cfg.trans h.cfg, h'.index.trans h.index, h'.recursive.trans h.recursive⟩

def out (c : Cfg) (l : List Pair) : List (Str × List UInt8) := l.map (fun p => (c.normalizeKey p.key, p.value))

theorem nextPair_changed (r : List Pair) : ∀ (s : Change), s.lastOp ≠ opRemove →
    Same s (s.nextPair r).1 ∧ (s.nextPair r).1.lastOp ≠ opRemove ∧
    match (s.nextPair r).2 with
    | none => r.filter (carries s.index) = []
    | some kv => ∃ r1 p r2, r = r1 ++ p :: r2 ∧ r1.filter (carries s.index) = [] ∧ carries s.index p = true ∧
        kv = (s.cfg.normalizeKey p.key, p.value) ∧ (s.nextPair r).1.idx = s.idx + r1.length + 1 := by
  induction r with
  | nil => intro s h; exact ⟨Same.refl s, h, rfl⟩
  | cons p r ih =>
    intro s h
    rw [nextPair, if_neg h, checkOpIndex_eq]
    cases hc : carries s.index p with
    | true =>
      refine ⟨⟨rfl, rfl, rfl, rfl⟩, ?_, ⟨[], p, r, rfl, rfl, hc, rfl, rfl⟩⟩
      show (if p.create = s.index then opCreate else opWrite) ≠ opRemove
      split <;> decide
    | false =>
      simp only [Bool.false_eq_true, if_false]
      obtain ⟨h1, h2, h3⟩ := ih { s with idx := s.idx + 1 } h
      refine ⟨⟨h1.val, h1.cfg, h1.index, h1.recursive⟩, h2, ?_⟩
      revert h3
      generalize hn : nextPair { s with idx := s.idx + 1 } r = n
      intro h3
      rcases n with ⟨s', _ | kv⟩
      · simpa [hc] using h3
      · obtain ⟨r1, q, r2, e1, e2, e3, e4, e5⟩ := h3
        refine ⟨p :: r1, q, r2, by rw [e1]; rfl, by simpa [hc] using e2, e3, e4, ?_⟩
        simp only [List.length_cons] at *
        omega

theorem drain_changed (n : Nat) : ∀ (s : Change) (l : List Pair), s.recursive = true → s.val = .pairs l →
    s.lastOp ≠ opRemove → (l.drop s.idx).length < n →
    (drain n s).2 = out s.cfg ((l.drop s.idx).filter (carries s.index)) ∧ Same s (drain n s).1 := by
  induction n with
  | zero => intro s l _ _ _ h; omega
  | succ n ih =>
    intro s l hr hv ho hn
    have hnext : s.next = s.nextPair (l.drop s.idx) := by rw [next, if_pos hr, hv]
    obtain ⟨h1, h2, h3⟩ := nextPair_changed (l.drop s.idx) s ho
    rw [drain, hnext]
    generalize s.nextPair (l.drop s.idx) = r at *
    rcases r with ⟨s', _ | kv⟩
    · exact ⟨by rw [show (l.drop s.idx).filter (carries s.index) = [] from h3]; rfl, h1⟩
    · obtain ⟨r1, q, r2, e1, e2, e3, e4, e5⟩ := h3
      have hdrop : l.drop s'.idx = r2 := by
        have : l.drop s'.idx = (l.drop s.idx).drop (r1.length + 1) := by
          rw [List.drop_drop, ← Nat.add_assoc, ← e5]
        rw [this, e1, List.drop_append]
        simp
      have hlen : (l.drop s.idx).length = r1.length + 1 + r2.length := by rw [e1]; simp; try omega
      obtain ⟨i1, i2⟩ := ih s' l (by rw [← hr]; exact h1.recursive) (by rw [← hv]; exact h1.val) h2
        (by rw [hdrop]; omega)
      refine ⟨?_, h1.trans i2⟩
      show kv :: (drain n s').2 = _
      rw [i1, hdrop, e1, List.filter_append, e2, List.nil_append, List.filter_cons_of_pos e3, e4,
        show s'.cfg = s.cfg from h1.cfg, show s'.index = s.index from h1.index]
      rfl

theorem drain_removed (n : Nat) : ∀ (s : Change) (l : List Pair), s.recursive = true → s.val = .pairs l →
    s.lastOp = opRemove → (l.drop s.idx).length < n →
    (drain n s).2 = out s.cfg (l.drop s.idx) ∧ Same s (drain n s).1 := by
  induction n with
  | zero => intro s l _ _ _ h; omega
  | succ n ih =>
    intro s l hr hv ho hn
    have hnext : s.next = s.nextPair (l.drop s.idx) := by rw [next, if_pos hr, hv]
    rw [drain, hnext]
    cases hd : l.drop s.idx with
    | nil => exact ⟨rfl, Same.refl s⟩
    | cons p r =>
      rw [nextPair, if_pos ho]
      have hr' : l.drop (s.idx + 1) = r := by
        rw [← List.drop_drop, hd]; rfl
      obtain ⟨i1, i2⟩ := ih { s with idx := s.idx + 1 } l hr hv ho (by
        show (l.drop (s.idx + 1)).length < n
        rw [hr']; rw [hd] at hn; simp only [List.length_cons] at hn; omega)
      refine ⟨?_, ⟨i2.val, i2.cfg, i2.index, i2.recursive⟩⟩
      show _ :: (drain n { s with idx := s.idx + 1 }).2 = _
      rw [i1]
      show _ :: out s.cfg (l.drop (s.idx + 1)) = _
      rw [hr']
      rfl

/-- **C37.** If a pair of the new snapshot carries the new index, the event yields exactly the pairs created or modified at
it, in the order of the snapshot; its operation is that of the first of them. The snapshot is kept. -/
theorem C37_changed (s : Change) (hr : s.recursive = true) (i : Nat) (l : List Pair)
    (h : ∃ p ∈ l, p.create = i ∨ p.modify = i) :
    let e := s.handle i (.pairs l)
    e.2.2 = (l.filter (fun p => p.create == i || p.modify == i)).map (fun p => (s.cfg.normalizeKey p.key, p.value)) ∧
    (e.2.1 = opCreate ∨ e.2.1 = opWrite) ∧ e.1.val = .pairs l ∧ e.1.cfg = s.cfg ∧ e.1.recursive = true := by
  have hany : l.any (carries i) = true := by
    obtain ⟨p, hp, h⟩ := h
    rw [List.any_eq_true]
    exact ⟨p, hp, by rcases h with h | h <;> simp [carries, h]⟩
  have hop : firstOp i l = opCreate ∨ firstOp i l = opWrite := by
    rw [firstOp]
    cases hf : l.filter (carries i) with
    | nil =>
      rw [List.any_eq_true] at hany
      obtain ⟨p, hp, hc⟩ := hany
      have : p ∈ l.filter (carries i) := List.mem_filter.mpr ⟨hp, hc⟩
      rw [hf] at this; cases this
    | cons p r =>
      dsimp only
      split
      · exact .inl rfl
      · exact .inr rfl
  have hset : s.set (.pairs l) i = (⟨true, s.cfg, .pairs l, 0, i, firstOp i l⟩, none) := by
    rcases s with ⟨rec, cfg, val, idx, index, op⟩
    cases hr
    rw [set]
    simp only [findPair_eq, hany, if_true]
  obtain ⟨d1, d2⟩ := drain_changed (l.length + 1) ⟨true, s.cfg, .pairs l, 0, i, firstOp i l⟩ l rfl rfl
    (by rcases hop with h | h <;> (show firstOp i l ≠ opRemove) <;> rw [h] <;> decide) (by simp)
  have hh : s.handle i (.pairs l) = ((drain (l.length + 1) ⟨true, s.cfg, .pairs l, 0, i, firstOp i l⟩).1, firstOp i l,
      (drain (l.length + 1) ⟨true, s.cfg, .pairs l, 0, i, firstOp i l⟩).2) := by
    rw [handle, hset]; rfl
  dsimp only
  rw [hh]
  exact ⟨d1, hop, d2.val, d2.cfg, d2.recursive⟩

/-- The pairs of the previous snapshot (none before the first one). -/
def prev : Val → List Pair
  | .pairs o => o
  | _ => []

/-- **C37.** Otherwise the event reports as removed exactly the pairs of the previous snapshot whose keys are missing from
the new one. The new snapshot is kept. -/
theorem C37_removed (s : Change) (hr : s.recursive = true) (i : Nat) (l : List Pair)
    (h : ∀ p ∈ l, p.create ≠ i ∧ p.modify ≠ i) :
    let e := s.handle i (.pairs l)
    let old := prev s.val
    e.2.2 = (old.filter (fun p => decide (∀ q ∈ l, q.key ≠ p.key))).map (fun p => (s.cfg.normalizeKey p.key, p.value)) ∧
    e.2.1 = opRemove ∧ e.1.val = .pairs l ∧ e.1.cfg = s.cfg ∧ e.1.recursive = true := by
  have hany : l.any (carries i) = false := by
    rw [Bool.eq_false_iff]
    intro hc
    rw [List.any_eq_true] at hc
    obtain ⟨p, hp, hc⟩ := hc
    have := h p hp
    simp [carries, this.1, this.2] at hc
  have hset : s.set (.pairs l) i = (⟨true, s.cfg, .pairs (removed s.val l), 0, i, opRemove⟩, some (.pairs l)) := by
    rcases s with ⟨rec, cfg, val, idx, index, op⟩
    cases hr
    rw [set]
    simp only [findPair_eq, hany, if_true, Bool.false_eq_true, if_false]
  obtain ⟨d1, d2⟩ := drain_removed ((removed s.val l).length + 1) ⟨true, s.cfg, .pairs (removed s.val l), 0, i, opRemove⟩
    (removed s.val l) rfl rfl rfl (by simp)
  have hh : s.handle i (.pairs l) =
      ({ (drain ((removed s.val l).length + 1) ⟨true, s.cfg, .pairs (removed s.val l), 0, i, opRemove⟩).1 with val := .pairs l },
        opRemove, (drain ((removed s.val l).length + 1) ⟨true, s.cfg, .pairs (removed s.val l), 0, i, opRemove⟩).2) := by
    rw [handle, hset]; rfl
  have hrem : removed s.val l = (prev s.val).filter (fun p => decide (∀ q ∈ l, q.key ≠ p.key)) := by
    generalize s.val = x
    cases x with
    | pairs o =>
      show o.filter _ = o.filter _
      apply List.filter_congr
      intro p _
      rw [← Bool.coe_iff_coe, Bool.not_eq_true', Bool.eq_false_iff, decide_eq_true_eq, Ne, List.any_eq_true]
      constructor
      · intro h q hq e
        exact h ⟨q, hq, by simp [e]⟩
      · rintro h ⟨q, hq, e⟩
        exact h q hq (by simpa using Eq.symm (beq_iff_eq.mp e))
    | pair p => rfl
    | nil => rfl
  dsimp only
  rw [hh]
  refine ⟨?_, rfl, rfl, d2.cfg, d2.recursive⟩
  rw [← hrem]
  exact d1

/-- What the events of a sequence of snapshots should be, given the snapshot before. -/
def expected (c : Cfg) : List Pair → List (Nat × List Pair) → List (List (Str × List UInt8))
  | _, [] => []
  | old, (i, l) :: r =>
    (if ∃ p ∈ l, p.create = i ∨ p.modify = i then out c (l.filter (fun p => p.create == i || p.modify == i))
    else out c (old.filter (fun p => decide (∀ q ∈ l, q.key ≠ p.key)))) :: expected c l r

/-- **C37.** For every sequence of snapshots, each event is determined by its snapshot and the one before. -/
theorem C37_history (c : Cfg) (snaps : List (Nat × List Pair)) :
    ((start true c).events (snaps.map (fun a => (a.1, .pairs a.2)))).map (·.2) = expected c [] snaps := by
  have key : ∀ (snaps : List (Nat × List Pair)) (s : Change) (old : List Pair), s.recursive = true → s.cfg = c →
      prev s.val = old →
      (s.events (snaps.map (fun a => (a.1, .pairs a.2)))).map (·.2) = expected c old snaps := by
    intro snaps
    induction snaps with
    | nil => intros; rfl
    | cons a r ih =>
      intro s old hr hc hold
      obtain ⟨i, l⟩ := a
      simp only [List.map_cons, events, expected]
      by_cases h : ∃ p ∈ l, p.create = i ∨ p.modify = i
      · obtain ⟨h1, _, h3, h4, h5⟩ := C37_changed s hr i l h
        rw [if_pos h, ih _ l h5 (h4.trans hc) (by rw [h3]; rfl), h1, hc]
        rfl
      · have h' : ∀ p ∈ l, p.create ≠ i ∧ p.modify ≠ i := by
          intro p hp
          exact ⟨fun e => h ⟨p, hp, .inl e⟩, fun e => h ⟨p, hp, .inr e⟩⟩
        obtain ⟨h1, _, h3, h4, h5⟩ := C37_removed s hr i l h'
        rw [if_neg h, ih _ l h5 (h4.trans hc) (by rw [h3]; rfl), h1, hold, hc]
        rfl
  exact key snaps (start true c) [] rfl rfl rfl

/-- A history with a creation, a modification and a removal. -/
example : let c : Cfg := ⟨[], [], ".".toList⟩
    (start true c).events [(5, .pairs [⟨"a/x".toList, [1], 5, 5⟩]), (7, .pairs [⟨"a/x".toList, [1], 5, 5⟩, ⟨"b".toList, [2], 7, 7⟩]),
      (8, .pairs [⟨"a/x".toList, [3], 5, 8⟩, ⟨"b".toList, [2], 7, 7⟩]), (9, .pairs [⟨"b".toList, [2], 7, 7⟩])] =
    [(opCreate, [("a.x".toList, [1])]), (opCreate, [("b".toList, [2])]), (opWrite, [("a.x".toList, [3])]),
      (opRemove, [("a.x".toList, [3])])] := by decide +kernel

/-- Outside the claim: a key removed together with a change (in one transaction) is never reported. -/
theorem C37_mixed_loses_removal : let c : Cfg := ⟨[], [], []⟩
    (start true c).events [(5, .pairs [⟨"a".toList, [1], 5, 5⟩, ⟨"b".toList, [2], 5, 5⟩]), (6, .pairs [⟨"b".toList, [3], 5, 6⟩]),
      (7, .pairs [⟨"b".toList, [3], 5, 6⟩])] =
    [(opCreate, [("a".toList, [1]), ("b".toList, [2])]), (opWrite, [("b".toList, [3])]), (opRemove, [])] := by decide +kernel

/-- Watching a single key: a change is reported with its pair. -/
theorem C37_single (s : Change) (hr : s.recursive = false) (i : Nat) (p : Pair) (h : p.create = i ∨ p.modify = i) :
    let e := s.handle i (.pair p)
    e.2.2 = [(s.cfg.normalizeKey p.key, p.value)] ∧ (e.2.1 = opCreate ∨ e.2.1 = opWrite) ∧ e.1.val = .pair p := by
  rcases s with ⟨rec, cfg, val, idx, index, op⟩
  cases hr
  have hc : carries i p = true := by rcases h with h | h <;> simp [carries, h]
  simp only [handle, set, checkOpIndex_eq, hc, if_true, Bool.false_eq_true, if_false, size, drain, next]
  simp only [Nat.zero_add, Nat.one_ne_zero, if_false]
  exact ⟨trivial, by split <;> simp, trivial⟩

/-- The removal of a single watched key is not reported: the plan's handler gets nil, the event repeats the last operation and
has no pairs. -/
theorem C37_single_removal_fails : let c : Cfg := ⟨[], [], []⟩
    (start false c).events [(5, .pair ⟨"a".toList, [1], 5, 5⟩), (6, .nil)] =
    [(opCreate, [("a".toList, [1])]), (opCreate, [])] := by decide +kernel

end Change

/-! ## C41 -/

/-- **C41.** An etcd event is classified as exactly one of creation, modification and removal (a put by whether its revisions
agree), except a deletion with equal revisions, which gets none; and it yields exactly one pair. -/
theorem C41_etcd (c : Cfg) (e : EtcdEvent) :
    (e.op = opCreate ↔ e.delete = false ∧ e.createRev = e.modRev) ∧
    (e.op = opWrite ↔ e.delete = false ∧ e.createRev ≠ e.modRev) ∧
    (e.op = opRemove ↔ e.delete = true ∧ e.createRev ≠ e.modRev) ∧
    (e.op = 0 ↔ e.delete = true ∧ e.createRev = e.modRev) ∧
    e.next c 0 = some (c.normalizeKey e.key, e.value) ∧ ∀ i, 0 < i → e.next c i = none := by
  rcases e with ⟨d, k, x, a, b⟩
  refine ⟨?_, ?_, ?_, ?_, rfl, fun i hi => ?_⟩
  · by_cases h : a = b <;> cases d <;> simp [EtcdEvent.op, h, opCreate, opWrite, opRemove]
  · by_cases h : a = b <;> cases d <;> simp [EtcdEvent.op, h, opCreate, opWrite, opRemove]
  · by_cases h : a = b <;> cases d <;> simp [EtcdEvent.op, h, opCreate, opWrite, opRemove]
  · by_cases h : a = b <;> cases d <;> simp [EtcdEvent.op, h, opCreate, opWrite, opRemove]
  · show (if i = 0 then _ else none) = none
    rw [if_neg (by omega)]

example : (⟨false, "a/b".toList, [1], 3, 3⟩ : EtcdEvent).op = opCreate ∧ (⟨true, "a/b".toList, [], 0, 9⟩ : EtcdEvent).op = opRemove := by
  decide

end Remote
end Verif

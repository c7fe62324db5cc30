import Verif.Props.Remove
import Verif.Props.Load
import Verif.Props.StoreRead
/-
C63: histories that mix all writing calls.

The specification is an abstract map from full paths to values and what each call does to it, given the
boolean that the call returned.
-/
namespace Verif
variable {α : Type}

/-- The value stored at a full path, if the entry there carries data. -/
def Tree.dataAt (t : Tree α) (q : Str) : Option α :=
  match t.contents q with
  | some c => if c.hasData then some c.data else none
  | none => none

theorem Tree.dataAt_eq {t t' : Tree α} {q : Str} (h : t.contents q = t'.contents q) : t.dataAt q = t'.dataAt q := by
  simp only [Tree.dataAt, h]

variable [Inhabited α]

theorem dataAt_new (q : Str) : (Tree.new : Tree α).dataAt q = none := by
  simp only [Tree.dataAt, Tree.contents_new]
  by_cases h : q = []
  · simp [h, Core.zero]
  · simp [h]

/-- Inserting changes the value of the key only. -/
theorem dataAt_insert {t : Tree α} (h : t.OK) (k : Str) (x : α) : (View.insertAt t k x).1.dataAt = upd t.dataAt k x := by
  have hs := View.insertAt_spec h k x
  funext q
  by_cases e : q = k
  · subst e
    obtain ⟨c, h1, h2⟩ := hs.atKey
    have hd := putCore_data h2
    simp [Tree.dataAt, h1, hd.1, hd.2, upd]
  · rw [upd_ne _ _ e]
    cases h0 : t.contents q with
    | some c => exact Tree.dataAt_eq ((hs.keep q c e h0).trans h0.symm)
    | none =>
      cases h1 : (View.insertAt t k x).1.contents q with
      | none => exact Tree.dataAt_eq (h1.trans h0.symm)
      | some c =>
        obtain ⟨_, _, _, _, _, rfl⟩ := hs.new q c e h0 h1
        simp [Tree.dataAt, h0, h1, Node.cutCore, Core.zero]

/-- Writing through the node that an insertion returned. -/
theorem dataAt_hit {t : Tree α} (h : t.OK) (k : Str) (x : α) {f : Core α → Core α} {y : α}
    (hf : ∀ c, c.hasData = true → c.data = x → (f c).hasData = true ∧ (f c).data = y) :
    (View.writeCore (View.insertAt t k x).1 (View.insertAt t k x).2.hit.id f).dataAt = upd t.dataAt k y := by
  have hok := View.insertAt_ok h k x
  have hhit := insertAt_hit h k x
  have hw := writeCore_contents hok hhit f
  have hc := (Tree.contents_node hok).mpr ⟨_, hhit, rfl⟩
  have hi := congrFun (dataAt_insert h k x) k
  funext q
  by_cases e : q = k
  · subst e
    rw [upd_same] at hi ⊢
    simp only [Tree.dataAt, hc] at hi
    have hd : (View.insertAt t q x).2.hit.core.hasData = true := by
      cases hn : (View.insertAt t q x).2.hit.core.hasData with
      | true => rfl
      | false => simp [hn] at hi
    simp only [hd, if_true, Option.some.injEq] at hi
    have := hf _ hd hi
    simp only [Tree.dataAt, hw q, if_true, this.1, this.2]
  · rw [Tree.dataAt_eq (t' := (View.insertAt t k x).1) (by rw [hw q, if_neg e]), congrFun (dataAt_insert h k x) q, upd_ne _ _ e, upd_ne _ _ e]

omit [Inhabited α] in
/-- Writing meta data changes no value. -/
theorem dataAt_meta {t : Tree α} (h : t.OK) (i : Nat) {f : Core α → Core α} (hf : ∀ c, (f c).hasData = c.hasData ∧ (f c).data = c.data) :
    (View.writeCore t i f).dataAt = t.dataAt := by
  by_cases hi : ∃ q0 m0, (q0, m0) ∈ t.root.nodes [] ∧ m0.id = i
  · obtain ⟨q0, m0, hm, rfl⟩ := hi
    funext q
    have hw := writeCore_contents h hm f q
    by_cases e : q = q0
    · subst e
      have := (Tree.contents_node h).mpr ⟨m0, hm, rfl⟩
      simp only [Tree.dataAt, hw, if_true, this, (hf m0.core).1, (hf m0.core).2]
    · rw [if_neg e] at hw
      exact Tree.dataAt_eq hw
  · funext q
    apply Tree.dataAt_eq
    have h' := writeCore_ok h i f
    have key : ∀ c, (View.writeCore t i f).contents q = some c ↔ t.contents q = some c := by
      intro c
      rw [Tree.contents_node h', Tree.contents_node h]
      simp only [View.writeCore, Node.nodes_modify_core, List.mem_map]
      constructor
      · rintro ⟨m, ⟨⟨q', m'⟩, h1, h2⟩, rfl⟩
        simp at h2
        obtain ⟨rfl, rfl⟩ := h2
        refine ⟨m', h1, ?_⟩
        rw [Node.modify_core_core, if_neg]
        exact fun e => hi ⟨_, _, h1, e⟩
      · rintro ⟨m, h1, rfl⟩
        refine ⟨_, ⟨(q, m), h1, rfl⟩, ?_⟩
        rw [Node.modify_core_core, if_neg]
        exact fun e => hi ⟨_, _, h1, e⟩
    cases hc : t.contents q with
    | some c => exact (key c).mpr hc
    | none =>
      cases hc' : (View.writeCore t i f).contents q with
      | none => rfl
      | some c => rw [(key c).mp hc'] at hc; cases hc

omit [Inhabited α] in
/-- A successful `Remove` takes the values of all paths that begin with the removed one. -/
theorem dataAt_remove {v : View} {t t' : Tree α} (h : t.OK) (hp : t.Plain v.delim) (hm : v.mode ≠ .up) {p : Str}
    (e : v.remove t p = .ok (t', true)) (q : Str) : t'.dataAt q = if v.full p <+: q then none else t.dataAt q := by
  obtain ⟨hne, r, c, hr, hc⟩ := remove_true h hp hm e
  obtain ⟨hrc, hcase⟩ := resolve_cases hr
  rcases hcase with e1 | ⟨e1, e2, -⟩
  · subst e1
    by_cases hq : v.full p <+: q
    · simp [Tree.dataAt, hc, hq]
    · rw [if_neg hq]; exact Tree.dataAt_eq (by rw [hc, if_neg hq])
  · by_cases hq : v.full p <+: q
    · rw [if_pos hq]
      by_cases hrq : r <+: q
      · simp [Tree.dataAt, hc, hrq]
      · rw [Tree.dataAt_eq (t' := t) (by rw [hc, if_neg hrq])]
        cases hcq : t.contents q with
        | none => simp [Tree.dataAt, hcq]
        | some cq =>
          -- an entry at `q` and the removed one would branch at the path itself
          exfalso
          obtain ⟨z, rfl⟩ := hq
          cases z with
          | nil => rw [List.append_nil, e2] at hcq; cases hcq
          | cons b z =>
            have hb : b ≠ v.delim := by
              rintro rfl
              apply hrq
              rw [e1]
              exact ⟨z, by simp⟩
            have := Tree.lcp_closed h hrc hcq
            rw [e1, lcp_append (Ne.symm hb), e2] at this
            simp at this
    · rw [if_neg hq]
      apply Tree.dataAt_eq
      rw [hc, if_neg]
      intro hrq
      apply hq
      rw [e1] at hrq
      exact (List.prefix_append _ _).trans hrq

/-! ## Calls on a trie -/

/-- A writing call on a trie or on a view of it. The callback of `Update` calls the given node methods. -/
inductive Call (α : Type) where
  | set (v : View) (path : Str) (x : α)
  | setEx (v : View) (path : Str) (x : α)
  | setNode (v : View) (path : Str) (x : α) (tag : Option α) (ds : List Str)
  | setEmpty (v : View) (path : Str)
  | update (v : View) (path : Str) (os : List (NodeOp α))
  | setComment (v : View) (path desc comment : Str)
  | setTag (v : View) (path : Str) (tag : Option α)
  | remove (v : View) (path : Str)

namespace Call

def view : Call α → View
  | set v .. | setEx v .. | setNode v .. | setEmpty v .. | update v .. | setComment v .. | setTag v .. | remove v .. => v

/-- The call as an element of a history of C01-C20. -/
def op : Call α → Op α
  | set v p x => .set v p x
  | setEx v p x => .setEx v p x
  | setNode v p x tag ds => .setNode v p x tag ds
  | setEmpty v p => .setEmpty v p
  | update v p os => .update v p (fun _ _ => os)
  | setComment v p d c => .setComment v p d c
  | setTag v p tag => .setTag v p tag
  | remove v p => .remove v p

/-- The call: the tree afterwards and the boolean it returns (true for calls without one). -/
def run : Call α → Tree α → Go (Tree α × Bool)
  | set v p x, t => .ok ((v.set t p x).1, true)
  | setEx v p x, t => .ok ((v.setEx t p x).1, true)
  | setNode v p x tag ds, t => .ok ((v.setNode t p x tag ds).1, true)
  | setEmpty v p, t => .ok ((v.setEmpty t p).1, true)
  | update v p os, t => .ok (v.update t p (fun _ _ => os), true)
  | setComment v p d c, t => v.setComment t p d c
  | setTag v p tag, t => v.setTag t p tag
  | remove v p, t => v.remove t p

/-- Calls one after the other; the tree and the returned booleans. -/
def runs : List (Call α) → Tree α → Go (Tree α × List Bool)
  | [], t => .ok (t, [])
  | c :: cs, t =>
    match c.run t with
    | .error e => .error e
    | .ok (t1, b) =>
      match runs cs t1 with
      | .error e => .error e
      | .ok (t2, bs) => .ok (t2, b :: bs)

/-- The value after node methods have been called on a node that holds `x`. -/
def lastData (x : α) : List (NodeOp α) → α
  | [] => x
  | .setData y :: os => lastData y os
  | .setEmpty :: os => lastData default os
  | _ :: os => lastData x os

/-- What a call that returned `b` means for the values. -/
def effect : Call α → Bool → (Str → Option α) → Str → Option α
  | set v p x, _, m => upd m (keyOf v p) x
  | setEx v p x, _, m | setNode v p x _ _, _, m => upd m (v.full p) x
  | setEmpty v p, _, m => upd m (v.full p) default
  | update v p os, _, m => upd m (v.full p) (lastData default os)
  | setComment .., _, m | setTag .., _, m => m
  | remove v p, b, m => fun q => if b = true ∧ v.full p <+: q then none else m q

/-- ... and a whole history. -/
def effects : List (Call α) → List Bool → (Str → Option α) → Str → Option α
  | c :: cs, b :: bs, m => effects cs bs (c.effect b m)
  | _, _, m => m

/-- The full path that a call writes, if any. -/
def key : Call α → Option Str
  | set v p _ => some (keyOf v p)
  | setEx v p _ | setNode v p _ _ _ | setEmpty v p | update v p _ => some (v.full p)
  | setComment .. | setTag .. | remove .. => none

theorem lastData_runs (os : List (NodeOp α)) {c : Core α} (h : c.hasData = true) :
    (NodeOp.runs os c).hasData = true ∧ (NodeOp.runs os c).data = lastData c.data os := by
  induction os generalizing c with
  | nil => exact ⟨h, rfl⟩
  | cons o os ih =>
    cases o with
    | setData y => exact ih (c := { c with data := y, hasData := true }) rfl
    | setEmpty => exact ih (c := emptyCore c) h
    | setComment d m => exact ih (c := { c with desc := d, comment := m }) h
    | setTag tag => exact ih (c := { c with tag := tag }) h
    | setModified b => exact ih (c := { c with modified := b }) h
    | toggleModified => exact ih (c := { c with modified := !c.modified }) h

theorem run_op {c : Call α} {t t' : Tree α} {b : Bool} (e : c.run t = .ok (t', b)) : c.op.run t = .ok t' := by
  cases c <;> simp only [run, Except.ok.injEq, Prod.mk.injEq] at e <;> simp [op, Op.run, e, Except.map]

theorem run_reach {P : Str → Prop} {c : Call α} {t t' : Tree α} {b : Bool} (h : Reach P t) (hk : ∀ k, c.key = some k → P k)
    (e : c.run t = .ok (t', b)) : Reach P t' := by
  refine .step c.op h ?_ (run_op e)
  intro k hk'
  apply hk
  cases c <;> simp_all [op, Op.key, key, keyOf, View.dash]

/-- No call fails. -/
theorem run_total {c : Call α} {t : Tree α} (h : Reach (NoRoute c.view.delim) t) (hm : c.view.mode ≠ .up) :
    ∃ t' b, c.run t = .ok (t', b) := by
  have hsearch : ∀ p, ∃ n par pm kv, c.view.search t p = .ok (n, par, pm, kv) := by
    intro p
    rcases search_plain h.ok h.plain hm p with ⟨q, m, par, h1, h2, _⟩ | ⟨hw, h1, n, par, pm, h2, h3⟩
    · exact ⟨_, _, _, _, h2⟩
    · exact ⟨_, _, _, _, h2⟩
  cases c with
  | set v p x => exact ⟨_, _, rfl⟩
  | setEx v p x => exact ⟨_, _, rfl⟩
  | setNode v p x tag ds => exact ⟨_, _, rfl⟩
  | setEmpty v p => exact ⟨_, _, rfl⟩
  | update v p os => exact ⟨_, _, rfl⟩
  | setComment v p d cm =>
    obtain ⟨n, par, pm, kv, e⟩ := hsearch (v.full p)
    simp only [view] at e
    cases n with
    | none => simp only [run, View.setComment, e]; exact ⟨_, _, rfl⟩
    | some n => simp only [run, View.setComment, e]; exact ⟨_, _, rfl⟩
  | setTag v p tag =>
    obtain ⟨n, par, pm, kv, e⟩ := hsearch (v.full p)
    simp only [view] at e
    cases n with
    | none => simp only [run, View.setTag, e]; exact ⟨_, _, rfl⟩
    | some n => simp only [run, View.setTag, e]; exact ⟨_, _, rfl⟩
  | remove v p =>
    obtain ⟨t', b, e, -⟩ := C08_remove_iff_has h hm p
    exact ⟨t', b, e⟩

/-- One call. -/
theorem run_data {c : Call α} {t t' : Tree α} {b : Bool} (h : Reach (NoRoute c.view.delim) t) (hm : c.view.mode ≠ .up)
    (e : c.run t = .ok (t', b)) : t'.dataAt = c.effect b t.dataAt := by
  cases c with
  | set v p x =>
    simp only [run, Except.ok.injEq, Prod.mk.injEq] at e
    rw [← e.1]
    exact dataAt_insert h.ok _ x
  | setEx v p x =>
    simp only [run, Except.ok.injEq, Prod.mk.injEq] at e
    rw [← e.1]
    exact dataAt_insert h.ok _ x
  | setNode v p x tag ds =>
    simp only [run, Except.ok.injEq, Prod.mk.injEq] at e
    rw [← e.1]
    simp only [View.setNode, effect]
    match ds with
    | [] => exact dataAt_insert h.ok _ x
    | [a] => exact dataAt_hit h.ok _ x (fun c h1 h2 => ⟨h1, h2⟩)
    | a :: b :: bs => exact dataAt_hit h.ok _ x (fun c h1 h2 => ⟨h1, h2⟩)
  | setEmpty v p =>
    simp only [run, Except.ok.injEq, Prod.mk.injEq] at e
    rw [← e.1]
    exact dataAt_hit h.ok _ default (fun c h1 h2 => ⟨h1, rfl⟩)
  | update v p os =>
    simp only [run, Except.ok.injEq, Prod.mk.injEq] at e
    rw [← e.1]
    refine dataAt_hit h.ok _ default (fun c h1 h2 => ?_)
    have := lastData_runs os h1
    rw [h2] at this
    exact this
  | setComment v p d cm =>
    simp only [run, View.setComment] at e
    cases hs : v.search t (v.full p) with
    | error er => rw [hs] at e; cases e
    | ok r =>
      obtain ⟨n, a, b', kv⟩ := r
      rw [hs] at e
      cases n with
      | none => simp only [Except.ok.injEq, Prod.mk.injEq] at e; rw [← e.1]; rfl
      | some n =>
        simp only [Except.ok.injEq, Prod.mk.injEq] at e
        rw [← e.1]
        exact dataAt_meta h.ok _ (fun c => ⟨rfl, rfl⟩)
  | setTag v p tag =>
    simp only [run, View.setTag] at e
    cases hs : v.search t (v.full p) with
    | error er => rw [hs] at e; cases e
    | ok r =>
      obtain ⟨n, a, b', kv⟩ := r
      rw [hs] at e
      cases n with
      | none => simp only [Except.ok.injEq, Prod.mk.injEq] at e; rw [← e.1]; rfl
      | some n =>
        simp only [Except.ok.injEq, Prod.mk.injEq] at e
        rw [← e.1]
        exact dataAt_meta h.ok _ (fun c => ⟨rfl, rfl⟩)
  | remove v p =>
    simp only [run] at e
    cases b with
    | true =>
      funext q
      rw [dataAt_remove (v := v) h.ok h.plain hm e q]
      simp [effect]
    | false =>
      obtain ⟨t1, b1, e1, -, h2⟩ := C08_remove_iff_has (v := v) h hm p
      rw [e] at e1
      simp only [Except.ok.injEq, Prod.mk.injEq] at e1
      obtain ⟨rfl, rfl⟩ := e1
      rw [h2 rfl]
      funext q
      simp [effect]

/-- All calls of a history use the delimiter `d`, none is in recursive-up mode, and no written path is a route pattern. -/
def Fits (d : Char) (cs : List (Call α)) : Prop :=
  ∀ c ∈ cs, c.view.delim = d ∧ c.view.mode ≠ .up ∧ ∀ k, c.key = some k → NoRoute d k

theorem runs_data {d : Char} {cs : List (Call α)} (hf : Fits d cs) {t : Tree α} (h : Reach (NoRoute d) t) :
    ∃ t' bs, runs cs t = .ok (t', bs) ∧ bs.length = cs.length ∧ Reach (NoRoute d) t' ∧ t'.dataAt = effects cs bs t.dataAt := by
  induction cs generalizing t with
  | nil => exact ⟨t, [], rfl, rfl, h, rfl⟩
  | cons c cs ih =>
    obtain ⟨hd, hm, hk⟩ := hf c (by simp)
    have h0 : Reach (NoRoute c.view.delim) t := by rw [hd]; exact h
    obtain ⟨t1, b, e⟩ := run_total h0 hm
    have h1 := run_reach h hk e
    have hdat := run_data h0 hm e
    obtain ⟨t2, bs, e2, hl, h2, hdat2⟩ := ih (fun c hc => hf c (by simp [hc])) h1
    refine ⟨t2, b :: bs, ?_, by simp [hl], h2, ?_⟩
    · simp only [runs, e, e2]
    · rw [hdat2, hdat]; rfl

end Call

/-- Reading a path whose value is known. -/
theorem read_data {r : View} {t : Tree α} (h : Reach (NoRoute r.delim) t) {p : Str} {x : α} (hx : t.dataAt (r.full p) = some x) :
    r.mustGet t p = .ok x ∧ ∃ f, r.get t p = .ok (x, f) := by
  simp only [Tree.dataAt] at hx
  cases hc : t.contents (r.full p) with
  | none => rw [hc] at hx; cases hx
  | some c =>
    rw [hc] at hx
    simp only at hx
    by_cases hd : c.hasData = true
    · simp only [hd, if_true, Option.some.injEq] at hx
      subst hx
      refine ⟨?_, c.leaf || endsW r.delim (r.full p), ?_⟩
      · rw [mustGet_hit h.ok h.plain (resolve_at hc), hd]; rfl
      · rw [get_hit h.ok h.plain (resolve_at hc), hd]; rfl
    · simp [hd] at hx

/-- Reading a path without value (in both spellings). -/
theorem read_nodata {r : View} {t : Tree α} (h : Reach (NoRoute r.delim) t) (hm : r.mode ≠ .up) {p : Str} (hx : t.dataAt (r.full p) = none)
    (hx' : t.dataAt (r.full p ++ [r.delim]) = none) : r.mustGet t p = .ok default ∧ ∃ f, r.get t p = .ok (default, f) := by
  rw [mustGet_plain h.ok h.plain hm, View.get, query_plain h.ok h.plain hm]
  have key : ∀ q c, t.contents q = some c → t.dataAt q = none → c.hasData = false := by
    intro q c hc hq
    simp only [Tree.dataAt, hc] at hq
    cases hn : c.hasData with
    | false => rfl
    | true => simp [hn] at hq
  cases hr : resolve r.delim t.contents (r.full p) with
  | none => exact ⟨rfl, false, rfl⟩
  | some y =>
    obtain ⟨q, c⟩ := y
    have hc : c.hasData = false := by
      obtain ⟨h2, e | ⟨e, _⟩⟩ := resolve_cases hr
      · subst e; exact key _ c h2 hx
      · subst e; exact key _ c h2 hx'
    simp only [ansOf, hc]
    exact ⟨rfl, _, rfl⟩

/-- **C63** After any history of writing calls through any views (one delimiter, no route patterns, not in recursive-up mode), no call
has failed, and every path reads as the last call that concerned it left it: the last written value, or zero if it was never written or
has been removed since. -/
theorem C63_history (d : Char) (cs : List (Call α)) (hf : Call.Fits d cs) :
    ∃ t bs, Call.runs cs Tree.new = .ok (t, bs) ∧ bs.length = cs.length ∧
      ∀ (r : View) (p : Str), r.delim = d →
        (∀ x, Call.effects cs bs (fun _ => none) (r.full p) = some x → r.mustGet t p = .ok x ∧ ∃ f, r.get t p = .ok (x, f)) ∧
        (r.mode ≠ .up → (Call.effects cs bs (fun _ => none) (r.full p)).isSome → r.has t p = .ok true) ∧
        (r.mode ≠ .up → Call.effects cs bs (fun _ => none) (r.full p) = none →
          Call.effects cs bs (fun _ => none) (r.full p ++ [d]) = none → r.mustGet t p = .ok default) := by
  obtain ⟨t, bs, e, hl, h, hdat⟩ := Call.runs_data hf (Reach.new (α := α))
  have h0 : (Tree.new : Tree α).dataAt = fun _ => none := funext dataAt_new
  rw [h0] at hdat
  refine ⟨t, bs, e, hl, ?_⟩
  rintro r p rfl
  rw [← hdat]
  refine ⟨fun x hx => read_data h hx, fun hm hx => ?_, fun hm hx hx' => (read_nodata h hm hx hx').1⟩
  rw [has_plain h.ok h.plain hm]
  cases hc : t.contents (r.full p) with
  | none => simp [Tree.dataAt, hc] at hx
  | some c => rw [resolve_at hc]; rfl

/-- **C63** The boolean of `Remove` is no free choice: at its place in the history it says whether `Has` held before. -/
theorem C63_remove_result (d : Char) (cs : List (Call α)) (hf : Call.Fits d cs) (v : View) (p : Str) (hv : v.delim = d) (hm : v.mode ≠ .up) :
    ∃ t bs t' b, Call.runs cs Tree.new = .ok (t, bs) ∧ Call.runs (cs ++ [.remove v p]) Tree.new = .ok (t', bs ++ [b]) ∧
      (b = true ↔ v.full p ≠ [] ∧ v.has t p = .ok true) := by
  obtain ⟨t, bs, e, -, h, -⟩ := Call.runs_data hf (Reach.new (α := α))
  subst hv
  obtain ⟨t', b, e1, h1, -⟩ := C08_remove_iff_has h hm p
  refine ⟨t, bs, t', b, e, ?_, h1⟩
  have happ : ∀ (cs : List (Call α)) (s t : Tree α) (bs : List Bool), Call.runs cs s = .ok (t, bs) → v.remove t p = .ok (t', b) →
      Call.runs (cs ++ [.remove v p]) s = .ok (t', bs ++ [b]) := by
    intro cs
    induction cs with
    | nil =>
      intro s t bs e e1
      simp only [Call.runs, Except.ok.injEq, Prod.mk.injEq] at e
      obtain ⟨rfl, rfl⟩ := e
      simp [Call.runs, Call.run, e1]
    | cons c cs ih =>
      intro s t bs e e1
      simp only [Call.runs, List.cons_append] at e ⊢
      cases hc : c.run s with
      | error er => rw [hc] at e; cases e
      | ok r =>
        obtain ⟨s1, b1⟩ := r
        rw [hc] at e
        simp only at e ⊢
        cases hc2 : Call.runs cs s1 with
        | error er => rw [hc2] at e; cases e
        | ok r2 =>
          obtain ⟨s2, bs2⟩ := r2
          rw [hc2] at e
          simp only [Except.ok.injEq, Prod.mk.injEq] at e
          obtain ⟨rfl, rfl⟩ := e
          rw [ih s1 s2 bs2 hc2 e1]
          rfl
  exact happ cs _ _ _ e e1

/-! ## Calls on stores -/

namespace Store
variable {κ : Type}

/-- A writing call on one of the stores over a tree: the store itself or one made by `WithPrefix` and the like. Only view, slice option
and handlers of the given store matter. -/
inductive SCall (α κ : Type) where
  | set (s : Store α κ) (path : Str) (x : Any α κ)
  | merge (s : Store α κ) (path : Str) (m : SMap α κ)
  | load (s : Store α κ) (pre : Option Str) (flat : Option Bool) (src : Source α κ)
  | remove (s : Store α κ) (path : Str)

namespace SCall

def store : SCall α κ → Store α κ
  | set s .. | merge s .. | load s .. | remove s .. => s

/-- The call on the shared tree: the tree afterwards, and the boolean that is returned (for `Load` whether the error is nil). -/
def run (str : κ → Str) : SCall α κ → Tree (Any α κ) → Go (Tree (Any α κ) × Bool)
  | set s p x, t => (Store.set { s with tree := t } p x).map (fun r => (r.1.tree, true))
  | merge s p m, t => .ok ((Store.merge str { s with tree := t } p m).1.tree, true)
  | load s pre flat src, t => let r := Store.load str { s with tree := t } pre flat src; .ok (r.1.tree, r.2.2)
  | remove s p, t => (Store.remove { s with tree := t } p).map (fun r => (r.1.tree, r.2.2))

def runs (str : κ → Str) : List (SCall α κ) → Tree (Any α κ) → Go (Tree (Any α κ) × List Bool)
  | [], t => .ok (t, [])
  | c :: cs, t =>
    match c.run str t with
    | .error e => .error e
    | .ok (t1, b) =>
      match runs str cs t1 with
      | .error e => .error e
      | .ok (t2, bs) => .ok (t2, b :: bs)

/-- The assignments of a load: those of a stream under the prefix of the loader, then the leaves of the decoded map. -/
def loadPuts (str : κ → Str) (s : Store α κ) (pre : Option Str) (flat : Option Bool) : Source α κ → List (Str × Any α κ)
  | .none | .fail | .once none => []
  | .read m => leafPuts s.view.delim (s.loadAt pre) (pkgLeaves (flat.getD s.flatten) str m)
  | .once (some m) => leafPuts s.view.delim (s.loadAt pre) (leavesM (flat.getD s.flatten) str m)
  | .stream kvs dec =>
    kvs.map (fun a => (View.dash (joinSpec s.view.delim [s.loadAt pre, a.1]), a.2)) ++
      match dec with
      | some m => leafPuts s.view.delim (s.loadAt pre) (leavesM (flat.getD s.flatten) str m)
      | none => []

/-- The assignments of a call. -/
def puts (str : κ → Str) : SCall α κ → List (Str × Any α κ)
  | set s p x => [(View.dash (s.view.full p), x)]
  | merge s p m => leafPuts s.view.delim p (leavesM s.flatten str m)
  | load s pre flat src => loadPuts str s pre flat src
  | remove .. => []

/-- What a call that returned `b` means for the values. -/
def effect (str : κ → Str) (c : SCall α κ) (b : Bool) (m : Str → Option (Any α κ)) : Str → Option (Any α κ) :=
  match c with
  | remove s p => fun q => if b = true ∧ s.view.full p <+: q then none else m q
  | c => (c.puts str).foldl (fun m a => upd m a.1 a.2) m

def effects (str : κ → Str) : List (SCall α κ) → List Bool → (Str → Option (Any α κ)) → Str → Option (Any α κ)
  | c :: cs, b :: bs, m => effects str cs bs (c.effect str b m)
  | _, _, m => m

/-- No empty keys where slices are flattened (C29_empty_key_fails). -/
def NE (str : κ → Str) : SCall α κ → Prop
  | set .. | remove .. => True
  | merge s _ m => s.flatten = true → keysNEM str m
  | load s _ flat src => flat.getD s.flatten = true →
    match src with
    | .read m => pkgNE str m
    | .once (some m) | .stream _ (some m) => keysNEM str m
    | _ => True

/-- The calls of a history: one delimiter, none in recursive-up mode, no call during a load, no route patterns written. -/
def Fits (str : κ → Str) (d : Char) (cs : List (SCall α κ)) : Prop :=
  ∀ c ∈ cs, c.store.view.delim = d ∧ c.store.view.mode ≠ .up ∧ c.store.loading = false ∧ c.NE str ∧ ∀ a ∈ c.puts str, NoRoute d a.1

end SCall

theorem putTree_dataAt {β : Type} [Inhabited β] {t : Tree β} (h : t.OK) (user : Bool) (k : Str) (x : β) : (putTree user t k x).dataAt = upd t.dataAt k x := by
  simp only [putTree]
  cases user with
  | false => exact dataAt_insert h k x
  | true =>
    simp only [if_true]
    exact dataAt_hit h k x (fun c h1 h2 => ⟨h1, h2⟩)

theorem putTrees_dataAt {β : Type} [Inhabited β] {t : Tree β} (h : t.OK) (user : Bool) (l : List (Str × β)) :
    (putTrees user t l).dataAt = l.foldl (fun m a => upd m a.1 a.2) t.dataAt := by
  induction l generalizing t with
  | nil => rfl
  | cons a l ih =>
    have := ih (putTree_contents h user a.1 a.2).1
    rw [putTree_dataAt h] at this
    exact this

omit [Inhabited α] in
theorem setAll_eq (s : Store α κ) (create : Bool) (kvs : List (Str × Any α κ)) :
    (s.setAll create kvs).1 = { s with tree := putTrees (!s.loading) s.tree (kvs.map (fun a => (View.dash (s.view.full a.1), a.2))) } := by
  induction kvs generalizing s with
  | nil => rfl
  | cons a l ih =>
    simp only [setAll]
    rw [ih, setKV_eq s a.1 a.2 create [] (.inr rfl)]
    rfl

omit [Inhabited α] in
theorem load_tree (str : κ → Str) (s : Store α κ) (hs : s.loading = false) (pre : Option Str) (flat : Option Bool) (src : Source α κ)
    (hne : (SCall.load s pre flat src).NE str) :
    (s.load str pre flat src).1.tree = putTrees false s.tree (SCall.loadPuts str s pre flat src) := by
  cases src with
  | none => cases pre <;> cases flat <;> simp [load, hs, SCall.loadPuts, putTrees, withPrefixReplaced, dupS]
  | fail => cases pre <;> cases flat <;> simp [load, hs, SCall.loadPuts, putTrees, withPrefixReplaced, dupS]
  | read m =>
    obtain ⟨s', e, ht, -⟩ := C29_load_is_sets str s hs pre flat (.read m) rfl hne
    rw [e]; exact ht
  | once o =>
    cases o with
    | none => cases pre <;> cases flat <;> simp [load, hs, SCall.loadPuts, putTrees, withPrefixReplaced, dupS]
    | some m =>
      obtain ⟨s', e, ht, -⟩ := C29_load_is_sets str s hs pre flat (.once (some m)) rfl hne
      rw [e]; exact ht
  | stream kvs dec =>
    simp only [SCall.NE] at hne
    have key : ∀ (v : View) (fl : Bool) (hd : Handlers), v.delim = s.view.delim → v.pre = s.loadAt pre → fl = flat.getD s.flatten →
        (match dec with
          | some m => (loadMap str true [] (Store.setAll { s with loading := true, view := v, flatten := fl, hs := hd } true kvs).1 v.pre m).1.tree
          | none => (Store.setAll { s with loading := true, view := v, flatten := fl, hs := hd } true kvs).1.tree) =
        putTrees false s.tree (SCall.loadPuts str s pre flat (.stream kvs dec)) := by
      rintro v fl hd e1 e2 rfl
      cases dec with
      | none =>
        simp only [setAll_eq, SCall.loadPuts, full_eq, e1, e2, List.append_nil]; rfl
      | some m =>
        simp only [setAll_eq, SCall.loadPuts, full_eq, e1, e2, putTrees_append]
        rw [loadMap_eq]
        · simp only [loaded, e1]; rfl
        · exact .inr rfl
        · exact hne
    cases pre <;> cases flat <;> cases dec <;> simp only [load, hs, Bool.false_eq_true, if_false] <;>
      first
      | exact key s.view _ s.hs rfl rfl rfl
      | exact key (s.view.withPrefixReplaced [_]) _ ⟨[], [], []⟩ rfl rfl rfl

namespace SCall

omit [Inhabited α] in
theorem set_total {s : Store α κ} (h : Reach (NoRoute s.view.delim) s.tree) (hm : s.view.mode ≠ .up) (p : Str) (x : Any α κ) :
    ∃ s' ev old, s.set p x = .ok (s', ev, old) := by
  rw [Store.set, query_plain h.ok h.plain hm]
  exact ⟨_, _, _, rfl⟩

omit [Inhabited α] in
/-- One call: it does not fail, and changes the values as specified. -/
theorem run_data (str : κ → Str) {d : Char} {c : SCall α κ} (hf : Fits str d [c]) {t : Tree (Any α κ)} (h : Reach (NoRoute d) t) :
    ∃ t' b, c.run str t = .ok (t', b) ∧ Reach (NoRoute d) t' ∧ t'.dataAt = c.effect str b t.dataAt := by
  obtain ⟨rfl, hm, hl, hne, hk⟩ := hf c (by simp)
  cases c with
  | set s p x =>
    obtain ⟨s', ev, old, e⟩ := set_total (s := { s with tree := t }) h hm p x
    have ht := set_tree e
    refine ⟨s'.tree, true, by simp [run, e, Except.map], ?_, ?_⟩
    · rw [ht]
      exact putTree_reach h _ (hk (View.dash (s.view.full p), x) (by simp [puts])) x
    · rw [ht]
      exact putTree_dataAt h.ok _ _ x
  | merge s p m =>
    have e := C29_merge_is_sets str { s with tree := t } p m hne
    refine ⟨_, true, rfl, ?_, ?_⟩
    · rw [e]; exact putTrees_reach h _ hk
    · rw [e]; exact putTrees_dataAt h.ok _ _
  | load s pre flat src =>
    have e := load_tree str { s with tree := t } hl pre flat src hne
    refine ⟨_, _, rfl, ?_, ?_⟩
    · rw [e]; exact putTrees_reach h _ hk
    · rw [e]; exact putTrees_dataAt h.ok _ _
  | remove s p =>
    obtain ⟨t', b, e, -, h3⟩ := C08_remove_iff_has (v := s.view) h hm p
    have hr : Reach (NoRoute s.view.delim) t' := Call.run_reach (c := .remove s.view p) h (fun k hk => by simp [Call.key] at hk) e
    have e' : run str (.remove s p) t = .ok (t', b) := by
      simp only [View.remove] at e
      simp only [run, Store.remove]
      cases hx : s.view.removeEx t p with
      | error er => rw [hx] at e; cases e
      | ok r =>
        obtain ⟨t1, o⟩ := r
        rw [hx] at e
        cases o with
        | none => simpa [Except.map] using e
        | some o => simpa [Except.map] using e
    refine ⟨t', b, e', hr, ?_⟩
    have := Call.run_data (c := .remove s.view p) (t := t) h hm e
    exact this

omit [Inhabited α] in
theorem runs_data (str : κ → Str) {d : Char} {cs : List (SCall α κ)} (hf : Fits str d cs) {t : Tree (Any α κ)} (h : Reach (NoRoute d) t) :
    ∃ t' bs, runs str cs t = .ok (t', bs) ∧ bs.length = cs.length ∧ Reach (NoRoute d) t' ∧ t'.dataAt = effects str cs bs t.dataAt := by
  induction cs generalizing t with
  | nil => exact ⟨t, [], rfl, rfl, h, rfl⟩
  | cons c cs ih =>
    obtain ⟨t1, b, e, h1, hdat⟩ := run_data str (c := c) (fun c' hc => hf c' (by simp at hc; simp [hc])) h
    obtain ⟨t2, bs, e2, hl, h2, hdat2⟩ := ih (fun c hc => hf c (by simp [hc])) h1
    refine ⟨t2, b :: bs, ?_, by simp [hl], h2, ?_⟩
    · simp only [runs, e, e2]
    · rw [hdat2, hdat]; rfl

end SCall

omit [Inhabited α] in
/-- **C63** The same for stores: after any history of `Set`, `Merge`, `Load` and `Remove` on any stores over one tree, every path reads,
through any of the stores, as the last call that concerned it left it. -/
theorem C63_store_history (str : κ → Str) (d : Char) (cs : List (SCall α κ)) (hf : SCall.Fits str d cs) :
    ∃ t bs, SCall.runs str cs Tree.new = .ok (t, bs) ∧ bs.length = cs.length ∧
      ∀ (s : Store α κ) (p : Str), s.view.delim = d → s.tree = t →
        (∀ x, SCall.effects str cs bs (fun _ => none) (s.view.full p) = some x →
          ∃ f, s.get p = .ok (x, f) ∧ s.mustGet p = .ok (if f then x else .nil)) ∧
        (s.view.mode ≠ .up → SCall.effects str cs bs (fun _ => none) (s.view.full p) = none →
          SCall.effects str cs bs (fun _ => none) (s.view.full p ++ [d]) = none → s.mustGet p = .ok .nil) := by
  obtain ⟨t, bs, e, hl, h, hdat⟩ := SCall.runs_data str hf (Reach.new (α := Any α κ))
  have h0 : (Tree.new : Tree (Any α κ)).dataAt = fun _ => none := funext dataAt_new
  rw [h0] at hdat
  refine ⟨t, bs, e, hl, ?_⟩
  rintro s p rfl rfl
  rw [← hdat]
  refine ⟨fun x hx => ?_, fun hm hx hx' => ?_⟩
  · obtain ⟨-, f, e⟩ := read_data h hx
    refine ⟨f, e, ?_⟩
    rw [C45_mustGet_get, get, e]; rfl
  · obtain ⟨-, f, e⟩ := read_nodata h hm hx hx'
    rw [C45_mustGet_get, get, e]
    cases f <;> rfl

/-- A history on a store and a view of it at "db": the load overrides "db.host", the removal takes what the merge wrote. -/
def ex63 : List (SCall Nat Nat) :=
  let db : S0 := (S0.new true).withPrefix ["db".toList]
  [.set (S0.new true) "db.host".toList (.atom 1), .set db "port".toList (.atom 2),
   .merge (S0.new true) "log".toList [("level".toList, .atom 3), ("out".toList, .map [("file".toList, .atom 4)])],
   .load (S0.new true) none none (.once (some [("db".toList, .map [("host".toList, .atom 5)]), ("l".toList, .list [.atom 6, .atom 7])])),
   .remove (S0.new true) "log.out.file".toList, .remove db "user".toList]

example : SCall.Fits itoa '.' ex63 := by
  intro c hc
  simp only [ex63, List.mem_cons, List.not_mem_nil, or_false] at hc
  rcases hc with rfl | rfl | rfl | rfl | rfl | rfl
  all_goals
    refine ⟨rfl, by decide, rfl, ?_, ?_⟩
    · first | trivial | (intro _; simp [keysNEM, keysNE, keysNEL])
    · have hall : ∀ l : List (Str × Any Nat Nat), l.all (fun a => a.1.all (fun c => c != ':' && c != '*')) = true → ∀ a ∈ l, NoRoute '.' a.1 := by
        intro l hl a ha
        have := List.all_eq_true.mp (List.all_eq_true.mp hl a ha)
        exact noRoute_of_plain (fun hx => by simpa using this _ hx) (fun hx => by simpa using this _ hx)
      exact hall _ (by decide +kernel)
/-- ... what it returns, and some of the values. -/
def ex63_check : Bool :=
  match SCall.runs itoa ex63 Tree.new with
  | .error _ => false
  | .ok (t, bs) =>
    let s : S0 := { S0.new true with tree := t }
    bs == [true, true, true, true, true, false] && isAtom 5 (s.mustGet "db.host".toList) && isAtom 7 (s.mustGet "l.1".toList) &&
      isNilA (s.mustGet "log.out.file".toList) && isAtom 3 (s.mustGet "log.level".toList)
example : ex63_check = true := by decide +kernel

end Store

def isOk (n : Nat) (x : Go Nat) : Bool :=
  match x with
  | .ok m => m == n
  | _ => false
/-- A history on a trie and a view of it at "app", with every kind of call. -/
def ex63 : List (Call Nat) :=
  [.set exV "app.debug".toList 1, .setEx exW "verbose".toList 2, .setNode exV "apple".toList 3 (some 9) ["d".toList],
   .update exW "debug".toList [.setData 4, .setTag none], .setComment exW "debug".toList "d".toList "c".toList, .setEmpty exV "apple".toList,
   .setTag exV "nowhere".toList none, .remove exW "verbose".toList, .remove exW "verbose".toList, .set exV "app.verbose.x".toList 7]

example : Call.Fits '.' ex63 := by
  intro c hc
  simp only [ex63, List.mem_cons, List.not_mem_nil, or_false] at hc
  rcases hc with rfl | rfl | rfl | rfl | rfl | rfl | rfl | rfl | rfl | rfl
  all_goals
    refine ⟨rfl, by decide, fun k hk => ?_⟩
    simp only [Call.key, Option.some.injEq, reduceCtorEq] at hk
  all_goals
    subst hk
    exact noRoute_of_plain (by decide) (by decide)
/-- ... what it returns, and some of the values. -/
def ex63_check : Bool :=
  match Call.runs ex63 Tree.new with
  | .error _ => false
  | .ok (t, bs) =>
    bs == [true, true, true, true, true, true, false, true, false, true] && isOk 4 (exV.mustGet t "app.debug".toList) &&
      isOk 7 (exW.mustGet t "verbose.x".toList) && isOk 0 (exW.mustGet t "verbose".toList) && isOk 0 (exV.mustGet t "apple".toList)
example : ex63_check = true := by decide +kernel

end Verif

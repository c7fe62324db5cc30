import Verif.Model.StoreTtl
import Verif.Props.TTL
import Verif.Props.Save
import Verif.Props.Erase
/-
C95 entries with a timer in a store: what exports, Save, handlers and Close make of an entry that expires.
-/
namespace Verif
variable {α κ : Type}
namespace TStore
open Sys

/-- What ringing does to the tree, and that the tree is still one of those that the other properties speak of. -/
theorem expired {α : Type} [Inhabited α] {d : Char} {s s' s'' : Sys α} (r : Run (NoRoute d) (Sys.new d) s) {i : Nat} {j : Job}
    (hj : s.jobs[i]? = some j) (h0 : j.tree = 0) {q : Str} {m : Node α} (hm : (q, m) ∈ (s.trees 0).root.nodes []) (hi : m.id = j.node)
    (hl : m.core.leaf = true) (quiet : Quiet 0 q s s') (hr : (s'.jobs[i]?.map (·.phase)) = some .ringing)
    (hreach : Reach (NoRoute d) (s'.trees 0)) (e : s'.step (.ring i) = .ok s'') :
    Reach (NoRoute d) (s''.trees 0) ∧ ∃ c, (s'.trees 0).contents q = some c ∧ c.leaf = true ∧
      ∀ x, (s''.trees 0).contents x = if x = q then some { c with data := default, tag := Option.none } else (s'.trees 0).contents x := by
  obtain ⟨s2, c, g1, g2, g3, g4, -⟩ := C26_expiry r hj (by rw [h0]; exact hm) hi hl (by rw [h0]; exact quiet) hr
  rw [e] at g1
  obtain rfl := Except.ok.inj g1
  rw [h0] at g2 g3 g4
  have hi' := r.inv (Inv.new d)
  obtain ⟨hq1, hq2, ⟨m', hm1, hm2, hm3⟩, _⟩ := quiet.keep hi' r.reach.1 hm hj
  refine ⟨?_, c, g2, ?_, fun x => ?_⟩
  · rcases (step_trees hq1 e).2 0 hq2 with e1 | ⟨o, e1, e2⟩
    · rw [e1]; exact hreach
    · refine .step o hreach (fun w hw => ?_) e1
      rcases e2 with e2 | e2
      · exact absurd e2 (by simp)
      · rw [e2] at hw; simp at hw
  · have := (Tree.contents_node (hq1.ok 0)).mpr ⟨m', hm1, rfl⟩
    rw [g2] at this
    rw [Option.some.inj this, hm3, hl]
  · by_cases hx : x = q
    · rw [if_pos hx, hx, g3]
    · rw [if_neg hx, g4 x hx]

/-- Membership in an export before and after. -/
theorem sel_expired {α κ : Type} {t t' : Tree (Any α κ)} {q : Str} {c : Core (Any α κ)} (hc : t.contents q = some c) (hl : c.leaf = true)
    (h : ∀ x, t'.contents x = if x = q then some { c with data := default, tag := Option.none } else t.contents x)
    {f : Core (Any α κ) → Bool} (hf : ∀ c : Core (Any α κ), f { c with data := default, tag := Option.none } = f c) {d : Char} {M M' : SMap α κ}
    (hM : ∀ k x, (k, x) ∈ M ↔ ∃ c, t.contents k = some c ∧ c.leaf = true ∧ f c = true ∧ endsW d k = false ∧ c.data = x)
    (hM' : ∀ k x, (k, x) ∈ M' ↔ ∃ c, t'.contents k = some c ∧ c.leaf = true ∧ f c = true ∧ endsW d k = false ∧ c.data = x) :
    ((∃ y, (q, y) ∈ M) ↔ f c = true ∧ endsW d q = false) ∧
    ∀ k x, (k, x) ∈ M' ↔ (k ≠ q ∧ (k, x) ∈ M) ∨ (k = q ∧ x = .nil ∧ ∃ y, (q, y) ∈ M) := by
  have hq : (∃ y, (q, y) ∈ M) ↔ f c = true ∧ endsW d q = false := by
    constructor
    · rintro ⟨y, hy⟩
      obtain ⟨c1, a1, a2, a3, a4, a5⟩ := (hM q y).mp hy
      rw [hc] at a1
      cases a1
      exact ⟨a3, a4⟩
    · rintro ⟨a, b⟩
      exact ⟨c.data, (hM q _).mpr ⟨c, hc, hl, a, b, rfl⟩⟩
  refine ⟨hq, fun k x => ?_⟩
  rw [hM', hq, hM, h]
  by_cases hk : k = q
  · rw [if_pos hk]
    constructor
    · rintro ⟨c1, a1, a2, a3, a4, a5⟩
      cases a1
      exact .inr ⟨hk, a5.symm, by rw [← hf c]; exact a3, hk ▸ a4⟩
    · rintro (⟨a, _⟩ | ⟨_, a, b1, b2⟩)
      · exact absurd hk a
      · exact ⟨_, rfl, hl, by rw [hf c]; exact b1, hk ▸ b2, a.symm⟩
  · rw [if_neg hk]
    simp [hk]

section
variable {d : Char} {s s' s'' : Sys (Any α κ)}

/-- **C95** An entry that expires stays in every export: `GetM("")` of a store without prefix and `GetR("")` of any view have the same
keys as before, with nil at the expired key and everything else as it was. -/
theorem C95_export (r : Run (NoRoute d) (Sys.new d) s) {i : Nat} {j : Job} (hj : s.jobs[i]? = some j) (h0 : j.tree = 0) {q : Str}
    {m : Node (Any α κ)} (hm : (q, m) ∈ (s.trees 0).root.nodes []) (hi : m.id = j.node) (hl : m.core.leaf = true) (quiet : Quiet 0 q s s')
    (hr : (s'.jobs[i]?.map (·.phase)) = some .ringing) (hreach : Reach (NoRoute d) (s'.trees 0)) (e : s'.step (.ring i) = .ok s'')
    {v : View} (hd : v.delim = d) :
    (v.pre = [] → ∃ M M', v.getM (s'.trees 0) [] MOpts.default = .ok (some M) ∧ v.getM (s''.trees 0) [] MOpts.default = .ok (some M') ∧
      ((∃ y, (q, y) ∈ M) ↔ endsW d q = false) ∧
      ∀ k x, (k, x) ∈ M' ↔ (k ≠ q ∧ (k, x) ∈ M) ∨ (k = q ∧ x = .nil ∧ ∃ y, (q, y) ∈ M)) ∧
    ∃ M M', v.getR (s'.trees 0) [] = .ok (some M) ∧ v.getR (s''.trees 0) [] = .ok (some M') ∧
      ((∃ y, (q, y) ∈ M) ↔ endsW d q = false) ∧
      ∀ k x, (k, x) ∈ M' ↔ (k ≠ q ∧ (k, x) ∈ M) ∨ (k = q ∧ x = .nil ∧ ∃ y, (q, y) ∈ M) := by
  obtain ⟨hreach', c, hc, hcl, hcs⟩ := expired r hj h0 hm hi hl quiet hr hreach e
  subst hd
  constructor
  · intro hpre
    obtain ⟨M, a1, _, a2⟩ := C19_getM_exact hreach hpre
    obtain ⟨M', b1, _, b2⟩ := C19_getM_exact hreach' hpre
    have := sel_expired (f := fun _ => true) hc hcl hcs (fun _ => rfl) (d := v.delim) (by simpa using a2) (by simpa using b2)
    exact ⟨M, M', a1, b1, by simpa using this.1, this.2⟩
  · obtain ⟨M, a1, _, a2⟩ := C19_getR_exact (v := v) hreach
    obtain ⟨M', b1, _, b2⟩ := C19_getR_exact (v := v) hreach'
    have := sel_expired (f := fun _ => true) hc hcl hcs (fun _ => rfl) (d := v.delim) (by simpa using a2) (by simpa using b2)
    exact ⟨M, M', a1, b1, by simpa using this.1, this.2⟩

/-- **C95** What `Save` writes: the expired entry is still among the entries to be saved exactly if it was before; its value there
is nil, and all others are as before. (`o` is the option of `Save`: keys not flattened, only modified entries.) -/
theorem C95_save (r : Run (NoRoute d) (Sys.new d) s) {i : Nat} {j : Job} (hj : s.jobs[i]? = some j) (h0 : j.tree = 0) {q : Str}
    {m : Node (Any α κ)} (hm : (q, m) ∈ (s.trees 0).root.nodes []) (hi : m.id = j.node) (hl : m.core.leaf = true) (quiet : Quiet 0 q s s')
    (hr : (s'.jobs[i]?.map (·.phase)) = some .ringing) (hreach : Reach (NoRoute d) (s'.trees 0)) (e : s'.step (.ring i) = .ok s'')
    {v : View} (hd : v.delim = d) (hpre : v.pre = []) {o : MOpts α κ} (ho : o.noFlatten = true) (hf : ∀ n, o.pass n = n.core.modified) :
    ∃ M M' : SMap α κ, v.getM (s'.trees 0) [] o = .ok (some (splitCompactKeys d M)) ∧
      v.getM (s''.trees 0) [] o = .ok (some (splitCompactKeys d M')) ∧
      ((∃ y, (q, y) ∈ M) ↔ (∃ c, (s'.trees 0).contents q = some c ∧ c.modified = true) ∧ endsW d q = false) ∧
      ∀ k x, (k, x) ∈ M' ↔ (k ≠ q ∧ (k, x) ∈ M) ∨ (k = q ∧ x = .nil ∧ ∃ y, (q, y) ∈ M) := by
  obtain ⟨hreach', c, hc, hcl, hcs⟩ := expired r hj h0 hm hi hl quiet hr hreach e
  subst hd
  obtain ⟨M, a1, _, a2⟩ := Store.getM_sel hreach hpre o ho (·.modified) hf
  obtain ⟨M', b1, _, b2⟩ := Store.getM_sel hreach' hpre o ho (·.modified) hf
  have := sel_expired (f := (·.modified)) hc hcl hcs (fun _ => rfl) a2 b2
  exact ⟨M, M', a1, b1, by rw [this.1, hc]; simp, this.2⟩

/-- **C95** Writing an expired entry again through any store on that trie is reported as a change from nil by every change handler,
once, and never as a new entry. -/
theorem C95_again (r : Run (NoRoute d) (Sys.new d) s) {i : Nat} {j : Job} (hj : s.jobs[i]? = some j) (h0 : j.tree = 0) {q : Str}
    {m : Node (Any α κ)} (hm : (q, m) ∈ (s.trees 0).root.nodes []) (hi : m.id = j.node) (hl : m.core.leaf = true) (quiet : Quiet 0 q s s')
    (hr : (s'.jobs[i]?.map (·.phase)) = some .ringing) (hreach : Reach (NoRoute d) (s'.trees 0)) (e : s'.step (.ring i) = .ok s'')
    {S : Store α κ} (ht : S.tree = s''.trees 0) (hd : S.view.delim = d) (hv : S.view.mode ≠ .up) {p : Str} (hp : S.view.full p = q)
    (hsp : ' ' ∉ q) (x : Any α κ) :
    ∃ S', S.set p x = .ok (S', Store.calls S.hs.onChange (fun h => .change h p x .nil (!S.loading)), .nil) ∧
      S.get p = .ok (.nil, true) := by
  obtain ⟨hreach', c, hc, hcl, hcs⟩ := expired r hj h0 hm hi hl quiet hr hreach e
  subst hd
  have hcq : (s''.trees 0).contents q = some { c with data := default, tag := Option.none } := by rw [hcs, if_pos rfl]
  have hq := query_plain hreach'.ok hreach'.plain hv p
  rw [hp, resolve_at hcq] at hq
  have hget : S.get p = .ok (.nil, true) := by
    simp only [Store.get, View.get, ht, hq]
    simp [ansOf, hcl]
    rfl
  have hset : ∃ S' ev old, S.set p x = .ok (S', ev, old) := by
    simp only [Store.set, ht, hq]
    exact ⟨_, _, _, rfl⟩
  obtain ⟨S', ev, old, hs⟩ := hset
  have hold := (Store.C27_old (by rw [ht]; exact hreach') (by rw [hp]; exact hsp) hs).2 (by rw [ht, hp, hcq]; rfl)
  rw [hget] at hold
  obtain ⟨f, hold⟩ := hold
  cases hold
  obtain ⟨y, found, g1, g2⟩ := Store.C27_set hs
  rw [hget] at g1
  cases g1
  rcases g2 with ⟨g, _⟩ | ⟨_, g⟩
  · cases g
  · exact ⟨S', by rw [hs, g], hget⟩
end

/-- Steps of the timers. -/
def Act.timer : Act α κ → Bool
  | .expire _ | .enter _ _ | .ring _ => true
  | _ => false

/-- **C95** No handler is told of an expiry: the timers of a store never call a handler. -/
theorem C95_silent {s s' : TStore α κ} {l : List (Act α κ)} {out : List (Out α κ)} (hl : ∀ a ∈ l, a.timer = true)
    (e : s.runs l = .ok (s', out)) : out = [] := by
  induction l generalizing s s' out with
  | nil => cases e; rfl
  | cons a l ih =>
    simp only [runs] at e
    cases hs : s.step a with
    | error x => rw [hs] at e; cases e
    | ok r =>
      obtain ⟨s1, o⟩ := r
      rw [hs] at e
      simp only at e
      cases hr : s1.runs l with
      | error x => rw [hr] at e; cases e
      | ok r2 =>
        obtain ⟨s2, o2⟩ := r2
        rw [hr] at e
        cases e
        rw [ih (fun a ha => hl a (List.mem_cons_of_mem _ ha)) hr, List.append_nil]
        have ha := hl a List.mem_cons_self
        cases a <;> simp [Act.timer] at ha <;> simp only [step] at hs
        all_goals
          generalize s.sys.step _ = g at hs
          cases g with
          | error x => cases hs
          | ok g => cases hs; rfl

/-- **C95** `Close` of a store closes each of its peripherals once per call and does nothing else: whatever follows, its timers
included, goes on as if it had not been called. -/
theorem C95_close (s : TStore α κ) (l : List (Act α κ)) :
    s.runs (.close :: l) = (s.runs l).map fun r => (r.1, s.closers.map .closed ++ r.2) := rfl

/-! ### Executions of a store -/

/-- Executions of a store. `P` restricts the full paths that are set. -/
inductive TRun (P : Str → Prop) (s0 : TStore α κ) : TStore α κ → Prop
  | refl : TRun P s0 s0
  | step {s s' : TStore α κ} {out : List (Out α κ)} (a : Act α κ) (h : TRun P s0 s)
      (hk : ∀ p x, a = .set p x → P (View.dash (s.view.full p))) (e : s.step a = .ok (s', out)) : TRun P s0 s'

theorem ids_mapCore {β : Type} (i : Nat) (f : Core β → Core β) (n : Node β) : (n.modify i (Node.mapCore f)).ids = n.ids := by
  induction n using Node.ind with
  | h a p c k ih =>
    have hk : (k.map (Node.modify i (Node.mapCore f))).flatMap Node.ids = k.flatMap Node.ids := by
      rw [List.flatMap_map]
      exact List.flatMap_congr ih
    simp only [Node.modify, Node.modifyL_eq]
    split <;> simp [Node.mapCore, Node.ids_mk, hk]

theorem write_write {β : Type} [Inhabited β] (s : Sys β) (k : Nat) (t : Tree β) (i : Nat) (f : Core β → Core β) :
    (s.write k t).write k (View.writeCore t i f) = s.write k (View.writeCore t i f) := by
  have hj : ∀ j, refresh k (View.writeCore t i f) (refresh k t j) = refresh k (View.writeCore t i f) j := by
    intro j
    by_cases hk : j.tree = k
    · have hn : ∀ b, byId (View.writeCore t i f) b = Option.none ↔ byId t b = Option.none := by
        intro b
        rw [byId_none, byId_none, View.writeCore]
        simp only [ids_mapCore]
      cases h1 : byId t j.node with
      | none =>
        have : refresh k t j = j := by simp [refresh, hk, h1]
        rw [this]
      | some n =>
        cases h2 : byId (View.writeCore t i f) j.node with
        | none => rw [(hn _).mp h2] at h1; cases h1
        | some n2 => simp [refresh, hk, h1, h2]
    · simp [refresh, hk]
  simp only [write, setTree, List.map_map]
  congr 1
  · funext x
    split <;> rfl
  · apply List.map_congr_left
    intro j _
    exact hj j

theorem run_trans {β : Type} [Inhabited β] {P : Str → Prop} {a b c : Sys β} (h1 : Run P a b) (h2 : Run P b c) : Run P a c := by
  induction h2 with
  | refl => exact h1
  | step x _ hk e ih => exact .step x ih hk e

/-- Every step of a store is made of steps of its system of tries. -/
theorem step_run {P : Str → Prop} {s s' : TStore α κ} {out : List (Out α κ)} {a : Act α κ} (hn : 0 < s.sys.nTrees)
    (hk : ∀ p x, a = .set p x → P (View.dash (s.view.full p))) (e : s.step a = .ok (s', out)) : Run P s.sys s'.sys := by
  have one : ∀ (x : Sys.Step (Any α κ)) (z : Sys (Any α κ)), (∀ k o q, x = .op k o → o.key = some q → P q) → s.sys.step x = .ok z →
      Run P s.sys z := fun x z h1 h2 => .step x (.refl _) h1 h2
  cases a with
  | set p x =>
    simp only [step] at e
    cases hs : s.store.set p x with
    | error y => rw [hs] at e; cases e
    | ok r =>
      obtain ⟨st, ev, old⟩ := r
      rw [hs] at e
      cases e
      simp only [Store.set] at hs
      cases hq : s.store.view.query s.store.tree p with
      | error y => rw [hq] at hs; cases hs
      | ok b =>
        rw [hq] at hs
        simp only [Store.setKV, Except.ok.injEq, Prod.mk.injEq] at hs
        obtain ⟨hs, -⟩ := hs
        have h1 : Run P s.sys (s.sys.write 0 (s.view.set (s.sys.trees 0) p x).1) := by
          refine one (.op 0 (.set s.view p x)) _ ?_ ?_
          · intro k o q h1 h2
            cases h1
            cases h2
            exact hk p x rfl
          · simp only [Sys.step, hn, if_true, Op.run]
        have ht : st.tree = if s.loading = true then (s.view.set (s.sys.trees 0) p x).1
            else View.writeCore (s.view.set (s.sys.trees 0) p x).1 (s.view.set (s.sys.trees 0) p x).2.hit.id (NodeOp.setModified true).app := by
          rw [← hs]
          have hld : s.store.loading = s.loading := rfl
          by_cases hl : s.loading = true
          · rw [if_pos hl]
            exact if_neg (by rw [hld, hl]; decide)
          · rw [if_neg hl]
            refine (if_pos (by rw [hld, Bool.not_eq_true _ |>.mp hl]; decide)).trans ?_
            rfl
        simp only [ht]
        by_cases hl : s.loading = true
        · rw [if_pos hl]; exact h1
        · rw [if_neg hl, ← write_write]
          refine .step (.op 0 (.node (s.view.set (s.sys.trees 0) p x).2.hit.id (.setModified true))) h1 ?_ ?_
          · intro k o q h1 h2
            cases h1
            simp [Op.key] at h2
          · have : 0 < (s.sys.write 0 (s.view.set (s.sys.trees 0) p x).1).nTrees := hn
            simp only [Sys.step, this, if_true, Op.run]
            simp [write, setTree]
  | remove p =>
    simp only [step] at e
    cases hs : s.store.remove p with
    | error y => rw [hs] at e; cases e
    | ok r =>
      obtain ⟨st, ev, old⟩ := r
      rw [hs] at e
      cases e
      simp only [Store.remove] at hs
      refine one (.op 0 (.remove s.view p)) _ ?_ ?_
      · intro k o q h1 h2
        cases h1
        simp [Op.key] at h2
      · have hv : s.store.view.removeEx s.store.tree p = s.view.removeEx (s.sys.trees 0) p := rfl
        simp only [Sys.step, hn, if_true, Op.run, View.remove]
        rw [← hv]
        cases hr : s.store.view.removeEx s.store.tree p with
        | error y => rw [hr] at hs; cases hs
        | ok b =>
          obtain ⟨t, c⟩ := b
          rw [hr] at hs
          cases c <;> (cases hs; rfl)
  | close => cases e; exact .refl _
  | trieClose =>
    cases e
    exact one (.close 0) _ (by intro k o q h; cases h) rfl
  | setTTL p ns =>
    simp only [step] at e
    cases hs : s.sys.setTTL 0 p ns with
    | error y => rw [hs] at e; cases e
    | ok r =>
      rw [hs] at e
      cases e
      exact one (.setTTL 0 p ns) _ (by intro k o q h; cases h) (by simp only [Sys.step, hs]; rfl)
  | expire i =>
    cases e
    exact one (.expire i) _ (by intro k o q h; cases h) rfl
  | enter i b =>
    simp only [step] at e
    cases hs : s.sys.step (.enter i b) with
    | error y => rw [hs] at e; cases e
    | ok r =>
      rw [hs] at e
      cases e
      exact one (.enter i b) _ (by intro k o q h; cases h) hs
  | ring i =>
    simp only [step] at e
    cases hs : s.sys.step (.ring i) with
    | error y => rw [hs] at e; cases e
    | ok r =>
      rw [hs] at e
      cases e
      exact one (.ring i) _ (by intro k o q h; cases h) hs

/-- What stays as it was made: one tree, and the view of the trie. -/
theorem step_keep {s s' : TStore α κ} {out : List (Out α κ)} {a : Act α κ} (e : s.step a = .ok (s', out)) :
    s'.sys.nTrees = s.sys.nTrees ∧ s'.sys.handles.map (·.view) = s.sys.handles.map (·.view) ∧ s'.hs = s.hs ∧ s'.loading = s.loading := by
  have hset : ∀ (l : List Handle) (i : Nat) (a b : Handle), l[i]? = some a → a.view = b.view → (l.set i b).map (·.view) = l.map (·.view) := by
    intro l i a b h1 h2
    apply List.ext_getElem?
    intro j
    simp only [List.getElem?_map, List.getElem?_set]
    split
    · rename_i h
      subst h
      split
      · rw [h1]; simp [h2]
      · rename_i h; rw [List.getElem?_eq_none (by omega)]
    · rfl
  have hfire : ∀ (z z' : Sys (Any α κ)) j, z.fire j = .ok z' → z'.nTrees = z.nTrees ∧ z'.handles = z.handles := by
    intro z z' j h
    simp only [fire] at h
    repeat' split at h
    all_goals first | (cases h; exact ⟨rfl, rfl⟩) | cases h
  cases a with
  | set p x =>
    simp only [step] at e
    split at e
    · cases e
    · cases e; exact ⟨rfl, rfl, rfl, rfl⟩
  | remove p =>
    simp only [step] at e
    split at e
    · cases e
    · cases e; exact ⟨rfl, rfl, rfl, rfl⟩
  | close => cases e; exact ⟨rfl, rfl, rfl, rfl⟩
  | trieClose =>
    cases e
    have hc : (s.sys.close 0).nTrees = s.sys.nTrees ∧ (s.sys.close 0).handles.map (·.view) = s.sys.handles.map (·.view) := by
      unfold Sys.close
      split
      · rename_i k v τ h
        exact ⟨rfl, hset _ _ _ _ h rfl⟩
      · exact ⟨rfl, rfl⟩
    exact ⟨hc.1, hc.2, rfl, rfl⟩
  | setTTL p ns =>
    simp only [step, Sys.setTTL] at e
    split at e
    · cases e; exact ⟨rfl, rfl, rfl, rfl⟩
    · rename_i b hb
      split at e
      · cases e
      · cases e
        have harm : ((s.sys.arm 0 b).1.nTrees = s.sys.nTrees) ∧ (s.sys.arm 0 b).1.handles.map (·.view) = s.sys.handles.map (·.view) := by
          unfold arm
          split
          · exact ⟨rfl, rfl⟩
          · exact ⟨rfl, hset _ _ _ _ hb rfl⟩
        rename_i n _ _ _
        have hadd : (s.sys.add 0 b b.tree n ns).nTrees = s.sys.nTrees ∧
            (s.sys.add 0 b b.tree n ns).handles.map (·.view) = s.sys.handles.map (·.view) := by
          unfold Sys.add
          split
          · exact harm
          · exact harm
        exact ⟨hadd.1, hadd.2, rfl, rfl⟩
      · cases e; exact ⟨rfl, rfl, rfl, rfl⟩
  | expire i => cases e; exact ⟨rfl, rfl, rfl, rfl⟩
  | enter i b =>
    simp only [step, Sys.step] at e
    split at e
    · cases e; exact ⟨rfl, rfl, rfl, rfl⟩
    · cases e; exact ⟨rfl, rfl, rfl, rfl⟩
  | ring i =>
    simp only [step, Sys.step] at e
    split at e
    · cases e; exact ⟨rfl, rfl, rfl, rfl⟩
    · rename_i j hj
      split at e
      · generalize hg : fire (_ : Sys (Any α κ)) j = g at e
        cases g with
        | error y => cases e
        | ok z =>
          cases e
          obtain ⟨a1, a2⟩ := hfire _ _ _ hg
          exact ⟨a1, by rw [a2], rfl, rfl⟩
      · cases e; exact ⟨rfl, rfl, rfl, rfl⟩

/-- Executions of a store are executions of its system of tries. -/
theorem TRun.run {P : Str → Prop} {d : Char} {fl : Bool} {hs : Handlers} {cl : List Nat} {s : TStore α κ} (r : TRun P (new d fl hs cl) s) :
    Run P (Sys.new d) s.sys ∧ s.sys.nTrees = 1 ∧ s.view = View.new d ∧ s.hs = hs ∧ s.loading = false := by
  have key : Run P (Sys.new d) s.sys ∧ s.sys.nTrees = 1 ∧ s.sys.handles.map (·.view) = [View.new d] ∧ s.hs = hs ∧ s.loading = false := by
    induction r with
    | refl => exact ⟨.refl _, rfl, rfl, rfl, rfl⟩
    | step a _ hk e ih =>
      obtain ⟨i1, i2, i3, i4, i5⟩ := ih
      obtain ⟨k1, k2, k3, k4⟩ := step_keep e
      exact ⟨run_trans i1 (step_run (by rw [i2]; exact Nat.one_pos) hk e), by rw [k1, i2], by rw [k2, i3], by rw [k3, i4], by rw [k4, i5]⟩
  obtain ⟨i1, i2, i3, i4⟩ := key
  refine ⟨i1, i2, ?_, i4⟩
  simp only [view]
  revert i3
  generalize s.sys.handles = l
  intro i3
  cases l with
  | nil => cases i3
  | cons a l => simp only [List.map_cons, List.cons.injEq] at i3; exact i3.1

/-- **C95** In any execution of a store: when the timer of a leaf entry rings, no handler is called, `Get` answers nil and found,
the exports of the store keep the key with the value nil and change nothing else, and setting the key again calls every change
handler once, with old value nil, and no other handler. -/
theorem C95_store {d : Char} {fl : Bool} {hs : Handlers} {cl : List Nat} {s : TStore α κ} (r : TRun (NoRoute d) (new d fl hs cl) s)
    {i : Nat} {j : Job} (hj : s.sys.jobs[i]? = some j) (hr : j.phase = .ringing) {q : Str} {m : Node (Any α κ)}
    (hm : (q, m) ∈ (s.sys.trees 0).root.nodes []) (hi : m.id = j.node) (hl : m.core.leaf = true) (hsp : ' ' ∉ q) :
    ∃ s' M M', s.step (.ring i) = .ok (s', []) ∧ s'.store.get q = .ok (.nil, true) ∧
      s.store.view.getM s.store.tree [] MOpts.default = .ok (some M) ∧ s'.store.view.getM s'.store.tree [] MOpts.default = .ok (some M') ∧
      ((∃ y, (q, y) ∈ M) ↔ endsW d q = false) ∧
      (∀ k x, (k, x) ∈ M' ↔ (k ≠ q ∧ (k, x) ∈ M) ∨ (k = q ∧ x = .nil ∧ ∃ y, (q, y) ∈ M)) ∧
      ∀ x, ∃ s2, s'.step (.set q x) = .ok (s2, (Store.calls hs.onChange (fun h => .change h q x .nil true)).map .ev) := by
  obtain ⟨h1, h2, h3, h4, h5⟩ := r.run
  have hinv := h1.inv (Inv.new d)
  have h0 : j.tree = 0 := by
    have := hinv.jtree j (List.mem_of_getElem? hj)
    omega
  have hph : (s.sys.jobs[i]?.map (·.phase)) = some .ringing := by rw [hj]; simp [hr]
  obtain ⟨z, _, e, -⟩ := C26_expiry h1 hj (by rw [h0]; exact hm) hi hl (.refl _) hph
  have hreach := h1.reach.2
  have he : s.step (.ring i) = .ok ({ s with sys := z }, []) := by simp only [step, e]; rfl
  obtain ⟨_, _, hview, hhs, hload⟩ := (TRun.step (.ring i) r (by intro p x h; cases h) he).run
  have hfull : ∀ w, (View.new d).full w = w := fun w => by simp [View.full, View.new]
  obtain ⟨M, M', a1, a2, a3, a4⟩ := (C95_export h1 hj h0 hm hi hl (.refl _) hph hreach e (v := View.new d) rfl).1 rfl
  have hst : (({ s with sys := z } : TStore α κ).store).view = View.new d := hview
  have again := fun x => C95_again h1 hj h0 hm hi hl (.refl _) hph hreach e (S := ({ s with sys := z } : TStore α κ).store) rfl
    (by rw [hst]; rfl) (by rw [hst]; simp [View.new]) (p := q) (by rw [hst]; exact hfull q) hsp x
  refine ⟨{ s with sys := z }, M, M', he, (again .nil).choose_spec.2, ?_, ?_, a3, a4, fun x => ?_⟩
  · rw [show s.store.view = View.new d from h3]; exact a1
  · rw [hst]; exact a2
  · obtain ⟨S', b1, _⟩ := again x
    refine ⟨{ s with sys := z.write 0 S'.tree }, ?_⟩
    · have hl2 : (({ s with sys := z } : TStore α κ).store).loading = false := h5
      have hh2 : (({ s with sys := z } : TStore α κ).store).hs = hs := h4
      rw [hl2, hh2] at b1
      simp only [step]
      rw [b1]
      rfl

/-! ### Witnesses -/

/-- A handler of every kind, and one peripheral. -/
def conf : TStore Nat Nat := new '.' false ⟨[some 1], [some 2], [some 3]⟩ [7]

/-- The number of a value, if it is one. -/
def num : Any Nat Nat → Option Nat
  | .atom x => some x
  | _ => none

/-- What `Get` says after some steps. -/
def answers (l : List (Act Nat Nat)) (p : String) : Go (Option Nat × Bool) :=
  match conf.runs l with
  | .error e => .error e
  | .ok (s, _) => (s.store.get p.toList).map fun r => (num r.1, r.2)

/-- The handlers called, and the peripherals closed (from 100 on). -/
def seen (l : List (Act Nat Nat)) : Go (List Nat) :=
  (conf.runs l).map fun r => r.2.map fun
    | .ev (.new h ..) => h
    | .ev (.change h ..) => h
    | .ev (.delete h ..) => h
    | .closed p => 100 + p

/-- The documentation of `SetTTL` (store.go:267-272) asks for `defer conf.Close()`. That does not stop a timer: the entry is cleared
after `Close` has returned. The method that does stop it is the hidden one of the embedded trie. -/
theorem C95_close_fails :
    answers [.set "app.verbose".toList (.atom 1), .setTTL "app.verbose".toList 1000, .enter 0 true, .close, .expire 0, .ring 0] "app.verbose" =
      .ok (none, true) ∧
    answers [.set "app.verbose".toList (.atom 1), .setTTL "app.verbose".toList 1000, .enter 0 true, .trieClose, .expire 0, .ring 0] "app.verbose" =
      .ok (some 1, true) := by
  decide +kernel

/-- An entry that expires and is set again: the new handler at first, nothing at the expiry, then the change handler. If it is removed
instead, the delete handler and again the new handler. -/
theorem C95_again_fails :
    seen [.set "a.b".toList (.atom 1), .setTTL "a.b".toList 1000, .enter 0 true, .expire 0, .ring 0] = .ok [1] ∧
    seen [.set "a.b".toList (.atom 1), .setTTL "a.b".toList 1000, .enter 0 true, .expire 0, .ring 0, .set "a.b".toList (.atom 2)] = .ok [1, 2] ∧
    seen [.set "a.b".toList (.atom 1), .remove "a.b".toList, .set "a.b".toList (.atom 2), .close] = .ok [1, 3, 1, 107] := by
  decide +kernel

/-- Closing a store twice closes its peripherals twice. -/
theorem C95_close_twice (s : TStore α κ) :
    s.runs [.close, .close] = .ok (s, s.closers.map .closed ++ (s.closers.map .closed ++ [])) := rfl

/-- The steps before the first expiry, and the answers and exports around it. -/
example :
    (match conf.runs [.set "a.b".toList (.atom 1), .set "c".toList (.atom 5), .setTTL "a.b".toList 1000, .enter 0 true, .expire 0] with
      | .ok (s, _) =>
        (s.sys.jobs.map (·.phase), (s.sys.jobs.map fun j => ((s.sys.trees 0).root.nodes []).filterMap fun a =>
          if a.2.id = j.node then some (String.ofList a.1, a.2.core.leaf) else none),
         match s.step (.ring 0) with
          | .ok (s', _) => (match s'.store.view.getM s'.store.tree [] MOpts.default with
            | .ok (some l) => l.map fun a => (String.ofList a.1, num a.2)
            | _ => [])
          | _ => [])
      | _ => ([], [], [])) = ([Phase.ringing], [[("a.b", true)]], [("a.b", none), ("c", some 5)]) := by
  decide +kernel

end TStore
end Verif

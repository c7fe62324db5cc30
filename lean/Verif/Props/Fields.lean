import Verif.Props.Entry
import Verif.Props.Env
import Verif.Lemmas.Cvt
/-
More on the fields of an entry (C14, C40) and on the variables of the environment (C44).
-/
namespace Verif
variable {α : Type} [Inhabited α]

/-- **C14** `GetDesc`, `GetComment` and `GetTag` give the fields of the entry of the path; an entry with entries below it is "not found" unless the path ends with the
delimiter. -/
theorem C14_getters {r : View} {t : Tree α} (h : Reach (NoRoute r.delim) t) {p : Str} {c : Core α} (hc : t.contents (r.full p) = some c) :
    r.getDesc t p = .ok (if c.leaf || endsW r.delim (r.full p) then some c.desc else none) ∧
    r.getComment t p = .ok (if c.leaf || endsW r.delim (r.full p) then some c.comment else none) ∧
    r.getTag t p = .ok (if c.leaf || endsW r.delim (r.full p) then some c.tag else none) := by
  have e := getNodeFast_hit h.ok h.plain (resolve_at (d := r.delim) hc)
  simp only [View.getDesc, View.getComment, View.getTag]
  revert e
  cases r.getNodeFast t p with
  | error x => intro e; simp [Except.map] at e
  | ok n =>
    simp only [Except.map, Except.ok.injEq]
    cases n with
    | none =>
      intro e
      by_cases hb : (c.leaf || endsW r.delim (r.full p)) = true
      · rw [if_pos hb] at e; cases e
      · rw [if_neg hb, if_neg hb, if_neg hb]; simp
    | some n =>
      intro e
      by_cases hb : (c.leaf || endsW r.delim (r.full p)) = true
      · rw [if_pos hb] at e
        simp only [Option.map_some, Option.some.injEq] at e
        rw [if_pos hb, if_pos hb, if_pos hb]; simp [e]
      · rw [if_neg hb] at e; cases e

/-- **C14** What `SetComment` and `SetTag` wrote on an entry without entries below it is read back, and the other fields are as before. -/
theorem C14_read_back {v : View} {t : Tree α} (h : Reach (NoRoute v.delim) t) (hm : v.mode ≠ .up) {p : Str} {c : Core α} (hc : t.contents (v.full p) = some c)
    (hl : c.leaf = true) (ds cm : Str) (tag : Option α) :
    (∃ t', v.setComment t p ds cm = .ok (t', true) ∧ v.getDesc t' p = .ok (some ds) ∧ v.getComment t' p = .ok (some cm) ∧ v.getTag t' p = v.getTag t p) ∧
    (∃ t', v.setTag t p tag = .ok (t', true) ∧ v.getTag t' p = .ok (some tag) ∧ v.getDesc t' p = v.getDesc t p ∧ v.getComment t' p = v.getComment t p) := by
  have hh : v.has t p = .ok true := by rw [has_plain h.ok h.plain hm, resolve_at hc]; rfl
  have g := C14_getters (r := v) h hc
  simp only [hl, Bool.true_or, if_true] at g
  obtain ⟨m, hm1, hm2⟩ := (Tree.contents_node h.ok).mp hc
  have h1 : resolve v.delim t.nodeAt (v.full p) = some (v.full p, m) := resolve_at ((Tree.nodeAt_some h.ok).mpr hm1)
  obtain ⟨par, h2, -⟩ := search_hit h.ok h.plain h1
  constructor
  · have e : v.setComment t p ds cm = .ok (View.writeCore t m.id (fun c => { c with desc := ds, comment := cm }), true) := by rw [View.setComment, h2]
    have hr : Reach (NoRoute v.delim) (View.writeCore t m.id (fun c => { c with desc := ds, comment := cm })) :=
      .step (.setComment v p ds cm) h (fun k e => by cases e) (by simp [Op.run, e, Except.map])
    have hx := writeCore_contents h.ok hm1 (fun c => { c with desc := ds, comment := cm }) (v.full p)
    rw [if_pos rfl, hm2] at hx
    have g' := C14_getters (r := v) hr hx
    simp only [hl, Bool.true_or, if_true] at g'
    exact ⟨_, e, g'.1, g'.2.1, g'.2.2.trans g.2.2.symm⟩
  · have e : v.setTag t p tag = .ok (View.writeCore t m.id (fun c => { c with tag := tag }), true) := by rw [View.setTag, h2]
    have hr : Reach (NoRoute v.delim) (View.writeCore t m.id (fun c => { c with tag := tag })) :=
      .step (.setTag v p tag) h (fun k e => by cases e) (by simp [Op.run, e, Except.map])
    have hx := writeCore_contents h.ok hm1 (fun c => { c with tag := tag }) (v.full p)
    rw [if_pos rfl, hm2] at hx
    have g' := C14_getters (r := v) hr hx
    simp only [hl, Bool.true_or, if_true] at g'
    exact ⟨_, e, g'.2.2, g'.1.trans g.1.symm, g'.2.1.trans g.2.1.symm⟩

/-! ## C40: the writes of a callback -/

namespace NodeOp

/-- The value a field is given by the last write that concerns it. -/
def lastOf {β : Type} (f : NodeOp α → Option β) (os : List (NodeOp α)) (old : β) : β := (os.reverse.findSome? f).getD old

theorem runs_snoc (os : List (NodeOp α)) (o : NodeOp α) (c : Core α) : runs (os ++ [o]) c = o.app (runs os c) := by
  simp [runs, List.foldl_append]

omit [Inhabited α] in
theorem lastOf_snoc {β : Type} (f : NodeOp α → Option β) (os : List (NodeOp α)) (o : NodeOp α) (old : β) :
    lastOf f (os ++ [o]) old = (f o).getD (lastOf f os old) := by
  simp only [lastOf, List.reverse_append, List.reverse_cons, List.reverse_nil, List.nil_append, List.singleton_append, List.findSome?_cons]
  cases f o <;> rfl

/-- **C40** The writes of a callback: every field has what was written last, `SetEmpty` being a write of the zero value and of an empty tag; the modified mark is
what `SetModified` said last, flipped by every later `ToggleModified`; `SetData` makes the entry one with data; the rest is as it was. -/
theorem C40_writes (os : List (NodeOp α)) (c : Core α) :
    (runs os c).data = lastOf (fun o => match o with | .setData x => some x | .setEmpty => some default | _ => none) os c.data ∧
    (runs os c).desc = lastOf (fun o => match o with | .setComment d _ => some d | _ => none) os c.desc ∧
    (runs os c).comment = lastOf (fun o => match o with | .setComment _ m => some m | _ => none) os c.comment ∧
    (runs os c).tag = lastOf (fun o => match o with | .setTag x => some x | .setEmpty => some none | _ => none) os c.tag ∧
    (runs os c).hasData = lastOf (fun o => match o with | .setData _ => some true | _ => none) os c.hasData ∧
    (runs os c).pathS = c.pathS ∧ (runs os c).leaf = c.leaf := by
  induction os using snocInd with
  | h0 => exact ⟨rfl, rfl, rfl, rfl, rfl, rfl, rfl⟩
  | h1 os o ih =>
    obtain ⟨i1, i2, i3, i4, i5, i6, i7⟩ := ih
    simp only [runs_snoc, lastOf_snoc, ← i1, ← i2, ← i3, ← i4, ← i5]
    cases o <;> simp [app, emptyCore, i6, i7]

/-- **C40** The modified mark. -/
theorem C40_marks (os os' : List (NodeOp α)) (b : Bool) (c : Core α) (h : ∀ x, NodeOp.setModified x ∉ os') :
    (runs (os ++ .setModified b :: os') c).modified = Bool.xor b (os'.countP (fun o => match o with | .toggleModified => true | _ => false) % 2 == 1) ∧
    (runs os' c).modified = Bool.xor c.modified (os'.countP (fun o => match o with | .toggleModified => true | _ => false) % 2 == 1) := by
  have key : ∀ (l : List (NodeOp α)) (c : Core α), (∀ x, NodeOp.setModified x ∉ l) →
      (runs l c).modified = Bool.xor c.modified (l.countP (fun o => match o with | .toggleModified => true | _ => false) % 2 == 1) := by
    intro l
    induction l using snocInd with
    | h0 => intro c _; simp [runs]
    | h1 l o ih =>
      intro c hl
      have hl' : ∀ x, NodeOp.setModified x ∉ l := fun x hx => hl x (by simp [hx])
      rw [runs_snoc, List.countP_append]
      have i := ih c hl'
      generalize hn : l.countP (fun o => match o with | .toggleModified => true | _ => false) = n at i ⊢
      cases o with
      | setModified x => exact absurd (by simp) (hl x)
      | toggleModified =>
        have e : (n + 1) % 2 = 1 - n % 2 := by omega
        have : n % 2 = 0 ∨ n % 2 = 1 := by omega
        simp only [app, i, List.countP_cons, List.countP_nil, if_true, Nat.zero_add, e]
        rcases this with h | h <;> simp [h]
      | _ => simp [app, emptyCore, i]
  refine ⟨?_, key os' c h⟩
  have e : runs (os ++ .setModified b :: os') c = runs os' ((NodeOp.setModified b).app (runs os c)) := by
    simp [runs, List.foldl_append]
  rw [e, key _ _ h]
  rfl

example : ∀ c : Core Nat, (runs [.setData 3, .toggleModified, .setModified false, .setTag (some 1), .setEmpty, .setData 4] c).modified = false ∧
    (runs [.setData 3, .toggleModified, .setModified false, .setTag (some 1), .setEmpty, .setData 4] c).tag = none ∧
    (runs [.setData 3, .toggleModified, .setModified false, .setTag (some 1), .setEmpty, .setData 4] c).data = 4 := fun _ => ⟨rfl, rfl, rfl⟩

end NodeOp

/-! ## C44: the variables of the environment -/

/-- **C44** A string of the environment is a variable if it has a non-empty name and a '=' after it; the value may contain more of them. -/
theorem C44_environ (s k x : Str) : cutEq s = some (k, x) ↔ s = k ++ '=' :: x ∧ '=' ∉ k ∧ k ≠ [] := by
  have hsub : ∀ l : Str, ['='] <:+: l ↔ '=' ∈ l := by
    intro l
    constructor
    · intro h; exact h.subset (by simp)
    · intro h
      obtain ⟨a, b, rfl⟩ := List.append_of_mem h
      exact ⟨a, b, by simp⟩
  have hidx : ∀ (k x : Str), '=' ∉ k → indexOf ['='] (k ++ '=' :: x) = some k.length := by
    intro k
    induction k with
    | nil => intro x _; simp [indexOf]
    | cons a k ih =>
      intro x h
      simp only [List.mem_cons, not_or] at h
      simp [indexOf, ih x h.2, h.1]
  unfold cutEq
  constructor
  · intro h
    split at h
    · rename_i n hi
      simp only [Option.some.injEq, Prod.mk.injEq] at h
      obtain ⟨h1, h2⟩ := h
      obtain ⟨e1, e2⟩ := indexOf_some hi
      have e3 := indexOf_first hi (by simp)
      rw [hsub, h1] at e3
      have h3 : s = k ++ '=' :: x := by
        rw [h1] at e1
        simp only [List.length_singleton] at e1
        rw [h2] at e1
        simpa using e1
      refine ⟨h3, e3, ?_⟩
      rw [← h1]
      intro e
      have := congrArg List.length e
      simp only [List.length_take, List.length_nil, List.length_singleton] at this e2
      omega
    · cases h
  · rintro ⟨rfl, h1, h2⟩
    rw [hidx k x h1]
    cases k with
    | nil => exact absurd rfl h2
    | cons a k => simp

/-- A provider that could be made has made a key of every name. -/
theorem collect_ok {κ α : Type} (c : EnvCfg) : ∀ (l : List (Str × ValPkg α κ)) {keys : List Str} {m : List (Str × ValPkg α κ)} {r},
    c.collect keys m l = .ok r → ∀ a ∈ l, c.keyFor a.1 ≠ .error .panic
  | [], _, _, _, _, a, ha => by cases ha
  | (k, x) :: l, keys, m, r, h, a, ha => by
    unfold EnvCfg.collect at h
    split at h
    · cases h
    · next e =>
      rcases List.mem_cons.mp ha with rfl | ha
      · rw [e]; exact nofun
      · exact collect_ok c l h a ha
    · next e =>
      rcases List.mem_cons.mp ha with rfl | ha
      · rw [e]; exact nofun
      · exact collect_ok c l h a ha

/-- **C44** `Value` for the variables of the environment: the value of an accepted variable under its key, if no accepted one that comes later has the same key. -/
theorem C44_last {κ α : Type} (c : EnvCfg) (val : Str → α) (l₁ l₂ : List Str) {k x : Str} (hk : '=' ∉ k ∧ k ≠ []) (hp : c.pre = [] ∨ c.pre <+: k)
    (hl : ∀ k' x', k' ++ '=' :: x' ∈ l₂ → '=' ∉ k' → (c.pre = [] ∨ c.pre <+: k') → c.keySpec k' ≠ c.keySpec k)
    {s : EnvProv α κ} (h : EnvProv.env c val (l₁ ++ (k ++ '=' :: x) :: l₂) = .ok s) : s.value (c.keySpec k) = some (.atom (val x)) := by
  unfold EnvProv.env at h
  have hok : ∀ a ∈ (((l₁ ++ (k ++ '=' :: x) :: l₂).filterMap cutEq).map (fun a => (a.1, (⟨.atom (val a.2), [], [], .nil⟩ : ValPkg α κ)))), c.keyFor a.1 ≠ .error .panic := by
    unfold EnvProv.prepare at h
    split at h
    · cases h
    · next e => exact collect_ok c _ e
  have hc : cutEq (k ++ '=' :: x) = some (k, x) := (C44_environ _ _ _).mpr ⟨rfl, hk.1, hk.2⟩
  have hacc : (c.pre = [] || c.pre.isPrefixOf k) = true := by
    rcases hp with hp | hp
    · simp [hp]
    · simp [List.isPrefixOf_iff_prefix.mpr hp]
  rw [(EnvProv.C44_count c _ h hok).2]
  simp only [List.filterMap_append, List.filterMap_cons, hc, List.map_append, List.map_cons, accepted, List.filter_append, List.filter_cons, hacc, if_true]
  rw [lastWrite_append, lastWrite]
  rw [(lastWrite_none _ _).mpr]
  · simp
  · intro y hy
    obtain ⟨a, ha, e⟩ := List.mem_map.mp hy
    obtain ⟨ha, hb⟩ := List.mem_filter.mp ha
    obtain ⟨b, hb', rfl⟩ := List.mem_map.mp ha
    obtain ⟨z, hz, ez⟩ := List.mem_filterMap.mp hb'
    obtain ⟨rfl, e1, _⟩ := (C44_environ z b.1 b.2).mp ez
    refine hl b.1 b.2 hz e1 ?_ (Prod.mk.inj e).1
    simpa [List.isPrefixOf_iff_prefix] using hb

example {s : EnvProv Str Nat} (h : EnvProv.env exEnv (fun s => s) ["APP_Z=1".toList, "APP_LOG_LEVEL=2".toList, "APP_Z=a=3".toList, "HOME=x".toList] = .ok s) :
    s.value "app.z".toList = some (.atom "a=3".toList) := by
  have := C44_last (κ := Nat) exEnv (fun s => s) ["APP_Z=1".toList, "APP_LOG_LEVEL=2".toList] ["HOME=x".toList] (k := "APP_Z".toList) (x := "a=3".toList) (by decide +kernel)
    (.inr (List.isPrefixOf_iff_prefix.mp (by decide +kernel))) (fun k' x' hm h1 h2 => by
      have hm := List.mem_singleton.mp hm
      have : cutEq "HOME=x".toList = some (k', x') := (C44_environ _ _ _).mpr ⟨hm.symm, h1, by rintro rfl; revert hm; exact fun hm => absurd (congrArg List.head? hm) (by show ¬ (some '=' = _); decide +kernel)⟩
      rw [show cutEq "HOME=x".toList = some ("HOME".toList, "x".toList) by decide +kernel] at this
      cases this
      exact absurd h2 (by simp only [← List.isPrefixOf_iff_prefix]; decide +kernel)) (s := s) h
  rwa [show exEnv.keySpec "APP_Z".toList = "app.z".toList by decide +kernel] at this

end Verif

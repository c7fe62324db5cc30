import Verif.Model.Hcl
import Verif.Props.Save
import Verif.Props.Env
/-
C60: HCL blocks.
-/
namespace Verif
namespace Hcl
variable {α κ : Type}

/-- The keys `ks` lead from the map `m` to `v`, through maps and through blocks that occur once (lists of a single map). `v` is neither. -/
def At : List Str → SMap α κ → Any α κ → Prop
  | [], _, _ => False
  | k :: ks, m, v => ∃ x, (k, x) ∈ m ∧ match x with
    | .map m' => At ks m' v
    | .maps [m'] => At ks m' v
    | x => ks = [] ∧ x = v

/-- The keys lead to `v` through maps only. -/
def Via : List Str → SMap α κ → Any α κ → Prop
  | [], _, _ => False
  | [k], m, v => (k, v) ∈ m
  | k :: ks, m, v => ∃ m', (k, .map m') ∈ m ∧ Via ks m' v

theorem mem_flatM {m : SMap α κ} {k : Str} {y : Any α κ} : (k, y) ∈ flatM m ↔ ∃ x, (k, x) ∈ m ∧ y = flatV x := by
  induction m with
  | nil => simp [flatM]
  | cons a m ih =>
    obtain ⟨k', v⟩ := a
    simp only [flatM, List.mem_cons, Prod.mk.injEq, ih]
    constructor
    · rintro (⟨rfl, rfl⟩ | ⟨x, hx, rfl⟩)
      · exact ⟨v, .inl ⟨rfl, rfl⟩, rfl⟩
      · exact ⟨x, .inr hx, rfl⟩
    · rintro ⟨x, ⟨rfl, rfl⟩ | hx, rfl⟩
      · exact .inl ⟨rfl, rfl⟩
      · exact .inr ⟨x, hx, rfl⟩

/-- The loops as written: first all lists of one map are replaced, then all maps are entered. -/
def loop1 : Any α κ → Any α κ
  | .maps [m'] => .map m'
  | x => x
def loop2 : Any α κ → Any α κ
  | .map m' => .map (flatM m')
  | x => x

theorem flatM_loops (m : SMap α κ) : flatM m = (m.map (fun a => (a.1, loop1 a.2))).map (fun a => (a.1, loop2 a.2)) := by
  induction m with
  | nil => simp [flatM]
  | cons a m ih =>
    obtain ⟨k, v⟩ := a
    rw [flatM, ih]
    simp only [List.map_cons, List.cons.injEq, and_true, Prod.mk.injEq, true_and]
    rcases v with _ | _ | _ | _ | _ | (_ | ⟨_, _ | _⟩) | _ | _ <;> simp [flatV, loop1, loop2]

section
variable {P : Any α κ → Prop} {Q : SMap α κ → Prop} (hmap : ∀ m, Q m → P (.map m)) (hone : ∀ m, Q m → P (.maps [m]))
    (hother : ∀ x, flatV x = x → (∀ m, x ≠ .map m) → (∀ m, x ≠ .maps [m]) → P x) (hnil : Q []) (hcons : ∀ k v m, P v → Q m → Q ((k, v) :: m))
include hmap hone hother hnil hcons
mutual
theorem indV : ∀ x : Any α κ, P x
  | .map m => hmap m (indM m)
  | .maps [m] => hone m (indM m)
  | .nil => hother _ (by simp [flatV]) (by simp) (by simp)
  | .atom _ => hother _ (by simp [flatV]) (by simp) (by simp)
  | .amap _ => hother _ (by simp [flatV]) (by simp) (by simp)
  | .list _ => hother _ (by simp [flatV]) (by simp) (by simp)
  | .maps [] => hother _ (by simp [flatV]) (by simp) (by simp)
  | .maps (_ :: _ :: _) => hother _ (by simp [flatV]) (by simp) (by simp)
  | .amaps _ => hother _ (by simp [flatV]) (by simp) (by simp)
  | .pkg _ => hother _ (by simp [flatV]) (by simp) (by simp)
theorem indM : ∀ m : SMap α κ, Q m
  | [] => hnil
  | (k, v) :: m => hcons k v m (indV v) (indM m)
end
end

theorem cases_flat (x : Any α κ) : (∃ m, x = .map m) ∨ (∃ m, x = .maps [m]) ∨
    (flatV x = x ∧ (∀ m, x ≠ .map m) ∧ ∀ m, x ≠ .maps [m]) := by
  rcases x with _ | _ | _ | _ | _ | (_ | ⟨_, _ | _⟩) | _ | _ <;> simp [flatV]

/-- **C60** Flattening twice is flattening once. -/
theorem C60_idempotent (m : SMap α κ) : flatM (flatM m) = flatM m := by
  refine indM (P := fun x => flatV (flatV x) = flatV x) (Q := fun m => flatM (flatM m) = flatM m) ?_ ?_ ?_ ?_ ?_ m
  · intro m h; simp only [flatV, h]
  · intro m h; simp only [flatV, h]
  · intro x h _ _; rw [h, h]
  · simp [flatM]
  · intro k v m h1 h2; simp only [flatM, h1, h2]

theorem via_cons {k : Str} {ks : List Str} (h : ks ≠ []) {m : SMap α κ} {v} : Via (k :: ks) m v ↔ ∃ m', (k, .map m') ∈ m ∧ Via ks m' v := by
  cases ks with
  | nil => exact absurd rfl h
  | cons a as => rfl

theorem at_cons {k : Str} {ks : List Str} {m : SMap α κ} {v} : At (k :: ks) m v ↔
    (∃ m', ((k, .map m') ∈ m ∨ (k, .maps [m']) ∈ m) ∧ At ks m' v) ∨
    (ks = [] ∧ (k, v) ∈ m ∧ (∀ m', v ≠ .map m') ∧ ∀ m', v ≠ .maps [m']) := by
  simp only [At]
  constructor
  · rintro ⟨x, hx, h⟩
    rcases cases_flat x with ⟨m', rfl⟩ | ⟨m', rfl⟩ | ⟨-, h1, h2⟩
    · exact .inl ⟨m', .inl hx, h⟩
    · exact .inl ⟨m', .inr hx, h⟩
    · rcases x with _ | _ | _ | _ | _ | (_ | ⟨_, _ | _⟩) | _ | _ <;>
        first
        | exact absurd rfl (h1 _)
        | exact absurd rfl (h2 _)
        | (obtain ⟨rfl, rfl⟩ := h; exact .inr ⟨rfl, hx, h1, h2⟩)
  · rintro (⟨m', h1 | h1, h⟩ | ⟨rfl, h, h1, h2⟩)
    · exact ⟨_, h1, h⟩
    · exact ⟨_, h1, h⟩
    · refine ⟨v, h, ?_⟩
      rcases v with _ | _ | _ | _ | _ | (_ | ⟨_, _ | _⟩) | _ | _ <;>
        first
        | exact absurd rfl (h1 _)
        | exact absurd rfl (h2 _)
        | exact ⟨rfl, rfl⟩

theorem at_leaf {ks : List Str} {m : SMap α κ} {v} (h : At ks m v) : (∀ m', v ≠ .map m') ∧ ∀ m', v ≠ .maps [m'] := by
  induction ks generalizing m with
  | nil => exact absurd h (by simp [At])
  | cons k ks ih =>
    rcases at_cons.mp h with ⟨m', -, h⟩ | ⟨-, -, h1, h2⟩
    · exact ih h
    · exact ⟨h1, h2⟩

theorem flatV_map {x : Any α κ} {m' : SMap α κ} (h : .map m' = flatV x) : ∃ m0, m' = flatM m0 ∧ (x = .map m0 ∨ x = .maps [m0]) := by
  rcases cases_flat x with ⟨m0, rfl⟩ | ⟨m0, rfl⟩ | ⟨h0, h1, h2⟩
  · simp only [flatV, Any.map.injEq] at h; exact ⟨m0, h, .inl rfl⟩
  · simp only [flatV, Any.map.injEq] at h; exact ⟨m0, h, .inr rfl⟩
  · rw [h0] at h; exact absurd h.symm (h1 m')

/-- **C60** After flattening, no list of a single map can be reached through maps. -/
theorem C60_no_single (m : SMap α κ) (ks : List Str) (m' : SMap α κ) : ¬ Via ks (flatM m) (.maps [m']) := by
  induction ks generalizing m with
  | nil => simp [Via]
  | cons k ks ih =>
    by_cases hk : ks = []
    · subst hk
      simp only [Via]
      intro h
      obtain ⟨x, -, hx⟩ := mem_flatM.mp h
      rcases cases_flat x with ⟨m0, rfl⟩ | ⟨m0, rfl⟩ | ⟨h0, h1, h2⟩
      · simp [flatV] at hx
      · simp [flatV] at hx
      · rw [h0] at hx; exact absurd hx.symm (h2 m')
    · rw [via_cons hk]
      rintro ⟨m1, h1, h2⟩
      obtain ⟨x, -, hx⟩ := mem_flatM.mp h1
      obtain ⟨m0, rfl, -⟩ := flatV_map hx
      exact ih m0 h2

/-- **C60** Everything keeps its place, except that blocks that occur once are entered without an index: the values found through maps after
flattening are those found through maps and single blocks before. -/
theorem C60_paths (m : SMap α κ) (ks : List Str) (v : Any α κ) :
    At ks m v ↔ Via ks (flatM m) v ∧ ∀ m', v ≠ .map m' := by
  induction ks generalizing m with
  | nil => simp [At, Via]
  | cons k ks ih =>
    rw [at_cons]
    constructor
    · rintro (⟨m', h1, h⟩ | ⟨rfl, h, h1, h2⟩)
      · have hks : ks ≠ [] := by rintro rfl; simp [At] at h
        obtain ⟨i1, i2⟩ := (ih m').mp h
        refine ⟨(via_cons hks).mpr ⟨flatM m', mem_flatM.mpr ?_, i1⟩, i2⟩
        rcases h1 with h1 | h1
        · exact ⟨_, h1, by simp [flatV]⟩
        · exact ⟨_, h1, by simp [flatV]⟩
      · refine ⟨mem_flatM.mpr ⟨v, h, ?_⟩, h1⟩
        rcases cases_flat v with ⟨m0, rfl⟩ | ⟨m0, rfl⟩ | ⟨h0, -⟩
        · exact absurd rfl (h1 m0)
        · exact absurd rfl (h2 m0)
        · exact h0.symm
    · rintro ⟨h, hv⟩
      by_cases hks : ks = []
      · subst hks
        obtain ⟨x, hx, e⟩ := mem_flatM.mp h
        rcases cases_flat x with ⟨m0, rfl⟩ | ⟨m0, rfl⟩ | ⟨h0, h1, h2⟩
        · simp only [flatV] at e; exact absurd e (hv _)
        · simp only [flatV] at e; exact absurd e (hv _)
        · rw [h0] at e; subst e; exact .inr ⟨rfl, hx, h1, h2⟩
      · obtain ⟨m1, h1, h2⟩ := (via_cons hks).mp h
        obtain ⟨x, hx, e⟩ := mem_flatM.mp h1
        obtain ⟨m0, rfl, h3⟩ := flatV_map e
        refine .inl ⟨m0, ?_, (ih m0).mpr ⟨h2, hv⟩⟩
        rcases h3 with rfl | rfl
        · exact .inl hx
        · exact .inr hx

/-! ## Loading -/

mutual
/-- The keys of every map are distinct (always so for Go maps), also in blocks. -/
def uniqHV : Any α κ → Prop
  | .map m => uniqH m
  | .maps [m] => uniqH m
  | _ => True
def uniqH : List (Str × Any α κ) → Prop
  | [] => True
  | (k, v) :: m => (∀ a ∈ m, a.1 ≠ k) ∧ uniqHV v ∧ uniqH m
end

theorem uniq_flat (m : SMap α κ) : uniqH m → uniqM (flatM m) := by
  refine indM (P := fun x => uniqHV x → (flatV x).uniq) (Q := fun m => uniqH m → uniqM (flatM m)) ?_ ?_ ?_ ?_ ?_ m
  · intro m h; simp only [flatV, uniqHV, Any.uniq]; exact h
  · intro m h; simp only [flatV, uniqHV, Any.uniq]; exact h
  · intro x h h1 _ _
    rw [h]
    cases x <;> simp_all [Any.uniq]
  · intro _; simp [flatM, uniqM]
  · intro k v m h1 h2 hu
    simp only [uniqH] at hu
    simp only [flatM, uniqM]
    refine ⟨?_, h1 hu.2.1, h2 hu.2.2⟩
    rintro ⟨k', y⟩ ha
    obtain ⟨x, hx, -⟩ := mem_flatM.mp ha
    exact hu.1 (k', x) hx

theorem mget_mem {m : SMap α κ} (hu : uniqM m) {k : Str} {x : Any α κ} : mget m k = some x ↔ (k, x) ∈ m := by
  induction m with
  | nil => simp [mget, assoc]
  | cons a m ih =>
    obtain ⟨k', v⟩ := a
    simp only [uniqM] at hu
    simp only [mget, assoc] at ih ⊢
    by_cases e : k' = k
    · subst e
      simp only [if_true, Option.some.injEq, List.mem_cons, Prod.mk.injEq, true_and]
      constructor
      · rintro rfl; exact .inl rfl
      · rintro (rfl | h)
        · rfl
        · exact absurd rfl (hu.1 _ h)
    · simp only [e, if_false, ih hu.2.2, List.mem_cons, Prod.mk.injEq]
      constructor
      · exact .inr
      · rintro (⟨rfl, -⟩ | h)
        · exact absurd rfl e
        · exact h

theorem uniq_mem {m : SMap α κ} (hu : uniqM m) {k : Str} {m' : SMap α κ} (h : (k, .map m') ∈ m) : uniqM m' := by
  induction m with
  | nil => simp at h
  | cons a m ih =>
    obtain ⟨k', v⟩ := a
    simp only [uniqM] at hu
    rcases List.mem_cons.mp h with h | h
    · simp only [Prod.mk.injEq] at h
      obtain ⟨rfl, rfl⟩ := h
      simpa [Any.uniq] using hu.2.1
    · exact ih hu.2.2 h

theorem status_via {m : SMap α κ} (hu : uniqM m) (ks : List Str) (v : Any α κ) :
    status m ks = some (some v) ↔ Via ks m v ∧ ∀ m', v ≠ .map m' := by
  induction ks generalizing m with
  | nil => simp [status, Via]
  | cons k ks ih =>
    rw [status_cons]
    by_cases hks : ks = []
    · subst hks
      simp only [Via, ← mget_mem hu]
      cases h : mget m k with
      | none => simp
      | some x =>
        cases x <;> simp [status] <;> rintro rfl <;> simp
    · rw [via_cons hks]
      simp only [← mget_mem hu]
      cases h : mget m k with
      | none => simp
      | some x =>
        cases x with
        | map m2 =>
          simp only [Option.bind_some, Option.some.injEq, Any.map.injEq, exists_eq_left']
          exact ih (uniq_mem hu ((mget_mem hu).mp h))
        | _ => simp [hks]

/-- **C60** Loading an HCL file with `WithFlattenSlices`: a value reached through maps and single blocks can be read at the dotted path of its keys,
and other entries are not affected. -/
theorem C60_load (str : κ → Str) {s : Store α κ} (hs : s.loading = false) (h : Reach (NoRoute s.view.delim) s.tree)
    (prefix' : Option Str) (flat : Option Bool) (hfl : flat.getD s.flatten = false) (m : SMap α κ) (hu : uniqH m)
    (hv : ∀ ks v, At ks m v → (∀ w, v ≠ .amap w) ∧ ∀ w, v ≠ .pkg w)
    (hk : ∀ ks v, At ks m v → ∀ k ∈ ks, k ≠ [] ∧ s.view.delim ∉ k)
    (hsp : ∀ ks v, At ks m v → ' ' ∉ joinSpec s.view.delim (s.loadAt prefix' :: ks))
    (hroute : ∀ ks v, At ks m v → NoRoute s.view.delim (joinSpec s.view.delim (s.loadAt prefix' :: ks)))
    (r : View) (hr : r.delim = s.view.delim) (p : Str) :
    let s' := (s.load str prefix' flat (.once (unmarshal true (some m)))).1
    (∀ ks v, At ks m v → r.full p = joinSpec s.view.delim (s.loadAt prefix' :: ks) → r.mustGet s'.tree p = .ok v) ∧
    (∀ c, s.tree.contents (r.full p) = some c → (∀ ks v, At ks m v → r.full p ≠ joinSpec s.view.delim (s.loadAt prefix' :: ks)) →
      r.mustGet s'.tree p = r.mustGet s.tree p) := by
  have huf := uniq_flat m hu
  have hst : ∀ ks v, status (flatM m) ks = some (some v) ↔ At ks m v := fun ks v => by rw [status_via huf, C60_paths]
  obtain ⟨l1, l2⟩ := leavesM_status false str (flatM m) huf (fun ks y hy => by
    obtain ⟨a1, a2⟩ := hv ks y ((hst ks y).mp hy)
    have a3 := (at_leaf ((hst ks y).mp hy)).1
    cases y <;> simp_all [leaves])
  have hL : ∀ l x, (l, x) ∈ leavesM false str (flatM m) ↔ At l m x := fun l x => by rw [l1, hst]
  have hkey : ∀ l x, At l m x → leafKey s.view.delim (s.loadAt prefix') l = joinSpec s.view.delim (s.loadAt prefix' :: l) :=
    fun l x hx => EnvProv.dash_nospace (hsp l x hx)
  have hnd : ((leavesM false str (flatM m)).map (fun a => leafKey s.view.delim (s.loadAt prefix') a.1)).Nodup := by
    have : (leavesM false str (flatM m)).map (fun a => leafKey s.view.delim (s.loadAt prefix') a.1) =
        ((leavesM false str (flatM m)).map (·.1)).map (leafKey s.view.delim (s.loadAt prefix')) := by rw [List.map_map]; rfl
    refine (congrArg List.Nodup this).mpr ?_
    refine List.Nodup.map_on ?_ l2
    intro a ha b hb e
    obtain ⟨⟨l, y⟩, hl, rfl⟩ := List.mem_map.mp ha
    obtain ⟨⟨l', y'⟩, hl', rfl⟩ := List.mem_map.mp hb
    rw [hL] at hl hl'
    simp only at e ⊢
    rw [hkey l y hl, hkey l' y' hl', joinSpec_eq, joinSpec_eq] at e
    have hf : ∀ {l y}, At l m y → l.filter (fun p => p ≠ []) = l := fun {l y} hl =>
      List.filter_eq_self.mpr (fun w hw => by simpa using (hk l y hl w hw).1)
    have hne : ∀ {l y}, At l m y → l ≠ [] := by rintro l y hl rfl; simp [At] at hl
    have hd : ∀ {l y}, At l m y → ∀ w ∈ l, s.view.delim ∉ w := fun {l y} hl w hw => (hk l y hl w hw).2
    by_cases hp : s.loadAt prefix' = []
    · rw [List.filter_cons_of_neg (by simp [hp]), List.filter_cons_of_neg (by simp [hp]), hf hl, hf hl'] at e
      exact joinWith_inj (hne hl) (hne hl') (hd hl) (hd hl') e
    · rw [List.filter_cons_of_pos (by simp [hp]), List.filter_cons_of_pos (by simp [hp]), hf hl, hf hl', joinWith_cons (hne hl),
        joinWith_cons (hne hl')] at e
      have e := List.append_cancel_left e
      simp only [List.cons.injEq, true_and] at e
      exact joinWith_inj (hne hl) (hne hl') (hd hl) (hd hl') e
  obtain ⟨q1, q2⟩ := Store.C29_load str hs h prefix' flat (.once (some (flatM m))) (L := leavesM false str (flatM m)) (by rw [hfl]; rfl)
    (by rw [hfl]; simp) (fun l x hl => by rw [hL] at hl; rw [hkey l x hl]; exact hroute l x hl) hnd r hr p
  refine ⟨fun ks v hat e => q1 ks v ((hL ks v).mpr hat) (by rw [hkey ks v hat]; exact e), fun c hc hx => q2 c hc (fun l x hl e => ?_)⟩
  rw [hL] at hl
  rw [hkey l x hl] at e
  exact hx l x hl e

/-! ## Examples -/

/-- A file with the blocks `server { port = 80  tls { on = 1 } }`, two blocks `site`, and the attribute `n`. -/
def exM60 : SMap Nat Nat :=
  [("server".toList, .maps [[("port".toList, .atom 80), ("tls".toList, .maps [[("on".toList, .atom 1)]])]]),
   ("site".toList, .maps [[("a".toList, .maps [[("x".toList, .atom 1)]])], [("a".toList, .atom 2)]]), ("n".toList, .atom 5)]

def exLoad60 (fl : Bool) (k : String) : Go (Any Nat Nat) :=
  ((Store.new '.' false ⟨[], [], []⟩ : Store Nat Nat).load itoa none none (.once (unmarshal fl (some exM60)))).1.mustGet k.toList

example : Store.isAtom 1 (exLoad60 true "server.tls.on") = true ∧ Store.isAtom 80 (exLoad60 true "server.port") = true ∧
    Store.isNilA (exLoad60 false "server.port") = true ∧ Store.isAtom 5 (exLoad60 true "n") = true := by decide +kernel

example : At ["server".toList, "tls".toList, "on".toList] exM60 (.atom 1) := by
  refine ⟨_, List.mem_cons_self, _, List.mem_cons_of_mem _ List.mem_cons_self, _, List.mem_cons_self, rfl, rfl⟩

/-- **C60** Without the option the decoded map is given as it is; an error of the decoder is an error either way. -/
theorem C60_option (m : SMap α κ) : unmarshal false (some m) = some m ∧ unmarshal true (some m) = some (flatM m) ∧
    ∀ fl, unmarshal (α := α) (κ := κ) fl none = none :=
  ⟨rfl, rfl, fun fl => by cases fl <;> rfl⟩

/-- Blocks that occur several times remain lists, and the single blocks inside them are not entered. -/
theorem C60_inner_fails : ∃ m : SMap Nat Nat, flatM m = m ∧
    ∃ m1 m2 m3, m = [("site".toList, .maps [m1, m2])] ∧ m1 = [("a".toList, .maps [m3])] :=
  ⟨[("site".toList, .maps [[("a".toList, .maps [[("x".toList, .atom 1)]])], [("a".toList, .atom 2)]])], rfl, _, _, _, rfl, rfl⟩

end Hcl
end Verif

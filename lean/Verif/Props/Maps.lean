import Verif.Model.Maps
import Verif.Props.Cvt
import Verif.Props.Env
import Mathlib.Tactic.ByContra
import Verif.Props.Export
/-
C48: loading a map through the maps provider.
-/
namespace Verif
variable {α κ : Type}

/-! ## Helpers -/

theorem look_status (m : SMap α κ) (ks : List Str) (x : Any α κ) :
    status m ks = some (some x) ↔ look (.map m) ks = some x ∧ x.isMap = false := by
  induction ks generalizing m with
  | nil =>
    simp only [status, look, Option.some.injEq, reduceCtorEq, false_iff, not_and]
    rintro rfl; simp [Any.isMap]
  | cons k ks ih =>
    rw [look_cons, status]
    cases hm : mget m k with
    | none => simp
    | some y =>
      simp only [Option.bind_some]
      cases y with
      | map m2 => exact ih m2
      | nil => cases ks <;> simp [look]; rintro rfl; rfl
      | atom a => cases ks <;> simp [look]; rintro rfl; rfl
      | amap a => cases ks <;> simp [look]; rintro rfl; rfl
      | list a => cases ks <;> simp [look]; rintro rfl; rfl
      | maps a => cases ks <;> simp [look]; rintro rfl; rfl
      | amaps a => cases ks <;> simp [look]; rintro rfl; rfl
      | pkg a => cases ks <;> simp [look]; rintro rfl; rfl

theorem look_dir (m : SMap α κ) (ks : List Str) :
    status m ks = some none → ∃ m2, look (.map m) ks = some (.map m2) := by
  induction ks generalizing m with
  | nil => exact fun _ => ⟨m, rfl⟩
  | cons k ks ih =>
    rw [look_cons, status]
    cases hm : mget m k with
    | none => simp
    | some y =>
      simp only [Option.bind_some]
      cases y with
      | map m2 => exact ih m2
      | _ => simp

theorem uniqM_mput {m : SMap α κ} (h : uniqM m) (k : Str) {v : Any α κ} (hv : v.uniq) : uniqM (mput m k v) := by
  have hk : ∀ (m : SMap α κ) a, a ∈ mput m k v → a.1 = k ∨ ∃ b ∈ m, b.1 = a.1 := by
    intro m
    induction m with
    | nil => intro a ha; simp [mput] at ha; exact .inl (by rw [ha])
    | cons b m ih =>
      intro a ha
      simp only [mput] at ha
      split at ha
      · rcases List.mem_cons.mp ha with rfl | ha
        · exact .inl rfl
        · exact .inr ⟨a, by simp [ha], rfl⟩
      · rcases List.mem_cons.mp ha with rfl | ha
        · exact .inr ⟨(b.1, b.2), by simp, rfl⟩
        · rcases ih a ha with e | ⟨c, hc, e⟩
          · exact .inl e
          · exact .inr ⟨c, by simp [hc], e⟩
  induction m with
  | nil => simp [mput, uniqM, hv]
  | cons b m ih =>
    obtain ⟨k', v'⟩ := b
    simp only [uniqM] at h
    simp only [mput]
    split
    · rename_i e; subst e; exact ⟨h.1, hv, h.2.2⟩
    · rename_i e
      refine ⟨fun a ha => ?_, h.2.1, ih h.2.2⟩
      rcases hk m a ha with e' | ⟨c, hc, e'⟩
      · rw [e']; exact fun h => e h.symm
      · rw [← e']; exact h.1 c hc

theorem uniq_mget {m : SMap α κ} (h : uniqM m) {k : Str} {v : Any α κ} (hg : mget m k = some v) : v.uniq := by
  induction m with
  | nil => simp [mget, assoc] at hg
  | cons b m ih =>
    obtain ⟨k', v'⟩ := b
    simp only [uniqM] at h
    simp only [mget, assoc] at hg ih
    split at hg
    · cases hg; exact h.2.1
    · exact ih h.2.2 hg

theorem uniqM_deflate1 {m : SMap α κ} (h : uniqM m) (keys : List Str) {v : Any α κ} (hv : v.uniq) : uniqM (deflate1 m keys v) := by
  induction keys generalizing m with
  | nil => exact h
  | cons k rest ih =>
    cases rest with
    | nil => exact uniqM_mput h k hv
    | cons k2 rest =>
      rw [deflate1]
      cases hg : mget m k with
      | none => exact uniqM_mput h k (v := .map _) (ih (m := []) trivial)
      | some y =>
        cases y with
        | map m2 => exact uniqM_mput h k (v := .map _) (ih (m := m2) (uniq_mget h hg))
        | _ => exact ih h

theorem uniqM_deflate {sep : Str} (hs : sep ≠ []) {m out : SMap α κ} (hv : ∀ a ∈ m, a.2.uniq) (h : deflate sep m = .ok out) :
    uniqM out := by
  rw [deflate_eq hs] at h
  simp only [Except.ok.injEq] at h
  subst h
  have : ∀ (F : List (List Str × Any α κ)) acc, uniqM acc → (∀ a ∈ F, a.2.uniq) →
      uniqM (F.foldl (fun out a => deflate1 out a.1 a.2) acc) := by
    intro F
    induction F with
    | nil => exact fun acc h _ => h
    | cons a F ih => exact fun acc h hF => ih _ (uniqM_deflate1 h a.1 (hF a (by simp))) (fun b hb => hF b (by simp [hb]))
  refine this _ _ trivial ?_
  intro a ha
  obtain ⟨b, hb, rfl⟩ := List.mem_map.mp ha
  exact hv b hb

theorem normM_eq (str : κ → Str) (m : SMap α κ) : normM str m = m.map (fun a => (a.1, normV str a.2)) := by
  induction m with
  | nil => rfl
  | cons a m ih => obtain ⟨k, v⟩ := a; simp [normM, ih]

/-- A package around every value, as the maps provider makes them. -/
def pkgs (m : SMap α κ) : List (Str × ValPkg α κ) := m.map (fun a => (a.1, ⟨a.2, [], [], .nil⟩))

theorem pkgLeaves_pkgs (fl : Bool) (str : κ → Str) (m : SMap α κ) : Store.pkgLeaves fl str (pkgs m) = leavesM fl str m := by
  induction m with
  | nil => rfl
  | cons a m ih => obtain ⟨k, v⟩ := a; simp only [pkgs, List.map_cons, Store.pkgLeaves, leavesM]; rw [← ih]; rfl

theorem pkgNE_pkgs (str : κ → Str) (m : SMap α κ) (h : keysNEM str m) : Store.pkgNE str (pkgs m) := by
  induction m with
  | nil => intro a ha; simp [pkgs] at ha
  | cons b m ih =>
    obtain ⟨k, v⟩ := b
    simp only [keysNEM] at h
    intro a ha
    simp only [pkgs, List.map_cons, List.mem_cons] at ha
    rcases ha with rfl | ha
    · exact ⟨h.1, h.2.1⟩
    · exact ih h.2.2 a ha

theorem plain_uniq {fl : Bool} {x : Any α κ} (h : Store.plainVal fl x = true) : x.uniq := by
  cases x <;> simp_all [Store.plainVal, Any.uniq]

/-! ## C48 -/

namespace Store

/-- **C48** Loading a flat map with dotted keys through the maps provider, for every iteration order of the input and of
the nested map made of it (`m'`): every key of the map reads back as its (normalised) value at the joined path of the load position
and the components of the key, and other entries keep their answers. -/
theorem C48_load (str : κ → Str) {s : Store α κ} (hs : s.loading = false) (h : Reach (NoRoute s.view.delim) s.tree)
    (prefix' : Option Str) (flat : Option Bool) {sep : Str} (hsep : sep ≠ []) (m : SMap α κ)
    (hpf : m.Pairwise (fun a b => ¬ splitStr sep a.1 <+: splitStr sep b.1 ∧ ¬ splitStr sep b.1 <+: splitStr sep a.1))
    (hv : ∀ a ∈ m, plainVal (flat.getD s.flatten) (normV str a.2) = true)
    (hne : flat.getD s.flatten = true → ∀ a ∈ m, [] ∉ splitStr sep a.1)
    (hroute : ∀ a ∈ m, NoRoute s.view.delim (leafKey s.view.delim (s.loadAt prefix') (splitStr sep a.1)))
    (hnd : (m.map (fun a => leafKey s.view.delim (s.loadAt prefix') (splitStr sep a.1))).Nodup) :
    ∃ out, mapsNew str m sep = .ok (pkgs out) ∧ uniqM out ∧ ∀ m', SameMap out m' → uniqM m' →
      ∀ r : View, r.delim = s.view.delim → ∀ p,
        (∀ a ∈ m, r.full p = leafKey s.view.delim (s.loadAt prefix') (splitStr sep a.1) →
          r.mustGet (s.load str prefix' flat (.read (pkgs m'))).1.tree p = .ok (normV str a.2)) ∧
        (∀ c, s.tree.contents (r.full p) = some c →
          (∀ a ∈ m, r.full p ≠ leafKey s.view.delim (s.loadAt prefix') (splitStr sep a.1)) →
          r.mustGet (s.load str prefix' flat (.read (pkgs m'))).1.tree p = r.mustGet s.tree p) := by
  have hpf' : (normM str m).Pairwise (fun a b => ¬ splitStr sep a.1 <+: splitStr sep b.1 ∧ ¬ splitStr sep b.1 <+: splitStr sep a.1) := by
    rw [normM_eq]; exact List.pairwise_map.mpr hpf
  obtain ⟨out, h1, h2, h3⟩ := C30_deflate hsep (normM str m) hpf'
  have hmem : ∀ a ∈ m, (a.1, normV str a.2) ∈ normM str m := fun a ha => by
    rw [normM_eq]; exact List.mem_map_of_mem (f := fun a : Str × Any α κ => (a.1, normV str a.2)) ha
  have hmem' : ∀ b ∈ normM str m, ∃ a ∈ m, b = (a.1, normV str a.2) := fun b hb => by
    rw [normM_eq] at hb
    obtain ⟨a, ha, rfl⟩ := List.mem_map.mp hb
    exact ⟨a, ha, rfl⟩
  refine ⟨out, ?_, ?_, fun m' hm hu r hr p => ?_⟩
  · unfold mapsNew
    simp only [hsep, ne_eq, not_false_eq_true, if_true, h1]
    rfl
  · refine uniqM_deflate hsep (fun a ha => ?_) h1
    obtain ⟨b, hb, rfl⟩ := hmem' a ha
    exact plain_uniq (hv b hb)
  generalize hfl : flat.getD s.flatten = fl at hv hne
  have hst : ∀ ks y, status m' ks = some (some y) ↔ ∃ a ∈ m, ks = splitStr sep a.1 ∧ y = normV str a.2 := by
    intro ks y
    rw [← hm ks, look_status]
    constructor
    · rintro ⟨a1, a2⟩
      by_cases hc : ∃ b ∈ normM str m, splitStr sep b.1 <+: ks
      · obtain ⟨b, hb, r, rfl⟩ := hc
        rw [h2 b hb] at a1
        obtain ⟨a, ha, rfl⟩ := hmem' b hb
        have := hv a ha
        simp only at a1 ⊢
        have hr : r = [] := by
          cases r with
          | nil => rfl
          | cons k r =>
            generalize normV str a.2 = z at a1 this
            cases z <;> simp_all [look, plainVal]
        subst hr
        simp only [look, Option.some.injEq] at a1
        exact ⟨a, ha, by simp, a1.symm⟩
      · have := (h3 ks y a1 (fun b hb hp => hc ⟨b, hb, hp⟩)).1
        rw [a2] at this; simp at this
    · rintro ⟨a, ha, rfl, rfl⟩
      have := h2 _ (hmem a ha) []
      simp only [List.append_nil, look] at this
      exact ⟨this, plain_nomap (hv a ha)⟩
  obtain ⟨l1, l2⟩ := leavesM_status fl str m' hu (fun ks y hy => by
    obtain ⟨a, ha, -, rfl⟩ := (hst ks y).mp hy
    exact leaves_plain (hv a ha))
  have hL : ∀ l y, (l, y) ∈ leavesM fl str m' ↔ ∃ a ∈ m, l = splitStr sep a.1 ∧ y = normV str a.2 :=
    fun l y => (l1 l y).trans (hst l y)
  have hNE : fl = true → (Source.read (pkgs m')).NE str := by
    intro e
    refine pkgNE_pkgs str m' (keysNEM_status str m' hu ?_ ?_)
    · intro ks st hk
      have : ks = [] ∨ ∃ a ∈ m, ks <+: splitStr sep a.1 := by
        cases st with
        | none =>
          rw [← hm ks] at hk
          obtain ⟨m2, hk⟩ := look_dir _ _ hk
          by_cases hc : ∃ b ∈ normM str m, splitStr sep b.1 <+: ks
          · obtain ⟨b, hb, r, rfl⟩ := hc
            rw [h2 b hb] at hk
            obtain ⟨a, ha, rfl⟩ := hmem' b hb
            exfalso
            have := hv a ha
            simp only at hk
            generalize normV str a.2 = z at hk this
            cases r <;> cases z <;> simp_all [look, plainVal]
          · rcases (h3 ks _ hk (fun b hb hp => hc ⟨b, hb, hp⟩)).2 with e | ⟨b, hb, hp⟩
            · exact .inl e
            · obtain ⟨a, ha, rfl⟩ := hmem' b hb
              exact .inr ⟨a, ha, hp⟩
        | some y =>
          obtain ⟨a, ha, rfl, -⟩ := (hst ks y).mp hk
          exact .inr ⟨a, ha, List.prefix_refl _⟩
      rcases this with rfl | ⟨a, ha, hp⟩
      · simp
      · exact fun h' => hne e a ha (hp.subset h')
    · intro ks y hy
      obtain ⟨a, ha, -, rfl⟩ := (hst ks y).mp hy
      exact plain_keysNE (e ▸ hv a ha)
  have hload := C29_load str hs h prefix' flat (.read (pkgs m')) (L := leavesM fl str m')
    (by rw [hfl]; simp only [Source.leaves, pkgLeaves_pkgs]) (by rw [hfl]; exact hNE)
    (fun l x hx => by
      obtain ⟨a, ha, rfl, -⟩ := (hL l x).mp hx
      exact hroute a ha)
    (by
      have : (leavesM fl str m').map (fun a => leafKey s.view.delim (s.loadAt prefix') a.1) =
          ((leavesM fl str m').map (·.1)).map (leafKey s.view.delim (s.loadAt prefix')) := by rw [List.map_map]; rfl
      rw [this]
      refine List.Nodup.map_on ?_ l2
      intro a ha b hb e
      obtain ⟨⟨l, y⟩, hl, rfl⟩ := List.mem_map.mp ha
      obtain ⟨⟨l', y'⟩, hl', rfl⟩ := List.mem_map.mp hb
      obtain ⟨a, ha', rfl, -⟩ := (hL l y).mp hl
      obtain ⟨b, hb', rfl, -⟩ := (hL l' y').mp hl'
      have := List.inj_on_of_nodup_map hnd ha' hb' e
      rw [this])
    r hr p
  refine ⟨fun a ha hp => hload.1 _ _ ((hL _ _).mpr ⟨a, ha, rfl, rfl⟩) hp, fun c hc hno => hload.2 c hc ?_⟩
  intro l x hx
  obtain ⟨a, ha, rfl, -⟩ := (hL l x).mp hx
  exact hno a ha

theorem splitStr_one (d : Char) (k : Str) : splitStr [d] k = splitOn d k := by
  have hj : ∀ ws, joinStr [d] ws = joinWith d ws := by
    intro ws
    induction ws with
    | nil => rfl
    | cons w ws ih =>
      cases ws with
      | nil => rfl
      | cons a as => rw [joinStr_cons (by simp), joinWith_cons (by simp), ih]; simp
  have hne : ([d] : Str) ≠ [] := by simp
  rw [← splitOn_joinWith (d := d) (l := splitStr [d] k) (splitStr_ne hne k), ← hj, splitStr_join hne]
  intro w hw hd
  refine splitStr_pieces hne k w hw ?_
  obtain ⟨a, b, rfl⟩ := List.append_of_mem hd
  exact ⟨a, b, by simp⟩

/-- **C48** The usual case: the delimiter of the provider is that of the store, and the keys have no empty component and no blank.
Then every key of the map is read back under the same name below the load position. -/
theorem C48_dotted (str : κ → Str) {s : Store α κ} (hs : s.loading = false) (h : Reach (NoRoute s.view.delim) s.tree)
    (prefix' : Option Str) (flat : Option Bool) (m : SMap α κ)
    (hpf : m.Pairwise (fun a b => ¬ splitOn s.view.delim a.1 <+: splitOn s.view.delim b.1 ∧
      ¬ splitOn s.view.delim b.1 <+: splitOn s.view.delim a.1))
    (hv : ∀ a ∈ m, plainVal (flat.getD s.flatten) (normV str a.2) = true)
    (hne : ∀ a ∈ m, [] ∉ splitOn s.view.delim a.1) (hsp : ∀ a ∈ m, ' ' ∉ joinSpec s.view.delim [s.loadAt prefix', a.1])
    (hroute : ∀ a ∈ m, NoRoute s.view.delim (joinSpec s.view.delim [s.loadAt prefix', a.1])) :
    ∃ out, mapsNew str m [s.view.delim] = .ok (pkgs out) ∧ uniqM out ∧ ∀ m', SameMap out m' → uniqM m' →
      ∀ r : View, r.delim = s.view.delim → ∀ p, ∀ a ∈ m, r.full p = joinSpec s.view.delim [s.loadAt prefix', a.1] →
        r.mustGet (s.load str prefix' flat (.read (pkgs m'))).1.tree p = .ok (normV str a.2) := by
  have hkey : ∀ a ∈ m, leafKey s.view.delim (s.loadAt prefix') (splitStr [s.view.delim] a.1) =
      joinSpec s.view.delim [s.loadAt prefix', a.1] := by
    intro a ha
    have h1 : joinSpec s.view.delim (splitOn s.view.delim a.1) = a.1 := by
      rw [joinSpec_eq, List.filter_eq_self.mpr, joinWith_splitOn]
      intro w hw
      simp only [decide_eq_true_eq]
      rintro rfl
      exact hne a ha hw
    have h2 : joinSpec s.view.delim (s.loadAt prefix' :: splitOn s.view.delim a.1) = joinSpec s.view.delim [s.loadAt prefix', a.1] := by
      have := joinSpec_assoc s.view.delim [s.loadAt prefix'] (splitOn s.view.delim a.1) []
      rw [h1] at this
      simpa using this.symm
    rw [splitStr_one, leafKey, h2]
    exact EnvProv.dash_nospace (hsp a ha)
  have hinj : ∀ a ∈ m, ∀ b ∈ m, joinSpec s.view.delim [s.loadAt prefix', a.1] = joinSpec s.view.delim [s.loadAt prefix', b.1] → a.1 = b.1 := by
    intro a ha b hb e
    have na : a.1 ≠ [] := fun h => hne a ha (by rw [h]; simp [splitOn])
    have nb : b.1 ≠ [] := fun h => hne b hb (by rw [h]; simp [splitOn])
    rw [joinSpec_eq, joinSpec_eq] at e
    by_cases hp : s.loadAt prefix' = [] <;> simpa [hp, na, nb, joinWith] using e
  obtain ⟨out, o1, o2, o3⟩ := C48_load str hs h prefix' flat (sep := [s.view.delim]) (by simp) m
    (by simpa only [splitStr_one] using hpf) hv (by simpa only [splitStr_one] using fun _ => hne)
    (fun a ha => by rw [hkey a ha]; exact hroute a ha)
    (by
      rw [List.map_congr_left hkey]
      refine List.Nodup.map_on (f := fun a : Str × Any α κ => joinSpec s.view.delim [s.loadAt prefix', a.1]) ?_ ?_
      · intro a ha b hb e
        by_contra hab
        have e' := hinj a ha b hb e
        rcases List.Pairwise.forall_of_forall_of_flip (l := m) (R := fun a b => a ≠ b → ¬ splitOn s.view.delim a.1 <+: splitOn s.view.delim b.1)
          (fun a _ h => absurd rfl h) (hpf.imp (fun h _ => h.1)) (hpf.imp (fun h _ => h.2)) ha hb hab (e' ▸ List.prefix_refl _)
      · exact hpf.imp (fun {a b} h => fun e : a = b => h.1 (e ▸ List.prefix_refl _)))
  refine ⟨out, o1, o2, fun m' hm hu r hr p a ha hp => (o3 m' hm hu r hr p).1 a ha (by rw [hkey a ha]; exact hp)⟩

/-- **C48** Without a delimiter the provider delivers the normalised map as it is (`C29_load` describes loading it). -/
theorem C48_plain (str : κ → Str) (m : SMap α κ) : mapsNew str m [] = .ok (pkgs (normM str m)) := rfl

/-! ### Where the code deviates -/

/-- Read back after loading a map through the maps provider with the delimiter ".". -/
def viaMaps (m : SMap Nat Nat) (k : String) : Go (Any Nat Nat) :=
  match mapsNew itoa m ['.'] with
  | .ok l => (((Store.new '.' false ⟨[], [], []⟩ : S0).load itoa none none (.read l)).1).mustGet k.toList
  | .error e => .error e

/-- If one key extends another, a value moves to another key or is lost, depending on the iteration order. -/
theorem C48_extending_fails : ∃ m m' : SMap Nat Nat, m.Perm m' ∧
    isAtom 2 (viaMaps m "b") = true ∧ isNilA (viaMaps m "a.b") = true ∧ isNilA (viaMaps m' "b") = true ∧ isNilA (viaMaps m' "a.b") = true :=
  ⟨[("a".toList, .atom 1), ("a.b".toList, .atom 2)], [("a.b".toList, .atom 2), ("a".toList, .atom 1)],
    List.Perm.swap _ _ _, by decide +kernel, by decide +kernel, by decide +kernel, by decide +kernel⟩

/-- A key with an empty component is read back without it. -/
theorem C48_empty_component_fails : ∃ m : SMap Nat Nat, m = [("a..b".toList, .atom 1)] ∧
    isNilA (viaMaps m "a..b") = true ∧ isAtom 1 (viaMaps m "a.b") = true :=
  ⟨_, rfl, by decide +kernel, by decide +kernel⟩

/-- The hypotheses of `C48_load` and `C48_dotted` hold for ordinary maps. -/
example : let s : S0 := Store.new '.' false ⟨[], [], []⟩
    let m : SMap Nat Nat := [("app.debug".toList, .atom 1), ("app.log.file".toList, .atom 2), ("x".toList, .amap [])]
    s.loading = false ∧ (m.take 2).Pairwise (fun a b => ¬ splitOn s.view.delim a.1 <+: splitOn s.view.delim b.1 ∧
      ¬ splitOn s.view.delim b.1 <+: splitOn s.view.delim a.1) ∧
    (∀ a ∈ m.take 2, plainVal s.flatten (normV itoa a.2) = true) ∧ (∀ a ∈ m.take 2, [] ∉ splitOn s.view.delim a.1) ∧
    (∀ a ∈ m.take 2, ' ' ∉ joinSpec s.view.delim [s.loadAt none, a.1]) ∧ isAtom 2 (viaMaps m "app.log.file") = true := by
  decide +kernel

end Store
end Verif

import Verif.Model.ReadModes
import Verif.Props.Load
/-
C81: what the consul and the etcd provider read, for every combination of options.
-/
namespace Verif
namespace ReadModes
open Remote
variable {α κ : Type}

/-! ## Go maps -/

theorem at_cons {β : Type} (a : Str × β) (m : List (Str × β)) (q : Str) :
    at? (a :: m) q = if a.1 = q then some a.2 else at? m q := by
  by_cases h : a.1 = q
  · simp [at?, h]
  · have hb : (a.1 == q) = false := beq_eq_false_iff_ne.mpr h
    simp [at?, hb, h]

theorem at_put {β : Type} (m : List (Str × β)) (k : Str) (v : β) (q : Str) :
    at? (put m k v) q = if q = k then some v else at? m q := by
  have hrep : ∀ m : List (Str × β), at? (m.map (fun a => if a.1 == k then (k, v) else a)) q =
      if q = k then (if m.any (fun a => a.1 == k) then some v else none) else at? m q := by
    intro m
    induction m with
    | nil => by_cases h : q = k <;> simp [at?, h]
    | cons a m ih =>
      rw [List.map_cons, at_cons, ih, at_cons, List.any_cons]
      by_cases ha : a.1 = k
      · by_cases hq : q = k
        · simp [ha, hq]
        · have hq' : ¬ k = q := fun e => hq e.symm
          simp [ha, hq, hq']
      · by_cases hq : q = k
        · subst hq
          have hb : (a.1 == q) = false := beq_eq_false_iff_ne.mpr ha
          rw [hb, Bool.false_or]; simp [ha]
        · simp [ha, hq]
  have happ : ∀ m : List (Str × β), (∀ a ∈ m, a.1 ≠ k) → at? (m ++ [(k, v)]) q = if q = k then some v else at? m q := by
    intro m
    induction m with
    | nil =>
      intro _
      rw [List.nil_append, at_cons]
      by_cases hq : q = k
      · simp [hq]
      · have hq' : ¬ k = q := fun e => hq e.symm
        simp [hq, hq']
    | cons a m ih =>
      intro h
      rw [List.cons_append, at_cons, ih (fun b hb => h b (by simp [hb])), at_cons]
      by_cases hq : q = k
      · subst hq; simp [h a (by simp)]
      · simp [hq]
  unfold put
  by_cases h : m.any (fun a => a.1 == k) = true
  · rw [if_pos h, hrep m]; simp [h]
  · rw [if_neg h]
    exact happ m (fun a ha e => h (List.any_eq_true.mpr ⟨a, ha, by simp [e]⟩))

theorem keys_put {β : Type} {m : List (Str × β)} (h : (m.map (·.1)).Nodup) (k : Str) (v : β) :
    ((put m k v).map (·.1)).Nodup := by
  unfold put
  by_cases hk : m.any (fun a => a.1 == k) = true
  · rw [if_pos hk]
    have : (m.map (fun a => if a.1 == k then (k, v) else a)).map (·.1) = m.map (·.1) := by
      rw [List.map_map]
      refine List.map_congr_left (fun a _ => ?_)
      by_cases e : a.1 = k <;> simp [e]
    rw [this]; exact h
  · rw [if_neg hk, List.map_append, List.nodup_append]
    refine ⟨h, by simp, ?_⟩
    intro a ha b hb e
    simp at hb
    subst hb; subst e
    obtain ⟨x, hx, hx'⟩ := List.mem_map.mp ha
    exact hk (List.any_eq_true.mpr ⟨x, hx, by simp [hx']⟩)

theorem collect_at (s : Consul) (txt : Str → α) (l : List KV) (m : List (Str × ValPkg α κ)) (q : Str) :
    at? (s.collect txt m l) q =
      ((l.reverse.find? (fun p => s.cfg.normalizeKey p.key == q)).map (s.pkg txt)).or (at? m q) := by
  induction l generalizing m with
  | nil => simp [Consul.collect]
  | cons p l ih =>
    rw [Consul.collect, ih, at_put, List.reverse_cons, List.find?_append]
    by_cases h : s.cfg.normalizeKey p.key = q
    · cases e : l.reverse.find? (fun p => s.cfg.normalizeKey p.key == q) <;> simp [h]
    · have h' : ¬ q = s.cfg.normalizeKey p.key := fun e => h e.symm
      cases e : l.reverse.find? (fun p => s.cfg.normalizeKey p.key == q) <;> simp [h, h']

theorem collect_nodup (s : Consul) (txt : Str → α) (l : List KV) (m : List (Str × ValPkg α κ)) (h : (m.map (·.1)).Nodup) :
    ((s.collect txt m l).map (·.1)).Nodup := by
  induction l generalizing m with
  | nil => exact h
  | cons p l ih => exact ih _ (keys_put h _ _)

theorem ecollect_at (s : Etcd) (txt : Str → α) (l : List (Str × Str)) (m : List (Str × ValPkg α κ)) (q : Str) :
    at? (s.collect txt m l) q =
      ((l.reverse.find? (fun p => s.cfg.normalizeKey p.1 == q)).map (fun p => (⟨.atom (txt p.2), [], [], .nil⟩ : ValPkg α κ))).or
        (at? m q) := by
  induction l generalizing m with
  | nil => simp [Etcd.collect]
  | cons p l ih =>
    rw [Etcd.collect, ih, at_put, List.reverse_cons, List.find?_append]
    by_cases h : s.cfg.normalizeKey p.1 = q
    · cases e : l.reverse.find? (fun p => s.cfg.normalizeKey p.1 == q) <;> simp [h]
    · have h' : ¬ q = s.cfg.normalizeKey p.1 := fun e => h e.symm
      cases e : l.reverse.find? (fun p => s.cfg.normalizeKey p.1 == q) <;> simp [h, h']

theorem ecollect_nodup (s : Etcd) (txt : Str → α) (l : List (Str × Str)) (m : List (Str × ValPkg α κ)) (h : (m.map (·.1)).Nodup) :
    ((s.collect txt m l).map (·.1)).Nodup := by
  induction l generalizing m with
  | nil => exact h
  | cons p l ih => exact ih _ (keys_put h _ _)

/-- Searching from the end finds the only element with the property. -/
theorem find_only {β : Type} {l : List β} {P : β → Bool} {x : β} (hx : x ∈ l) (hp : P x = true) (hu : ∀ y ∈ l, P y = true → y = x) :
    l.reverse.find? P = some x := by
  cases e : l.reverse.find? P with
  | none => exact absurd hp (List.find?_eq_none.mp e x (List.mem_reverse.mpr hx))
  | some y => rw [hu y (List.mem_reverse.mp (List.mem_of_find?_eq_some e)) (List.find?_some e)]

/-! ## consul -/

/-- **C81** The recursive mode delivers every pair under the position, once, under its normal form, if no two of them have the same
normal form; and nothing else. -/
theorem C81_consul_list (s : Consul) (srv : CServer) (txt : Str → α) (hr : s.recursive = true) {l : List KV}
    (hl : srv.list s.position = some l) :
    ∃ m : List (Str × ValPkg α κ), s.read srv txt = .ok (some m) ∧ (m.map (·.1)).Nodup ∧
      (∀ k v, at? m k = some v → ∃ p ∈ l, s.cfg.normalizeKey p.key = k ∧ v = s.pkg txt p) ∧
      (∀ p ∈ l, (∃ v, at? m (s.cfg.normalizeKey p.key) = some v) ∧
        ((∀ q ∈ l, s.cfg.normalizeKey q.key = s.cfg.normalizeKey p.key → q = p) →
          at? m (s.cfg.normalizeKey p.key) = some (s.pkg txt p))) := by
  refine ⟨s.collect txt [] l, by simp [Consul.read, hr, hl], collect_nodup _ _ _ _ (by simp), ?_, ?_⟩
  · intro k v h
    rw [collect_at] at h
    cases e : l.reverse.find? (fun p => s.cfg.normalizeKey p.key == k) with
    | none => rw [e] at h; simp [at?] at h
    | some p =>
      rw [e] at h
      simp at h
      exact ⟨p, List.mem_reverse.mp (List.mem_of_find?_eq_some e), by simpa using List.find?_some e, h.symm⟩
  · intro p hp
    rw [collect_at]
    constructor
    · cases e : l.reverse.find? (fun q => s.cfg.normalizeKey q.key == s.cfg.normalizeKey p.key) with
      | none => exact absurd (by simp) (List.find?_eq_none.mp e p (List.mem_reverse.mpr hp))
      | some q => exact ⟨_, rfl⟩
    · intro hu
      rw [find_only hp (by simp) (fun y hy e => hu y hy (by simpa using e))]; rfl

/-- **C81** Of two pairs with the same normal form the later one is delivered. -/
theorem C81_consul_last (s : Consul) (srv : CServer) (txt : Str → α) (hr : s.recursive = true) {l l' : List KV} {p : KV}
    (hl : srv.list s.position = some (l ++ p :: l')) (hn : ∀ q ∈ l', s.cfg.normalizeKey q.key ≠ s.cfg.normalizeKey p.key) :
    ∃ m : List (Str × ValPkg α κ), s.read srv txt = .ok (some m) ∧ at? m (s.cfg.normalizeKey p.key) = some (s.pkg txt p) := by
  refine ⟨s.collect txt [] (l ++ p :: l'), by simp [Consul.read, hr, hl], ?_⟩
  rw [collect_at]
  have h0 : l'.reverse.find? (fun q => s.cfg.normalizeKey q.key == s.cfg.normalizeKey p.key) = none := by
    rw [List.find?_eq_none]; intro q hq e
    exact hn q (List.mem_reverse.mp hq) (by simpa using e)
  simp [List.reverse_append, List.find?_append, h0]

/-- **C81** The single mode delivers the pair of the position alone. -/
theorem C81_consul_get_partial (s : Consul) (srv : CServer) (txt : Str → α) (hr : s.recursive = false) {p : KV}
    (hp : srv.get s.position = some (some p)) :
    (s.read srv txt : Go (Option (List (Str × ValPkg α κ)))) = .ok (some [(s.cfg.normalizeKey p.key, s.pkg txt p)]) := by
  simp [Consul.read, hr, hp, put]

/-- In the single mode a missing key is a panic: the client answers a nil pair, and the code reads its fields. -/
theorem C81_missing_fails (s : Consul) (srv : CServer) (txt : Str → α) (hr : s.recursive = false)
    (hp : srv.get s.position = some none) : (s.read srv txt : Go (Option (List (Str × ValPkg α κ)))) = .error .panic := by
  simp [Consul.read, hr, hp]

/-- **C81** An error of the server is returned, in both modes. -/
theorem C81_consul_error (s : Consul) (srv : CServer) (txt : Str → α) (hl : srv.list s.position = none) (hg : srv.get s.position = none) :
    (s.read srv txt : Go (Option (List (Str × ValPkg α κ)))) = .ok none := by
  cases h : s.recursive <;> simp [Consul.read, h, hl, hg]

/-- **C81** The value is the text of the pair, with and without meta data; there is no description or comment. -/
theorem C81_value (s : Consul) (txt : Str → α) (p : KV) :
    (s.pkg txt p : ValPkg α κ).value = .atom (txt p.value) ∧ (s.pkg txt p : ValPkg α κ).desc = [] ∧
      (s.pkg txt p : ValPkg α κ).comment = [] := by
  unfold Consul.pkg; split <;> exact ⟨rfl, rfl, rfl⟩

theorem itoa_inj {a b : Nat} (h : itoa a = itoa b) : a = b := by
  have := congrArg (fun l => Nat.ofDigitChars 10 l 0) h
  simpa [itoa] using this

/-- **C81** The meta data determine the pair but for its key, and for a session named "-". -/
theorem C81_meta (s : Consul) (txt : Str → α) (hi : ∀ a b, txt a = txt b → a = b) (hm : s.processMeta = true) (p q : KV)
    (h : (s.pkg txt p : ValPkg α κ).tag = (s.pkg txt q : ValPkg α κ).tag) :
    p.create = q.create ∧ p.modify = q.modify ∧ p.lock = q.lock ∧ p.flags = q.flags ∧ p.value = q.value ∧
      (p.session ≠ ['-'] → q.session ≠ ['-'] → p.session = q.session) := by
  simp only [Consul.pkg, hm, if_true, metaTag, Any.map.injEq, List.cons.injEq, Prod.mk.injEq, Any.atom.injEq, true_and, and_true] at h
  obtain ⟨h1, h2, h3, h4, h5, h6⟩ := h
  refine ⟨itoa_inj (hi _ _ h1), itoa_inj (hi _ _ h4), itoa_inj (hi _ _ h3), itoa_inj (hi _ _ h2), hi _ _ h6, fun hp hq => ?_⟩
  have h5 := hi _ _ h5
  by_cases e1 : p.session = [] <;> by_cases e2 : q.session = []
  · rw [e1, e2]
  · rw [if_pos e1, if_neg e2] at h5; exact absurd h5.symm hq
  · rw [if_neg e1, if_pos e2] at h5; exact absurd h5 hp
  · rw [if_neg e1, if_neg e2] at h5; exact h5

/-! ## What a store keeps of it -/

theorem privateSetter_load (s : Store α κ) (h : s.loading = true) (pos k : Str) (x : Any α κ) (create : Bool)
    (ops ops' : List (NodeOp (Any α κ))) :
    Store.privateSetter s pos k x create ops = Store.privateSetter s pos k x create ops' ∧
      (Store.privateSetter s pos k x create ops).1.loading = true := by
  have h' : (s.withPrefixReplaced [pos]).loading = true := h
  constructor <;> simp [Store.privateSetter, Store.setKV, h, h']

theorem dedicated_same (str : κ → Str) (m m' : List (Str × ValPkg α κ)) (s : Store α κ) (h : s.loading = true) (pos : Str)
    (hat : ∀ a ∈ m, ∃ x, a.2.value = .atom x)
    (hm : m.map (fun a => (a.1, a.2.value)) = m'.map (fun a => (a.1, a.2.value))) :
    Store.loadDedicated str true s pos m = Store.loadDedicated str true s pos m' := by
  induction m generalizing m' s with
  | nil => cases m' with
    | nil => rfl
    | cons b m' => simp at hm
  | cons a m ih => cases m' with
    | nil => simp at hm
    | cons b m' =>
      obtain ⟨k, p⟩ := a
      obtain ⟨k', p'⟩ := b
      simp only [List.map_cons, List.cons.injEq, Prod.mk.injEq] at hm
      obtain ⟨⟨hk, hv⟩, hr⟩ := hm
      obtain ⟨x, hx⟩ := hat (k, p) (by simp)
      subst hk
      simp only at hx
      simp only [Store.loadDedicated, ← hv, hx, Store.loadVal]
      have e := privateSetter_load s h pos k (.atom x) true [.setComment p.desc p.comment, .setTag (some p.tag)]
        [.setComment p'.desc p'.comment, .setTag (some p'.tag)]
      rw [← e.1, ih m' _ e.2 (fun a ha => hat a (by simp [ha])) hr]

/-- None of the meta data reach a store: `Load` does the same with and without them, whatever descriptions, comments and tags
a provider delivers with its values. -/
theorem C81_meta_lost_fails (str : κ → Str) (s : Store α κ) (prefix' : Option Str) (flat : Option Bool)
    (m m' : List (Str × ValPkg α κ)) (hat : ∀ a ∈ m, ∃ x, a.2.value = .atom x)
    (hm : m.map (fun a => (a.1, a.2.value)) = m'.map (fun a => (a.1, a.2.value))) :
    s.load str prefix' flat (.read m) = s.load str prefix' flat (.read m') := by
  unfold Store.load
  by_cases h : s.loading = true
  · simp [h]
  · simp only [if_neg h]
    have key : ∀ (l : Store α κ), l.loading = true →
        Store.loadDedicated str true l l.view.pre m = Store.loadDedicated str true l l.view.pre m' :=
      fun l hl => dedicated_same str m m' l hl _ hat hm
    cases prefix' <;> cases flat <;> (simp only []; rw [key]; rfl)

/-- In particular for consul: `WithProcessMeta(true)` and `WithProcessMeta(false)` make the same store. -/
theorem C81_meta_same_fails (str : κ → Str) (c : Consul) (txt : Str → α) (s : Store α κ) (prefix' : Option Str) (flat : Option Bool)
    (l : List KV) :
    s.load str prefix' flat (.read ({ c with processMeta := true }.collect txt [] l)) =
      s.load str prefix' flat (.read ({ c with processMeta := false }.collect txt [] l)) := by
  have hput : ∀ (m m' : List (Str × ValPkg α κ)) (k : Str) (v v' : ValPkg α κ), v.value = v'.value →
      m.map (fun a => (a.1, a.2.value)) = m'.map (fun a => (a.1, a.2.value)) →
      (put m k v).map (fun a => (a.1, a.2.value)) = (put m' k v').map (fun a => (a.1, a.2.value)) := by
    intro m m' k v v' hv hm
    have hany : ∀ m : List (Str × ValPkg α κ), m.any (fun a => a.1 == k) =
        (m.map (fun a => (a.1, a.2.value))).any (fun a => a.1 == k) := by
      intro m; rw [List.any_map]; rfl
    have hmap : ∀ (m : List (Str × ValPkg α κ)) (v : ValPkg α κ), (m.map (fun a => if a.1 == k then (k, v) else a)).map (fun a => (a.1, a.2.value)) =
        (m.map (fun a => (a.1, a.2.value))).map (fun a => if a.1 == k then (k, v.value) else a) := by
      intro m v
      rw [List.map_map, List.map_map]
      refine List.map_congr_left (fun a _ => ?_)
      by_cases e : a.1 = k <;> simp [e]
    unfold put
    rw [hany m, hany m', hm]
    split
    · rw [hmap, hmap, hm, hv]
    · simp [hm, hv]
  have hval : ∀ (c : Consul) (p : KV), (c.pkg txt p : ValPkg α κ).value = .atom (txt p.value) := fun c p => (C81_value c txt p).1
  have hcol : ∀ (l : List KV) (m m' : List (Str × ValPkg α κ)),
      m.map (fun a => (a.1, a.2.value)) = m'.map (fun a => (a.1, a.2.value)) → (∀ a ∈ m, ∃ x, a.2.value = .atom x) →
      (({ c with processMeta := true } : Consul).collect txt m l).map (fun a => (a.1, a.2.value)) =
        (({ c with processMeta := false } : Consul).collect txt m' l).map (fun a => (a.1, a.2.value)) ∧
      ∀ a ∈ (({ c with processMeta := true } : Consul).collect txt m l), ∃ x, a.2.value = .atom x := by
    intro l
    induction l with
    | nil => intro m m' h h'; exact ⟨h, h'⟩
    | cons p l ih =>
      intro m m' h h'
      refine ih _ _ (hput _ _ _ _ _ ?_ h) ?_
      · rw [hval, hval]
      · intro a ha
        unfold put at ha
        split at ha
        · obtain ⟨b, hb, rfl⟩ := List.mem_map.mp ha
          by_cases e : b.1 = c.cfg.normalizeKey p.key
          · simp only [e, beq_self_eq_true, if_true]; exact ⟨_, hval _ _⟩
          · simp only [beq_eq_false_iff_ne.mpr e, Bool.false_eq_true, if_false]; exact h' b hb
        · rcases List.mem_append.mp ha with ha | ha
          · exact h' a ha
          · simp at ha; subst ha; exact ⟨_, hval _ _⟩
  obtain ⟨h1, h2⟩ := hcol l [] [] rfl (by simp)
  exact C81_meta_lost_fails str s prefix' flat _ _ h2 h1

/-! ## Options -/

/-- The argument of the last option of a kind, or the default. -/
def lastOf {ω β : Type} (f : ω → Option β) (d : β) (opts : List ω) : β := ((opts.reverse.filterMap f).head?).getD d

theorem lastOf_snoc {ω β : Type} (f : ω → Option β) (d : β) (opts : List ω) (o : ω) :
    lastOf f d (opts ++ [o]) = match f o with | some x => x | none => lastOf f d opts := by
  cases h : f o <;> simp [lastOf, h]

theorem snoc_ind {ω : Type} {P : List ω → Prop} (nil : P []) (snoc : ∀ l o, P l → P (l ++ [o])) (l : List ω) : P l := by
  have : ∀ l : List ω, P l.reverse := by
    intro l
    induction l with
    | nil => exact nil
    | cons a l ih => rw [List.reverse_cons]; exact snoc _ _ ih
  simpa using this l.reverse

/-- **C81** consul: for each setting the last option decides; by default the whole store is read, with meta data, and keys are as
they are. -/
theorem C81_consul_options (opts : List COpt) :
    (Consul.new opts).position = lastOf (fun | .position p => some p | _ => none) [] opts ∧
    (Consul.new opts).recursive = lastOf (fun | .recursive b => some b | _ => none) true opts ∧
    (Consul.new opts).processMeta = lastOf (fun | .processMeta b => some b | _ => none) true opts ∧
    (Consul.new opts).watchEnabled = lastOf (fun | .watchEnabled b => some b | _ => none) false opts ∧
    (Consul.new opts).cfg.strip = lastOf (fun | .strip p => some p | _ => none) [] opts ∧
    (Consul.new opts).cfg.prepend = lastOf (fun | .prepend p => some p | _ => none) [] opts ∧
    (Consul.new opts).cfg.delim = lastOf (fun | .delimiter p => some p | _ => none) [] opts := by
  induction opts using snoc_ind with
  | nil => exact ⟨rfl, rfl, rfl, rfl, rfl, rfl, rfl⟩
  | snoc l o ih =>
    simp only [Consul.new, List.foldl_append, List.foldl_cons, List.foldl_nil, lastOf_snoc] at ih ⊢
    cases o <;> simp only [COpt.apply] <;> simp [ih]

/-- consul's `WithPrefix` has no effect on what is read: `Read` (and `Watch`) use the position. -/
theorem C81_prefix_fails (l l' : List COpt) (p : Str) (srv : CServer) (txt : Str → α) :
    ((Consul.new (l ++ .pre p :: l')).read srv txt : Go (Option (List (Str × ValPkg α κ)))) = (Consul.new (l ++ l')).read srv txt := by
  have hcong : ∀ (s t : Consul), s.position = t.position → s.recursive = t.recursive → s.processMeta = t.processMeta →
      s.cfg = t.cfg → (s.read srv txt : Go (Option (List (Str × ValPkg α κ)))) = t.read srv txt := by
    intro s t h1 h2 h3 h4
    have hp : ∀ q, (s.pkg txt q : ValPkg α κ) = t.pkg txt q := by intro q; simp [Consul.pkg, h3]
    have hc : ∀ (l : List KV) (m : List (Str × ValPkg α κ)), s.collect txt m l = t.collect txt m l := by
      intro l
      induction l with
      | nil => intro m; rfl
      | cons q l ih => intro m; simp only [Consul.collect, ih, hp, h4]
    simp only [Consul.read, h1, h2, hp, h4, hc]
  obtain ⟨a1, a2, a3, a4, a5, a6, a7⟩ := C81_consul_options (l ++ .pre p :: l')
  obtain ⟨b1, b2, b3, b4, b5, b6, b7⟩ := C81_consul_options (l ++ l')
  refine hcong _ _ ?_ ?_ ?_ ?_
  · rw [a1, b1]; simp [lastOf, List.filterMap_append]
  · rw [a2, b2]; simp [lastOf, List.filterMap_append]
  · rw [a3, b3]; simp [lastOf, List.filterMap_append]
  · have h5 : (Consul.new (l ++ .pre p :: l')).cfg.strip = (Consul.new (l ++ l')).cfg.strip := by
      rw [a5, b5]; simp [lastOf, List.filterMap_append]
    have h6 : (Consul.new (l ++ .pre p :: l')).cfg.prepend = (Consul.new (l ++ l')).cfg.prepend := by
      rw [a6, b6]; simp [lastOf, List.filterMap_append]
    have h7 : (Consul.new (l ++ .pre p :: l')).cfg.delim = (Consul.new (l ++ l')).cfg.delim := by
      rw [a7, b7]; simp [lastOf, List.filterMap_append]
    generalize (Consul.new (l ++ .pre p :: l')).cfg = x at *
    generalize (Consul.new (l ++ l')).cfg = y at *
    cases x; cases y; simp_all

/-! ## etcd -/

/-- **C81** etcd: the key or prefix is the argument of the last option that names one; it is a prefix if the last option that says
so says it (`WithRecursive`, `WithStorePrefix`, `WithKey`), and a single key by default. No option sets a limit. -/
theorem C81_etcd_options (opts : List EOpt) :
    (Etcd.new opts).storePrefix =
      lastOf (fun | .position p => some p | .storePrefix p => some p | .key p => some p | _ => none) [] opts ∧
    (Etcd.new opts).prefixOrKey =
      lastOf (fun | .recursive b => some b | .storePrefix _ => some true | .key _ => some false | _ => none) false opts ∧
    (Etcd.new opts).watchEnabled = lastOf (fun | .watchEnabled b => some b | _ => none) false opts ∧
    (Etcd.new opts).cfg.strip = lastOf (fun | .strip p => some p | _ => none) [] opts ∧
    (Etcd.new opts).cfg.prepend = lastOf (fun | .prepend p => some p | _ => none) [] opts ∧
    (Etcd.new opts).cfg.delim = lastOf (fun | .delimiter p => some p | _ => none) [] opts ∧
    (Etcd.new opts).limit = false := by
  induction opts using snoc_ind with
  | nil => exact ⟨rfl, rfl, rfl, rfl, rfl, rfl, rfl⟩
  | snoc l o ih =>
    simp only [Etcd.new, List.foldl_append, List.foldl_cons, List.foldl_nil, lastOf_snoc] at ih ⊢
    cases o <;> simp only [EOpt.apply] <;> simp [ih]

/-- **C81** etcd: a provider made by `New` delivers exactly the pairs of the server that are under the prefix, or have the key, under
their normal forms, if these are different. A missing key is no error: the data are empty. -/
theorem C81_etcd_read (opts : List EOpt) (kv : List (Str × Str)) (txt : Str → α) :
    ∃ m : List (Str × ValPkg α κ), (Etcd.new opts).read (some kv) txt = some m ∧ (m.map (·.1)).Nodup ∧
      (∀ k v, at? m k = some v → ∃ a ∈ kv, (if (Etcd.new opts).prefixOrKey then (Etcd.new opts).storePrefix <+: a.1 else a.1 = (Etcd.new opts).storePrefix) ∧
        (Etcd.new opts).cfg.normalizeKey a.1 = k ∧ v = ⟨.atom (txt a.2), [], [], .nil⟩) ∧
      (∀ a ∈ kv, (if (Etcd.new opts).prefixOrKey then (Etcd.new opts).storePrefix <+: a.1 else a.1 = (Etcd.new opts).storePrefix) →
        (∀ b ∈ kv, (Etcd.new opts).cfg.normalizeKey b.1 = (Etcd.new opts).cfg.normalizeKey a.1 → b = a) →
          at? m ((Etcd.new opts).cfg.normalizeKey a.1) = some ⟨.atom (txt a.2), [], [], .nil⟩) := by
  obtain ⟨-, -, -, -, -, -, hlim⟩ := C81_etcd_options opts
  generalize Etcd.new opts = s at *
  have hreq : s.request.answer kv =
      kv.filter (fun a => if s.prefixOrKey then s.storePrefix.isPrefixOf a.1 else a.1 == s.storePrefix) := by
    cases h : s.prefixOrKey <;> simp [Etcd.request, EReq.answer, h, hlim]
  have hin : ∀ a : Str × Str, (if s.prefixOrKey then s.storePrefix.isPrefixOf a.1 else a.1 == s.storePrefix) = true ↔
      (if s.prefixOrKey then s.storePrefix <+: a.1 else a.1 = s.storePrefix) := by
    intro a; cases s.prefixOrKey <;> simp
  refine ⟨s.collect txt [] (s.request.answer kv), rfl, ecollect_nodup _ _ _ _ (by simp), ?_, ?_⟩
  · intro k v h
    rw [ecollect_at, hreq] at h
    cases e : (kv.filter (fun a => if s.prefixOrKey then s.storePrefix.isPrefixOf a.1 else a.1 == s.storePrefix)).reverse.find?
        (fun p => s.cfg.normalizeKey p.1 == k) with
    | none => rw [e] at h; simp [at?] at h
    | some p =>
      rw [e] at h
      simp at h
      have h1 := List.mem_filter.mp (List.mem_reverse.mp (List.mem_of_find?_eq_some e))
      exact ⟨p, h1.1, (hin p).mp h1.2, by simpa using List.find?_some e, h.symm⟩
  · intro a ha hs hu
    rw [ecollect_at, hreq, find_only (List.mem_filter.mpr ⟨ha, (hin a).mpr hs⟩) (by simp)
      (fun y hy e => hu y (List.mem_filter.mp hy).1 (by simpa using e))]
    rfl

/-- **C81** The limit, were it set: no more pairs than it, and only pairs in scope. -/
theorem C81_etcd_limit (s : Etcd) (kv : List (Str × Str)) (hp : s.prefixOrKey = true) (hl : s.limit = true) (h0 : 0 < s.maxLimit) :
    ((s.request.answer kv).length : Int) ≤ s.maxLimit ∧ (s.request.answer kv) <+: kv.filter (fun a => s.storePrefix.isPrefixOf a.1) := by
  simp only [Etcd.request, hp, hl, if_true, EReq.answer, h0, if_true]
  refine ⟨?_, List.take_prefix _ _⟩
  rw [List.length_take]; omega

/-- `WithPosition` alone reads one key, also if the position is a directory with keys under it: nothing is delivered. -/
theorem C81_position_fails : ∃ kv : List (Str × Str),
    ((Etcd.new [.position "app/".toList]).read (some kv) id : Option (List (Str × ValPkg Str Nat))).map (·.length) = some 0 ∧
      kv.length = 1 ∧ kv.all (fun a => "app/".toList.isPrefixOf a.1) = true :=
  ⟨[("app/a".toList, "1".toList)], by decide +kernel, by decide +kernel, by decide +kernel⟩

/-! ## Examples -/

def exKV (k v : String) (i : Nat) : KV := ⟨k.toList, v.toList, i, i + 1, 0, 0, []⟩
def exSrv : CServer :=
  ⟨fun p => some ([exKV "app/a" "1" 3, exKV "app/b/c" "2" 5].filter (fun q => p.isPrefixOf q.key)),
   fun p => some ([exKV "app/a" "1" 3, exKV "app/b/c" "2" 5].find? (fun q => q.key == p))⟩

def exText : Option (ValPkg Str Nat) → Option Str
  | some ⟨.atom x, _, _, _⟩ => some x
  | _ => none

def exRead (opts : List COpt) (k : String) : Option Str :=
  match (Consul.new opts).read exSrv (fun s => s) with
  | .ok (some m) => exText (at? m k.toList)
  | _ => none

example : exRead [.position "app/".toList, .delimiter ['.']] "app.b.c" = some "2".toList ∧
    exRead [.position "app/".toList, .strip "app".toList, .delimiter ['.']] "b.c" = some "2".toList ∧
    exRead [.position "app/a".toList, .recursive false, .delimiter ['.']] "app.a" = some "1".toList ∧
    exRead [.position "app/".toList, .delimiter ['.']] "app.c" = none := by decide +kernel

example : ((Etcd.new [.storePrefix "app/".toList, .delimiter ['.']]).read
    (some [("app/a".toList, "1".toList), ("other".toList, "2".toList)]) id : Option (List (Str × ValPkg Str Nat))).map
      (fun m => (m.length, exText (at? m "app.a".toList))) = some (1, some "1".toList) := by decide +kernel

end ReadModes
end Verif

import Verif.Lemmas.RaceAll
/-
The store with handlers, beside the trie without: each `Set` of the store is a lookup and a `Set` of the trie.
-/
namespace Verif
namespace Parts
variable {α : Type} [Inhabited α]
open Prune (Mem Pc Ph Fine)

/-- The calls, and for each one a lookup. -/
def twice (as : List (Act α)) : List (Act α) := as ++ as.map fun a => .get a.path

section
variable {v : View} {t : Tree α} {as : List (Act α)}

omit [Inhabited α] in
theorem twice_left {k : Nat} {a : Act α} (h : as[k]? = some a) : (twice as)[k]? = some a := by
  rw [twice, List.getElem?_append_left (by
    obtain ⟨h, _⟩ := List.getElem?_eq_some_iff.mp h
    exact h), h]

omit [Inhabited α] in
theorem twice_right {k : Nat} {a : Act α} (h : as[k]? = some a) : (twice as)[as.length + k]? = some (.get a.path) := by
  rw [twice, List.getElem?_append_right (Nat.le_add_right _ _), Nat.add_sub_cancel_left, List.getElem?_map, h]; rfl

omit [Inhabited α] in
theorem twice_cases {k : Nat} {a : Act α} (h : (twice as)[k]? = some a) : as[k]? = some a ∨ ∃ p, a = .get p := by
  by_cases hk : k < as.length
  · rw [twice, List.getElem?_append_left hk] at h
    exact .inl h
  · rw [twice, List.getElem?_append_right (by omega), List.getElem?_map] at h
    cases e : as[k - as.length]? with
    | none => rw [e] at h; cases h
    | some b => rw [e] at h; cases h; exact .inr ⟨_, rfl⟩

omit [Inhabited α] in
theorem twice_set {p : Str} {x : α} (h : .set p x ∈ twice as) : .set p x ∈ as := by
  obtain ⟨k, hk⟩ := List.mem_iff_getElem?.mp h
  rcases twice_cases hk with h | ⟨q, h⟩
  · exact List.mem_of_getElem? h
  · cases h

omit [Inhabited α] in
theorem twice_rem {k : Nat} {p : Str} (h : (calls (twice as))[k]? = some (.remove p)) : (calls as)[k]? = some (.remove p) := by
  rcases twice_cases (calls_get h) with h | ⟨q, h⟩
  · exact get_calls h
  · cases h

omit [Inhabited α] in
theorem takes_rem {c : Prune.Call} {P x : Node α} (h : Prune.Takes v t c P x) : ∃ p, c = .remove p := by
  obtain ⟨p, _, e, _⟩ := h; exact ⟨p, e⟩

omit [Inhabited α] in
theorem twice_tidy (ht : Prune.Tidy v t (calls as)) : Prune.Tidy v t (calls (twice as)) where
  takes p h := by
    obtain ⟨k, hk⟩ := List.mem_iff_getElem?.mp h
    exact ht.takes p (List.mem_of_getElem? (twice_rem hk))
  apart i j c c' P x P' x' hij h1 h2 h3 h4 := by
    obtain ⟨p, rfl⟩ := takes_rem h3
    obtain ⟨p', rfl⟩ := takes_rem h4
    exact ht.apart i j _ _ P x P' x' hij (twice_rem h1) (twice_rem h2) h3 h4
  spares i j c c' P x P' x' q hij h1 h2 h3 h4 h5 := by
    obtain ⟨p, rfl⟩ := takes_rem h3
    obtain ⟨p', rfl⟩ := takes_rem h4
    exact ht.spares i j _ _ P x P' x' q hij (twice_rem h1) (twice_rem h2) h3 h4 h5

omit [Inhabited α] in
theorem twice_spared (hs : Spared v t as) : Spared v t (twice as) where
  stored p x h := hs.stored p x (twice_set h)
  apart i j p x p' x' h1 h2 e := by
    rcases twice_cases h1 with h1 | ⟨_, h1⟩
    · rcases twice_cases h2 with h2 | ⟨_, h2⟩
      · exact hs.apart i j p x p' x' h1 h2 e
      · cases h2
    · cases h1
  spares c P y p x hc hT hx := by
    obtain ⟨q, rfl⟩ := takes_rem hT
    obtain ⟨k, hk⟩ := List.mem_iff_getElem?.mp hc
    exact hs.spares _ P y p x (List.mem_of_getElem? (twice_rem hk)) hT (twice_set hx)

theorem sets_gets (T : Tree α) (l : List Str) : sets v T (l.map .get) = T := by
  induction l with
  | nil => rfl
  | cons a l ih => exact ih

theorem sets_append (as bs : List (Act α)) : ∀ T : Tree α, sets v T (as ++ bs) = sets v (sets v T as) bs := by
  induction as with
  | nil => exact fun _ => rfl
  | cons a as ih => intro T; cases a <;> exact ih _

theorem sets_twice (T : Tree α) : sets v T (twice as) = sets v T as := by
  rw [twice, sets_append]
  have := sets_gets (v := v) (sets v T as) (as.map Act.path)
  rwa [List.map_map] at this

omit [Inhabited α] in
theorem after_append (cs ds : List Prune.Call) : ∀ T : Tree α, Prune.after v T (cs ++ ds) = Prune.after v (Prune.after v T cs) ds := by
  induction cs with
  | nil => exact fun _ => rfl
  | cons c cs ih =>
    intro T
    cases c with
    | get p => exact ih _
    | remove p =>
      simp only [List.cons_append, Prune.after]
      split <;> exact ih _

omit [Inhabited α] in
theorem after_gets (T : Tree α) (l : List Str) : Prune.after v T (l.map .get) = T := by
  induction l with
  | nil => rfl
  | cons a l ih => exact ih

omit [Inhabited α] in
theorem after_twice (T : Tree α) : Prune.after v T (calls (twice as)) = Prune.after v T (calls as) := by
  have : calls (twice as) = calls as ++ (as.map Act.path).map .get := by
    simp only [calls, twice, List.map_append, List.map_map]
    rfl
  rw [this, after_append, after_gets]

/-! ### Steps of the trie -/

theorem runs_snoc (ps : List (View × List (Act α))) (S : List Nat) (k : Nat) :
    runs t ps (S ++ [k]) = (runs t ps S).tick t.root.id (2 * ps.length) k := run_snoc ..

theorem tick_gs_ne {root gap : Nat} {W : World α} {k l : Nat} (h : l ≠ k) : (W.tick root gap k).gs l = W.gs l := if_neg h

theorem tick_gs_self {root gap : Nat} {W : World α} {k : Nat} : (W.tick root gap k).gs k = ((W.gs k).step root gap W.mem).2 := if_pos rfl

theorem step_asks {root gap : Nat} {M : Mem α} {u : View} {c : Prune.Call} {pc : Pc α} {f : Nat} (h1 : ∀ a, pc ≠ .done a) (h2 : ∀ b, pc ≠ .gone b) :
    Gor.step root gap M ⟨u, [], .asks c pc, [], f⟩ =
      ((Prune.step c u.delim M pc).1, ⟨u, [], .asks c (Prune.step c u.delim M pc).2, [], f⟩) := by
  unfold Gor.step
  cases pc <;> first | rfl | exact absurd rfl (h1 _) | exact absurd rfl (h2 _)

theorem step_sets {root gap : Nat} {M : Mem α} {u : View} {J : Race.Job α} {pc : SetPc} {f : Nat} (h1 : pc ≠ .done) :
    Gor.step root gap M ⟨u, [], .sets J pc, [], f⟩ = ((insStep J M pc).1, ⟨u, [], .sets J (insStep J M pc).2, [], f⟩) := by
  unfold Gor.step
  cases pc <;> first | rfl | exact absurd rfl h1

/-- Some make the first step. -/
theorem first_step (ps : List (View × List (Act α))) (l : List Nat) (hl : l.Nodup) : (runs t ps l.reverse).mem = (start t ps).mem ∧
    ∀ j, (runs t ps l.reverse).gs j =
      if j ∈ l then (((start t ps).gs j).step t.root.id (2 * ps.length) (start t ps).mem).2 else (start t ps).gs j := by
  induction l with
  | nil => exact ⟨rfl, fun j => rfl⟩
  | cons m l ih =>
    obtain ⟨hm', hl⟩ := List.nodup_cons.mp hl
    have ih := ih hl
    rw [List.reverse_cons, runs_snoc]
    generalize runs t ps l.reverse = W at ih
    have hm : W.gs m = (start t ps).gs m := by rw [ih.2, if_neg hm']
    refine ⟨?_, fun j => ?_⟩
    · show ((W.gs m).step _ _ W.mem).1 = _
      rw [hm, ih.1]
      simp only [start, Gor.step]
      split <;> rfl
    · by_cases e : j = m
      · subst e
        rw [tick_gs_self, hm, ih.1, if_pos List.mem_cons_self]
      · rw [tick_gs_ne e, ih.2]
        by_cases hj : j ∈ l
        · rw [if_pos hj, if_pos (List.mem_cons_of_mem _ hj)]
        · rw [if_neg hj, if_neg (fun h => by rcases List.mem_cons.mp h with h | h <;> contradiction)]

/-! ### The two side by side -/

/-- A goroutine of the store after `n` steps, and the two of the trie after `c1` and `c2`. -/
inductive Stand (v : View) (t : Tree α) (k : Nat) (F : Bool) (D : α) (E : Option α) (I N n c1 c2 : Nat) : Act α → Gor α → Gor α → Spot α → Prop
  | look (p pc f G2) : Stand v t k F D E I N n c1 c2 (.get p) ⟨v, [], .asks (.get p) pc, [], f⟩ G2 (.ask pc)
  | looked (p G1 G2) : Stand v t k F D E I N n c1 c2 (.get p) G1 G2 .back
  | ask (p x pc f) (hn : n + 1 = c1) (hc : c2 = 0) : Stand v t k F D E I N n c1 c2 (.set p x) ⟨v, [], .asks (.get p) pc, [], f⟩
      ⟨v, [.set p x], .idle, [], t.next + 2 * k⟩ (.ask pc)
  | put (p x pc G1 f) (hpc : pc = .done → E = none) (hn : n + 2 = c1 + c2) (hc : c1 ≤ N) : Stand v t k F D E I N n c1 c2 (.set p x) G1
      ⟨v, [], .sets (jobOf v t k p x) pc, [], f⟩ (.put (!F) pc)
  | took (p x i G1 f) (hE : E = some D) (hn : n + 1 = c1 + c2) (hc : c1 ≤ N) : Stand v t k F D E I N n c1 c2 (.set p x) G1
      ⟨v, [], .sets (jobOf v t k p x) (.store i), [], f⟩ (.took (!F) i D)
  | tell (p x G1 G2) (ho : G2.outs ≠ []) (hn : n ≤ 2 * N + 2) : Stand v t k F D E I N n c1 c2 (.set p x) G1 G2 (.tell (!F) E)
  | told (p x G1 G2) (ho : G2.outs ≠ []) : Stand v t k F D E I N n c1 c2 (.set p x) G1 G2 .back
  | drop (p it pc G1 f) (hf : Fine (· = I) (fun _ => D) pc (.run it)) (hn : n + 1 = c2) : Stand v t k F D E I N n c1 c2 (.remove p) G1
      ⟨v, [], .asks (.remove p) pc, [], f⟩ (.drop (.run it) pc)
  | data (p G1 f) (hn : n + 1 = c2) : Stand v t k F D E I N n c1 c2 (.remove p) G1
      ⟨v, [], .asks (.remove p) (.gone true), [], f⟩ (.drop (.data (some I)) (.gone true))
  | dtell (p G1 f) (hn : n = c2) : Stand v t k F D E I N n c1 c2 (.remove p) G1
      ⟨v, [], .asks (.remove p) (.gone true), [], f⟩ (.drop (.tell D) (.gone true))
  | gone (p G1 G2) (ho : G2.outs ≠ []) : Stand v t k F D E I N n c1 c2 (.remove p) G1 G2 (.drop (.back true) (.gone true))

/-- What the trie does, as far as the store depends on it. -/
structure Plan (v : View) (t : Tree α) (as : List (Act α)) (F : Nat → Bool) (D : Nat → α) (E : Nat → Option α) (I N : Nat → Nat) : Prop where
  get : ∀ T j p f pc, (twice as)[j]? = some (.get p) → (runs t (each v (twice as)) T).gs j = ⟨v, [], .asks (.get p) pc, [], f⟩ → pc.reads = true
  found : ∀ T k p x r, as[k]? = some (.set p x) → T.count k = 0 → .got r ∈ ((runs t (each v (twice as)) T).gs (as.length + k)).outs → r.found = F k
  ask : ∀ T k p x, as[k]? = some (.set p x) → N k ≤ T.count (as.length + k) → ((runs t (each v (twice as)) T).gs (as.length + k)).outs ≠ []
  set : ∀ T k p x, as[k]? = some (.set p x) → N k ≤ T.count k → ((runs t (each v (twice as)) T).gs k).outs ≠ []
  store : ∀ T k p x J i f, as[k]? = some (.set p x) → (runs t (each v (twice as)) T).gs k = ⟨v, [], .sets J (.store i), [], f⟩ →
    ((runs t (each v (twice as)) T).mem i).core.data = D k ∧ E k = some (D k)
  done : ∀ T k p x J pc f, as[k]? = some (.set p x) → (runs t (each v (twice as)) T).gs k = ⟨v, [], .sets J pc, [], f⟩ → pc ≠ .done →
    (∀ i, pc ≠ .store i) → (insStep J (runs t (each v (twice as)) T).mem pc).2 = .done → E k = none
  pick : ∀ T k p par i f, as[k]? = some (.remove p) →
    (runs t (each v (twice as)) T).gs k = ⟨v, [], .asks (.remove p) (.pick par i), [], f⟩ → i = I k
  data : ∀ T k p, as[k]? = some (.remove p) → ((runs t (each v (twice as)) T).mem (I k)).core.data = D k
  good : ∀ T k p b f, as[k]? = some (.remove p) → (runs t (each v (twice as)) T).gs k = ⟨v, [], .asks (.remove p) (.gone b), [], f⟩ → b = true
  rdone : ∀ T k p r f, as[k]? = some (.remove p) → (runs t (each v (twice as)) T).gs k ≠ ⟨v, [], .asks (.remove p) (.done r), [], f⟩
  rem : ∀ T k p, as[k]? = some (.remove p) → N k ≤ T.count k → ((runs t (each v (twice as)) T).gs k).outs ≠ []

/-- The news is what it ought to be. -/
def Right (isNil : α → Bool) (F : Bool) (D : α) (E : Option α) : Act α → News α → Prop
  | .set p x, e => e = news isNil p x (!F) E
  | .remove p, e => e = .deleted p D
  | .get _, _ => False

structure Twin (v : View) (t : Tree α) (isNil : α → Bool) (as : List (Act α)) (F : Nat → Bool) (D : Nat → α) (E : Nat → Option α) (I N : Nat → Nat) (S T : List Nat)
    (s : Team α) : Prop where
  mem : s.mem = (runs t (each v (twice as)) T).mem
  stand : ∀ k a, as[k]? = some a → Stand v t k (F k) (D k) (E k) (I k) (N k) (S.count k) (T.count (as.length + k)) (T.count k) a
    ((runs t (each v (twice as)) T).gs (as.length + k)) ((runs t (each v (twice as)) T).gs k) (s.spot k)
  log : ∀ e ∈ s.log, ∃ a, as[e.1]? = some a ∧ Right isNil (F e.1) (D e.1) (E e.1) a e.2

end

section
variable {v : View} {t : Tree α} {isNil : α → Bool} {as : List (Act α)} {F : Nat → Bool} {D : Nat → α} {E : Nat → Option α} {I N : Nat → Nat} {S T : List Nat} {s : Team α}

theorem runs_gs_ne (ps : List (View × List (Act α))) {l : Nat} (js : List Nat) (h : l ∉ js) : ∀ T, (runs t ps (T ++ js)).gs l = (runs t ps T).gs l := by
  induction js with
  | nil => intro T; rw [List.append_nil]
  | cons j js ih =>
    intro T
    rw [show T ++ j :: js = (T ++ [j]) ++ js by simp, ih (fun e => h (List.mem_cons_of_mem _ e)), runs_snoc,
      tick_gs_ne (fun e : l = j => h (by rw [e]; exact List.mem_cons_self))]

/-- Goroutine `k` of the store makes a step, and the trie the steps `js`. -/
theorem Twin.go (H : Twin v t isNil as F D E I N S T s) {k : Nat} {a : Act α} (ha : as[k]? = some a) (js : List Nat) (hjs : ∀ j ∈ js, j = k ∨ j = as.length + k)
    {p : Spot α} {M : Mem α} {L : List (Nat × News α)} (hM : M = (runs t (each v (twice as)) (T ++ js)).mem)
    (hL : L = s.log ∨ ∃ e, L = s.log ++ [(k, e)] ∧ Right isNil (F k) (D k) (E k) a e)
    (hk : Stand v t k (F k) (D k) (E k) (I k) (N k) (S.count k + 1) (T.count (as.length + k) + js.count (as.length + k)) (T.count k + js.count k) a
      ((runs t (each v (twice as)) (T ++ js)).gs (as.length + k)) ((runs t (each v (twice as)) (T ++ js)).gs k) p) :
    Twin v t isNil as F D E I N (S ++ [k]) (T ++ js) ⟨M, fun l => if l = k then p else s.spot l, L⟩ := by
  refine ⟨hM, fun l b hb => ?_, fun e he => ?_⟩
  · by_cases e : l = k
    · subst e
      rw [ha] at hb; cases hb
      simp only [if_true, List.count_append, List.count_cons_self, List.count_nil]
      exact hk
    · have hl : l < as.length := (List.getElem?_eq_some_iff.mp hb).1
      have hkl : k < as.length := (List.getElem?_eq_some_iff.mp ha).1
      have n1 : l ∉ js := fun h => by rcases hjs l h with h | h <;> omega
      have n2 : as.length + l ∉ js := fun h => by rcases hjs _ h with h | h <;> omega
      simp only [if_neg e]
      rw [runs_gs_ne _ js n1, runs_gs_ne _ js n2, List.count_append, List.count_append, List.count_append, List.count_eq_zero.mpr n1,
        List.count_eq_zero.mpr n2, List.count_cons_of_ne (Ne.symm e)]
      exact H.stand l b hb
  · rcases hL with rfl | ⟨e', rfl, h'⟩
    · exact H.log e he
    · rcases List.mem_append.mp he with h | h
      · exact H.log e h
      · obtain rfl := List.mem_singleton.mp h
        exact ⟨a, ha, h'⟩

/-- Goroutine `k` has returned. -/
theorem Twin.stay (H : Twin v t isNil as F D E I N S T s) {k : Nat} {a : Act α} (ha : as[k]? = some a)
    (hk : Stand v t k (F k) (D k) (E k) (I k) (N k) (S.count k + 1) (T.count (as.length + k)) (T.count k) a
      ((runs t (each v (twice as)) T).gs (as.length + k)) ((runs t (each v (twice as)) T).gs k) (s.spot k)) :
    Twin v t isNil as F D E I N (S ++ [k]) T s := by
  refine ⟨H.mem, fun l b hb => ?_, H.log⟩
  by_cases e : l = k
  · subst e
    rw [ha] at hb; cases hb
    rw [List.count_append, List.count_cons_self]
    exact hk
  · rw [List.count_append, List.count_cons_of_ne (Ne.symm e)]
    exact H.stand l b hb

/-! ### The steps of the store -/

theorem step_ask {k : Nat} {a : Act α} {pc : Pc α} (hs : s.spot k = .ask pc) (h : ∀ r, pc ≠ .done r) :
    s.step v t isNil k a = ⟨(Prune.step (.get a.path) v.delim s.mem pc).1,
      fun l => if l = k then .ask (Prune.step (.get a.path) v.delim s.mem pc).2 else s.spot l, s.log⟩ := by
  unfold Team.step
  rw [hs]
  cases pc <;> first | rfl | exact absurd rfl (h _)

theorem step_put {k : Nat} {p : Str} {x : α} {ab : Bool} {pc : SetPc} (hs : s.spot k = .put ab pc) (h1 : pc ≠ .done) (h2 : ∀ i, pc ≠ .store i) :
    s.step v t isNil k (.set p x) = ⟨(insStep (jobOf v t k p x) s.mem pc).1,
      fun l => if l = k then .put ab (insStep (jobOf v t k p x) s.mem pc).2 else s.spot l, s.log⟩ := by
  unfold Team.step
  rw [hs]
  cases pc <;> first | rfl | exact absurd rfl h1 | exact absurd rfl (h2 _)

theorem step_drop {k : Nat} {p : Str} {it : Option Nat} {pc : Pc α} (hs : s.spot k = .drop (.run it) pc) :
    s.step v t isNil k (.remove p) = ⟨(Prune.step (.remove p) v.delim s.mem pc).1,
      fun l => if l = k then .drop (.next it pc (Prune.step (.remove p) v.delim s.mem pc).2) (Prune.step (.remove p) v.delim s.mem pc).2
        else s.spot l, s.log⟩ := by
  unfold Team.step
  rw [hs]
  rfl

theorem Twin.tick (P : Plan v t as F D E I N) (H : Twin v t isNil as F D E I N S T s) (k : Nat) :
    ∃ T', Twin v t isNil as F D E I N (S ++ [k]) T' (s.tick v t isNil as k) := by
  unfold Team.tick
  cases ha : as[k]? with
  | none =>
    refine ⟨T, H.mem, fun l b hb => ?_, H.log⟩
    have e : k ≠ l := fun e => by rw [e, hb] at ha; cases ha
    rw [List.count_append, List.count_cons_of_ne e]
    exact H.stand l b hb
  | some a =>
    show ∃ T', Twin v t isNil as F D E I N (S ++ [k]) T' (s.step v t isNil k a)
    have hlt : k < as.length := (List.getElem?_eq_some_iff.mp ha).1
    have hne : as.length + k ≠ k := by omega
    have st := H.stand k a ha
    have G := fun js hjs => @Twin.go α _ v t isNil as F D E I N S T s H k a ha js hjs
    have in1 : ∀ j ∈ [as.length + k], j = k ∨ j = as.length + k := fun j hj => .inr (List.mem_singleton.mp hj)
    have in2 : ∀ j ∈ [k], j = k ∨ j = as.length + k := fun j hj => .inl (List.mem_singleton.mp hj)
    have c11 : [as.length + k].count (as.length + k) = 1 := List.count_singleton_self
    have c12 : [as.length + k].count k = 0 := by rw [List.count_cons_of_ne hne]; rfl
    have c21 : [k].count (as.length + k) = 0 := by rw [List.count_cons_of_ne (Ne.symm hne)]; rfl
    have c22 : [k].count k = 1 := List.count_singleton_self
    have r1 := runs_snoc (t := t) (each v (twice as)) T (as.length + k)
    have r2 := runs_snoc (t := t) (each v (twice as)) T k
    have hmem := H.mem
    generalize hG1 : (runs t (each v (twice as)) T).gs (as.length + k) = G1 at st
    generalize hG2 : (runs t (each v (twice as)) T).gs k = G2 at st
    generalize hsp : s.spot k = sp at st
    cases st with
    | look p pc f G2 =>
      have hrd := P.get T (as.length + k) p f pc (twice_right ha) hG1
      by_cases hd : ∃ r, pc = .done r
      · obtain ⟨r, rfl⟩ := hd
        have hstep : s.step v t isNil k (.get p) = ⟨s.mem, fun l => if l = k then .back else s.spot l, s.log⟩ := by
          unfold Team.step; rw [hsp]
        rw [hstep]
        exact ⟨T ++ [], G [] nofun (by rw [List.append_nil]; exact hmem) (.inl rfl) (.looked ..)⟩
      · rw [step_ask hsp (fun r e => hd ⟨r, e⟩)]
        have hs1 := step_asks (root := t.root.id) (gap := 2 * (each v (twice as)).length) (M := s.mem) (u := v) (c := .get p) (f := f)
          (fun r e => hd ⟨r, e⟩) (pc := pc) (fun b e => by rw [e] at hrd; cases hrd)
        have g1 : (runs t (each v (twice as)) (T ++ [as.length + k])).gs (as.length + k) =
            ⟨v, [], .asks (.get p) (Prune.step (.get p) v.delim s.mem pc).2, [], f⟩ := by rw [r1, tick_gs_self, hG1, ← hmem, hs1]
        have gm : (runs t (each v (twice as)) (T ++ [as.length + k])).mem = (Prune.step (.get p) v.delim s.mem pc).1 := by
          rw [r1]
          show (((runs t (each v (twice as)) T).gs (as.length + k)).step _ _ _).1 = _
          rw [hG1, ← hmem, hs1]
        refine ⟨T ++ [as.length + k], G _ in1 gm.symm (.inl rfl) ?_⟩
        rw [g1]
        exact .look ..
    | looked p G1 G2 =>
      have hstep : s.step v t isNil k (.get p) = s := by unfold Team.step; rw [hsp]
      rw [hstep]
      exact ⟨T, H.stay ha (by rw [hsp]; exact .looked ..)⟩
    | ask p x pc f hn hc =>
      have hrd := P.get T (as.length + k) p f pc (twice_right ha) hG1
      have hN : T.count (as.length + k) < N k := by
        rcases Nat.lt_or_ge (T.count (as.length + k)) (N k) with h | h
        · exact h
        · exact absurd (by rw [hG1]) (P.ask T k p x ha h)
      have g2 : (runs t (each v (twice as)) (T ++ [as.length + k])).gs k =
          ⟨v, [.set p x], .idle, [], t.next + 2 * k⟩ := by rw [r1, tick_gs_ne (Ne.symm hne), hG2]
      by_cases hd : ∃ r, pc = .done r
      · obtain ⟨r, rfl⟩ := hd
        have hstep : s.step v t isNil k (.set p x) =
            ⟨s.mem, fun l => if l = k then .put (!r.found) (.enter (View.dash (v.full p)) t.root.id) else s.spot l, s.log⟩ := by
          unfold Team.step; rw [hsp]; rfl
        have g1 : (runs t (each v (twice as)) (T ++ [as.length + k])).gs (as.length + k) = ⟨v, [], .idle, [.got r], f⟩ := by
          rw [r1, tick_gs_self, hG1]; rfl
        have gm : (runs t (each v (twice as)) (T ++ [as.length + k])).mem = s.mem := by
          rw [r1]
          show (((runs t (each v (twice as)) T).gs (as.length + k)).step _ _ _).1 = _
          rw [hG1, ← hmem]; rfl
        have hF : r.found = F k := P.found (T ++ [as.length + k]) k p x r ha (by rw [List.count_append, c12, hc]) (by rw [g1]; exact List.mem_singleton.mpr rfl)
        have e2 : T ++ [as.length + k, k] = (T ++ [as.length + k]) ++ [k] := by simp
        have g3 : (runs t (each v (twice as)) (T ++ [as.length + k, k])).gs k =
            ⟨v, [], .sets (jobOf v t k p x) (.enter (View.dash (v.full p)) t.root.id), [], t.next + 2 * k + 2 * (each v (twice as)).length⟩ := by
          rw [e2, runs_snoc, tick_gs_self, g2]; rfl
        have gm3 : (runs t (each v (twice as)) (T ++ [as.length + k, k])).mem = s.mem := by
          rw [e2, runs_snoc]
          show (((runs t (each v (twice as)) (T ++ [as.length + k])).gs k).step _ _ _).1 = _
          rw [g2, gm]; rfl
        have d1 : [as.length + k, k].count (as.length + k) = 1 := by rw [List.count_cons_self, c21]
        have d2 : [as.length + k, k].count k = 1 := by rw [List.count_cons_of_ne hne, c22]
        rw [hstep, hF]
        refine ⟨T ++ [as.length + k, k], G _ (fun j hj => by simp only [List.mem_cons, List.not_mem_nil, or_false] at hj; exact hj.symm) gm3.symm (.inl rfl) ?_⟩
        rw [g3]
        exact .put p x _ _ _ nofun (by omega) (by omega)
      · rw [step_ask hsp (fun r e => hd ⟨r, e⟩)]
        have hs1 := step_asks (root := t.root.id) (gap := 2 * (each v (twice as)).length) (M := s.mem) (u := v) (c := .get p) (f := f)
          (fun r e => hd ⟨r, e⟩) (pc := pc) (fun b e => by rw [e] at hrd; cases hrd)
        have g1 : (runs t (each v (twice as)) (T ++ [as.length + k])).gs (as.length + k) =
            ⟨v, [], .asks (.get p) (Prune.step (.get p) v.delim s.mem pc).2, [], f⟩ := by rw [r1, tick_gs_self, hG1, ← hmem, hs1]
        have gm : (runs t (each v (twice as)) (T ++ [as.length + k])).mem = (Prune.step (.get p) v.delim s.mem pc).1 := by
          rw [r1]
          show (((runs t (each v (twice as)) T).gs (as.length + k)).step _ _ _).1 = _
          rw [hG1, ← hmem, hs1]
        refine ⟨T ++ [as.length + k], G _ in1 gm.symm (.inl rfl) ?_⟩
        rw [g1, g2]
        exact .ask _ _ _ _ (by omega) (by omega)
    | put p x pc G1 f hpc hn hc =>
      by_cases hi : ∃ i, pc = .store i
      · obtain ⟨i, rfl⟩ := hi
        have hstep : s.step v t isNil k (.set p x) =
            ⟨s.mem, fun l => if l = k then .took (!F k) i (s.mem i).core.data else s.spot l, s.log⟩ := by
          unfold Team.step; rw [hsp]
        have hD : (s.mem i).core.data = D k := by rw [hmem]; exact (P.store T k p x _ i f ha hG2).1
        rw [hstep, hD]
        refine ⟨T ++ [], G [] nofun (by rw [List.append_nil]; exact hmem) (.inl rfl) ?_⟩
        rw [List.append_nil, hG2]
        exact .took p x i _ _ (P.store T k p x _ i f ha hG2).2 (by simp only [List.count_nil]; omega) hc
      by_cases hdn : pc = .done
      · have hE := hpc hdn
        subst hdn
        have hN : T.count k < N k := by
          rcases Nat.lt_or_ge (T.count k) (N k) with h | h
          · exact h
          · exact absurd (by rw [hG2]) (P.set T k p x ha h)
        have hstep : s.step v t isNil k (.set p x) = ⟨s.mem, fun l => if l = k then .tell (!F k) none else s.spot l, s.log⟩ := by
          unfold Team.step; rw [hsp]
        have g2 : (runs t (each v (twice as)) (T ++ [k])).gs k = ⟨v, [], .idle, [.stored], f⟩ := by
          rw [r2, tick_gs_self, hG2]; rfl
        have gm : (runs t (each v (twice as)) (T ++ [k])).mem = s.mem := by
          rw [r2]
          show (((runs t (each v (twice as)) T).gs k).step _ _ _).1 = _
          rw [hG2, ← hmem]; rfl
        rw [hstep, ← hE]
        refine ⟨T ++ [k], G _ in2 gm.symm (.inl rfl) ?_⟩
        rw [g2]
        exact .tell p x _ _ nofun (by omega)
      · have hpc := hdn
        rw [step_put hsp hpc (fun i e => hi ⟨i, e⟩)]
        have hs1 := step_sets (root := t.root.id) (gap := 2 * (each v (twice as)).length) (M := s.mem) (u := v) (J := jobOf v t k p x) (f := f) hpc
        have g2 : (runs t (each v (twice as)) (T ++ [k])).gs k =
            ⟨v, [], .sets (jobOf v t k p x) (insStep (jobOf v t k p x) s.mem pc).2, [], f⟩ := by rw [r2, tick_gs_self, hG2, ← hmem, hs1]
        have gm : (runs t (each v (twice as)) (T ++ [k])).mem = (insStep (jobOf v t k p x) s.mem pc).1 := by
          rw [r2]
          show (((runs t (each v (twice as)) T).gs k).step _ _ _).1 = _
          rw [hG2, ← hmem, hs1]
        refine ⟨T ++ [k], G _ in2 gm.symm (.inl rfl) ?_⟩
        rw [g2]
        refine .put p x _ _ _ ?_ (by omega) (by omega)
        rw [hmem]
        exact P.done T k p x _ pc f ha hG2 hpc fun i e => hi ⟨i, e⟩
    | took p x i G1 f hE hn hc =>
      have hN : T.count k < N k := by
        rcases Nat.lt_or_ge (T.count k) (N k) with h | h
        · exact h
        · exact absurd (by rw [hG2]) (P.set T k p x ha h)
      have hstep : s.step v t isNil k (.set p x) =
          ⟨(insStep (jobOf v t k p x) s.mem (.store i)).1, fun l => if l = k then .tell (!F k) (E k) else s.spot l, s.log⟩ := by
        unfold Team.step; rw [hsp, hE]; rfl
      have g2 : (runs t (each v (twice as)) (T ++ [k])).gs k = ⟨v, [], .sets (jobOf v t k p x) .done, [], f⟩ := by
        rw [r2, tick_gs_self, hG2]; rfl
      have gm : (runs t (each v (twice as)) (T ++ [k])).mem = (insStep (jobOf v t k p x) s.mem (.store i)).1 := by
        rw [r2]
        show (((runs t (each v (twice as)) T).gs k).step _ _ _).1 = _
        rw [hG2, ← hmem]; rfl
      have e2 : T ++ [k, k] = (T ++ [k]) ++ [k] := by simp
      have g3 : (runs t (each v (twice as)) (T ++ [k, k])).gs k = ⟨v, [], .idle, [.stored], f⟩ := by
        rw [e2, runs_snoc, tick_gs_self, g2]; rfl
      have gm3 : (runs t (each v (twice as)) (T ++ [k, k])).mem = (insStep (jobOf v t k p x) s.mem (.store i)).1 := by
        rw [e2, runs_snoc]
        show (((runs t (each v (twice as)) (T ++ [k])).gs k).step _ _ _).1 = _
        rw [g2, gm]; rfl
      rw [hstep]
      refine ⟨T ++ [k, k], G [k, k] (fun j hj => .inl (by simpa using hj)) gm3.symm (.inl rfl) ?_⟩
      rw [g3]
      exact .tell p x _ _ nofun (by omega)
    | tell p x G1 G2 ho hn =>
      have hstep : s.step v t isNil k (.set p x) =
          ⟨s.mem, fun l => if l = k then .back else s.spot l, s.log ++ [(k, news isNil p x (!F k) (E k))]⟩ := by
        unfold Team.step; rw [hsp]; rfl
      rw [hstep]
      refine ⟨T ++ [], G [] nofun (by rw [List.append_nil]; exact hmem) (.inr ⟨_, rfl, rfl⟩) ?_⟩
      rw [List.append_nil, hG2]
      exact .told p x _ _ ho
    | told p x G1 G2 ho =>
      have hstep : s.step v t isNil k (.set p x) = s := by unfold Team.step; rw [hsp]
      rw [hstep]
      refine ⟨T, H.stay ha ?_⟩
      rw [hsp, hG2]
      exact .told p x _ _ ho
    | drop p it pc G1 f hf hn =>
      rw [step_drop hsp]
      have hgone : ∀ b, pc ≠ .gone b := fun b e => by rw [e] at hf; exact hf
      have hdone : ∀ r, pc ≠ .done r := fun r e => P.rdone T k p r f ha (e ▸ hG2)
      have hs1 := step_asks (root := t.root.id) (gap := 2 * (each v (twice as)).length) (M := s.mem) (u := v) (c := .remove p) (f := f)
        hdone hgone
      have g2 : (runs t (each v (twice as)) (T ++ [k])).gs k =
          ⟨v, [], .asks (.remove p) (Prune.step (.remove p) v.delim s.mem pc).2, [], f⟩ := by rw [r2, tick_gs_self, hG2, ← hmem, hs1]
      have gm : (runs t (each v (twice as)) (T ++ [k])).mem = (Prune.step (.remove p) v.delim s.mem pc).1 := by
        rw [r2]
        show (((runs t (each v (twice as)) T).gs k).step _ _ _).1 = _
        rw [hG2, ← hmem, hs1]
      have hfine := Prune.fine_step (c := .remove p) (d := v.delim) (M := s.mem) hf (fun par i e => P.pick (T ++ [k]) k p par i f ha (by rw [g2, e]))
      refine ⟨T ++ [k], G _ in2 gm.symm (.inl rfl) ?_⟩
      rw [g2]
      generalize hnx : Ph.next it pc (Prune.step (.remove p) v.delim s.mem pc).2 = ph at hfine
      cases ph with
      | run it' => exact .drop p it' _ _ _ hfine (by omega)
      | data it' =>
        obtain ⟨h1, i, rfl, rfl⟩ := hfine
        rw [h1]
        exact .data p _ _ (by omega)
      | tell y => exact absurd hnx (by
          generalize (Prune.step (.remove p) v.delim s.mem pc).2 = pc'
          intro e
          cases pc' with
          | gone b => cases b <;> cases e
          | _ => cases e)
      | back b =>
        have h1 : (Prune.step (.remove p) v.delim s.mem pc).2 = .gone b := hfine
        have := P.good (T ++ [k]) k p b f ha (by rw [g2, h1])
        subst this
        exact absurd hnx Prune.next_ne
    | data p G1 f hn =>
      have hstep : s.step v t isNil k (.remove p) =
          ⟨s.mem, fun l => if l = k then .drop (.tell (s.mem (I k)).core.data) (.gone true) else s.spot l, s.log⟩ := by
        unfold Team.step; rw [hsp]; rfl
      have hD : (s.mem (I k)).core.data = D k := by rw [hmem]; exact P.data T k p ha
      rw [hstep, hD]
      refine ⟨T ++ [], G [] nofun (by rw [List.append_nil]; exact hmem) (.inl rfl) ?_⟩
      rw [List.append_nil, hG2]
      exact .dtell p _ _ (by simp only [List.count_nil]; omega)
    | dtell p G1 f hn =>
      have hstep : s.step v t isNil k (.remove p) =
          ⟨s.mem, fun l => if l = k then .drop (.back true) (.gone true) else s.spot l, s.log ++ [(k, .deleted p (D k))]⟩ := by
        unfold Team.step; rw [hsp]; rfl
      have g2 : (runs t (each v (twice as)) (T ++ [k])).gs k = ⟨v, [], .idle, [.removed true], f⟩ := by
        rw [r2, tick_gs_self, hG2]; rfl
      have gm : (runs t (each v (twice as)) (T ++ [k])).mem = s.mem := by
        rw [r2]
        show (((runs t (each v (twice as)) T).gs k).step _ _ _).1 = _
        rw [hG2, ← hmem]; rfl
      rw [hstep]
      refine ⟨T ++ [k], G _ in2 gm.symm (.inr ⟨_, rfl, rfl⟩) ?_⟩
      rw [g2]
      exact .gone p _ _ nofun
    | gone p G1 G2 ho =>
      have hstep : s.step v t isNil k (.remove p) = s := by unfold Team.step; rw [hsp]
      rw [hstep]
      refine ⟨T, H.stay ha ?_⟩
      rw [hsp, hG2]
      exact .gone p _ _ ho

/-- All but the calls of `Set`. -/
def others (as : List (Act α)) : List Nat :=
  (List.range (twice as).length).filter fun j => match (twice as)[j]? with
    | some (Act.set _ _) => false
    | _ => true

omit [Inhabited α] in
theorem others_count {j : Nat} (h : j ∈ others as) : (others as).count j = 1 := by
  obtain ⟨h1, h2⟩ := List.mem_filter.mp h
  refine Eq.trans (b := (List.range (twice as).length).count j) ?_ ?_
  · unfold others
    exact List.count_filter h2
  rw [List.count_range, if_pos (List.mem_range.mp h1)]

theorem twin_start : Twin v t isNil as F D E I N [] (others as).reverse (team v t as) := by
  have hnd : (others as).Nodup := List.nodup_range.filter _
  obtain ⟨hm, hg⟩ := first_step (t := t) (each v (twice as)) (others as) hnd
  have hlen : (twice as).length = as.length + as.length := by simp [twice]
  refine ⟨hm.symm, fun k a ha => ?_, nofun⟩
  have hlt : k < as.length := (List.getElem?_eq_some_iff.mp ha).1
  have m1 : as.length + k ∈ others as := List.mem_filter.mpr ⟨List.mem_range.mpr (by omega), by rw [twice_right ha]⟩
  have c1 : (others as).reverse.count (as.length + k) = 1 := by
    rw [List.count_reverse]
    exact others_count m1
  have s1 : (start t (each v (twice as))).gs (as.length + k) = ⟨v, [.get a.path], .idle, [], t.next + 2 * (as.length + k)⟩ := by
    simp only [start, each, List.getElem?_map, twice_right ha]; rfl
  have s2 : (start t (each v (twice as))).gs k = ⟨v, [a], .idle, [], t.next + 2 * k⟩ := by
    simp only [start, each, List.getElem?_map, twice_left ha]; rfl
  rw [c1, hg, hg, if_pos m1, s1, s2, List.count_reverse]
  simp only [team, ha]
  have m2 : (match a with | .set _ _ => False | _ => True) → k ∈ others as := by
    intro h
    refine List.mem_filter.mpr ⟨List.mem_range.mpr (by omega), ?_⟩
    rw [twice_left ha]
    cases a <;> first | rfl | exact h.elim
  cases a with
  | get p => rw [if_pos (m2 trivial)]; exact .look ..
  | set p x =>
    have m3 : k ∉ others as := fun h => by
      have := (List.mem_filter.mp h).2
      rw [twice_left ha] at this
      cases this
    rw [if_neg m3, List.count_eq_zero.mpr m3]
    exact .ask p x _ _ rfl rfl
  | remove p =>
    rw [if_pos (m2 trivial), others_count (m2 trivial)]
    exact .drop p none _ _ _ trivial rfl

theorem twin (P : Plan v t as F D E I N) (S : List Nat) :
    ∃ T, Twin v t isNil as F D E I N S T (hears v t isNil as S) := by
  have : ∀ S : List Nat, ∃ T, Twin v t isNil as F D E I N S.reverse T (hears v t isNil as S.reverse) := by
    intro S
    induction S with
    | nil => exact ⟨_, twin_start⟩
    | cons k S ih =>
      obtain ⟨T, H⟩ := ih
      rw [List.reverse_cons, hears_snoc]
      exact H.tick P k
  have := this S.reverse
  rwa [List.reverse_reverse] at this

end

end Parts
end Verif

import Verif.Lemmas.RaceTwin
import Verif.Props.RaceTold
/-
**C108** What handlers are told when goroutines set and remove keys at the same time.
-/
namespace Verif
namespace Parts
variable {α : Type} [Inhabited α] {K : Str → Prop} {t : Tree α} {v : View} {isNil : α → Bool} {as : List (Act α)}
open Prune (Mem Pc)

section helpers

/-- The call has returned (a lookup need not have). -/
def Through : Act α → Spot α → Prop
  | .get _, _ => True
  | .set _ _, sp => sp = .back
  | .remove _, sp => ∃ pc, sp = .drop (.back true) pc

theorem finds_store {J : Race.Job α} {ms : (Nat → Nat) → Mem α} {i j : Nat} : ∀ {n : Nat} {s : Nat → Nat}, ¬ Finds J ms i n s (.store j)
  | 0, _, h => by cases h
  | n + 1, s, h => by
    rcases h with h | h
    · cases h
    · exact finds_done (h s (fun _ c => c) (fun _ => Nat.le_refl _)).2

/-- The node that the search of a `Remove` finds. -/
theorem pick_item (h : t.OK) (hp : t.Plain v.delim) (hm : v.mode ≠ .up) {cs : List Prune.Call} (ht : Prune.Tidy v t cs) {S : List Nat} {k par i : Nat}
    (e : ((Prune.start v t cs).run v.delim cs S).pcs k = .pick par i) {T : Prune.Task} (hT : Prune.planOf v t cs k = some T) : i = T.item := by
  obtain ⟨B, _, I⟩ := Prune.start_inv (Tr := fun _ => False) (Q := fun _ _ => False) (N := fun _ => 0) h hp hm ht (fun _ e => e.elim)
  have I' := I.run (Prune.planOf_fits h hp hm ht) (fun l pc hq M => hq.elim) S
  rcases (I'.rem k T hT).2 with ⟨h1, _⟩ | h1
  · rw [e] at h1; cases h1
  · rw [e] at h1
    cases h1
    rfl

/-- Whether the lookup of a `Set` finds its key. -/
def isFound (v : View) (t : Tree α) (as : List (Act α)) (k : Nat) : Bool := match as[k]? with
  | some (.set p _) => match v.query t p with
    | .ok a => a.found
    | .error _ => false
  | _ => false

/-- The value that is replaced, or removed. -/
def oldOf (v : View) (t : Tree α) (as : List (Act α)) (k : Nat) : α := match as[k]? with
  | some (.set p _) => match t.contents (v.full p) with
    | some c => c.data
    | none => default
  | some (.remove p) => match v.removeEx t p with
    | .ok (_, some (x, _)) => x.core.data
    | _ => default
  | _ => default

/-- The node that is removed. -/
def itemOf (v : View) (t : Tree α) (as : List (Act α)) (k : Nat) : Nat := match as[k]? with
  | some (.remove p) => match v.removeEx t p with
    | .ok (_, some (x, _)) => x.id
    | _ => 0
  | _ => 0

omit [Inhabited α] in
theorem news_plain (p : Str) (x : α) (b : Bool) (d : α) :
    news isNil p x (!b) (some d) = if b = false ∧ isNil d = true then .created p x else .changed p x (some d) := by
  unfold news
  by_cases h : b = false ∧ isNil d = true
  · rw [if_pos h, if_pos (by simp [h.1, h.2])]
  · rw [if_neg h, if_neg (by simpa using h)]

theorem dash_same {k : Str} (h : ' ' ∉ k) : View.dash k = k := by
  have : ∀ l : Str, ' ' ∉ l → l.map (fun c => if c = ' ' then '-' else c) = l := by
    intro l
    induction l with
    | nil => exact fun _ => rfl
    | cons c l ih =>
      intro h
      rw [List.map_cons, ih (fun e => h (List.mem_cons_of_mem _ e)), if_neg (fun e : c = ' ' => h (by rw [e]; exact List.mem_cons_self))]
  exact this k h

omit [Inhabited α] in
theorem stored_contents (hs : Spared v t as) {k : Nat} {p : Str} {x : α} (ha : as[k]? = some (.set p x))
    (hb : ∀ p x, .set p x ∈ as → ' ' ∉ v.full p) : View.dash (v.full p) = v.full p ∧ ∃ c, t.contents (v.full p) = some c := by
  have hx := List.mem_of_getElem? ha
  have hd := dash_same (hb p x hx)
  have := hs.stored p x hx
  rw [hd] at this
  cases hc : t.contents (v.full p) with
  | none => exact absurd hc this
  | some c => exact ⟨hd, c, rfl⟩

theorem plan (h : Reach K t) (hp : t.Plain v.delim) (hm : v.mode ≠ .up) (ht : Prune.Tidy v t (calls as)) (hs : Spared v t as)
    (hb : ∀ p x, .set p x ∈ as → ' ' ∉ v.full p) :
    ∃ N : Nat → Nat, Plan v t as (isFound v t as) (oldOf v t as) (fun k => some (oldOf v t as k)) (itemOf v t as) N ∧
      (∀ T k a, as[k]? = some a → told a ≠ none → ¬ ((runs t (each v (twice as)) T).gs k).crashed) ∧
      ∀ T k p x, as[k]? = some (.set p x) → ¬ ((runs t (each v (twice as)) T).gs (as.length + k)).crashed := by
  have hok := h.ok
  have ht2 := twice_tidy ht
  have hs2 := twice_spared hs
  obtain ⟨B, hR, hM, hT⟩ := mixed_tick hok hp hm ht2 hs2
  obtain ⟨_, _, hB⟩ := mixed hok hp hm ht2 hs2
  obtain ⟨N1, hN1⟩ := C93_replace h hp hm ht2 hs2
  have hl := Prune.start_lays (v := v) hok (calls (twice as))
  have look : ∀ k, ∃ N, ∀ p x, as[k]? = some (.set p x) → ∀ T, let G := (runs t (each v (twice as)) T).gs (as.length + k)
      ¬ G.crashed ∧ (N ≤ T.count (as.length + k) → ∃ a, G.outs = [.got a]) ∧ ∀ a, .got a ∈ G.outs → a.found = isFound v t as k := by
    intro k
    cases ha : as[k]? with
    | none => exact ⟨0, nofun⟩
    | some a =>
      cases a with
      | get p => exact ⟨0, nofun⟩
      | remove p => exact ⟨0, nofun⟩
      | set p x =>
        obtain ⟨hd, c, hc⟩ := stored_contents hs ha hb
        have hr : resolve v.delim t.contents (v.full p) = some (v.full p, c) := by rw [resolve, hc]
        obtain ⟨N, hN⟩ := C105_answer h hp hm ht2 hs2 (twice_right ha) hr (fun c P y hc htk => by
          have := hs2.spares c P y p x hc htk (List.mem_of_getElem? (twice_left ha))
          rwa [hd] at this)
        refine ⟨N, fun p' x' e T => ?_⟩
        cases e
        obtain ⟨h1, h2, h3⟩ := hN T
        refine ⟨h1, h2, fun a hg => ?_⟩
        obtain ⟨a0, hq, _, _, _, _, h4⟩ := h3 a hg
        simp only [isFound, ha]
        have hq : v.query t p = .ok a0 := hq
        rw [hq]
        rcases h4 with ⟨rfl, _⟩ | ⟨_, _, _, _, _, rfl, _⟩ <;> rfl
  obtain ⟨N2, hN2⟩ := Classical.axiomOfChoice look
  refine ⟨fun k => max (N1 k) (N2 k), ?_, fun T k a ha hn => ?_, fun T k p x ha => (hN2 k p x ha T).1⟩
  rotate_left
  · cases a with
    | get p => exact absurd rfl hn
    | set p x => exact ((hN1 T).1 k _ _ (twice_left ha) rfl).1
    | remove p => exact ((hN1 T).1 k _ _ (twice_left ha) rfl).1
  have le1 : ∀ k m, max (N1 k) (N2 k) ≤ m → N1 k ≤ m := fun k m h => by omega
  have le2 : ∀ k m, max (N1 k) (N2 k) ≤ m → N2 k ≤ m := fun k m h => by omega
  refine ⟨?_, ?_, ?_, ?_, ?_, ?_, ?_, ?_, ?_, ?_, ?_⟩
  · intro T j p f pc ha hg
    obtain ⟨S', g, I⟩ := hB T
    have := I.get j p ha
    rw [hg] at this
    cases this with
    | asks _ _ _ _ _ h => exact h
  · intro T k p x r ha _ hg
    exact (hN2 k p x ha T).2.2 r hg
  · intro T k p x ha hle e
    obtain ⟨a, h1⟩ := (hN2 k p x ha T).2.1 (le2 _ _ hle)
    rw [h1] at e; cases e
  · intro T k p x ha hle e
    rw [((hN1 T).1 k _ _ (twice_left ha) rfl).2.2 (le1 _ _ hle) |>.2.2] at e
    cases e
  · intro T k p x J i f ha hg
    obtain ⟨S', g, I⟩ := hB T
    have r := I.set k p x (twice_left ha)
    rw [hg] at r
    obtain ⟨hd, c, hc⟩ := stored_contents hs ha hb
    obtain ⟨m, hmem, rfl⟩ := (Tree.contents_node hok).mp hc
    cases r with
    | finds _ _ _ hf => exact absurd hf finds_store
    | store _ _ hgi =>
      rw [hd, idAt_mem hok hmem] at hgi ⊢
      refine ⟨?_, rfl⟩
      rw [I.mem]
      simp only [over, hgi, Prune.run_core, hl _ m hmem, oldOf, ha, hc]
      rfl
  · intro T k p x J pc f ha hg h1 h2
    obtain ⟨S', g, I⟩ := hB T
    have r := I.set k p x (twice_left ha)
    rw [hg] at r
    refine fun e' => absurd e' ?_
    cases r with
    | finds _ b _ hf =>
      rw [I.mem, hM]
      cases b with
      | zero =>
        have hf : pc = _ := hf
        rw [hf]; nofun
      | succ b =>
        rcases hf with rfl | hf
        · nofun
        · intro e
          have := (hf _ g (.refl _)).2
          rw [e] at this
          exact finds_done this
    | store => exact absurd rfl (h2 _)
    | fin => exact absurd rfl h1
  · intro T k p par i f ha hg
    obtain ⟨S', g, I⟩ := hB T
    have r := I.rem k p (twice_left ha)
    rw [hg] at r
    obtain ⟨P, y, htk⟩ := ht.takes p (List.mem_of_getElem? (get_calls ha))
    have hpl := Prune.planOf_takes (get_calls (twice_left ha)) htk
    obtain ⟨p', t', e, hrm⟩ := htk
    cases e
    generalize hpc : ((Prune.start v t (calls (twice as))).run v.delim (calls (twice as)) S').pcs k = pc at r
    cases r with
    | asks =>
      have := pick_item hok hp hm ht2 hpc hpl
      simp only [itemOf, ha, hrm]
      exact this
  · intro T k p ha
    obtain ⟨S', g, I⟩ := hB T
    obtain ⟨P, y, htk⟩ := ht.takes p (List.mem_of_getElem? (get_calls ha))
    have htk' := htk
    obtain ⟨p', t', e, hrm⟩ := htk
    cases e
    obtain ⟨_, _, u, hP, hy, hym, _⟩ := Prune.takes_spec hok hp hm hrm
    have hfr : g y.id = fun c => c := by
      refine I.frame _ fun q x hx e => ?_
      obtain ⟨m, hmem⟩ := stored_node hok (hs2.stored q x hx)
      rw [idAt_mem hok hmem] at e
      have hq := (Prod.mk.inj (hok.id_inj hmem hym e)).1
      obtain ⟨A, C, hAC⟩ := List.append_of_mem hy
      have := hs2.spares _ P y q x (List.mem_of_getElem? (get_calls (twice_left ha))) htk' hx u A y C hP hAC (by rw [hq]; exact List.prefix_refl _)
      exact this.1 rfl
    rw [I.mem]
    simp only [itemOf, oldOf, ha, hrm, over, hfr, Prune.run_core, hl _ y hym]
    rfl
  · intro T k p b f ha hg
    obtain ⟨S', g, I⟩ := hB T
    have r := I.rem k p (twice_left ha)
    rw [hg] at r
    have h2 := (hR k p (twice_left ha) S').2.1
    generalize hpc : ((Prune.start v t (calls (twice as))).run v.delim (calls (twice as)) S').pcs k = pc at r h2
    cases r with
    | asks =>
      cases b with
      | true => rfl
      | false => exact absurd rfl h2
  · intro T k p r f ha hg
    obtain ⟨S', g, I⟩ := hB T
    have r := I.rem k p (twice_left ha)
    rw [hg] at r
    generalize hpc : ((Prune.start v t (calls (twice as))).run v.delim (calls (twice as)) S').pcs k = pc at r
    cases r with
    | asks _ _ _ hsf => cases hsf
  · intro T k p ha hle e
    rw [((hN1 T).1 k _ _ (twice_left ha) rfl).2.2 (le1 _ _ hle) |>.2.2] at e
    cases e

/-- What follows from a plan: nobody panics, all calls return, and the news is right. -/
theorem heard {F : Nat → Bool} {D : Nat → α} {E : Nat → Option α} {I N : Nat → Nat} (P : Plan v t as F D E I N)
    (hc1 : ∀ T k a, as[k]? = some a → told a ≠ none → ¬ ((runs t (each v (twice as)) T).gs k).crashed)
    (hc2 : ∀ T k p x, as[k]? = some (.set p x) → ¬ ((runs t (each v (twice as)) T).gs (as.length + k)).crashed) (S : List Nat) :
    let s := hears v t isNil as S
    (∀ k p x, as[k]? = some (.set p x) → (s.spot k).crashed = false ∧ (2 * N k + 3 ≤ S.count k → s.spot k = .back) ∧
      ∀ e, (k, e) ∈ s.log → e = news isNil p x (!F k) (E k)) ∧
    (∀ k p, as[k]? = some (.remove p) → (s.spot k).crashed = false ∧ (∀ pc, s.spot k ≠ .drop (.back false) pc) ∧
      (2 * N k + 3 ≤ S.count k → s.spot k = .drop (.back true) (.gone true)) ∧ ∀ e, (k, e) ∈ s.log → e = .deleted p (D k)) ∧
    ((∀ k a, as[k]? = some a → Through a (s.spot k)) →
      ∃ T, s.mem = (runs t (each v (twice as)) T).mem ∧
        ∀ (k : Nat) a, (twice as)[k]? = some a → told a ≠ none → ((runs t (each v (twice as)) T).gs k).outs ≠ []) := by
  obtain ⟨T, H⟩ := twin (isNil := isNil) P S
  refine ⟨fun k p x ha => ?_, fun k p ha => ?_, fun hr => ⟨T, H.mem, fun k a ha hn => ?_⟩⟩
  · have st := H.stand k _ ha
    have pa := P.ask T k p x ha
    have ps := P.set T k p x ha
    have n1 := hc1 T k _ ha (by simp [told])
    have n2 := hc2 T k p x ha
    generalize (runs t (each v (twice as)) T).gs (as.length + k) = G1 at st pa n2
    generalize (runs t (each v (twice as)) T).gs k = G2 at st ps n1
    have hlog : ∀ e, (k, e) ∈ (hears v t isNil as S).log → e = news isNil p x (!F k) (E k) := by
      intro e he
      obtain ⟨b, hb, hr⟩ := H.log _ he
      rw [ha] at hb; cases hb
      exact hr
    generalize (hears v t isNil as S).spot k = sp at st
    cases st with
    | ask _ _ pc f hn hc =>
      refine ⟨?_, fun hle => ?_, hlog⟩
      · cases pc <;> first | rfl | exact absurd (.inl ⟨_, rfl⟩) n2
      · have : ¬ N k ≤ T.count (as.length + k) := fun e => pa e rfl
        omega
    | put _ _ pc _ f hpc hn hc =>
      refine ⟨?_, fun hle => ?_, hlog⟩
      · cases pc <;> first | rfl | exact absurd (.inr ⟨_, rfl⟩) n1
      · have : ¬ N k ≤ T.count k := fun e => ps e rfl
        omega
    | took _ _ i _ f hE hn hc =>
      refine ⟨rfl, fun hle => ?_, hlog⟩
      have : ¬ N k ≤ T.count k := fun e => ps e rfl
      omega
    | tell _ _ _ _ ho hn => exact ⟨rfl, fun hle => by omega, hlog⟩
    | told => exact ⟨rfl, fun _ => rfl, hlog⟩
  · have st := H.stand k _ ha
    have ps := P.rem T k p ha
    have n1 := hc1 T k _ ha (by simp [told])
    generalize (runs t (each v (twice as)) T).gs (as.length + k) = G1 at st
    generalize (runs t (each v (twice as)) T).gs k = G2 at st ps n1
    have hlog : ∀ e, (k, e) ∈ (hears v t isNil as S).log → e = .deleted p (D k) := by
      intro e he
      obtain ⟨b, hb, hr⟩ := H.log _ he
      rw [ha] at hb; cases hb
      exact hr
    generalize (hears v t isNil as S).spot k = sp at st
    cases st with
    | drop _ it pc _ f hf hn =>
      refine ⟨?_, nofun, fun hle => ?_, hlog⟩
      · cases pc <;> first | rfl | exact absurd (.inl ⟨_, rfl⟩) n1
      · have : ¬ N k ≤ T.count k := fun e => ps e rfl
        omega
    | data _ _ f hn =>
      refine ⟨rfl, nofun, fun hle => ?_, hlog⟩
      have : ¬ N k ≤ T.count k := fun e => ps e rfl
      omega
    | dtell _ _ f hn =>
      refine ⟨rfl, nofun, fun hle => ?_, hlog⟩
      have : ¬ N k ≤ T.count k := fun e => ps e rfl
      omega
    | gone => exact ⟨rfl, nofun, fun _ => rfl, hlog⟩
  · rcases twice_cases ha with ha | ⟨p, rfl⟩
    · have st := H.stand k a ha
      have hk := hr k a ha
      generalize (hears v t isNil as S).spot k = sp at st hk
      generalize (runs t (each v (twice as)) T).gs (as.length + k) = G1 at st
      generalize (runs t (each v (twice as)) T).gs k = G2 at st
      cases a with
      | get p => exact absurd rfl hn
      | set p x =>
        cases hk
        cases st with
        | told _ _ _ _ ho => exact ho
      | remove p =>
        obtain ⟨pc, rfl⟩ := hk
        cases st with
        | gone _ _ _ ho => exact ho
    · exact absurd rfl hn

end helpers

/-- **C108** Goroutines call `Set`, `Remove` and `Get` of a store, each once. The handlers are told of every `Set` that has returned and of
every `Remove` that has returned true, once: of a `Set` that its key is new, or has changed, with its value, and of a `Remove` that its key is
deleted. They are told of no other call. For any calls, also those that collide, and any schedule. -/
theorem C108_once (as : List (Act α)) (S : List Nat) :
    let s := hears v t isNil as S
    (s.log.map (·.1)).Nodup ∧
      (∀ k, k ∈ s.log.map (·.1) ↔
        (∃ p x, as[k]? = some (.set p x) ∧ s.spot k = .back) ∨ ∃ p pc, as[k]? = some (.remove p) ∧ s.spot k = .drop (.back true) pc) ∧
      ∀ k e, (k, e) ∈ s.log →
        (∃ p x, as[k]? = some (.set p x) ∧ (e = .created p x ∨ ∃ old, e = .changed p x old)) ∨ ∃ p y, as[k]? = some (.remove p) ∧ e = .deleted p y := by
  have H := says (v := v) (t := t) (isNil := isNil) (as := as) S
  refine ⟨H.nodup, fun k => (H.who k).trans ⟨?_, ?_⟩, fun k e he => ?_⟩
  · rintro ⟨a, ha, h⟩
    generalize (hears v t isNil as S).spot k = sp at h
    cases a with
    | get p => exact h.elim
    | set p x => cases sp <;> first | exact .inl ⟨p, x, ha, rfl⟩ | exact h.elim
    | remove p =>
      cases sp with
      | drop ph pc =>
        cases ph with
        | back b =>
          cases b with
          | true => exact .inr ⟨p, pc, ha, rfl⟩
          | false => exact h.elim
        | _ => exact h.elim
      | _ => exact h.elim
  · rintro (⟨p, x, ha, h⟩ | ⟨p, pc, ha, h⟩)
    · exact ⟨_, ha, by rw [h]; trivial⟩
    · exact ⟨_, ha, by rw [h]; trivial⟩
  · obtain ⟨a, ha, h⟩ := H.what _ he
    cases a with
    | get p => exact h.elim
    | set p x =>
      cases e with
      | created q y => obtain ⟨rfl, rfl⟩ := h; exact .inl ⟨_, _, ha, .inl rfl⟩
      | changed q y old => obtain ⟨rfl, rfl⟩ := h; exact .inl ⟨_, _, ha, .inr ⟨_, rfl⟩⟩
      | deleted q y => exact h.elim
    | remove p =>
      cases e with
      | deleted q y => cases h; exact .inr ⟨_, _, ha, rfl⟩
      | _ => exact h.elim

/-- **C108** … If each `Set` is for a key of its own that is in the trie, and the removals are apart from each other and from the ways
to these keys, as in C93, then nobody panics; every call returns after finitely many steps of its own, and every `Remove` returns true; and
the handlers are told of each call what they would be told if it were made alone: for a `Set` the value before, and that the key is new
if the lookup did not find it and that value is nil; for a `Remove` the value of the node that it removes. -/
theorem C108_told (h : Reach K t) (hp : t.Plain v.delim) (hm : v.mode ≠ .up) (ht : Prune.Tidy v t (calls as)) (hs : Spared v t as)
    (hb : ∀ p x, .set p x ∈ as → ' ' ∉ v.full p) :
    ∃ N : Nat → Nat, ∀ S, let s := hears v t isNil as S
      (∀ k p x, as[k]? = some (.set p x) → (s.spot k).crashed = false ∧ (N k ≤ S.count k → s.spot k = .back) ∧
        ∃ c a, t.contents (v.full p) = some c ∧ v.query t p = .ok a ∧
          ∀ e, (k, e) ∈ s.log → e = if a.found = false ∧ isNil c.data = true then .created p x else .changed p x (some c.data)) ∧
      ∀ k p, as[k]? = some (.remove p) → (s.spot k).crashed = false ∧ (∀ pc, s.spot k ≠ .drop (.back false) pc) ∧
        (N k ≤ S.count k → s.spot k = .drop (.back true) (.gone true)) ∧
        ∃ t' x P, v.removeEx t p = .ok (t', some (x, P)) ∧ ∀ e, (k, e) ∈ s.log → e = .deleted p x.core.data := by
  obtain ⟨N, P, hc1, hc2⟩ := plan h hp hm ht hs hb
  refine ⟨fun k => 2 * N k + 3, fun S => ?_⟩
  obtain ⟨h1, h2, _⟩ := heard (isNil := isNil) P hc1 hc2 S
  refine ⟨fun k p x ha => ?_, fun k p ha => ?_⟩
  · obtain ⟨a1, a2, a3⟩ := h1 k p x ha
    obtain ⟨hd, c, hc⟩ := stored_contents hs ha hb
    obtain ⟨a, hq⟩ : ∃ a, v.query t p = .ok a := ⟨_, Prune.query_node h.ok hp hm p⟩
    refine ⟨a1, a2, c, a, hc, hq, fun e he => ?_⟩
    rw [a3 e he, news_plain]
    simp only [isFound, oldOf, ha, hc, hq]
  · obtain ⟨a1, a2, a3, a4⟩ := h2 k p ha
    obtain ⟨Q, y, p', t', e, hrm⟩ := ht.takes p (List.mem_of_getElem? (get_calls ha))
    cases e
    refine ⟨a1, a2, a3, t', y, Q, hrm, fun e he => ?_⟩
    rw [a4 e he]
    simp only [oldOf, ha, hrm]

/-- **C108** … So when all have returned, the handlers have been told of every `Set` and `Remove` once, with the value before, and the trie is the one
after all calls of `Set` and then of `Remove`, one after the other. -/
theorem C108_all (h : Reach K t) (hp : t.Plain v.delim) (hm : v.mode ≠ .up) (ht : Prune.Tidy v t (calls as)) (hs : Spared v t as)
    (hb : ∀ p x, .set p x ∈ as → ' ' ∉ v.full p) {S : List Nat}
    (hr : ∀ k a, as[k]? = some a → Through a ((hears v t isNil as S).spot k)) :
    let s := hears v t isNil as S
    (s.log.map (·.1)).Nodup ∧
      (∀ k e, (k, e) ∈ s.log ↔
        (∃ p x c a, as[k]? = some (.set p x) ∧ t.contents (v.full p) = some c ∧ v.query t p = .ok a ∧
          e = if a.found = false ∧ isNil c.data = true then .created p x else .changed p x (some c.data)) ∨
        ∃ p t' x P, as[k]? = some (.remove p) ∧ v.removeEx t p = .ok (t', some (x, P)) ∧ e = .deleted p x.core.data) ∧
      ∃ d, ∀ d', d ≤ d' → Prune.read s.mem d' t.root.id = (Prune.after v (sets v t as) (calls as)).root := by
  obtain ⟨o1, o2, o3⟩ := C108_once (v := v) (t := t) (isNil := isNil) as S
  obtain ⟨N', hN'⟩ := C108_told (isNil := isNil) h hp hm ht hs hb
  obtain ⟨t1, t2⟩ := hN' S
  refine ⟨o1, fun k e => ⟨fun he => ?_, ?_⟩, ?_⟩
  · rcases o3 k e he with ⟨p, x, ha, _⟩ | ⟨p, y, ha, _⟩
    · obtain ⟨_, _, c, a, hc, hq, hl⟩ := t1 k p x ha
      exact .inl ⟨p, x, c, a, ha, hc, hq, hl e he⟩
    · obtain ⟨_, _, _, t', x, P, hrm, hl⟩ := t2 k p ha
      exact .inr ⟨p, t', x, P, ha, hrm, hl e he⟩
  · rintro (⟨p, x, c, a, ha, hc, hq, rfl⟩ | ⟨p, t', x, P, ha, hrm, rfl⟩)
    · obtain ⟨⟨k', e⟩, he, rfl⟩ := List.mem_map.mp ((o2 k).mpr (.inl ⟨p, x, ha, hr k _ ha⟩))
      obtain ⟨_, _, c', a', hc', hq', hl⟩ := t1 k' p x ha
      rw [hc] at hc'; cases hc'
      rw [hq] at hq'; cases hq'
      rw [← hl e he]; exact he
    · obtain ⟨pc, hpc⟩ := hr k _ ha
      obtain ⟨⟨k', e⟩, he, rfl⟩ := List.mem_map.mp ((o2 k).mpr (.inr ⟨p, pc, ha, hpc⟩))
      obtain ⟨_, _, _, t1', x', P', hrm', hl⟩ := t2 k' p ha
      rw [hrm] at hrm'; cases hrm'
      rw [← hl e he]; exact he
  · obtain ⟨N, P, hc1, hc2⟩ := plan h hp hm ht hs hb
    obtain ⟨T, hT, hall⟩ := (heard (isNil := isNil) P hc1 hc2 S).2.2 hr
    obtain ⟨_, hN⟩ := C93_replace h hp hm (twice_tidy ht) (twice_spared hs)
    obtain ⟨d, hd⟩ := (hN T).2 hall
    refine ⟨d, fun d' h' => ?_⟩
    rw [hT, hd d' h', sets_twice, after_twice]

section examples
open Race (top)
open Prune (trie keys read)

/-- `a.x`, `a.y` and `a.z` are in the trie, with the values 1, 2 and 3. One goroutine sets `a.y` to 9, another removes it. -/
def pair : List (Act Nat) := [.set "a.y".toList 9, .remove "a.y".toList]

/-- **C108** The conditions are needed. A `Set` and a `Remove` of the same key: the handlers are told that the key is gone, with the value 9,
and then that it has changed from 2 to 9. When both have returned, it is not in the trie. (As if the handlers had heard of the calls in the other order.) -/
theorem C108_order_fails :
    ∃ S, let s := hears top (trie ["a.x", "a.y", "a.z"]) (fun _ => false) pair S
      s.log = [(1, .deleted "a.y".toList 9), (0, .changed "a.y".toList 9 (some 2))] ∧ keys (read s.mem 6 0) = ["a.x", "a.z"] :=
  ⟨List.replicate 37 0 ++ List.replicate 60 1 ++ [0], by decide +kernel⟩

/-- **C108** … or they are told twice of the value 2, although there is only one key that had it: it was removed, and it was replaced. -/
theorem C108_twice_fails :
    ∃ S, let s := hears top (trie ["a.x", "a.y", "a.z"]) (fun _ => false) pair S
      s.log = [(1, .deleted "a.y".toList 2), (0, .changed "a.y".toList 9 (some 2))] ∧ keys (read s.mem 6 0) = ["a.x", "a.z"] :=
  ⟨List.replicate 34 0 ++ List.replicate 60 1 ++ List.replicate 60 0, by decide +kernel⟩

/-- **C108** … or they are told that a key has changed which is new, and that was not there before (`none`): the lookup of `Set` was made before the
removal. -/
theorem C108_new_fails :
    ∃ S, let s := hears top (trie ["a.x", "a.y", "a.z"]) (fun _ => false) pair S
      s.log = [(1, .deleted "a.y".toList 2), (0, .changed "a.y".toList 9 none)] ∧ keys (read s.mem 6 0) = ["a.x", "a.z", "a.y"] :=
  ⟨List.replicate 20 0 ++ List.replicate 60 1 ++ List.replicate 60 0, by decide +kernel⟩

/-- When the `Set` has returned before the `Remove` begins, they are told in this order. -/
example : let s := hears top (trie ["a.x", "a.y", "a.z"]) (fun _ => false) pair (List.replicate 60 0 ++ List.replicate 60 1)
    s.log = [(0, .changed "a.y".toList 9 (some 2)), (1, .deleted "a.y".toList 9)] ∧ keys (read s.mem 6 0) = ["a.x", "a.z"] := by decide +kernel

theorem acts_blank (p : Str) (x : Nat) (h : .set p x ∈ acts) : ' ' ∉ top.full p := by
  rcases List.mem_cons.mp h with e | h
  · cases e; decide
  · rcases List.mem_cons.mp h with e | h
    · cases e
    · rcases List.mem_cons.mp h with e | h
      · cases e
      · cases h

/-- `a.log.level` is set to 9, `a.name` and `db.host` are removed. By turns. -/
example : let s := hears top Race.three (fun _ => false) acts ((List.replicate 90 [0, 1, 2]).flatten)
    s.log = [(2, .deleted "db.host".toList 3), (1, .deleted "a.name".toList 1), (0, .changed "a.log.level".toList 9 (some 2))] ∧
    keys (read s.mem 5 0) = ["a.log.level"] ∧ (s.mem 4).core.data = 9 := by decide +kernel

example : ∃ N : Nat → Nat, ∀ S, let s := hears top Race.three (fun _ => false) acts S
    (∀ k p x, acts[k]? = some (.set p x) → (s.spot k).crashed = false ∧ (N k ≤ S.count k → s.spot k = .back) ∧
      ∃ c a, Race.three.contents (top.full p) = some c ∧ top.query Race.three p = .ok a ∧
        ∀ e, (k, e) ∈ s.log → e = if a.found = false ∧ false = true then .created p x else .changed p x (some c.data)) ∧
    ∀ k p, acts[k]? = some (.remove p) → (s.spot k).crashed = false ∧ (∀ pc, s.spot k ≠ .drop (.back false) pc) ∧
      (N k ≤ S.count k → s.spot k = .drop (.back true) (.gone true)) ∧
      ∃ t' x P, top.removeEx Race.three p = .ok (t', some (x, P)) ∧ ∀ e, (k, e) ∈ s.log → e = .deleted p x.core.data :=
  C108_told (isNil := fun _ => false) Race.three_reach Race.three_plain.plain (by decide) Prune.calls_tidy acts_spared acts_blank

/-- The hypothesis of `C108_all` on one schedule. -/
example : let s := hears top Race.three (fun _ => false) acts ((List.replicate 90 [0, 1, 2]).flatten)
    (match s.spot 0 with | .back => true | _ => false) = true ∧
    [1, 2].all (fun k => match s.spot k with | .drop (.back true) _ => true | _ => false) = true := by decide +kernel

end examples

end Parts
end Verif

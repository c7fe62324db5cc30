import Verif.Lemmas.RaceNew
import Verif.Props.RaceRead
/-
**C98** What handlers are told when goroutines set keys at the same time.
-/
namespace Verif
namespace Race
variable {α : Type} [Inhabited α]

section helpers

theorem after_none (rs : List (Str × α)) : ∀ {t : Tree α}, t.OK → (∀ kv ∈ rs, (t.contents kv.1).isSome) → ∀ {q : Str},
    t.contents q = none → (after t rs).contents q = none := by
  induction rs with
  | nil => intro t _ _ q hq; exact hq
  | cons kv rs ih =>
    intro t h hs q hq
    have hok := View.insertAt_ok h kv.1 kv.2
    have sp := View.insertAt_spec h kv.1 kv.2
    obtain ⟨c1, hc1⟩ := Option.isSome_iff_exists.mp (hs kv (by simp))
    refine ih hok (fun kv' hkv' => ?_) ?_
    · obtain ⟨c2, hc2⟩ := Option.isSome_iff_exists.mp (hs kv' (by simp [hkv']))
      by_cases e : kv'.1 = kv.1
      · obtain ⟨c, hc, _⟩ := sp.atKey
        rw [e, hc]; rfl
      · rw [sp.keep _ _ e hc2]; rfl
    · have hne : q ≠ kv.1 := by rintro rfl; rw [hc1] at hq; cases hq
      cases hn : (View.insertAt t kv.1 kv.2).1.contents q with
      | none => rfl
      | some c =>
        obtain ⟨k0, c0, h1, h2, _⟩ := sp.new q c hne hq hn
        obtain ⟨c', hc'⟩ := Tree.lcp_closed h h1 hc1
        rw [← h2, hq] at hc'
        cases hc'

/-- The order in which different keys are replaced does not matter. -/
theorem after_perm {t : Tree α} (h : t.OK) {rs rs' : List (Str × α)} (hm : ∀ e, e ∈ rs ↔ e ∈ rs')
    (hn : (rs.map (·.1)).Nodup) (hn' : (rs'.map (·.1)).Nodup) (hs : ∀ kv ∈ rs, (t.contents kv.1).isSome) (q : Str) :
    (after t rs).contents q = (after t rs').contents q := by
  cases hq : t.contents q with
  | none => rw [after_none rs h hs hq, after_none rs' h (fun kv hkv => hs kv ((hm kv).mpr hkv)) hq]
  | some c =>
    have h1 := after_stored rs h hq hn
    have h2 := after_stored rs' h hq hn'
    by_cases hk : ∃ x, (q, x) ∈ rs
    · obtain ⟨x, hx⟩ := hk
      rw [h1.1 x hx, h2.1 x ((hm _).mp hx)]
    · rw [h1.2, h2.2]
      · intro hq'
        obtain ⟨⟨q', x⟩, h3, rfl⟩ := List.mem_map.mp hq'
        exact hk ⟨x, (hm _).mpr h3⟩
      · intro hq'
        obtain ⟨⟨q', x⟩, h3, rfl⟩ := List.mem_map.mp hq'
        exact hk ⟨x, h3⟩

omit [Inhabited α] in
theorem pick_nodup [Inhabited α] {kvs : List (Str × α)} (hn : (kvs.map (·.1)).Nodup) {L : List Nat} (hL : L.Nodup)
    (hl : ∀ k ∈ L, k < kvs.length) : ((pick kvs L).map (·.1)).Nodup := by
  rw [pick, List.map_map, List.nodup_iff_pairwise_ne, List.pairwise_map]
  refine (List.nodup_iff_pairwise_ne.mp hL).imp_of_mem ?_
  intro a b ha hb hab e
  have h1 := hl a ha
  have h2 := hl b hb
  simp only [Function.comp, List.getElem?_eq_getElem h1, List.getElem?_eq_getElem h2, Option.getD_some] at e
  have l1 : a < (kvs.map (·.1)).length := by simpa using h1
  have l2 : b < (kvs.map (·.1)).length := by simpa using h2
  exact hab ((List.Nodup.getElem_inj_iff hn (hi := l1) (hj := l2)).mp (by simpa using e))

omit [Inhabited α] in
theorem nodup_fst {β γ : Type} {l : List (β × γ)} (h : (l.map (·.1)).Nodup) {k : β} {x y : γ} (hx : (k, x) ∈ l) (hy : (k, y) ∈ l) :
    x = y := by
  induction l with
  | nil => cases hx
  | cons a l ih =>
    rw [List.map_cons, List.nodup_cons] at h
    rcases List.mem_cons.mp hx with hx | hx <;> rcases List.mem_cons.mp hy with hy | hy
    · rw [← hx] at hy; exact (Prod.mk.inj hy).2.symm
    · exact absurd (List.mem_map.mpr ⟨_, hy, by rw [← hx]⟩) h.1
    · exact absurd (List.mem_map.mpr ⟨_, hx, by rw [← hy]⟩) h.1
    · exact ih h.2 hx hy

theorem mirror_pick {kvs : List (Str × α)} {s : Sys α} (O : Once kvs s) : mirror s.log = pick kvs (s.log.map (·.1)) := by
  rw [mirror, pick, List.map_map]
  refine List.map_congr_left fun e he => ?_
  simp only [Function.comp, O.what e he, Option.getD_some]

theorem mem_pick {kvs : List (Str × α)} {L : List Nat} {e : Str × α} (hl : ∀ k ∈ L, k < kvs.length) :
    e ∈ pick kvs L ↔ ∃ k ∈ L, kvs[k]? = some e := by
  rw [pick, List.mem_map]
  constructor
  · rintro ⟨k, hk, rfl⟩
    exact ⟨k, hk, by rw [List.getElem?_eq_getElem (hl k hk)]; rfl⟩
  · rintro ⟨k, hk, he⟩
    exact ⟨k, hk, by rw [he]; rfl⟩

/-- What values there are when keys are set one after the other. -/
theorem after_value (rs : List (Str × α)) : ∀ {t : Tree α}, t.OK → (rs.map (·.1)).Nodup → ∀ q,
    (∀ x, (q, x) ∈ rs → value (after t rs) q = some x) ∧ (q ∉ rs.map (·.1) → value (after t rs) q = value t q) := by
  induction rs with
  | nil => intro t _ _ q; exact ⟨nofun, fun _ => rfl⟩
  | cons kv rs ih =>
    intro t h hn q
    rw [List.map_cons, List.nodup_cons] at hn
    have hok := View.insertAt_ok h kv.1 kv.2
    have hs := View.insertAt_spec h kv.1 kv.2
    obtain ⟨h1, h2⟩ := ih hok hn.2 q
    refine ⟨fun x hx => ?_, fun hq => ?_⟩
    · rcases List.mem_cons.mp hx with hx | hx
      · subst hx
        obtain ⟨c, hc, hput⟩ := hs.atKey
        obtain ⟨e1, e2⟩ := putCore_data hput
        refine (h2 hn.1).trans ?_
        rw [value, hc]
        simp [e1, e2]
      · exact h1 x hx
    · rw [List.map_cons, List.mem_cons, not_or] at hq
      refine (h2 hq.2).trans ?_
      cases h0 : t.contents q with
      | some c => rw [value, value, hs.keep q c hq.1 h0, h0]
      | none =>
        cases h3 : (View.insertAt t kv.1 kv.2).1.contents q with
        | none => rw [value, value, h3, h0]
        | some c =>
          obtain ⟨k0, c0, _, _, _, h4⟩ := hs.new q c hq.1 h0 h3
          rw [value, value, h3, h0, h4]
          rfl

end helpers

/-- **C98** The handlers are told of every call that has returned, once, with its key and its value, and of no other:
for any trie, keys and schedule. -/
theorem C98_once (t : Tree α) (d : Char) (isNil : α → Bool) (kvs : List (Str × α)) (S : List Nat) :
    let s := (sets t kvs).run d isNil (jobs t kvs) S
    (s.log.map (·.1)).Nodup ∧ (∀ k, k ∈ s.log.map (·.1) ↔ k < kvs.length ∧ s.phase k = .done) ∧
      ∀ e ∈ s.log, kvs[e.1]? = some (e.2.key, e.2.val) :=
  have O := (once t kvs S).1
  ⟨O.nodup, O.who, O.what⟩

/-- **C98** Goroutines that replace values: each of them returns after finitely many steps of its own, whatever the others do,
without a panic, and the old value that the handlers are told is the one that the key had at some moment at which the call was
under way and had not stored its value yet. They are told of a new key only if `Query` does not find it and that value is
nil. Several goroutines may set the same key. -/
theorem C98_told {P : Str → Prop} {t : Tree α} (h : Reach P t) {v : View} (hp : t.Plain v.delim) (hm : v.mode ≠ .up)
    (hpre : v.pre = []) (isNil : α → Bool) (kvs : List (Str × α)) (hr : Replaces t kvs) {k : Nat} {key : Str} {x : α}
    (hk : kvs[k]? = some (key, x)) :
    (∃ N, ∀ S : List Nat, N ≤ S.count k → ((sets t kvs).run v.delim isNil (jobs t kvs) S).phase k = .done) ∧
    ∃ a, v.query t key = .ok a ∧ ∀ (S : List Nat) (e : Event α), (k, e) ∈ ((sets t kvs).run v.delim isNil (jobs t kvs) S).log →
      ∃ S1 S2 c, S = S1 ++ k :: S2 ∧ k ∉ stored v.delim isNil (jobs t kvs) (sets t kvs) S1 ∧
        (after t (pick kvs (stored v.delim isNil (jobs t kvs) (sets t kvs) S1))).contents key = some c ∧
        e = if a.found = false ∧ isNil c.data = true then .created key x else .changed key x (some c.data) := by
  obtain ⟨hk', he⟩ := List.getElem?_eq_some_iff.mp hk
  have hkey : (jobs t kvs k).key = key := by rw [jobs_key hk]
  have hval : (jobs t kvs k).val = x := by rw [jobs, hk]; rfl
  have hfull : ∀ p, v.full p = p := by
    intro p; simp [View.full, hpre]
  obtain ⟨N1, N2, hE, hF⟩ := fine (isNil := isNil) (d := v.delim) h.ok hr hk' (hp.at _)
  refine ⟨⟨N1 + N2 + 3, fun S hS => ?_⟩, ?_⟩
  · have F := hF S
    have E := hE S
    generalize hs : (sets t kvs).run v.delim isNil (jobs t kvs) S = s at F E
    generalize hph : s.phase k = ph at F
    cases ph with
    | done => rfl
    | ask r => obtain ⟨_, _, _, _, h1, _⟩ := F; omega
    | set ab => have := E F.1; have := F.2.2; omega
    | took ab old =>
      obtain ⟨⟨i, hi⟩, _, h1, _⟩ := F
      have := E (by rw [hi]; nofun)
      omega
    | tell ab old => have := F.2.2.1; omega
  · refine ⟨_, query_at h.ok hm key (hp.at _), fun S e hmem => ?_⟩
    rw [hfull]
    have F := hF S
    have O := (once (d := v.delim) (isNil := isNil) t kvs S).1
    have hd := ((O.who k).mp (List.mem_map.mpr ⟨_, hmem, rfl⟩)).2
    rw [hd] at F
    obtain ⟨_, y, h1, S1, S2, c, h2, h3, h4, rfl⟩ := F
    refine ⟨S1, S2, c, h2, h3, hkey ▸ h4, ?_⟩
    have : e = event isNil (jobs t kvs k) (!present v.delim t (jobs t kvs k).key) (some c.data) := by
      exact nodup_fst O.nodup hmem h1
    rw [this, event, hkey, hval, present]
    generalize resolve v.delim t.contents key = res
    cases res with
    | none => simp [ansNone]
    | some qc => simp [ansOf]

/-- **C98** … If every goroutine has a key of its own, the old value is the one that the key had before. -/
theorem C98_distinct {P : Str → Prop} {t : Tree α} (h : Reach P t) {d : Char} (hp : t.Plain d)
    (isNil : α → Bool) (kvs : List (Str × α)) (hr : Replaces t kvs) (hn : (kvs.map (·.1)).Nodup) (S : List Nat) :
    ∀ e ∈ ((sets t kvs).run d isNil (jobs t kvs) S).log, ∃ c, t.contents e.2.key = some c ∧
      (isNil c.data = false → e.2 = .changed e.2.key e.2.val (some c.data)) := by
  intro e he
  have O := (once (d := d) (isNil := isNil) t kvs S).1
  have hk := O.what e he
  obtain ⟨_, a, _, h2⟩ := C98_told (v := { pre := [], delim := d, mode := .down }) h hp (by simp) rfl isNil kvs hr hk
  obtain ⟨S1, S2, c, _, h4, h5, h6⟩ := h2 S e.2 he
  obtain ⟨c0, hc0, _⟩ := hr _ (List.mem_of_getElem? hk)
  have hl : ∀ k ∈ stored d isNil (jobs t kvs) (sets t kvs) S1, k < kvs.length := by
    intro k hk'
    rw [stored_moves, mem_finishes] at hk'
    rcases Nat.lt_or_ge k kvs.length with h | h
    · exact h
    · refine absurd ?_ hk'.1
      simp only [sets, start]; simp [h]
  have hnd : (stored d isNil (jobs t kvs) (sets t kvs) S1).Nodup := by rw [stored_moves]; exact nodup_finishes ..
  have := (after_stored _ h.ok hc0 (pick_nodup hn hnd hl)).2 (by
    intro hmem
    obtain ⟨⟨q, y⟩, h7, h8⟩ := List.mem_map.mp hmem
    obtain ⟨k, hk1, hk2⟩ := (mem_pick hl).mp h7
    have hlk := hl k hk1
    obtain ⟨hle, _⟩ := List.getElem?_eq_some_iff.mp hk
    have l1 : k < (kvs.map (·.1)).length := by simpa using hlk
    have l2 : e.1 < (kvs.map (·.1)).length := by simpa using hle
    have : k = e.1 := (List.Nodup.getElem_inj_iff hn (hi := l1) (hj := l2)).mp (by
      rw [List.getElem_map, List.getElem_map]
      have e1 : kvs[k] = (q, y) := Option.some.inj ((List.getElem?_eq_getElem hlk).symm.trans hk2)
      have e2 : kvs[e.1] = (e.2.key, e.2.val) := Option.some.inj ((List.getElem?_eq_getElem hle).symm.trans hk)
      rw [e1, e2]; exact h8)
    exact h4 (this ▸ hk1))
  rw [this] at h5
  obtain rfl := Option.some.inj h5
  refine ⟨c0, hc0, fun hnil => ?_⟩
  rw [hnil] at h6
  simpa using h6

/-- **C98** … and a store into which the handlers copy what they are told has the same entries as the trie when all of them have
returned. -/
theorem C98_mirror {P : Str → Prop} {t : Tree α} (h : Reach P t) {d : Char} (hp : t.Plain d)
    (isNil : α → Bool) (kvs : List (Str × α)) (hr : Replaces t kvs) (hn : (kvs.map (·.1)).Nodup) (S : List Nat)
    (hall : ∀ k, ((sets t kvs).run d isNil (jobs t kvs) S).phase k = .done) :
    ∃ u : Tree α, (∃ D, ∀ n, D ≤ n → read ((sets t kvs).run d isNil (jobs t kvs) S).base.mem n t.root.id = u.root) ∧
      ∀ q, (after t (mirror ((sets t kvs).run d isNil (jobs t kvs) S).log)).contents q = u.contents q := by
  have O := (once (d := d) (isNil := isNil) t kvs S).1
  refine ⟨after t (pick kvs (stored d isNil (jobs t kvs) (sets t kvs) S)), ?_, fun q => ?_⟩
  · rw [run_moves, stored_moves]
    exact ((C89_replaced h kvs hr).2 _).2
  · rw [mirror_pick O]
    have hl1 : ∀ k ∈ ((sets t kvs).run d isNil (jobs t kvs) S).log.map (·.1), k < kvs.length := fun k hk => ((O.who k).mp hk).1
    have hmem : ∀ k, k ∈ stored d isNil (jobs t kvs) (sets t kvs) S ↔ k < kvs.length := by
      intro k
      rw [stored_moves, mem_finishes, ← run_moves]
      constructor
      · rintro ⟨h1, _⟩
        rcases Nat.lt_or_ge k kvs.length with h | h
        · exact h
        · refine absurd ?_ h1
          simp only [sets, start]; simp [h]
      · intro hk
        refine ⟨?_, ?_⟩
        · simp only [sets, start, List.getElem?_eq_getElem hk]; nofun
        · obtain ⟨_, _, _, hF⟩ := fine (isNil := isNil) (d := d) h.ok hr hk (hp.at _)
          have := hF S
          rw [hall k] at this
          exact this.1
    have hl2 : ∀ k ∈ stored d isNil (jobs t kvs) (sets t kvs) S, k < kvs.length := fun k hk => (hmem k).mp hk
    refine after_perm h.ok (fun e => ?_) (pick_nodup hn O.nodup hl1)
      (pick_nodup hn (by rw [stored_moves]; exact nodup_finishes ..) hl2) (fun kv hkv => ?_) q
    · rw [mem_pick hl1, mem_pick hl2]
      constructor
      · rintro ⟨k, h1, h2⟩; exact ⟨k, (hmem k).mpr (hl1 k h1), h2⟩
      · rintro ⟨k, h1, h2⟩; exact ⟨k, (O.who k).mpr ⟨hl2 k h1, hall k⟩, h2⟩
    · obtain ⟨k, _, hk⟩ := (mem_pick hl1).mp hkv
      obtain ⟨c, hc, _⟩ := hr kv (List.mem_of_getElem? hk)
      rw [hc]; rfl

/-- **C98** Goroutines that set keys that do not get in each other's way, new ones among them: each of them returns after
finitely many steps of its own, whatever the others do, and the handlers are told that a key is new if there is nothing at it,
and otherwise the value that it had before. -/
theorem C98_apart {t : Tree α} {v : View} (h : Reach (NoRoute v.delim) t) (hm : v.mode ≠ .up) (hpre : v.pre = [])
    (isNil : α → Bool) (kvs : List (Str × α)) (ha : Apart t (kvs.map (·.1))) {k : Nat} {key : Str} {x : α}
    (hk : kvs[k]? = some (key, x)) (hf : Fits v.delim t key) :
    (∃ N, ∀ S : List Nat, N ≤ S.count k → ((sets t kvs).run v.delim isNil (jobs t kvs) S).phase k = .done) ∧
    ∀ (S : List Nat) (e : Event α), (k, e) ∈ ((sets t kvs).run v.delim isNil (jobs t kvs) S).log →
      match t.contents key with
      | none => isNil default = true → e = .created key x
      | some c => ∃ a, v.query t key = .ok a ∧
          e = if a.found = false ∧ isNil c.data = true then .created key x else .changed key x (some c.data) := by
  obtain ⟨hk', he⟩ := List.getElem?_eq_some_iff.mp hk
  have hkey : (jobs t kvs k).key = key := by rw [jobs_key hk]
  have hval : (jobs t kvs k).val = x := by rw [jobs, hk]; rfl
  have hfull : ∀ p, v.full p = p := by
    intro p; simp [View.full, hpre]
  obtain ⟨tgt, rem, T⟩ := targets h.ok kvs ha
  obtain ⟨N1, N2, hE, hF⟩ := fine_new (isNil := isNil) (d := v.delim) T h.ok ha ha.nodup hk' (by rw [he]; exact hf)
    (h.plain.at _)
  refine ⟨⟨N1 + N2 + 3, fun S hS => ?_⟩, ?_⟩
  · have F := hF S
    have E := hE S
    generalize hs : (sets t kvs).run v.delim isNil (jobs t kvs) S = s at F E
    generalize hph : s.phase k = ph at F
    cases ph with
    | done => rfl
    | ask r => obtain ⟨_, _, _, _, _, h1, _⟩ := F; omega
    | set ab => obtain ⟨_, h1, h2, _⟩ := F; omega
    | took ab old =>
      obtain ⟨⟨i, hi⟩, _, h1, _⟩ := F
      have := E (by rw [hi]; nofun)
      omega
    | tell ab old => obtain ⟨_, _, h1, _⟩ := F; omega
  · intro S e hmem
    have F := hF S
    have O := (once (d := v.delim) (isNil := isNil) t kvs S).1
    have hd := ((O.who k).mp (List.mem_map.mpr ⟨_, hmem, rfl⟩)).2
    rw [hd] at F
    obtain ⟨_, old, h1, h2⟩ := F
    have : e = event isNil (jobs t kvs k) (!present v.delim t (jobs t kvs k).key) old := nodup_fst O.nodup hmem h1
    rw [hkey] at h2 this
    rw [this, event, hkey, hval, present]
    rw [Told] at h2
    cases hc : t.contents key with
    | some c =>
      rw [hc] at h2
      simp only at h2 ⊢
      refine ⟨_, query_at h.ok hm key (h.plain.at _), ?_⟩
      rw [hfull, h2]
      generalize resolve v.delim t.contents key = res
      cases res with
      | none => simp [ansNone]
      | some qc => simp [ansOf]
    | none =>
      rw [hc] at h2
      intro hnil
      have hr : resolve v.delim t.contents key = none := by
        rcases hf with ⟨c, h3, _⟩ | h3
        · rw [hc] at h3; cases h3
        · exact h3
      rw [hr, if_pos]
      rcases h2 with rfl | rfl <;> simp [hnil]

/-- **C98** … and a store into which the handlers copy what they are told has the same values as the trie when all of them have
returned. -/
theorem C98_copy {t : Tree α} {v : View} (h : Reach (NoRoute v.delim) t) (hm : v.mode ≠ .up) (hpre : v.pre = [])
    (isNil : α → Bool) (kvs : List (Str × α)) (ha : Apart t (kvs.map (·.1)))
    (hf : ∀ kv ∈ kvs, Fits v.delim t kv.1) :
    (∃ N, ∀ S : List Nat, (∀ k, k < kvs.length → N ≤ S.count k) →
      ∀ k, ((sets t kvs).run v.delim isNil (jobs t kvs) S).phase k = .done) ∧
    ∀ S : List Nat, (∀ k, ((sets t kvs).run v.delim isNil (jobs t kvs) S).phase k = .done) →
      ∃ u : Tree α, (∃ D, ∀ n, D ≤ n → read ((sets t kvs).run v.delim isNil (jobs t kvs) S).base.mem n t.root.id = u.root) ∧
        ∀ q, value (after t (mirror ((sets t kvs).run v.delim isNil (jobs t kvs) S).log)) q = value u q := by
  constructor
  · have key : ∀ n, n ≤ kvs.length → ∃ N, ∀ S : List Nat, (∀ k, k < n → N ≤ S.count k) → ∀ k, k < n →
        ((sets t kvs).run v.delim isNil (jobs t kvs) S).phase k = .done := by
      intro n
      induction n with
      | zero => exact fun _ => ⟨0, fun _ _ k hk => absurd hk (by omega)⟩
      | succ n ih =>
        intro hn
        obtain ⟨N1, h1⟩ := ih (by omega)
        obtain ⟨N2, h2⟩ := (C98_apart h hm hpre isNil kvs ha (List.getElem?_eq_getElem (show n < kvs.length by omega))
          (hf _ (List.getElem_mem (show n < kvs.length by omega)))).1
        refine ⟨N1 + N2, fun S hS k hk => ?_⟩
        by_cases e : k = n
        · subst e; exact h2 S (by have := hS k hk; omega)
        · exact h1 S (fun j hj => by have := hS j (by omega); omega) k (by omega)
    obtain ⟨N, hN⟩ := key kvs.length (Nat.le_refl _)
    refine ⟨N, fun S hS k => ?_⟩
    rcases Nat.lt_or_ge k kvs.length with hk | hk
    · exact hN S hS k hk
    · exact (once t kvs S).2 k hk
  · intro S hall
    have O := (once (d := v.delim) (isNil := isNil) t kvs S).1
    obtain ⟨tgt, rem, T⟩ := targets h.ok kvs ha
    refine ⟨after t kvs, ?_, fun q => ?_⟩
    · rw [run_moves]
      refine C88_same h kvs ha _ fun k => ?_
      rw [show start t kvs = (sets t kvs).base from rfl, ← run_moves]
      rcases Nat.lt_or_ge k kvs.length with hk | hk
      · obtain ⟨_, _, _, hF⟩ := fine_new (isNil := isNil) (d := v.delim) T h.ok ha ha.nodup hk
          (hf _ (List.getElem_mem hk)) (h.plain.at _)
        have := hF S
        rw [hall k] at this
        exact this.1
      · rw [run_moves]
        exact ((Inv.start t kvs tgt).run T h.ok _).idle k hk
    · rw [mirror_pick O]
      have hl1 : ∀ k ∈ ((sets t kvs).run v.delim isNil (jobs t kvs) S).log.map (·.1), k < kvs.length := fun k hk => ((O.who k).mp hk).1
      have hmem : ∀ e, e ∈ pick kvs (((sets t kvs).run v.delim isNil (jobs t kvs) S).log.map (·.1)) ↔ e ∈ kvs := by
        intro e
        rw [mem_pick hl1]
        constructor
        · rintro ⟨k, _, h2⟩; exact List.mem_of_getElem? h2
        · intro he
          obtain ⟨k, hk, rfl⟩ := List.getElem_of_mem he
          exact ⟨k, (O.who k).mpr ⟨hk, hall k⟩, List.getElem?_eq_getElem hk⟩
      obtain ⟨a1, a2⟩ := after_value (pick kvs (((sets t kvs).run v.delim isNil (jobs t kvs) S).log.map (·.1))) h.ok
        (pick_nodup ha.nodup O.nodup hl1) q
      obtain ⟨b1, b2⟩ := after_value kvs h.ok ha.nodup q
      by_cases hq : ∃ x, (q, x) ∈ kvs
      · obtain ⟨x, hx⟩ := hq
        rw [a1 x ((hmem _).mpr hx), b1 x hx]
      · rw [a2, b2]
        · intro hq'
          obtain ⟨⟨q', x⟩, h3, rfl⟩ := List.mem_map.mp hq'
          exact hq ⟨x, h3⟩
        · intro hq'
          obtain ⟨⟨q', x⟩, h3, rfl⟩ := List.mem_map.mp hq'
          exact hq ⟨x, (hmem _).mp h3⟩

/-! ### What the handlers may be told otherwise -/

/-- What the handlers have been told when all goroutines have returned. -/
def tells (t : Tree Nat) (kvs : List (Str × Nat)) (S : List Nat) : Option (List (Event Nat)) :=
  let s := (sets t kvs).run '.' (fun _ => false) (jobs t kvs) S
  if (List.range kvs.length).all fun k => match s.phase k with
    | .done => true
    | _ => false then some (s.log.map (·.2)) else none

/-- The value of a key, read from memory. -/
def finds (t : Tree Nat) (kvs : List (Str × Nat)) (S : List Nat) (q : Str) : Option Nat :=
  (Tree.contents ⟨read ((sets t kvs).run '.' (fun _ => false) (jobs t kvs) S).base.mem 10 t.root.id, 0⟩ q).map (·.data)

theorem all_done {s : Sys Nat} {n : Nat} (h : ((List.range n).all fun k => match s.phase k with
    | .done => true
    | _ => false) = true) (k : Nat) (hk : k < n) : s.phase k = .done := by
  have := List.all_eq_true.mp h k (List.mem_range.mpr hk)
  split at this
  · assumption
  · cases this

theorem one_replaces {key : Str} {kvs : List (Str × Nat)} (h : kvs.all (fun kv => ((one key).contents kv.1).any (·.hasData)) = true) :
    Replaces (one key) kvs := by
  intro kv hkv
  have := List.all_eq_true.mp h kv hkv
  cases hc : (one key).contents kv.1 with
  | none => rw [hc] at this; cases this
  | some c => rw [hc] at this; exact ⟨c, rfl, this⟩

/-- **C98** Two goroutines that set the same key: the handlers may be told in the other order, so that a copy kept by them ends
with the value that was overwritten. -/
theorem C98_mirror_fails :
    ∃ (t : Tree Nat) (kvs : List (Str × Nat)) (S : List Nat) (q : Str) (l : List (Event Nat)), Reach (NoRoute '.') t ∧ Replaces t kvs ∧
      tells t kvs S = some l ∧ finds t kvs S q = some 11 ∧
      ((after t (l.map fun e => (e.key, e.val))).contents q).map (·.data) = some 10 :=
  ⟨one "abc".toList, [("abc".toList, 10), ("abc".toList, 11)], List.replicate 24 0 ++ List.replicate 30 1 ++ List.replicate 10 0,
    "abc".toList, [.changed "abc".toList 11 (some 10), .changed "abc".toList 10 (some 7)], one_plain (by decide) (by decide),
    one_replaces (by decide +kernel), by decide +kernel, by decide +kernel, by decide +kernel⟩

/-- **C98** … The old values need not follow one another: both are told that they have replaced the same value. -/
theorem C98_chain_fails :
    ∃ (t : Tree Nat) (kvs : List (Str × Nat)) (S : List Nat) (q : Str), Reach (NoRoute '.') t ∧ Replaces t kvs ∧
      tells t kvs S = some [.changed q 11 (some 7), .changed q 10 (some 7)] :=
  ⟨one "abc".toList, [("abc".toList, 10), ("abc".toList, 11)], List.replicate 23 0 ++ List.replicate 30 1 ++ List.replicate 10 0,
    "abc".toList, one_plain (by decide) (by decide), one_replaces (by decide +kernel), by decide +kernel⟩

/-- **C98** … A new key may be told as new twice. -/
theorem C98_new_fails :
    ∃ (t : Tree Nat) (kvs : List (Str × Nat)) (S : List Nat) (q : Str), Reach (NoRoute '.') t ∧
      tells t kvs S = some [.created q 11, .created q 10] :=
  ⟨one "abc".toList, [("xyz".toList, 10), ("xyz".toList, 11)], List.replicate 13 0 ++ List.replicate 30 1 ++ List.replicate 30 0,
    "xyz".toList, one_plain (by decide) (by decide), by decide +kernel⟩

/-! Examples: two goroutines replace the value of `a.log.level` and one that of `db.host`. -/

def thrice : List (Str × Nat) := [("a.log.level".toList, 20), ("a.log.level".toList, 21), ("db.host".toList, 30)]

example : (∃ N, ∀ S : List Nat, N ≤ S.count 1 → ((sets three thrice).run '.' (fun _ => false) (jobs three thrice) S).phase 1 = .done) ∧
    ∃ a, top.query three "a.log.level".toList = .ok a ∧ ∀ (S : List Nat) (e : Event Nat),
      (1, e) ∈ ((sets three thrice).run '.' (fun _ => false) (jobs three thrice) S).log →
      ∃ S1 S2 c, S = S1 ++ 1 :: S2 ∧ 1 ∉ stored '.' (fun _ => false) (jobs three thrice) (sets three thrice) S1 ∧
        (after three (pick thrice (stored '.' (fun _ => false) (jobs three thrice) (sets three thrice) S1))).contents "a.log.level".toList = some c ∧
        e = if a.found = false ∧ false = true then .created "a.log.level".toList 21 else .changed "a.log.level".toList 21 (some c.data) :=
  C98_told (v := top) three_reach three_plain.plain (by decide) rfl (fun _ => false) thrice three_replaces (k := 1) rfl

def apiece : List (Str × Nat) := [("a.log.level".toList, 20), ("db.host".toList, 30)]

theorem three_apiece : Replaces three apiece := by
  intro kv hkv
  refine three_replaces kv ?_
  simp only [apiece, List.mem_cons, List.not_mem_nil, or_false] at hkv ⊢
  exact hkv.imp id .inr

example (S : List Nat) : ∀ e ∈ ((sets three apiece).run '.' (fun _ => false) (jobs three apiece) S).log,
    ∃ c, three.contents e.2.key = some c ∧ (false = false → e.2 = .changed e.2.key e.2.val (some c.data)) :=
  C98_distinct three_reach three_plain.plain (fun _ => false) apiece three_apiece (by decide) S

example : ∃ u : Tree Nat, (∃ D, ∀ n, D ≤ n → read ((sets three apiece).run '.' (fun _ => false) (jobs three apiece)
      (List.replicate 60 0 ++ List.replicate 60 1)).base.mem n three.root.id = u.root) ∧
    ∀ q, (after three (mirror ((sets three apiece).run '.' (fun _ => false) (jobs three apiece)
      (List.replicate 60 0 ++ List.replicate 60 1)).log)).contents q = u.contents q := by
  refine C98_mirror three_reach three_plain.plain _ apiece three_apiece (by decide) _ fun k => ?_
  rcases Nat.lt_or_ge k apiece.length with hk | hk
  · exact all_done (n := 2) (by decide +kernel) k hk
  · exact (once three apiece _).2 k hk

/-! `a.nick` and `db.port` are new, `a.log.level` is not. -/

theorem dx_fits : ∀ kv ∈ dx, Fits '.' three kv.1 := by
  intro kv hkv
  simp only [dx, List.mem_cons, List.not_mem_nil, or_false] at hkv
  rcases hkv with rfl | rfl | rfl
  · exact .inr (by decide +kernel)
  · have : (three.contents "a.log.level".toList).any (·.hasData) = true := by decide +kernel
    cases hc : three.contents "a.log.level".toList with
    | none => rw [hc] at this; cases this
    | some c => rw [hc] at this; exact .inl ⟨c, hc, this⟩
  · exact .inr (by decide +kernel)

example : (∃ N, ∀ S : List Nat, N ≤ S.count 2 → ((sets three dx).run '.' (· == 0) (jobs three dx) S).phase 2 = .done) ∧
    ∀ (S : List Nat) (e : Event Nat), (2, e) ∈ ((sets three dx).run '.' (· == 0) (jobs three dx) S).log →
      e = .created "db.port".toList 30 := by
  obtain ⟨h1, h2⟩ := C98_apart (v := top) three_plain (by decide) rfl (· == 0) dx three_apart (k := 2) rfl (dx_fits ("db.port".toList, 30) (by decide))
  refine ⟨h1, fun S e he => ?_⟩
  have := h2 S e he
  rw [show three.contents "db.port".toList = none by decide +kernel] at this
  exact this rfl

example : ∃ S u, (∃ D, ∀ n, D ≤ n → read ((sets three dx).run '.' (· == 0) (jobs three dx) S).base.mem n three.root.id = Tree.root u) ∧
    ∀ q, value (after three (mirror ((sets three dx).run '.' (· == 0) (jobs three dx) S).log)) q = value u q := by
  obtain ⟨⟨N, h1⟩, h2⟩ := C98_copy (v := top) three_plain (by decide) rfl (· == 0) dx three_apart dx_fits
  refine ⟨_, h2 ((List.replicate N 2 ++ List.replicate N 0) ++ List.replicate N 1) (h1 _ fun k hk => ?_)⟩
  have : k = 0 ∨ k = 1 ∨ k = 2 := by simp [dx] at hk; omega
  rcases this with rfl | rfl | rfl <;> simp [List.count_append, List.count_replicate]

/-- One after the other: a new key, and a value replaced. -/
example : tells three [("a.name.first".toList, 10), ("a.name".toList, 11)] (List.replicate 60 0 ++ List.replicate 60 1) =
    some [.created "a.name.first".toList 10, .changed "a.name".toList 11 (some 1)] := by decide +kernel

end Race
end Verif

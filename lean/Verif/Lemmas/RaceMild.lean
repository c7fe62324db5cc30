import Verif.Lemmas.RaceExport
/-
What an export needs of the goroutines that set keys meanwhile.
-/
namespace Verif
namespace Race
open Node (commonPrefixLen)
variable {α : Type} [Inhabited α]

/-- The paths of the leaves. -/
def Named (t : Tree α) : Prop := ∀ q m, (q, m) ∈ t.root.nodes [] → m.core.leaf = true → m.core.pathS = utf8 q

theorem named {P : Str → Prop} {t : Tree α} (h : Reach P t) : Named t := fun q m hm =>
  (h.inv keyInv_leaf).2 q m.core ((Tree.contents_node h.ok).mpr ⟨m, hm, rfl⟩)

theorem after_keeps (rs : List (Str × α)) : ∀ {t : Tree α}, t.OK → ∀ {q : Str} {c : Core α}, t.contents q = some c →
    ∃ c', (after t rs).contents q = some c' ∧ c'.pathS = c.pathS ∧ c'.leaf = c.leaf := by
  induction rs with
  | nil => intro t h q c hc; exact ⟨c, hc, rfl, rfl⟩
  | cons kv rs ih =>
    intro t h q c hc
    have hs := View.insertAt_spec h kv.1 kv.2
    have hok := View.insertAt_ok h kv.1 kv.2
    by_cases e : q = kv.1
    · subst e
      obtain ⟨c', h1, h2⟩ := hs.atKey
      simp only [putCore, hc] at h2
      subst h2
      obtain ⟨c2, e1, e2, e3⟩ := ih hok h1
      exact ⟨c2, e1, e2, e3⟩
    · exact ih hok (hs.keep q c e hc)

/-! ### Replacing values -/

/-- What the trie has at the moment `τ`. -/
def GoodR (d : Char) (t : Tree α) (kvs : List (Str × α)) (S0 : List Nat) (S : List (Option Nat)) (τ : Nat) (q : Str) (x : α) : Prop :=
  Exported d (after t (pick kvs (finishes (jobs t kvs) (start t kvs) (S0 ++ writers (S.take τ))))) q x

theorem mild_replace {t : Tree α} (h : t.OK) (hn : Named t) (d : Char) {kvs : List (Str × α)} (hr : Replaces t kvs)
    (S0 : List Nat) (S : List (Option Nat)) :
    Mild d (during (jobs t kvs) ((start t kvs).run (jobs t kvs) S0) S) t.root (GoodR d t kvs S0 S) (fun _ => Core.zero) id
      (fun _ _ => []) (fun _ => []) := by
  have inv : ∀ τ, InvA t kvs (finishes (jobs t kvs) (start t kvs) (S0 ++ writers (S.take τ)))
      ((start t kvs).run (jobs t kvs) (S0 ++ writers (S.take τ))) := by
    intro τ
    have := (InvA.init h kvs).run h hr (S0 ++ writers (S.take τ))
    rwa [List.nil_append] at this
  have hM : ∀ τ, during (jobs t kvs) ((start t kvs).run (jobs t kvs) S0) S τ =
      ((start t kvs).run (jobs t kvs) (S0 ++ writers (S.take τ))).mem := fun τ => by rw [during, run_append]
  have core : ∀ q m, (q, m) ∈ t.root.nodes [] → ∀ τ,
      (after t (pick kvs (finishes (jobs t kvs) (start t kvs) (S0 ++ writers (S.take τ))))).contents q =
        some (((start t kvs).run (jobs t kvs) (S0 ++ writers (S.take τ))).mem m.id).core := by
    intro q m hm τ
    rw [(inv τ).contents h, (Tree.nodeAt_some h).mpr hm]; rfl
  refine ⟨fun q m hm τ => ?_, nofun, fun _ _ => List.Sublist.refl _, fun _ _ => List.Sublist.refl _, fun q m hm hs τ => ?_, nofun⟩
  · rw [hM]
    obtain ⟨c', h1, h2, h3⟩ := after_keeps (pick kvs (finishes (jobs t kvs) (start t kvs) (S0 ++ writers (S.take τ)))) h
      ((Tree.contents_node h).mpr ⟨m, hm, rfl⟩)
    rw [core q m hm τ] at h1
    obtain rfl := Option.some.inj h1
    refine ⟨h2, h3, ?_⟩
    rw [← ((inv τ).shape m.id).2, ((goes_stored h hm).1.holds (start_holds h)).cell]
    simp
  · rw [shown_eq (hn q m hm), Bool.and_eq_true, Bool.not_eq_true'] at hs
    rw [hn q m hm hs.1, runes_utf8, hM]
    refine ⟨_, core q m hm τ, ?_, hs.2, rfl⟩
    rw [((inv τ).flags q m hm).1]
    exact hs.1

/-! ### Setting new keys -/

section
variable {J : Job α} {M0 : Mem α} {n : Node α} {w : Str} {m : Node α} {w' : Str} {M : Mem α} {pc : Pc}

/-- A goroutine at a node that is there changes only the value, with its last write. -/
theorem Tail.datum {i : Nat} (h : Tail J M0 i w M pc) (hw : w = (M0 i).path) :
    (M i).core.pathS = (M0 i).core.pathS ∧ (M i).core.leaf = (M0 i).core.leaf ∧
      (M i).core.data = if pc = .done then J.val else (M0 i).core.data := by
  have hc : commonPrefixLen w (M0 i).path = w.length := by rw [← hw]; exact cpl_prefix (List.prefix_refl _)
  have hb : base J M0 i w = M0 := by
    rw [base, if_neg]
    rw [hc, hw]; omega
  cases h with
  | halve h => exact ⟨rfl, rfl, rfl⟩
  | cut k hk h => rw [hc, ← hw] at h; omega
  | look h => omega
  | scan h js hj => omega
  | leaf h => omega
  | link h => omega
  | mark h => rw [hb]; exact ⟨rfl, rfl, rfl⟩
  | store h => rw [hb, set_eq]; exact ⟨rfl, rfl, rfl⟩
  | done =>
    rw [final]
    simp only [hc, Nat.lt_irrefl, if_false, hb, set_eq]
    exact ⟨trivial, trivial, rfl⟩

theorem At.datum (S : Setup J M0 n w m w') (h : At J M0 n w m w' M pc) (hw : w' = m.path) :
    (M m.id).core.pathS = m.core.pathS ∧ (M m.id).core.leaf = m.core.leaf ∧
      (M m.id).core.data = if pc = .done then J.val else m.core.data := by
  have hc : (M0 m.id).core = m.core := by rw [S.cell]
  rw [← hc]
  cases h with
  | enter h => exact ⟨rfl, rfl, rfl⟩
  | look h hp => exact ⟨rfl, rfl, rfl⟩
  | scan h hp k pre post hk hpre => exact ⟨rfl, rfl, rfl⟩
  | tail h => exact h.datum (by rw [S.cell]; exact hw)

/-- A goroutine that passes over the whole path of the node: the last step makes the new child visible. -/
theorem Tail.grown {i : Nat} (h : Tail J M0 i w M pc) (hw : (M0 i).path <+: w) (hl : (M0 i).path.length < w.length)
    (hf : i ≠ J.fresh + 1) :
    (M i).core = (M0 i).core ∧
      (pc ≠ .done → (M i).kids = (M0 i).kids) ∧
      (pc = .done → (M i).kids = (M0 i).kids ++ [J.fresh + 1] ∧ M (J.fresh + 1) = leafCell (w.drop (M0 i).path.length) J) := by
  have hc : commonPrefixLen w (M0 i).path = (M0 i).path.length := cpl_prefix hw
  have hb : base J M0 i w = M0 := by
    rw [base]; simp only [hc, Nat.lt_irrefl, if_false]
  refine ⟨(h.over hw hl hf).2, ?_⟩
  cases h with
  | halve h => omega
  | cut k hk h => omega
  | look h => rw [hb]; exact ⟨fun _ => rfl, nofun⟩
  | scan h js hj => rw [hb]; exact ⟨fun _ => rfl, nofun⟩
  | leaf h => rw [hb]; exact ⟨fun _ => rfl, nofun⟩
  | link h => rw [hb, set_ne _ _ hf]; exact ⟨fun _ => rfl, nofun⟩
  | mark h => omega
  | store h => omega
  | done =>
    refine ⟨fun h => absurd rfl h, fun _ => ?_⟩
    rw [final]
    simp only [hc, hl, if_true, hb, set_eq]
    rw [set_ne _ _ (Ne.symm hf), set_eq]
    exact ⟨trivial, rfl⟩

theorem At.grown (S : Setup J M0 n w m w') (h : At J M0 n w m w' M pc) (hw : m.path <+: w') (hl : m.path.length < w'.length) :
    (M m.id).core = m.core ∧
      (pc ≠ .done → (M m.id).kids = m.kids.map Node.id) ∧
      (pc = .done → (M m.id).kids = m.kids.map Node.id ++ [J.fresh + 1] ∧ M (J.fresh + 1) = leafCell (w'.drop m.path.length) J) := by
  have hc := S.cell
  have h1 : (M0 m.id).core = m.core := by rw [hc]
  have h2 : (M0 m.id).kids = m.kids.map Node.id := by rw [hc]
  have h3 : (M0 m.id).path = m.path := by rw [hc]
  rw [← h1, ← h2, ← h3]
  cases h with
  | enter h => exact ⟨rfl, fun _ => rfl, nofun⟩
  | look h hp => exact ⟨rfl, fun _ => rfl, nofun⟩
  | scan h hp k pre post hk hpre => exact ⟨rfl, fun _ => rfl, nofun⟩
  | tail h => exact h.grown (by rw [h3]; exact hw) (by rw [h3]; exact hl) (S.ne2 S.mid)
end

theorem done_stays (Js : Nat → Job α) {k : Nat} (S : List Nat) : ∀ {W : World α}, W.pcs k = .done → (W.run Js S).pcs k = .done := by
  induction S with
  | nil => exact fun h => h
  | cons l S ih =>
    intro W h
    refine ih (W := W.tick Js l) ?_
    simp only [World.tick]
    split
    · rename_i e; subst e; rw [h]; rfl
    · exact h

/-- The goroutine whose new key is put under the node `i`. -/
def under (t : Tree α) (kvs : List (Str × α)) (tgt : Nat → Node α) (i : Nat) : Option Nat :=
  (List.range kvs.length).find? fun k => (t.contents (jobs t kvs k).key).isNone && ((tgt k).id == i)

def ext (t : Tree α) (kvs : List (Str × α)) (tgt : Nat → Node α) (i : Nat) : List Nat := (under t kvs tgt i).toList

def added (t : Tree α) (kvs : List (Str × α)) (tgt : Nat → Node α) (W : World α) (i : Nat) : List Nat :=
  (ext t kvs tgt i).filter fun k => W.pcs k == .done

def newCore (t : Tree α) (kvs : List (Str × α)) (k : Nat) : Core α := Node.leafCore (utf8 (jobs t kvs k).key) (jobs t kvs k).val

section
variable {t : Tree α} {kvs : List (Str × α)} {tgt : Nat → Node α} {rem : Nat → Str}

theorem under_some {i k : Nat} (h : under t kvs tgt i = some k) :
    k < kvs.length ∧ t.contents (jobs t kvs k).key = none ∧ (tgt k).id = i := by
  have h1 := List.find?_some h
  have h2 := List.mem_of_find?_eq_some h
  simp only [Bool.and_eq_true, Option.isNone_iff_eq_none, beq_iff_eq] at h1
  exact ⟨List.mem_range.mp h2, h1.1, h1.2⟩

theorem mem_ext {i k : Nat} : k ∈ ext t kvs tgt i ↔ under t kvs tgt i = some k := by
  rw [ext]; cases under t kvs tgt i <;> simp [eq_comm]

theorem Targets.one (T : Targets t kvs tgt rem) (h : t.OK) {k l : Nat} (hk : k < kvs.length) (hl : l < kvs.length)
    (he : (tgt k).id = (tgt l).id) : k = l := by
  by_cases e : k = l
  · exact e
  · exact (T.disjoint h hk hl e (x := (tgt k).id) (.inl rfl) (.inl he)).elim

theorem under_eq (T : Targets t kvs tgt rem) (h : t.OK) {k : Nat} (hk : k < kvs.length) (hnone : t.contents (jobs t kvs k).key = none) :
    under t kvs tgt (tgt k).id = some k := by
  cases hu : under t kvs tgt (tgt k).id with
  | none =>
    have := List.find?_eq_none.mp hu k (List.mem_range.mpr hk)
    simp [hnone] at this
  | some l =>
    obtain ⟨h1, _, h3⟩ := under_some hu
    rw [T.one h hk h1 h3.symm]

/-- Where a goroutine with a new key stops. -/
theorem Targets.whole (T : Targets t kvs tgt rem) (h : t.OK) {k : Nat} (hg : Grows t (jobs t kvs k).key)
    (hnone : t.contents (jobs t kvs k).key = none) :
    (tgt k).path <+: rem k ∧ (tgt k).path.length < (rem k).length ∧ Clear t (jobs t kvs k).key := by
  obtain hg | ⟨s, hs, hp, hmax⟩ := hg
  · rw [hnone] at hg; cases hg
  obtain ⟨c, hc⟩ := Option.isSome_iff_exists.mp hs
  obtain ⟨x, hx, _⟩ := (Tree.contents_node h).mp hc
  have h1 : (tgt k).path <+: rem k := (T.goes k).whole h.wf hx (by rw [List.nil_append]; exact hp) fun s' x' z h1 h2 h3 =>
    hmax s' z (by rw [(Tree.contents_node h).mpr ⟨x', h1, rfl⟩]; rfl) h2 (by rwa [List.nil_append] at h3)
  refine ⟨h1, ?_, ?_⟩
  · rcases Nat.lt_or_ge (tgt k).path.length (rem k).length with h2 | h2
    · exact h2
    · have he : (tgt k).path = rem k := h1.eq_of_length (Nat.le_antisymm h1.length_le h2)
      obtain ⟨u, h3, h4⟩ := (T.goes k).path []
      rw [List.nil_append] at h4
      rw [he, ← h4] at h3
      rw [(Tree.contents_node h).mpr ⟨_, h3, rfl⟩] at hnone
      cases hnone
  · intro s' c' hc' hp'
    have h2 := hmax s' _ (by rw [hc']; rfl) hp' (List.prefix_refl _)
    have : s = (jobs t kvs k).key := hp.eq_of_length (Nat.le_antisymm hp.length_le h2.length_le)
    rw [this, hnone] at hc
    cases hc

/-- Where a goroutine whose key is there stops. -/
theorem Targets.stored (T : Targets t kvs tgt rem) (h : t.OK) {k : Nat} {c : Core α} (hc : t.contents (jobs t kvs k).key = some c) :
    rem k = (tgt k).path ∧ ((jobs t kvs k).key, tgt k) ∈ t.root.nodes [] := by
  obtain ⟨x, hx, _⟩ := (Tree.contents_node h).mp hc
  obtain ⟨h1, h2⟩ := goes_stored h hx
  obtain ⟨e1, e2⟩ := (T.goes k).unique (T.stop k) h1 h2
  rw [e2, e1]
  exact ⟨rfl, hx⟩

/-- What the trie has at the moment `τ`. -/
def GoodB (d : Char) (t : Tree α) (kvs : List (Str × α)) (S0 : List Nat) (S : List (Option Nat)) (τ : Nat) (q : Str) (x : α) : Prop :=
  Exported d (after t (returned kvs ((start t kvs).run (jobs t kvs) (S0 ++ writers (S.take τ))))) q x

theorem jobs_mem {k : Nat} (hk : k < kvs.length) : ((jobs t kvs k).key, (jobs t kvs k).val) = kvs[k] := by
  rw [jobs_key (List.getElem?_eq_getElem hk)]

theorem mild_beside (T : Targets t kvs tgt rem) (h : t.OK) (hn : Named t) (ha : Apart t (kvs.map (·.1)))
    (hnd : (kvs.map (·.1)).Nodup) (hg : ∀ kv ∈ kvs, Grows t kv.1) (d : Char) (S0 : List Nat) (S : List (Option Nat)) :
    Mild d (during (jobs t kvs) ((start t kvs).run (jobs t kvs) S0) S) t.root (GoodB d t kvs S0 S) (newCore t kvs)
      (fun k => (jobs t kvs k).fresh + 1)
      (fun τ => added t kvs tgt ((start t kvs).run (jobs t kvs) (S0 ++ writers (S.take τ)))) (ext t kvs tgt) := by
  have inv : ∀ τ, ∃ c, Inv t kvs tgt c ((start t kvs).run (jobs t kvs) (S0 ++ writers (S.take τ))) := fun τ =>
    ⟨_, (Inv.start t kvs tgt).run T h _⟩
  have hM : ∀ τ, during (jobs t kvs) ((start t kvs).run (jobs t kvs) S0) S τ =
      ((start t kvs).run (jobs t kvs) (S0 ++ writers (S.take τ))).mem := fun τ => by rw [during, run_append]
  have grows : ∀ k, k < kvs.length → Grows t (jobs t kvs k).key := by
    intro k hk
    rw [jobs_key (List.getElem?_eq_getElem hk)]
    exact hg _ (List.getElem_mem hk)
  have stays : ∀ τ τ' k, τ ≤ τ' → ((start t kvs).run (jobs t kvs) (S0 ++ writers (S.take τ))).pcs k = .done →
      ((start t kvs).run (jobs t kvs) (S0 ++ writers (S.take τ'))).pcs k = .done := by
    intro τ τ' k ht hd
    obtain ⟨B, hB⟩ : ∃ B, S.take τ' = S.take τ ++ B := by
      obtain ⟨B, hB⟩ := List.take_prefix_take_left (l := S) ht
      exact ⟨B, hB.symm⟩
    rw [hB, writers_append, ← List.append_assoc, run_append]
    exact done_stays _ _ hd
  -- a node and the goroutine that writes to it
  have look : ∀ q m, (q, m) ∈ t.root.nodes [] → ∀ τ, let W := (start t kvs).run (jobs t kvs) (S0 ++ writers (S.take τ))
      (W.mem m.id).core.pathS = m.core.pathS ∧ (W.mem m.id).core.leaf = m.core.leaf ∧
      (W.mem m.id).kids = m.kids.map Node.id ++ (added t kvs tgt W m.id).map (fun k => (jobs t kvs k).fresh + 1) ∧
      ∃ c', (after t (returned kvs W)).contents q = some c' ∧ c'.leaf = m.core.leaf ∧ c'.data = (W.mem m.id).core.data := by
    intro q m hm τ W
    obtain ⟨cc, I⟩ := inv τ
    have hcont : t.contents q = some m.core := (Tree.contents_node h).mpr ⟨m, hm, rfl⟩
    have hret := after_stored (returned kvs W) h hcont (returned_nodup hnd)
    by_cases hex : ∃ k, k < kvs.length ∧ tgt k = m
    · obtain ⟨k, hk, hkm⟩ := hex
      have hA := T.at h k (cc k)
      have hSet := T.setup h k
      have hown := I.own k hk m.id (.inl (by rw [hkm]))
      rw [show W.mem m.id = _ from hown]
      have hpc := I.pc k hk
      cases hc : t.contents (jobs t kvs k).key with
      | none =>
        obtain ⟨w1, w2, _⟩ := T.whole h (grows k hk) hc
        obtain ⟨g1, g2, g3⟩ := At.grown hSet hA w1 w2
        have hu := under_eq T h hk hc
        rw [hkm] at g1 g2 g3 hu
        have hq : q ∉ (returned kvs W).map (·.1) := by
          intro hq
          obtain ⟨kv, hkv, hkq⟩ := List.mem_map.mp hq
          obtain ⟨l, hl, _⟩ := mem_returned.mp hkv
          obtain ⟨hll, hl'⟩ := List.getElem?_eq_some_iff.mp hl
          have hkey : (jobs t kvs l).key = q := by rw [jobs_key hl]; exact hkq
          obtain ⟨_, hs2⟩ := T.stored h (k := l) (c := m.core) (by rw [hkey]; exact hcont)
          have : tgt l = m := by
            rw [hkey] at hs2
            have e1 := (Tree.nodeAt_some h).mpr hs2
            rw [(Tree.nodeAt_some h).mpr hm] at e1
            exact (Option.some.inj e1).symm
          have hlk := T.one h hll hk (by rw [this, hkm])
          subst hlk
          rw [hkey, hcont] at hc
          cases hc
        rw [g1]
        refine ⟨rfl, rfl, ?_, m.core, hret.2 hq, rfl, rfl⟩
        by_cases hd : W.pcs k = .done
        · rw [(g3 (hpc.symm.trans hd)).1]
          have hadd : added t kvs tgt W m.id = [k] := by simp [added, ext, hu, hd]
          rw [hadd]; rfl
        · rw [g2 (fun e => hd (hpc.trans e))]
          have hadd : added t kvs tgt W m.id = [] := by simp [added, ext, hu, hd]
          rw [hadd]; simp
      | some c =>
        obtain ⟨s1, s2⟩ := T.stored h hc
        have hsoft := At.soft hSet s1 hA
        obtain ⟨d1, d2, d3⟩ := At.datum hSet hA s1
        have hqk : (jobs t kvs k).key = q := (same_node h s2 hm (by rw [hkm])).1
        have hadd : added t kvs tgt W m.id = [] := by
          have : under t kvs tgt m.id = none := by
            cases hu : under t kvs tgt m.id with
            | none => rfl
            | some l =>
              obtain ⟨u1, u2, u3⟩ := under_some hu
              have := T.one h u1 hk (by rw [u3, hkm])
              subst this
              rw [u2] at hc; cases hc
          simp [added, ext, this]
        rw [hadd]
        rw [hSet.cell] at hsoft
        rw [hkm] at d1 d2 d3 hsoft
        refine ⟨d1, d2, by rw [hsoft.2]; simp, ?_⟩
        rw [d3]
        by_cases hd : W.pcs k = .done
        · rw [if_pos (hpc.symm.trans hd)]
          refine ⟨_, hret.1 (jobs t kvs k).val (mem_returned.mpr ⟨k, ?_, hd⟩), rfl, rfl⟩
          rw [List.getElem?_eq_getElem hk, ← jobs_mem (t := t) hk, hqk]
        · rw [if_neg (fun e => hd (hpc.trans e))]
          refine ⟨m.core, hret.2 ?_, rfl, rfl⟩
          intro hq
          obtain ⟨kv, hkv, hkq⟩ := List.mem_map.mp hq
          obtain ⟨l, hl, hld⟩ := mem_returned.mp hkv
          obtain ⟨hll, hl'⟩ := List.getElem?_eq_some_iff.mp hl
          have hkey : (jobs t kvs l).key = q := by rw [jobs_key hl]; exact hkq
          obtain ⟨_, hs2⟩ := T.stored h (k := l) (c := m.core) (by rw [hkey]; exact hcont)
          rw [hkey] at hs2
          have : (tgt l).id = (tgt k).id := by
            have e1 := (Tree.nodeAt_some h).mpr hs2
            rw [(Tree.nodeAt_some h).mpr hm] at e1
            rw [← Option.some.inj e1, hkm]
          have hlk := T.one h hll hk this
          subst hlk
          exact hd hld
    · have hmem : W.mem m.id = ⟨m.path, m.core, m.kids.map Node.id⟩ := by
        rcases I.owner T h hm with h1 | ⟨k, hk, hkm, _⟩
        · exact h1
        · exact absurd ⟨k, hk, hkm⟩ hex
      have hadd : added t kvs tgt W m.id = [] := by
        have : under t kvs tgt m.id = none := by
          cases hu : under t kvs tgt m.id with
          | none => rfl
          | some l =>
            obtain ⟨u1, _, u3⟩ := under_some hu
            obtain ⟨u, h1, _⟩ := (T.goes l).path []
            exact absurd ⟨l, u1, (same_node h h1 hm u3).2⟩ hex
        simp [added, ext, this]
      have hq : q ∉ (returned kvs W).map (·.1) := by
        intro hq
        obtain ⟨kv, hkv, hkq⟩ := List.mem_map.mp hq
        obtain ⟨l, hl, _⟩ := mem_returned.mp hkv
        obtain ⟨hll, hl'⟩ := List.getElem?_eq_some_iff.mp hl
        have hkey : (jobs t kvs l).key = q := by rw [jobs_key hl]; exact hkq
        obtain ⟨_, hs2⟩ := T.stored h (k := l) (c := m.core) (by rw [hkey]; exact hcont)
        rw [hkey] at hs2
        have e1 := (Tree.nodeAt_some h).mpr hs2
        rw [(Tree.nodeAt_some h).mpr hm] at e1
        exact hex ⟨l, hll, (Option.some.inj e1).symm⟩
      rw [hmem, hadd]
      exact ⟨rfl, rfl, by simp, m.core, hret.2 hq, rfl, rfl⟩
  -- a new key
  have fresh : ∀ τ i k, k ∈ added t kvs tgt ((start t kvs).run (jobs t kvs) (S0 ++ writers (S.take τ))) i →
      k < kvs.length ∧ t.contents (jobs t kvs k).key = none ∧
      ((start t kvs).run (jobs t kvs) (S0 ++ writers (S.take τ))).pcs k = .done := by
    intro τ i k hk
    obtain ⟨h1, h2⟩ := List.mem_filter.mp hk
    obtain ⟨h3, h4, _⟩ := under_some (mem_ext.mp h1)
    exact ⟨h3, h4, by simpa using h2⟩
  refine ⟨fun q m hm τ => ?_, fun τ i k hk τ' ht => ?_, fun τ i => ?_, fun τ i => List.filter_sublist, fun q m hm hs τ => ?_,
    fun τ i k hk τ' ht hs => ?_⟩
  · rw [hM]
    obtain ⟨h1, h2, h3, _⟩ := look q m hm τ
    exact ⟨h1, h2, h3⟩
  · rw [hM]
    obtain ⟨h1, h2, h3⟩ := fresh τ i k hk
    have hd := stays τ τ' k ht h3
    obtain ⟨cc, I⟩ := inv τ'
    obtain ⟨w1, w2, _⟩ := T.whole h (grows k h1) h2
    obtain ⟨_, _, g3⟩ := At.grown (T.setup h k) (T.at h k (cc k)) w1 w2
    rw [I.own k h1 _ (.inr (.inr rfl)), (g3 ((I.pc k h1).symm.trans hd)).2]
    exact ⟨rfl, rfl⟩
  · rw [added, added]
    have : ∀ l : List Nat, (l.filter fun k => ((start t kvs).run (jobs t kvs) (S0 ++ writers (S.take 0))).pcs k == .done).Sublist
        (l.filter fun k => ((start t kvs).run (jobs t kvs) (S0 ++ writers (S.take τ))).pcs k == .done) := by
      intro l
      induction l with
      | nil => simp
      | cons a l ih =>
        by_cases h1 : ((start t kvs).run (jobs t kvs) (S0 ++ writers (S.take 0))).pcs a = .done
        · have h2 := stays 0 τ a (Nat.zero_le _) h1
          rw [List.filter_cons_of_pos (by simpa using h1), List.filter_cons_of_pos (by simpa using h2)]
          exact ih.cons_cons a
        · rw [List.filter_cons_of_neg (by simpa using h1)]
          refine ih.trans ?_
          rw [List.filter_cons]
          split
          · exact List.sublist_cons_self _ _
          · exact List.Sublist.refl _
    exact this _
  · rw [shown_eq (hn q m hm), Bool.and_eq_true, Bool.not_eq_true'] at hs
    rw [hn q m hm hs.1, runes_utf8, hM]
    obtain ⟨_, _, _, c', h1, h2, h3⟩ := look q m hm τ
    exact ⟨c', h1, h2.trans hs.1, hs.2, h3⟩
  · obtain ⟨h1, h2, h3⟩ := fresh τ i k hk
    have hd := stays τ τ' k ht h3
    have hs' := hs
    rw [shown_eq (q := (jobs t kvs k).key) fun _ => rfl, Bool.and_eq_true, Bool.not_eq_true'] at hs'
    obtain ⟨_, _, hcl⟩ := T.whole h (grows k h1) h2
    refine ⟨newCore t kvs k, ?_, rfl, ?_, rfl⟩
    · have hrun : runes (newCore t kvs k).pathS = (jobs t kvs k).key := runes_utf8 _
      rw [hrun]
      refine after_new _ h hcl (returned_nodup hnd) ?_ _ ?_
      · intro kv hkv
        obtain ⟨l, hl, _⟩ := mem_returned.mp hkv
        by_cases e : l = k
        · left; subst e; rw [jobs_key hl]
        · right
          obtain ⟨hll, _⟩ := List.getElem?_eq_some_iff.mp hl
          refine ha k l (Ne.symm e) _ _ ?_ ?_
          · rw [List.getElem?_map, List.getElem?_eq_getElem h1, jobs_key (List.getElem?_eq_getElem h1)]; rfl
          · rw [List.getElem?_map, hl]; rfl
      · exact mem_returned.mpr ⟨k, by rw [List.getElem?_eq_getElem h1, jobs_mem (t := t) h1], hd⟩
    · rw [show runes (newCore t kvs k).pathS = (jobs t kvs k).key from runes_utf8 _]
      exact hs'.2

end
end Race
end Verif

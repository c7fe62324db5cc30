import Verif.Lemmas.RaceWalk
import Verif.Lemmas.Export
import Verif.Spec.RaceExport
/-
An export beside goroutines that set keys.
-/
namespace Verif
namespace Race
variable {α : Type}

theorem shown_eq {d : Char} {q : Str} {c : Core α} (h : c.leaf = true → c.pathS = utf8 q) : shown d c = (c.leaf && !endsW d q) := by
  unfold shown Core.isBranch
  cases hl : c.leaf with
  | false => simp
  | true =>
    rw [h hl]
    have h1 : simpleEndsWith (utf8 q) d = endsW d q := by simp [simpleEndsWith, endsW, runes_utf8]
    rw [h1]
    by_cases e : q = []
    · subst e; simp [endsW, utf8_nil]
    · have : utf8 q ≠ [] := fun x => e (eq_nil_of_utf8 x)
      simp [this]

theorem mem_shownKey {d : Char} {q : Str} {c : Core α} (h : c.leaf = true → c.pathS = utf8 q) {p : Str} :
    p ∈ shownKey d c ↔ p = q ∧ c.leaf = true ∧ endsW d q = false := by
  rw [shownKey, shown_eq h]
  cases hl : c.leaf with
  | false => simp
  | true =>
    rw [h hl, runes_utf8]
    cases endsW d q <;> simp

/-! ### The list of keys -/

theorem spreadL_eq (d : Char) (cores : Nat → Core α) (f : Nat → List Nat) (k : List (Node α)) :
    spreadL d cores f k = k.flatMap (spread d cores f) := by
  induction k with
  | nil => simp [spreadL]
  | cons a k ih => rw [spreadL, ih, List.flatMap_cons]

/-- The keys of a node itself. -/
def local' (d : Char) (cores : Nat → Core α) (f : Nat → List Nat) (m : Node α) : List Str :=
  shownKey d m.core ++ (f m.id).flatMap fun j => shownKey d (cores j)

theorem spread_perm (d : Char) (cores : Nat → Core α) (f : Nat → List Nat) (n : Node α) : ∀ u,
    (spread d cores f n).Perm ((n.nodes u).flatMap fun a => local' d cores f a.2) := by
  induction n using Node.ind with
  | h i p c k ih =>
    intro u
    have hk : ∀ k', (∀ e ∈ k', e ∈ k) →
        (spreadL d cores f k').Perm ((Node.nodesL (u ++ p) k').flatMap fun a => local' d cores f a.2) := by
      intro k'
      induction k' with
      | nil => intro _; simp [spreadL, Node.nodesL]
      | cons e k' ihk =>
        intro h
        rw [spreadL, Node.nodesL, List.flatMap_append]
        exact (ih e (h e (by simp)) _).append (ihk fun e' he' => h e' (by simp [he']))
    rw [spread, Node.nodes, List.flatMap_cons, local', List.append_assoc]
    refine List.Perm.append_left _ ?_
    exact (List.perm_append_comm.trans ((hk k fun _ h => h).append_left _))

theorem mem_spread {d : Char} {cores : Nat → Core α} {f : Nat → List Nat} {n : Node α} {p : Str} :
    p ∈ spread d cores f n ↔ ∃ q m, (q, m) ∈ n.nodes [] ∧ p ∈ local' d cores f m := by
  rw [(spread_perm d cores f n []).mem_iff, List.mem_flatMap]
  constructor
  · rintro ⟨⟨q, m⟩, h1, h2⟩; exact ⟨q, m, h1, h2⟩
  · rintro ⟨q, m, h1, h2⟩; exact ⟨(q, m), h1, h2⟩

/-- Without further children: the keys in the order of the walk. -/
theorem spread_none (d : Char) (cores : Nat → Core α) (n : Node α) : ∀ u,
    spread d cores (fun _ => []) n = (n.nodes u).flatMap fun a => shownKey d a.2.core := by
  induction n using Node.ind with
  | h i p c k ih =>
    intro u
    have hk : ∀ k', (∀ e ∈ k', e ∈ k) →
        spreadL d cores (fun _ => []) k' = (Node.nodesL (u ++ p) k').flatMap fun a => shownKey d a.2.core := by
      intro k'
      induction k' with
      | nil => intro _; simp [spreadL, Node.nodesL]
      | cons e k' ihk =>
        intro h
        rw [spreadL, Node.nodesL, List.flatMap_append, ih e (h e (by simp)) (u ++ p), ihk fun e' he' => h e' (by simp [he'])]
    rw [spread, Node.nodes, List.flatMap_cons, hk k fun _ h => h]
    simp [Node.core]

/-! ### The entries afterwards -/

section
variable [Inhabited α]

theorem after_stored (rs : List (Str × α)) : ∀ {t : Tree α}, t.OK → ∀ {q : Str} {c : Core α},
    t.contents q = some c → (rs.map (·.1)).Nodup →
    (∀ x, (q, x) ∈ rs → (after t rs).contents q = some { c with hasData := true, data := x }) ∧
    (q ∉ rs.map (·.1) → (after t rs).contents q = some c) := by
  induction rs with
  | nil => intro t h q c hr _; exact ⟨fun x hx => (by cases hx), fun _ => hr⟩
  | cons kv rs ih =>
    intro t h q c hr hn
    rw [List.map_cons, List.nodup_cons] at hn
    have hok := View.insertAt_ok h kv.1 kv.2
    have hs := View.insertAt_spec h kv.1 kv.2
    by_cases e : q = kv.1
    · subst e
      obtain ⟨c', h1, h2⟩ := hs.atKey
      simp only [putCore, hr] at h2
      subst h2
      refine ⟨fun x hx => ?_, fun hq => absurd (by simp) hq⟩
      rcases List.mem_cons.mp hx with hx | hx
      · have : kv.2 = x := by rw [← hx]
        rw [← this]
        exact (ih hok h1 hn.2).2 hn.1
      · exact absurd (List.mem_map.mpr ⟨_, hx, rfl⟩) hn.1
    · obtain ⟨h1, h2⟩ := ih hok (hs.keep q c e hr) hn.2
      refine ⟨fun x hx => ?_, fun hq => ?_⟩
      · rcases List.mem_cons.mp hx with hx | hx
        · rw [← hx] at e; exact absurd rfl e
        · exact h1 x hx
      · exact h2 fun hx => hq (by simp [hx])

/-- No stored path goes through `k`. -/
def Clear (t : Tree α) (k : Str) : Prop := ∀ s c, t.contents s = some c → ¬ k <+: s

theorem Clear.put {t : Tree α} (h : t.OK) {k l : Str} (hc : Clear t k) (hf : Free t k l) (x : α) :
    Clear (View.insertAt t l x).1 k := by
  have hs := View.insertAt_spec h l x
  intro s c hsc hp
  by_cases e : s = l
  · subst e
    rcases hf with ⟨h1, _⟩ | ⟨s', z, h1, h2, h3, h4⟩
    · obtain ⟨c0, h1⟩ := Option.isSome_iff_exists.mp h1
      exact hc s c0 h1 hp
    · obtain ⟨c0, h1⟩ := Option.isSome_iff_exists.mp h1
      rcases List.prefix_or_prefix_of_prefix h3 hp with h5 | h5
      · exact h4 h5
      · exact hc s' c0 h1 (h5.trans h2)
  · cases h0 : t.contents s with
    | some c0 => exact hc s c0 h0 hp
    | none =>
      obtain ⟨k0, c0, h1, h2, _, _⟩ := hs.new s c e h0 hsc
      exact hc k0 c0 h1 (hp.trans (h2 ▸ lcp_prefix_left k0 l))

theorem after_new (rs : List (Str × α)) : ∀ {t : Tree α}, t.OK → ∀ {q : Str}, Clear t q → (rs.map (·.1)).Nodup →
    (∀ kv ∈ rs, kv.1 = q ∨ Free t q kv.1) → ∀ x, (q, x) ∈ rs → (after t rs).contents q = some (Node.leafCore (utf8 q) x) := by
  induction rs with
  | nil => intro t h q _ _ _ x hx; cases hx
  | cons kv rs ih =>
    intro t h q hc hn hf x hx
    rw [List.map_cons, List.nodup_cons] at hn
    have hok := View.insertAt_ok h kv.1 kv.2
    have hs := View.insertAt_spec h kv.1 kv.2
    by_cases e : kv.1 = q
    · subst e
      have hnone : t.contents kv.1 = none := by
        cases h0 : t.contents kv.1 with
        | none => rfl
        | some c0 => exact absurd (List.prefix_refl _) (hc _ c0 h0)
      obtain ⟨c', h1, h2⟩ := hs.atKey
      simp only [putCore, hnone] at h2
      rcases h2 with ⟨h2, _⟩ | ⟨q', c0, h3, h4, _⟩
      · subst h2
        rcases List.mem_cons.mp hx with hx | hx
        · have : kv.2 = x := by rw [← hx]
          rw [← this]
          exact (after_stored rs hok h1 hn.2).2 hn.1
        · exact absurd (List.mem_map.mpr ⟨_, hx, rfl⟩) hn.1
      · exact absurd h4 (hc q' c0 h3)
    · have hfr := (hf kv (by simp)).resolve_left e
      refine ih hok (hc.put h hfr kv.2) hn.2 (fun kv' hkv' => (hf kv' (by simp [hkv'])).imp (fun e => e) fun hf => hf.mono h _ _) x ?_
      rcases List.mem_cons.mp hx with hx | hx
      · rw [← hx] at e; exact absurd rfl e
      · exact hx

/-- Where the leaves come from. -/
theorem after_leaf (rs : List (Str × α)) : ∀ {t : Tree α}, t.OK → ∀ {q : Str} {c : Core α},
    (after t rs).contents q = some c → c.leaf = true →
    (∃ c0, t.contents q = some c0 ∧ c0.leaf = true) ∨ (t.contents q = none ∧ q ∈ rs.map (·.1)) := by
  induction rs with
  | nil => intro t h q c hr hl; exact .inl ⟨c, hr, hl⟩
  | cons kv rs ih =>
    intro t h q c hr hl
    have hok := View.insertAt_ok h kv.1 kv.2
    have hs := View.insertAt_spec h kv.1 kv.2
    have key : ∀ c1, (View.insertAt t kv.1 kv.2).1.contents q = some c1 → c1.leaf = true →
        (∃ c0, t.contents q = some c0 ∧ c0.leaf = true) ∨ (t.contents q = none ∧ q ∈ (kv :: rs).map (·.1)) := by
      intro c1 hc1 hl1
      by_cases e : q = kv.1
      · subst e
        obtain ⟨c', h1, h2⟩ := hs.atKey
        rw [hc1] at h1
        obtain rfl := Option.some.inj h1
        cases h0 : t.contents kv.1 with
        | none => exact .inr ⟨rfl, by simp⟩
        | some c0 =>
          simp only [putCore, h0] at h2
          rw [h2] at hl1
          exact .inl ⟨c0, rfl, hl1⟩
      · cases h0 : t.contents q with
        | some c0 =>
          rw [hs.keep q c0 e h0] at hc1
          obtain rfl := Option.some.inj hc1
          exact .inl ⟨c0, rfl, hl1⟩
        | none =>
          obtain ⟨k0, c0, _, _, _, h4⟩ := hs.new q c1 e h0 hc1
          rw [h4] at hl1
          cases hl1
    rcases ih hok hr hl with ⟨c1, h1, h2⟩ | ⟨h1, h2⟩
    · exact key c1 h1 h2
    · right
      refine ⟨?_, by simp [h2]⟩
      cases h0 : t.contents q with
      | none => rfl
      | some c0 =>
        by_cases e : q = kv.1
        · subst e
          obtain ⟨c', h3, _⟩ := hs.atKey
          rw [h1] at h3; cases h3
        · rw [hs.keep q c0 e h0] at h1; cases h1
end

/-! ### Goroutines that cut no path -/

/-- A goroutine whose key goes on where a stored path ends passes over the whole path of the node where it stops. -/
theorem Goes.whole {n : Node α} {w : Str} {m : Node α} {r : Str} (h : Goes n w m r) (hw : n.WF) {u s : Str} {x : Node α}
    (hx : (s, x) ∈ n.nodes u) (hs : s <+: u ++ w)
    (hmax : ∀ s' x' z, (s', x') ∈ n.nodes u → z <+: s' → z <+: u ++ w → z <+: s) : m.path <+: r := by
  induction h generalizing u with
  | here n w =>
    have h1 := (Node.prefix_of_mem_nodes hx).trans hs
    rwa [List.prefix_append_right_inj] at h1
  | @down n w c m w' hp hg ih =>
    have hwn := (Node.wf_iff n).mp hw
    have hc := hp.mem
    obtain ⟨h1, h2, pre, post, h3, h4, h5⟩ := hp
    obtain ⟨r, hr⟩ := h1
    have hdrop : w.drop n.path.length = r := by rw [← hr, List.drop_left]
    rw [hdrop] at h5 ih
    have hne := (hwn.2 c hc).1
    have hin : ∀ a, a ∈ c.nodes (u ++ n.path) → a ∈ n.nodes u := fun a ha =>
      (Node.mem_nodes ..).mpr (.inr ⟨c, hc, ha⟩)
    have he : u ++ w = (u ++ n.path) ++ r := by rw [← hr, List.append_assoc]
    -- the stored path goes on below the same child
    have hxc : (s, x) ∈ c.nodes (u ++ n.path) := by
      cases hcp : c.path with
      | nil => exact absurd hcp hne
      | cons a as =>
        rw [hcp] at h5
        cases hrr : r with
        | nil => rw [hrr] at h5; cases h5
        | cons b bs =>
          rw [hrr] at h5
          obtain rfl : a = b := Option.some.inj h5
          have hz := hmax (u ++ n.path ++ c.path) c (u ++ n.path ++ [a]) (hin _ (by rw [Node.nodes_eq]; exact List.mem_cons_self))
            (by rw [List.prefix_append_right_inj, hcp]; exact ⟨as, rfl⟩)
            (by rw [he, List.prefix_append_right_inj, hrr]; exact ⟨bs, rfl⟩)
          rw [Node.mem_nodes] at hx
          rcases hx with hx | ⟨c2, hc2, hx⟩
          · have := (Prod.mk.inj hx).1
            rw [this] at hz
            have := hz.length_le
            simp only [List.length_append, List.length_cons, List.length_nil] at this
            omega
          · have h6 := Node.prefix_of_mem_nodes hx
            have hne2 := (hwn.2 c2 hc2).1
            have : c2 = c := by
              refine Node.heads_inj hwn.1 hc2 hc ?_
              rw [hcp]
              obtain ⟨y, hy⟩ := h6
              obtain ⟨y', hy'⟩ := hz
              rw [← hy, List.append_assoc (u ++ n.path), List.append_assoc (u ++ n.path), List.append_cancel_left_eq] at hy'
              cases hc2p : c2.path with
              | nil => exact absurd hc2p hne2
              | cons b2 bs2 =>
                rw [hc2p] at hy'
                have hy'' := (List.cons.inj hy').1
                simp [hy'']
            rw [← this]; exact hx
    refine ih (hwn.2 c hc).2 hxc (by rw [← he]; exact hs) ?_
    intro s' x' z h1' h2' h3'
    exact hmax s' x' z (hin _ h1') h2' (by rw [he]; exact h3')

end Race
end Verif

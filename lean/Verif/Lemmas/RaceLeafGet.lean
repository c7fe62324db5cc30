import Verif.Lemmas.RaceLooking
/-
The lookup of a key that is being added.
-/
namespace Verif
namespace Parts
variable {α : Type} [Inhabited α]
open Prune (Cell Mem Pc Call Up Shows Sure Task Loop)
open Race (Job)

section
variable {β : Type} {f : Mem α → β → Mem α × β} {R R' : (Nat → Nat) → Mem α → Prop} {Q : β → Prop}

omit [Inhabited α] in
theorem Comes.within {s0 : Nat → Nat} : ∀ {n : Nat} {s : Nat → Nat} {r : β}, Up s0 s → Comes f (fun s M => R s M ∧ Up s0 s) Q n s r → Comes f R Q n s r
  | 0, _, _, _, h => h
  | _ + 1, _, _, h0, h => h.imp id fun h s' M hs hM =>
    ⟨(h s' M hs ⟨hM, h0.trans hs⟩).1, Comes.within (h0.trans hs) (h s' M hs ⟨hM, h0.trans hs⟩).2⟩

omit [Inhabited α] in
theorem Comes.fewer (hR : ∀ s M, R' s M → R s M) : ∀ {n : Nat} {s : Nat → Nat} {r : β}, Comes f R Q n s r → Comes f R' Q n s r
  | 0, _, _, h => h
  | _ + 1, _, _, h => h.imp id fun h s' M hs hM => ⟨(h s' M hs (hR _ _ hM)).1, Comes.fewer hR (h s' M hs (hR _ _ hM)).2⟩

omit [Inhabited α] in
theorem Looks.fewer {ms : (Nat → Nat) → Mem α} {m : Node α} (hR : ∀ s M, R' s M → R s M) (h : Looks R ms m) : Looks R' ms m :=
  ⟨fun s M h' => h.path s M (hR _ _ h'), fun s M k h' => h.arr s M k (hR _ _ h'), fun s M h' => h.grown s M (hR _ _ h'),
    fun s M h' => h.len s M (hR _ _ h'), h.fits, h.same⟩
end

theorem bounded (f : Nat → Nat) : ∀ n, ∃ N, ∀ j, j ≤ n → f j ≤ N
  | 0 => ⟨f 0, fun j hj => by rw [Nat.le_zero.mp hj]; exact Nat.le_refl _⟩
  | n + 1 => by
    obtain ⟨N, hN⟩ := bounded f n
    refine ⟨N + f (n + 1), fun j hj => ?_⟩
    rcases Nat.lt_or_eq_of_le hj with h | rfl
    · have := hN j (by omega); omega
    · omega

/-- The memories that are possible when the goroutines have come as far as `σ` says: goroutine `k` has added its leaf if `0 < σ k`. -/
def Tells (t : Tree α) (ms : (Nat → Nat) → Mem α) (site : Site α) (σ : Nat → Nat) (M : Mem α) : Prop :=
  ∃ ext g, Grown t (ms σ) ext g M ∧ ∀ i,
    (ext i = [] ∧ ∀ k A w, site k = some (A, w) → A.id = i → σ k = 0) ∨
    ∃ k A w, site k = some (A, w) ∧ A.id = i ∧ 0 < σ k ∧ ext i = [t.next + 2 * k + 1] ∧ (M (t.next + 2 * k + 1)).path = w ∧
      (M (t.next + 2 * k + 1)).len = 0

section
variable {v : View} {t : Tree α} {as : List (Act α)} {base : Mem α} {plan : Nat → Option Task} {site : Site α} {B : Nat → Nat}

omit [Inhabited α] in
theorem tells_like {ms : (Nat → Nat) → Mem α} {σ : Nat → Nat} {M : Mem α} (h : Tells t ms site σ M) : Like t ms (Joined site none) σ M := by
  obtain ⟨ext, g, h1, h2⟩ := h
  refine ⟨ext, g, h1, fun i hi => ?_⟩
  rcases h2 i with ⟨e, _⟩ | ⟨k, A, w, h3, h4, _⟩
  · exact absurd e hi
  · exact ⟨k, A, w, by simp, h3, h4⟩

theorem tells_leaf (X : Setting v t as base plan site B) {σ : Nat → Nat} {M : Mem α} (h : Tells t (Prune.mems base plan) site σ M) {k : Nat}
    {A : Node α} {w : Str} (hk : site k = some (A, w)) (h0 : 0 < σ k) : (M (t.next + 2 * k + 1)).path = w ∧ (M (t.next + 2 * k + 1)).len = 0 := by
  obtain ⟨ext, g, _, h2⟩ := h
  rcases h2 A.id with ⟨_, e⟩ | ⟨l, A', w', h3, h4, _, _, h5⟩
  · have := e k A w hk rfl; omega
  · obtain rfl := X.sites l k A' w' A w h3 hk h4
    rw [hk] at h3
    cases h3
    exact h5

/-- The slice of a node to which a leaf is added. -/
theorem tells_slice (X : Setting v t as base plan site B) {σ : Nat → Nat} {M : Mem α} (h : Tells t (Prune.mems base plan) site σ M) {k : Nat}
    {A : Node α} {w : Str} (hk : site k = some (A, w)) :
    (M A.id).arr = A.kids.map Node.id ++ (if 0 < σ k then [t.next + 2 * k + 1] else []) ∧ (M A.id).len = A.kids.length + (if 0 < σ k then 1 else 0) := by
  obtain ⟨ext, g, h1, h2⟩ := h
  obtain ⟨_, _, _, a, hA, _⟩ := X.sited.new k A w hk
  rw [h1 a A hA, mems_still X.lays hA (fun l T hT => X.still l T k A w hT hk)]
  rcases h2 A.id with ⟨e, e'⟩ | ⟨l, A', w', h3, h4, h5, h6, _⟩
  · rw [e, if_neg (by have := e' k A w hk rfl; omega), if_neg (by have := e' k A w hk rfl; omega)]
    simp [Prune.cellOf]
  · obtain rfl := X.sites l k A' w' A w h3 hk h4
    rw [h6, if_pos h5, if_pos h5]
    simp [Prune.cellOf]

/-- What a loop reads that began when the memory was `M0`. -/
theorem tells_reads (X : Setting v t as base plan site B) {q : Str} {n : Node α} (hn : (q, n) ∈ t.root.nodes []) {σ σ' : Nat → Nat} {M0 M : Mem α}
    (h0 : Tells t (Prune.mems base plan) site σ M0) (hs : Up σ σ') (h1 : Tells t (Prune.mems base plan) site σ' M) {k : Nat} (hk : k < (M0 n.id).len) :
    (∃ e ∈ n.kids, (M n.id).arr.getD k 0 = e.id) ∨
      ∃ l w, site l = some (n, w) ∧ 0 < σ l ∧ k = n.kids.length ∧ (M n.id).arr.getD k 0 = t.next + 2 * l + 1 := by
  by_cases hx : ∃ l w, site l = some (n, w)
  · obtain ⟨l, w, hl⟩ := hx
    obtain ⟨_, e1⟩ := tells_slice X h0 hl
    obtain ⟨e2, _⟩ := tells_slice X h1 hl
    rw [e1] at hk
    rw [e2]
    by_cases hlt : k < n.kids.length
    · refine .inl ⟨n.kids[k], List.getElem_mem hlt, ?_⟩
      simp [List.getD_eq_getElem?_getD, List.getElem?_append_left, hlt]
    · have hpos : 0 < σ l := by
        rcases Nat.eq_zero_or_pos (σ l) with e | e
        · rw [if_neg (by omega)] at hk; omega
        · exact e
      rw [if_pos hpos] at hk
      have : k = n.kids.length := by omega
      subst this
      have := hs l
      rw [if_pos (by omega)]
      refine .inr ⟨l, w, hl, hpos, rfl, ?_⟩
      simp [List.getD_eq_getElem?_getD, List.getElem?_append_right]
  · have hnone : ∀ {σ : Nat → Nat} {M : Mem α}, Tells t (Prune.mems base plan) site σ M → (M n.id).arr = (Prune.mems base plan σ n.id).arr ∧
        (M n.id).len = (Prune.mems base plan σ n.id).len := by
      rintro σ M ⟨ext, g, g1, g2⟩
      rw [g1 q n hn]
      rcases g2 n.id with ⟨e, _⟩ | ⟨l, A, w, g3, g4, _⟩
      · rw [e]; simp
      · obtain ⟨_, _, _, a, hA, _⟩ := X.sited.new l A w g3
        obtain ⟨_, rfl⟩ := Prod.mk.inj (X.ok.id_inj hA hn g4)
        exact absurd ⟨l, w, g3⟩ hx
    rw [(hnone h0).2] at hk
    rw [(hnone h1).1]
    exact .inl ((Prune.mems_shows X.lays hn).elts σ σ' k hs hk)

theorem tells_bound (X : Setting v t as base plan site B) {q : Str} {n : Node α} (hn : (q, n) ∈ t.root.nodes []) {σ : Nat → Nat} {M : Mem α}
    (h : Tells t (Prune.mems base plan) site σ M) : (M n.id).len ≤ n.kids.length + 1 := by
  rcases Nat.lt_or_ge (n.kids.length + 1) (M n.id).len with h' | h'
  · rcases tells_reads X hn h (.refl σ) h (k := n.kids.length + 1) h' with ⟨e, he, hee⟩ | ⟨_, _, _, _, e, _⟩
    · rcases tells_reads X hn h (.refl σ) h (k := n.kids.length) (by omega) with ⟨e2, he2, hee2⟩ | ⟨l, w, g1, g2, _, _⟩
      · have hh := (Prune.mems_shows (plan := plan) X.lays hn).len σ
        obtain ⟨ext, g, g1, g2⟩ := h
        have e3 := congrArg Cell.len (g1 q n hn)
        simp only at e3
        rcases g2 n.id with ⟨e4, _⟩ | ⟨_, _, _, _, _, _, e4, _⟩
        · rw [e4] at e3; simp only [List.length_nil] at e3; omega
        · rw [e4] at e3; simp only [List.length_singleton] at e3; omega
      · have := (tells_slice X h g1).2
        rw [if_pos g2] at this; omega
    · omega
  · exact h'
end

section
variable {p : Str} {d : Char} {R : (Nat → Nat) → Mem α → Prop} {Q : Pc α → Prop}

/-- The search below a node, whatever is to be done when it finds nothing there. -/
def Down (p : Str) (d : Char) (R : (Nat → Nat) → Mem α → Prop) (Q : Pc α → Prop) (F : Nat → Nat) (σ : Nat → Nat) (word : Str) (i : Nat) : Prop :=
  ∀ Nu par stk, (∀ σ', Up σ σ' → Comes (Prune.step (.get p) d) R Q Nu σ' (.ret false false none none stk)) →
    Comes (Prune.step (.get p) d) R Q (F Nu) σ (.enter word i par stk)

/-- The steps of a loop. -/
def loopSteps (F : Nat → Nat) (Nu : Nat) : Nat → Nat
  | 0 => Nu + 1
  | j + 1 => F (loopSteps F Nu j) + 1

theorem comes_loop {F : Nat → Nat} {Nu n len : Nat} {word : Str} {stk : List Loop} {σ : Nat → Nat}
    (hstk : ∀ σ', Up σ σ' → Comes (Prune.step (.get p) d) R Q Nu σ' (.ret false false none none stk))
    (hread : ∀ σ' M k, Up σ σ' → R σ' M → k < len → Down p d R Q F σ' word ((M n).arr.getD k 0)) :
    ∀ j k, k + j = len → ∀ σ', Up σ σ' → Comes (Prune.step (.get p) d) R Q (loopSteps F Nu j) σ' (.ret false false none none (⟨n, len, k, word⟩ :: stk)) := by
  intro j
  induction j with
  | zero =>
    intro k hk σ' hs
    refine .inr fun σ'' M hs' hM => ?_
    simp only [Prune.step, Bool.or_self, Bool.false_eq_true, if_false]
    rw [if_neg (by omega)]
    exact ⟨trivial, hstk σ'' (hs.trans hs')⟩
  | succ j ih =>
    intro k hk σ' hs
    refine .inr fun σ'' M hs' hM => ?_
    simp only [Prune.step, Bool.or_self, Bool.false_eq_true, if_false]
    rw [if_pos (by omega)]
    exact ⟨trivial, hread σ'' M k (hs.trans hs') hM (by omega) _ _ _ fun σ3 hs3 => ih (k + 1) (by omega) σ3 ((hs.trans hs').trans hs3)⟩

/-- A node with another first character. -/
theorem down_other {e : Node α} {b : Char} {y : Str} {F : Nat → Nat} (hF : ∀ n, 2 + n ≤ F n) {σ : Nat → Nat} (hne : e.path ≠ []) (hb : e.path.head? ≠ some b)
    (hG : ∀ σ' M, Up σ σ' → R σ' M → (M e.id).path = e.path) : Down p d R Q F σ (b :: y) e.id := by
  intro Nu par stk hstk
  have h1 : Comes (Prune.step (.get p) d) R (fun r => r = .ret false false none none stk) 2 σ (.enter (b :: y) e.id par stk) :=
    Comes.within (.refl σ) (comes_other (R := fun s M => R s M ∧ Up σ s) hne hb (fun σ' M hM => hG σ' M hM.2 hM.1) stk σ)
  refine (h1.trans fun s r hs hr => ?_).mono (hF Nu)
  subst hr
  exact hstk s hs

theorem quits_nil : Quits p d (.ret false false none none [] : Pc α) := ⟨rfl, fun _ => rfl⟩

theorem quits_part (child par : Option Nat) (stk : List Loop) : Quits p d (.ret false true child par stk : Pc α) := by
  refine ⟨rfl, fun M => ?_⟩
  simp only [Prune.step, Bool.or_true, if_true]
  cases child <;> rfl
end

section
variable {v : View} {t : Tree α} {as : List (Act α)} {base : Mem α} {plan : Nat → Option Task} {site : Site α} {B : Nat → Nat}
  {p : Str} {d : Char} {R : (Nat → Nat) → Mem α → Prop} {Q : Pc α → Prop} {j : Nat} {A : Node α} {w : Str}

/-- At the node to which the leaf is added. -/
theorem down_site (X : Setting v t as base plan site B) (hsub : ∀ σ M, R σ M → Tells t (Prune.mems base plan) site σ M) (hj : site j = some (A, w))
    (hquit : ∀ r, Quits p d r → Q r) (hend : ∀ σ M, R σ M → 0 < σ j → ∀ r, Ends (t.next + 2 * j + 1) r → Q r) :
    ∃ F, ∀ σ, Down p d R Q F σ (A.path ++ w) A.id := by
  obtain ⟨p', x', _, a, hA, _, hw, hheads⟩ := X.sited.new j A w hj
  obtain ⟨b, y, rfl⟩ := List.exists_cons_of_ne_nil hw
  have hLA := (like_looks (plan := plan) (X := Joined site none) X.lays hA).fewer fun s M h => tells_like (hsub s M h)
  have hkid : ∀ e ∈ A.kids, (a ++ e.path, e) ∈ t.root.nodes [] := fun e he =>
    Node.nodes_trans hA (by rw [Node.mem_nodesL]; exact ⟨e, he, by rw [Node.mem_nodes]; simp⟩)
  have hwA := (Node.wf_iff A).mp (Node.wf_of_mem X.ok.wf hA)
  let F0 : Nat → Nat := fun n => 2 + n + (0 + 1 + 1 + (b :: y).length + 1)
  have hread : ∀ σ M0 σ' M k, R σ M0 → k < (M0 A.id).len → Up σ σ' → R σ' M → Down p d R Q F0 σ' (b :: y) ((M A.id).arr.getD k 0) := by
    intro σ M0 σ' M k h0 hk hs hM
    rcases tells_reads X hA (hsub _ _ h0) hs (hsub _ _ hM) hk with ⟨e, he, hee⟩ | ⟨l, w', g1, g2, _, g4⟩
    · rw [hee]
      refine down_other (fun n => Nat.le_add_right _ _) (hwA.2 e he).1 (hheads e he) fun σ'' M' _ hM' => ?_
      exact ((like_looks (plan := plan) (X := Joined site none) X.lays (hkid e he)).fewer fun s M h => tells_like (hsub s M h)).path _ _ hM'
    · obtain rfl := X.sites l j A w' A _ g1 hj rfl
      rw [hj] at g1
      cases g1
      have hl := hs l
      rw [g4]
      intro Nu par stk _
      have h1 := comes_exact (c := .get p) (d := d) (R := fun s M => R s M ∧ Up σ' s) (par := par) (stk := stk) (σ := σ')
        (n := .mk (t.next + 2 * l + 1) (b :: y) Core.zero []) (by simp) (fun s M' hM' => (tells_leaf X (hsub _ _ hM'.1) hj (by have := hM'.2 l; omega)).1)
      refine ((Comes.within (.refl σ') h1).weak fun r hr => ?_).mono (Nat.le_add_left _ _)
      subst hr
      exact hend σ' M hM (by omega) _ ⟨_, _, rfl⟩
  have hF : ∀ Nu, ∃ N, ∀ j, j ≤ A.kids.length + 1 → loopSteps F0 Nu j ≤ N := fun Nu => bounded _ _
  refine ⟨fun Nu => ((hF Nu).choose + 1 + 1) + 1 + 1 + A.path.length + 1, fun σ Nu par stk hstk => ?_⟩
  refine comes_through (by simp) (by simp) rfl hLA.path (.inr fun σ' M hs hM => ?_)
  simp only [Prune.step]
  by_cases h0 : (M A.id).len = 0
  · rw [if_pos h0]
    exact ⟨trivial, .now (hquit _ (quits_part _ _ _)) _⟩
  · rw [if_neg h0]
    refine ⟨trivial, .inr fun σ'' M' hs' hM' => ?_⟩
    simp only [Prune.step]
    have h0' : (M' A.id).len ≠ 0 := by
      have e1 := (tells_slice X (hsub _ _ hM) hj).2
      have e2 := (tells_slice X (hsub _ _ hM') hj).2
      have := hs' j
      split at e1
      · rw [if_pos (by omega)] at e2; omega
      · omega
    rw [if_neg h0', List.drop_left]
    have hb := tells_bound X hA (hsub _ _ hM')
    exact ⟨trivial, (comes_loop (fun s hs3 => hstk s ((hs.trans hs').trans hs3))
      (fun s M3 k hs3 hM3 hk => hread σ'' M' s M3 k hM' hk hs3 hM3) _ 0 (Nat.zero_add _) σ'' (.refl _)).mono ((hF Nu).choose_spec _ hb)⟩

/-- On the way there. -/
theorem down_way (X : Setting v t as base plan site B) (hsub : ∀ σ M, R σ M → Tells t (Prune.mems base plan) site σ M) (hj : site j = some (A, w))
    (hquit : ∀ r, Quits p d r → Q r) (hend : ∀ σ M, R σ M → 0 < σ j → ∀ r, Ends (t.next + 2 * j + 1) r → Q r)
    {a : Str} (hK : ∀ u P ch, (u, P) ∈ t.root.nodes [] → ch ∈ P.kids → u ++ ch.path <+: a → Sure (Prune.mems base plan) P ch) (n : Node α) :
    ∀ u word, (∀ q m, (q, m) ∈ n.nodes u → (q, m) ∈ t.root.nodes []) → (a, A) ∈ n.nodes u → u ++ word = a ++ w → ∃ F, ∀ σ, Down p d R Q F σ word n.id := by
  induction n using Node.ind with
  | h i pth c k ih =>
    intro u word hin hA hword
    have here : (u ++ pth, Node.mk i pth c k) ∈ t.root.nodes [] := hin _ _ ((Node.mem_nodes _ _ _).mpr (.inl rfl))
    rcases (Node.mem_nodes _ _ _).mp hA with e | ⟨ch, hch, hA'⟩
    · obtain ⟨rfl, rfl⟩ := Prod.mk.inj e
      rw [List.append_assoc] at hword
      rw [List.append_cancel_left hword]
      exact down_site X hsub hj hquit hend
    · have hwn := (Node.wf_iff _).mp (Node.wf_of_mem X.ok.wf here)
      obtain ⟨r, hr⟩ := Node.prefix_of_mem_nodes hA'
      obtain ⟨b, z, hz⟩ := List.exists_cons_of_ne_nil (hwn.2 ch hch).1
      have hword' : word = pth ++ (b :: (z ++ r ++ w)) := by
        refine List.append_cancel_left (as := u) ?_
        rw [hword, ← hr, hz]
        simp
      obtain ⟨F, hF⟩ := ih ch hch (u ++ pth) (b :: (z ++ r ++ w)) (fun q m hm => hin q m ((Node.mem_nodes _ _ _).mpr (.inr ⟨ch, hch, hm⟩))) hA' (by
        rw [← hr, hz]; simp)
      have hL := (like_looks (plan := plan) (X := Joined site none) X.lays here).fewer fun s M h => tells_like (hsub s M h)
      have hS := Prune.mems_shows (plan := plan) X.lays here
      have hsure := hK _ _ ch here hch ⟨r, hr⟩
      have hkid : ∀ e ∈ k, (u ++ pth ++ e.path, e) ∈ t.root.nodes [] := fun e he =>
        Node.nodes_trans here (by rw [Node.mem_nodesL]; exact ⟨e, he, by rw [Node.mem_nodes]; simp⟩)
      let F0 : Nat → Nat := fun n => 2 + n + F n
      have hread : ∀ σ M0 σ' M l, R σ M0 → l < (M0 i).len → Up σ σ' → R σ' M → Down p d R Q F0 σ' (b :: (z ++ r ++ w)) ((M i).arr.getD l 0) := by
        intro σ M0 σ' M l h0 hl hs hM
        rcases tells_reads X here (hsub _ _ h0) hs (hsub _ _ hM) hl with ⟨e, he, hee⟩ | ⟨l', w', g1, g2, _, g4⟩
        · rw [show (M i).arr.getD l 0 = e.id from hee]
          by_cases heb : e.path.head? = some b
          · have : e = ch := Node.heads_inj hwn.1 he hch (by rw [heb, hz]; rfl)
            subst this
            intro Nu par stk hstk
            exact (hF σ' Nu par stk hstk).mono (Nat.le_add_left _ _)
          · refine down_other (fun n => Nat.le_add_right _ _) (hwn.2 e he).1 heb fun σ'' M' _ hM' => ?_
            exact ((like_looks (plan := plan) (X := Joined site none) X.lays (hkid e he)).fewer fun s M h => tells_like (hsub s M h)).path _ _ hM'
        · rw [show (M i).arr.getD l 0 = t.next + 2 * l' + 1 from g4]
          obtain ⟨_, _, _, _, _, _, hw', hheads⟩ := X.sited.new l' _ w' g1
          refine down_other (e := .mk (t.next + 2 * l' + 1) w' Core.zero []) (fun n => Nat.le_add_right _ _) hw' ?_ fun σ'' M' hs' hM' => ?_
          · intro e
            refine hheads ch hch ?_
            rw [hz]
            exact e.symm
          · exact (tells_leaf X (hsub _ _ hM') g1 (by have := hs l'; have := hs' l'; omega)).1
      have hB : ∀ Nu, ∃ N, ∀ j, j ≤ k.length + 1 → loopSteps F0 Nu j ≤ N := fun Nu => bounded _ _
      refine ⟨fun Nu => ((hB Nu).choose + 1 + 1) + 1 + 1 + pth.length + 1, fun σ Nu par stk hstk => ?_⟩
      rw [hword']
      refine comes_through (n := .mk i pth c k) (by simp) (by simp) rfl hL.path (.inr fun σ' M hs hM => ?_)
      simp only [Prune.step]
      obtain ⟨k0, hk0, _⟩ := hL.reads hS hsure σ' M hM
      rw [if_neg (by omega)]
      refine ⟨trivial, .inr fun σ'' M' hs' hM' => ?_⟩
      simp only [Prune.step]
      obtain ⟨k1, hk1, _⟩ := hL.reads hS hsure σ'' M' hM'
      rw [if_neg (by omega), show List.drop (List.length (Node.mk i pth c k).path) (pth ++ b :: (z ++ r ++ w)) = b :: (z ++ r ++ w) from List.drop_left]
      have hb := tells_bound X here (hsub _ _ hM')
      exact ⟨trivial, (comes_loop (fun s hs3 => hstk s ((hs.trans hs').trans hs3))
        (fun s M3 k hs3 hM3 hk => hread σ'' M' s M3 k hM' hk hs3 hM3) _ 0 (Nat.zero_add _) σ'' (.refl _)).mono ((hB Nu).choose_spec _ hb)⟩

/-- … when the leaf has been added. -/
theorem comes_leafy (X : Setting v t as base plan site B) (hsub : ∀ σ M, R σ M → Tells t (Prune.mems base plan) site σ M ∧ 0 < σ j) (hj : site j = some (A, w))
    {a : Str} (hK : ∀ u P ch, (u, P) ∈ t.root.nodes [] → ch ∈ P.kids → u ++ ch.path <+: a → Sure (Prune.mems base plan) P ch) (n : Node α) :
    ∀ u word, (∀ q m, (q, m) ∈ n.nodes u → (q, m) ∈ t.root.nodes []) → (a, A) ∈ n.nodes u → u ++ word = a ++ w →
      ∃ N, ∀ σ par stk, Comes (Prune.step (.get p) d) R (Ends (t.next + 2 * j + 1)) N σ (.enter word n.id par stk) := by
  induction n using Node.ind with
  | h i pth c k ih =>
    intro u word hin hA hword
    have here : (u ++ pth, Node.mk i pth c k) ∈ t.root.nodes [] := hin _ _ ((Node.mem_nodes _ _ _).mpr (.inl rfl))
    have hwn := (Node.wf_iff _).mp (Node.wf_of_mem X.ok.wf here)
    have hL := (like_looks (plan := plan) (X := Joined site none) X.lays here).fewer fun s M h => tells_like (hsub s M h).1
    have hkid : ∀ e ∈ k, (u ++ pth ++ e.path, e) ∈ t.root.nodes [] := fun e he =>
      Node.nodes_trans here (by rw [Node.mem_nodesL]; exact ⟨e, he, by rw [Node.mem_nodes]; simp⟩)
    have hpath : ∀ e ∈ k, ∀ σ M, R σ M → (M e.id).path = e.path := fun e he σ M hM =>
      ((like_looks (plan := plan) (X := Joined site none) X.lays (hkid e he)).fewer fun s M h => tells_like (hsub s M h).1).path _ _ hM
    rcases (Node.mem_nodes _ _ _).mp hA with e | ⟨ch, hch, hA'⟩
    · obtain ⟨rfl, rfl⟩ := Prod.mk.inj e
      rw [List.append_assoc] at hword
      rw [List.append_cancel_left hword]
      obtain ⟨_, _, _, _, _, _, hw, hheads⟩ := X.sited.new j _ w hj
      obtain ⟨b, y, rfl⟩ := List.exists_cons_of_ne_nil hw
      have hslice : ∀ σ M, R σ M → (M i).arr = k.map Node.id ++ [t.next + 2 * j + 1] ∧ (M i).len = k.length + 1 := by
        intro σ M hM
        have := tells_slice X (hsub _ _ hM).1 hj
        rw [if_pos (hsub _ _ hM).2, if_pos (hsub _ _ hM).2] at this
        exact this
      have hloop : ∀ l m, l + m = k.length → ∀ σ stk, Comes (Prune.step (.get p) d) R (Ends (t.next + 2 * j + 1)) (3 * l + 1 + (0 + 1 + 1 + (b :: y).length + 1)) σ
          (.ret false false none none (⟨i, k.length + 1, m, b :: y⟩ :: stk)) := by
        intro l
        induction l with
        | zero =>
          intro m hm σ stk
          rw [show 3 * 0 + 1 + (0 + 1 + 1 + (b :: y).length + 1) = (0 + 1 + 1 + (b :: y).length + 1) + 1 by omega]
          refine .inr fun σ' M hs hM => ?_
          simp only [Prune.step, Bool.or_self, Bool.false_eq_true, if_false]
          rw [if_pos (by omega), (hslice σ' M hM).1]
          refine ⟨trivial, ?_⟩
          have e : (k.map Node.id ++ [t.next + 2 * j + 1]).getD m 0 = t.next + 2 * j + 1 := by
            have : m = k.length := by omega
            subst this
            simp [List.getD_eq_getElem?_getD, List.getElem?_append_right]
          rw [e]
          exact (comes_exact (n := .mk (t.next + 2 * j + 1) (b :: y) Core.zero []) (by simp)
            (fun s M' hM' => (tells_leaf X (hsub _ _ hM').1 hj (hsub _ _ hM').2).1)).weak fun r hr => ⟨_, _, hr⟩
        | succ l ihl =>
          intro m hm σ stk
          rw [show 3 * (l + 1) + 1 + (0 + 1 + 1 + (b :: y).length + 1) = (2 + (3 * l + 1 + (0 + 1 + 1 + (b :: y).length + 1))) + 1 by omega]
          refine .inr fun σ' M hs hM => ?_
          simp only [Prune.step, Bool.or_self, Bool.false_eq_true, if_false]
          rw [if_pos (by omega), (hslice σ' M hM).1]
          refine ⟨trivial, ?_⟩
          have hlt : m < k.length := by omega
          have e : (k.map Node.id ++ [t.next + 2 * j + 1]).getD m 0 = (k[m]).id := by
            simp [List.getD_eq_getElem?_getD, List.getElem?_append_left, hlt]
          rw [e]
          have hmem : k[m] ∈ k := List.getElem_mem hlt
          refine (comes_other (b := b) (y := y) (hwn.2 _ hmem).1 (hheads _ hmem) (hpath _ hmem) _ σ').trans fun s r hs' hr => ?_
          subst hr
          exact ihl (m + 1) (by omega) s stk
      refine ⟨(3 * k.length + 1 + (0 + 1 + 1 + (b :: y).length + 1) + 1 + 1) + 1 + 1 + pth.length + 1, fun σ par stk => ?_⟩
      refine comes_through (n := .mk i pth c k) (by simp) (by simp) rfl hL.path (.inr fun σ' M hs hM => ?_)
      simp only [Prune.step]
      rw [if_neg (by have := (hslice σ' M hM).2; simp only [Node.id_mk]; omega)]
      refine ⟨trivial, .inr fun σ'' M' hs' hM' => ?_⟩
      simp only [Prune.step]
      rw [if_neg (by have := (hslice σ'' M' hM').2; simp only [Node.id_mk]; omega), List.drop_left, show (M' (Node.mk i pth c k).id).len = k.length + 1 from (hslice σ'' M' hM').2]
      exact ⟨trivial, hloop _ 0 (by omega) σ'' stk⟩
    · obtain ⟨r, hr⟩ := Node.prefix_of_mem_nodes hA'
      obtain ⟨b, z, hz⟩ := List.exists_cons_of_ne_nil (hwn.2 ch hch).1
      have hword' : word = pth ++ (b :: (z ++ r ++ w)) := by
        refine List.append_cancel_left (as := u) ?_
        rw [hword, ← hr, hz]
        simp
      obtain ⟨N, hN⟩ := ih ch hch (u ++ pth) (b :: (z ++ r ++ w)) (fun q m hm => hin q m ((Node.mem_nodes _ _ _).mpr (.inr ⟨ch, hch, hm⟩))) hA' (by
        rw [← hr, hz]; simp)
      have hS := Prune.mems_shows (plan := plan) X.lays here
      have hsure := hK _ _ ch here hch ⟨r, hr⟩
      refine ⟨(N + 3 * k.length + 1) + 1 + 1 + 1 + 1 + pth.length + 1, fun σ par stk => ?_⟩
      rw [hword']
      refine comes_through (n := .mk i pth c k) (by simp) (by simp) rfl hL.path (.inr fun σ' M hs hM => ?_)
      simp only [Prune.step]
      obtain ⟨k0, hk0, _⟩ := hL.reads hS hsure σ' M hM
      rw [if_neg (by omega)]
      refine ⟨trivial, .inr fun σ'' M' hs' hM' => ?_⟩
      simp only [Prune.step]
      obtain ⟨k1, hk1, hk2, hat, hel⟩ := hL.reads hS hsure σ'' M' hM'
      rw [if_neg (by omega), show List.drop (List.length (Node.mk i pth c k).path) (pth ++ b :: (z ++ r ++ w)) = b :: (z ++ r ++ w) from List.drop_left]
      exact ⟨trivial, Comes.mono (by simp only [Node.kids_mk] at hk2; omega) (comes_sure (n := .mk i pth c k) (Node.wf_of_mem X.ok.wf here) hch (by rw [hz]; rfl) hpath
        (fun σ stk => hN σ _ stk) k1 0 (by omega) hk1 σ'' hel hat)⟩
end

theorem comes_hunts_at {c : Call} {d : Char} {R : (Nat → Nat) → Mem α → Prop} {Q : Pc α → Prop} {s : Nat → Nat} {M : Mem α} (hM : R s M) (hQ : ∀ r, Q r → hunts r = true) :
    ∀ (b : Nat) (pc : Pc α), Comes (Prune.step c d) R Q b s pc → hunts pc = true
  | 0, pc, h => hQ pc h
  | b + 1, pc, h => by
    rcases h with h | h
    · exact hQ pc h
    · have := comes_hunts_at hM hQ b _ (h s M (.refl s) hM).2
      cases e : hunts pc with
      | true => rfl
      | false => rw [hunts_step e] at this; cases this

/-- Who is to find nothing has not found anything. -/
theorem not_ends {p : Str} {d : Char} {R : (Nat → Nat) → Mem α → Prop} {s : Nat → Nat} {M : Mem α} (hM : R s M) {i b : Nat} {pc : Pc α}
    (h : Comes (Prune.step (.get p) d) R (Quits p d) b s pc) : ¬ Ends i pc := by
  rintro ⟨par, stk, rfl⟩
  have hq : ¬ Quits p d (.ret true false (some i) par stk : Pc α) := fun h => by
    have : (Pc.branch i : Pc α) = .done ansNone := h.2 M
    cases this
  cases b with
  | zero => exact hq h
  | succ b =>
    rcases h with h | h
    · exact hq h
    · have := comes_hunts_at hM (fun r hr => hr.1) b (.branch i) (h s M (.refl s) hM).2
      cases this

/-- How far the goroutines have come: those that add leaves have done so, or not. -/
def ranks (site : Site α) (s : Nat → Nat) (ext : Nat → List Nat) (k : Nat) : Nat :=
  s k + match site k with
    | none => 0
    | some (A, _) => (ext A.id).length

omit [Inhabited α] in
theorem ranks_up {site : Site α} {s s' : Nat → Nat} {ext ext' : Nat → List Nat} (hs : Up s s') (he : ∀ i, ext i ≠ [] → ext' i = ext i) :
    Up (ranks site s ext) (ranks site s' ext') := by
  intro k
  have := hs k
  unfold ranks
  cases site k with
  | none => simp only; omega
  | some y =>
    simp only
    by_cases h : ext y.1.id = []
    · rw [h]; simp only [List.length_nil]; omega
    · rw [he _ h]; omega

section
variable {v : View} {t : Tree α} {as : List (Act α)} {base : Mem α} {plan : Nat → Option Task} {site : Site α} {B : Nat → Nat}
  {S : List Nat} {s : Nat → Nat} {ext : Nat → List Nat} {g : Nat → Core α → Core α} {W : World α}

theorem Setting.plan_none (X : Setting v t as base plan site B) {k : Nat} {A : Node α} {w : Str} (h : site k = some (A, w)) : plan k = none := by
  cases e : plan k with
  | none => rfl
  | some T =>
    obtain ⟨p, h1⟩ := X.plans k T e
    obtain ⟨p', x', h2, _⟩ := X.sited.new k A w h
    rw [h1] at h2
    cases h2

/-- What holds of a goroutine that adds a leaf. -/
theorem Blend.leaf (X : Setting v t as base plan site B) (I : Blend v t as base plan site B S s ext g W) {k : Nat} {p : Str} {x : α} {A : Node α} {w : Str}
    (ha : as[k]? = some (.set p x)) (hk : site k = some (A, w)) :
    (ranks site s ext k = 0 ∧ ext A.id = [] ∧ (W.gs k).outs = []) ∨
    (0 < ranks site s ext k ∧ ext A.id = [t.next + 2 * k + 1] ∧ (W.gs k).todo = [] ∧ W.mem (t.next + 2 * k + 1) = leafCell w (jobOf v t k p x)) := by
  have r := (I.all k).new p x A w ha hk
  have h0 : s k = 0 := I.idles k (X.plan_none hk)
  have e : ranks site s ext k = (ext A.id).length := by
    unfold ranks
    rw [hk, h0]
    simp
  rw [e]
  generalize W.gs k = G at r
  generalize W.mem (t.next + 2 * k + 1) = c at r
  generalize ext A.id = l at r
  cases r with
  | idle hn he => exact .inl ⟨by rw [he]; rfl, he, rfl⟩
  | finds f b pc h hn he => exact .inl ⟨by rw [he]; rfl, he, rfl⟩
  | link f hn he hc => exact .inl ⟨by rw [he]; rfl, he, rfl⟩
  | fin f hn he hc => exact .inr ⟨(by rw [he]; exact Nat.one_pos), he, rfl, hc⟩
  | done f he hc => exact .inr ⟨(by rw [he]; exact Nat.one_pos), he, rfl, hc⟩

theorem mems_ranks (X : Setting v t as base plan site B) : Prune.mems base plan (ranks site s ext) = Prune.mems base plan s := by
  funext i
  cases h : Prune.who plan i with
  | none => simp only [Prune.mems, h]
  | some y =>
    obtain ⟨k, T⟩ := y
    have hT := (Prune.who_some h).1
    have : ranks site s ext k = s k := by
      unfold ranks
      cases e : site k with
      | none => rfl
      | some y => rw [X.plan_none e] at hT; cases hT
    simp only [Prune.mems, h, this]

theorem Blend.tells (X : Setting v t as base plan site B) (I : Blend v t as base plan site B S s ext g W) :
    Tells t (Prune.mems base plan) site (ranks site s ext) W.mem := by
  refine ⟨ext, g, by rw [mems_ranks X]; exact I.grown, fun i => ?_⟩
  have leaf : ∀ k A w, site k = some (A, w) → (ranks site s ext k = 0 ∧ ext A.id = []) ∨
      (0 < ranks site s ext k ∧ ext A.id = [t.next + 2 * k + 1] ∧ (W.mem (t.next + 2 * k + 1)).path = w ∧ (W.mem (t.next + 2 * k + 1)).len = 0) := by
    intro k A w hk
    obtain ⟨p, x, ha, _⟩ := X.sited.new k A w hk
    rcases I.leaf X ha hk with ⟨h1, h2, _⟩ | ⟨h1, h2, _, h3⟩
    · exact .inl ⟨h1, h2⟩
    · exact .inr ⟨h1, h2, (by rw [h3]; rfl), by rw [h3]; rfl⟩
  by_cases he : ext i = []
  · refine .inl ⟨he, fun k A w hk hA => ?_⟩
    rcases leaf k A w hk with h1 | ⟨_, h1, _⟩
    · exact h1.1
    · rw [hA, he] at h1; cases h1
  · obtain ⟨k, A, w, _, hk, hA⟩ := I.exts i he
    rcases leaf k A w hk with ⟨_, h1⟩ | ⟨h1, h2, h3⟩
    · rw [hA] at h1; exact absurd h1 he
    · exact .inr ⟨k, A, w, hk, hA, h1, hA ▸ h2, h3⟩
end

end Parts
end Verif

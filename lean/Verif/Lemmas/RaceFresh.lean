import Verif.Lemmas.RaceComes
import Verif.Spec.RaceFresh
/-
`Set` for new keys, while children of other nodes are removed.
-/
namespace Verif
namespace Parts
variable {α : Type} [Inhabited α]
open Prune (Cell Mem Pc Call Up Shows Sure Task Loop)
open Race (Job)

/-- The memory has the nodes of the tree with the slices of `m`, with other cores, and with more children. -/
def Grown (t : Tree α) (m : Mem α) (ext : Nat → List Nat) (g : Nat → Core α → Core α) (M : Mem α) : Prop :=
  ∀ q n, (q, n) ∈ t.root.nodes [] → M n.id = ⟨n.path, g n.id n.core, (m n.id).arr ++ ext n.id, (m n.id).len + (ext n.id).length⟩

/-- … only at the nodes in `X`. -/
def Like (t : Tree α) (ms : (Nat → Nat) → Mem α) (X : Nat → Prop) (s : Nat → Nat) (M : Mem α) : Prop :=
  ∃ ext g, Grown t (ms s) ext g M ∧ ∀ i, ext i ≠ [] → X i

section
variable {t : Tree α} {base : Mem α} {plan : Nat → Option Task} {X : Nat → Prop}

theorem like_looks (hl : Prune.Lays base t) {q : Str} {m : Node α} (hm : (q, m) ∈ t.root.nodes []) :
    Looks (Like t (Prune.mems base plan) X) (Prune.mems base plan) m := by
  refine ⟨?_, ?_, ?_, ?_, fun s => mems_len hl hm s, fun s s' => ?_⟩
  · rintro s M ⟨ext, g, h, _⟩
    rw [h q m hm]
  · rintro s M k ⟨ext, g, h, _⟩ hk
    rw [h q m hm]
    simp only [List.getD_eq_getElem?_getD, List.getElem?_append_left hk]
  · rintro s M ⟨ext, g, h, _⟩
    rw [h q m hm]
    simp
  · rintro s M ⟨ext, g, h, _⟩
    rw [h q m hm]
    exact Nat.le_add_right _ _
  · rcases Prune.mems_cell (plan := plan) hl hm with h | ⟨k, T, _, _, h⟩
    · rw [h, h]
    · rw [h, h]
      simp only [Prune.slid, Prune.slide_length]

theorem like_self (hl : Prune.Lays base t) (s : Nat → Nat) : Like t (Prune.mems base plan) X s (Prune.mems base plan s) := by
  refine ⟨fun _ => [], fun _ c => c, fun q m hm => ?_, fun i h => absurd rfl h⟩
  have h1 := Prune.mems_path (base := base) (plan := plan) s m.id
  have h2 := Prune.mems_core (base := base) (plan := plan) s m.id
  rw [hl q m hm] at h1 h2
  generalize Prune.mems base plan s m.id = c at h1 h2
  cases c
  simp only [Prune.cellOf] at h1 h2
  subst h1 h2
  simp

/-- A step of a removal after the search reads and writes only the slice of one node. -/
theorem late_like {c : Call} {d : Char} {T : Task} {b : Nat} {pc : Pc α} (h : Prune.Doing T b pc) {M M' : Mem α}
    (h1 : (M T.par).arr = (M' T.par).arr) (h2 : (M T.par).len = (M' T.par).len) :
    (Prune.step c d M pc).2 = (Prune.step c d M' pc).2 ∧
    (∀ i, i ≠ T.par → (Prune.step c d M pc).1 i = M i ∧ (Prune.step c d M' pc).1 i = M' i) ∧
    (Prune.step c d M pc).1 T.par = { M T.par with arr := ((Prune.step c d M' pc).1 T.par).arr, len := ((Prune.step c d M' pc).1 T.par).len } := by
  cases h with
  | pick b hb => simp only [Prune.step, h2]; exact ⟨trivial, fun _ _ => ⟨trivial, trivial⟩, by rw [← h1, ← h2]⟩
  | scan j b hj hb => simp only [Prune.step, h1]; exact ⟨trivial, fun _ _ => ⟨trivial, trivial⟩, by rw [← h1, ← h2]⟩
  | cut b hb => simp only [Prune.step, h2]; exact ⟨trivial, fun _ _ => ⟨trivial, trivial⟩, by rw [← h1, ← h2]⟩
  | move j b hj hb =>
    simp only [Prune.step]
    by_cases e : j < T.n - (T.ix + 1)
    · rw [if_pos e, if_pos e]
      refine ⟨rfl, fun i hi => ⟨if_neg hi, if_neg hi⟩, ?_⟩
      simp only [Mem.set, if_true, h1, h2]
    · rw [if_neg e, if_neg e]
      refine ⟨rfl, fun i hi => ⟨if_neg hi, if_neg hi⟩, ?_⟩
      simp only [Mem.set, if_true, h1]
  | gone b => exact ⟨rfl, fun _ _ => ⟨rfl, rfl⟩, by simp only [Prune.step, ← h1, ← h2]⟩
end

/-! ### The goroutines -/

/-- The search of a removal. -/
abbrev Searches (t : Tree α) (base : Mem α) (plan : Nat → Option Task) (X : Nat → Prop) (v : View) (p : Str) (k : Nat) (T : Task) :
    Nat → (Nat → Nat) → Pc α → Prop :=
  Comes (Prune.step (.remove p) v.delim) (Like t (Prune.mems base (Prune.but plan k)) X)
    (fun r => ∃ stk, r = .ret true false (some T.item) (some T.par) stk)

/-- The way of `Set` to a state. -/
abbrev Goes (t : Tree α) (base : Mem α) (plan : Nat → Option Task) (X : Nat → Prop) (J : Job α) (r : SetPc) : Nat → (Nat → Nat) → SetPc → Prop :=
  Comes (insStep J) (Like t (Prune.mems base plan) X) (fun r' => r' = r)

section
variable (t : Tree α) (base : Mem α) (plan : Nat → Option Task) (v : View)

/-- A goroutine with a `Remove`, after `n` steps. -/
inductive TakeSt (X : Nat → Prop) (p : Str) (k : Nat) (T : Task) (B n : Nat) (s : Nat → Nat) : Gor α → Prop
  | idle (f) (hn : n = 0) (hs : s k = 0) : TakeSt X p k T B n s ⟨v, [.remove p], .idle, [], f⟩
  | search (f b pc) (h : Searches t base plan X v p k T b s pc) (hn : n + b + 2 * T.n + 6 ≤ B) (hs : s k = 0) :
    TakeSt X p k T B n s ⟨v, [], .asks (.remove p) pc, [], f⟩
  | late (f b pc) (h : Prune.Doing T b pc) (hn : n + b ≤ B) (hs : s k = Prune.stage T pc) :
    TakeSt X p k T B n s ⟨v, [], .asks (.remove p) pc, [], f⟩
  | done (f) (hs : s k = T.n - T.ix) : TakeSt X p k T B n s ⟨v, [], .idle, [.removed true], f⟩

/-- A goroutine with a `Set` for the path of the node `i`; `gi` is what it has done to the node. -/
inductive PutSt (X : Nat → Prop) (p : Str) (J : Job α) (i B n : Nat) (s : Nat → Nat) (gi : Core α → Core α) : Gor α → Prop
  | idle (hn : n = 0) (hg : gi = fun c => c) : PutSt X p J i B n s gi ⟨v, [.set p J.val], .idle, [], J.fresh⟩
  | finds (f b pc) (h : Goes t base plan X J (.mark i) b s pc) (hn : n + b + 4 ≤ B) (hg : gi = fun c => c) :
    PutSt X p J i B n s gi ⟨v, [], .sets J pc, [], f⟩
  | store (f) (hn : n + 3 ≤ B) (hg : gi = fun c => { c with hasData := true }) : PutSt X p J i B n s gi ⟨v, [], .sets J (.store i), [], f⟩
  | fin (f) (hn : n + 2 ≤ B) (hg : gi = fun c => { c with hasData := true, data := J.val }) : PutSt X p J i B n s gi ⟨v, [], .sets J .done, [], f⟩
  | done (f) (hg : gi = fun c => { c with hasData := true, data := J.val }) : PutSt X p J i B n s gi ⟨v, [], .idle, [.stored], f⟩

/-- A goroutine with a `Set` that adds a leaf with the path `w` to `A`; `e` is what has been added, and `c` is in the memory of the leaf. -/
inductive LeafSt (X : Nat → Prop) (p : Str) (J : Job α) (A : Node α) (w : Str) (B n : Nat) (s : Nat → Nat) (e : List Nat) (c : Cell α) : Gor α → Prop
  | idle (hn : n = 0) (he : e = []) : LeafSt X p J A w B n s e c ⟨v, [.set p J.val], .idle, [], J.fresh⟩
  | finds (f b pc) (h : Goes t base plan X J (.leaf w A.id) b s pc) (hn : n + b + 4 ≤ B) (he : e = []) :
    LeafSt X p J A w B n s e c ⟨v, [], .sets J pc, [], f⟩
  | link (f) (hn : n + 3 ≤ B) (he : e = []) (hc : c = leafCell w J) : LeafSt X p J A w B n s e c ⟨v, [], .sets J (.link A.id (A.kids.map Node.id)), [], f⟩
  | fin (f) (hn : n + 2 ≤ B) (he : e = [J.fresh + 1]) (hc : c = leafCell w J) : LeafSt X p J A w B n s e c ⟨v, [], .sets J .done, [], f⟩
  | done (f) (he : e = [J.fresh + 1]) (hc : c = leafCell w J) : LeafSt X p J A w B n s e c ⟨v, [], .idle, [.stored], f⟩
end

section
variable {t : Tree α} {base : Mem α} {plan : Nat → Option Task} {v : View} {X : Nat → Prop} {p : Str} {k B n : Nat} {s s' : Nat → Nat} {G : Gor α}

theorem TakeSt.up {T : Task} (hs : Up s s') (hk : s' k = s k) (h : TakeSt t base plan v X p k T B n s G) : TakeSt t base plan v X p k T B n s' G := by
  cases h with
  | idle f a b => exact .idle f a (hk.trans b)
  | search f b pc h hn h0 => exact .search f b pc (h.up hs) hn (hk.trans h0)
  | late f b pc h hn h0 => exact .late f b pc h hn (hk.trans h0)
  | done f h0 => exact .done f (hk.trans h0)

theorem PutSt.up {J : Job α} {i : Nat} {gi : Core α → Core α} (hs : Up s s') (h : PutSt t base plan v X p J i B n s gi G) :
    PutSt t base plan v X p J i B n s' gi G := by
  cases h with
  | idle a b => exact .idle a b
  | finds f b pc hf hn hg => exact .finds f b pc (hf.up hs) hn hg
  | store f hn hg => exact .store f hn hg
  | fin f hn hg => exact .fin f hn hg
  | done f hg => exact .done f hg

theorem LeafSt.up {J : Job α} {A : Node α} {w : Str} {e : List Nat} {c : Cell α} (hs : Up s s') (h : LeafSt t base plan v X p J A w B n s e c G) :
    LeafSt t base plan v X p J A w B n s' e c G := by
  cases h with
  | idle a b => exact .idle a b
  | finds f b pc hf hn hg => exact .finds f b pc (hf.up hs) hn hg
  | link f hn hg hc => exact .link f hn hg hc
  | fin f hn hg hc => exact .fin f hn hg hc
  | done f hg hc => exact .done f hg hc

theorem asks_step {root gap : Nat} {M : Mem α} {c : Call} {pc : Pc α} {f : Nat} {todo : List (Act α)} {outs : List (Out α)}
    (h1 : ∀ a, pc ≠ .done a) (h2 : ∀ b, pc ≠ .gone b) : Gor.step root gap M ⟨v, todo, .asks c pc, outs, f⟩ =
      ((Prune.step c v.delim M pc).1, ⟨v, todo, .asks c (Prune.step c v.delim M pc).2, outs, f⟩) := by
  cases pc with
  | done a => exact absurd rfl (h1 a)
  | gone b => exact absurd rfl (h2 b)
  | _ => rfl

theorem sets_step {root gap : Nat} {M : Mem α} {J : Job α} {pc : SetPc} {f : Nat} {todo : List (Act α)} {outs : List (Out α)}
    (h : pc ≠ .done) : Gor.step root gap M ⟨v, todo, .sets J pc, outs, f⟩ =
      ((insStep J M pc).1, ⟨v, todo, .sets J (insStep J M pc).2, outs, f⟩) := by
  cases pc with
  | done => exact absurd rfl h
  | _ => rfl
end

theorem goes_fixed {t : Tree α} {base : Mem α} {plan : Nat → Option Task} {X : Nat → Prop} {J : Job α} {r r' : SetPc} {b : Nat} {s : Nat → Nat}
    (hl : Prune.Lays base t) (h : Goes t base plan X J r b s r') (hf : ∀ M : Mem α, insStep J M r' = (M, r')) : r' = r :=
  Comes.fixed (Q := fun r' => r' = r) hf (fun s => ⟨_, like_self hl s⟩) h

/-! ### All goroutines -/

/-- To which nodes the calls add leaves. -/
abbrev Site (α : Type) := Nat → Option (Node α × Str)

/-- The nodes to which leaves are added, by others than goroutine `l`. -/
def Joined (site : Site α) (l : Option Nat) (i : Nat) : Prop := ∃ (k : Nat) (A : Node α) (w : Str), some k ≠ l ∧ site k = some (A, w) ∧ A.id = i

/-- What the sites are. -/
structure Sited (v : View) (t : Tree α) (as : List (Act α)) (site : Site α) : Prop where
  new : ∀ k A w, site k = some (A, w) → ∃ p x, as[k]? = some (.set p x) ∧ Leaves t (View.dash (v.full p)) A w
  old : ∀ (k : Nat) p x, as[k]? = some (.set p x) → site k = none → ∃ m, (View.dash (v.full p), m) ∈ t.root.nodes []

omit [Inhabited α] in
theorem sited {t : Tree α} (h : t.OK) {v : View} {as : List (Act α)} (hj : Joins v t as) : ∃ site, Sited v t as site := by
  have : ∀ k : Nat, ∃ o : Option (Node α × Str), (∀ A w, o = some (A, w) → ∃ p x, as[k]? = some (.set p x) ∧ Leaves t (View.dash (v.full p)) A w) ∧
      ∀ p x, as[k]? = some (.set p x) → o = none → ∃ m, (View.dash (v.full p), m) ∈ t.root.nodes [] := by
    intro k
    cases ha : as[k]? with
    | none => exact ⟨none, (by intro A w e; cases e), by intro p x e; cases e⟩
    | some a =>
      cases a with
      | get p => exact ⟨none, (by intro A w e; cases e), by intro p x e; cases e⟩
      | remove p => exact ⟨none, (by intro A w e; cases e), by intro p x e; cases e⟩
      | set p x =>
        rcases hj.keys p x (List.mem_of_getElem? ha) with h1 | ⟨A, w, h1⟩
        · refine ⟨none, (by intro A w e; cases e), fun p' x' e _ => ?_⟩
          cases e
          exact stored_node h h1
        · refine ⟨some (A, w), fun A' w' e => ?_, by intro p x _ e; cases e⟩
          cases e
          exact ⟨p, x, rfl, h1⟩
  exact ⟨fun k => (this k).choose, ⟨fun k => (this k).choose_spec.1, fun k => (this k).choose_spec.2⟩⟩

/-- Where goroutine `k` stands. -/
structure St (v : View) (t : Tree α) (as : List (Act α)) (base : Mem α) (plan : Nat → Option Task) (site : Site α) (B : Nat → Nat)
    (n : Nat) (s : Nat → Nat) (ext : Nat → List Nat) (g : Nat → Core α → Core α) (M : Mem α) (k : Nat) (G : Gor α) : Prop where
  none : as[k]? = none → GetSt G
  get : ∀ p, as[k]? = some (.get p) → GetSt G
  rem : ∀ p T, as[k]? = some (.remove p) → plan k = some T → TakeSt t base plan v (Joined site .none) p k T (B k) n s G
  set : ∀ p x, as[k]? = some (.set p x) → site k = .none → PutSt t base plan v (Joined site .none) p (jobOf v t k p x)
    (idAt t (View.dash (v.full p))) (B k) n s (g (idAt t (View.dash (v.full p)))) G
  new : ∀ p x A w, as[k]? = some (.set p x) → site k = some (A, w) → LeafSt t base plan v (Joined site (some k)) p (jobOf v t k p x) A w (B k) n s
    (ext A.id) (M (t.next + 2 * k + 1)) G

/-- All that holds while the goroutines run. -/
structure Blend (v : View) (t : Tree α) (as : List (Act α)) (base : Mem α) (plan : Nat → Option Task) (site : Site α) (B : Nat → Nat)
    (S : List Nat) (s : Nat → Nat) (ext : Nat → List Nat) (g : Nat → Core α → Core α) (W : World α) : Prop where
  grown : Grown t (Prune.mems base plan s) ext g W.mem
  exts : ∀ i, ext i ≠ [] → Joined site none i
  cores : ∀ i, (∀ (k : Nat) p x, as[k]? = some (.set p x) → site k = none → idAt t (View.dash (v.full p)) ≠ i) → g i = fun c => c
  idles : ∀ k, plan k = none → s k = 0
  all : ∀ k, St v t as base plan site B (S.count k) s ext g W.mem k (W.gs k)

section
variable {v : View} {t : Tree α} {as : List (Act α)} {base : Mem α} {plan : Nat → Option Task} {site : Site α} {B : Nat → Nat}
  {S : List Nat} {s : Nat → Nat} {ext : Nat → List Nat} {g : Nat → Core α → Core α} {W : World α}

/-- A step of goroutine `k`: the others stand where they were. -/
theorem Blend.next (I : Blend v t as base plan site B S s ext g W) {root gap k : Nat} {s' : Nat → Nat} {ext' : Nat → List Nat}
    {g' : Nat → Core α → Core α} {M' : Mem α} {G' : Gor α} (hstep : (W.gs k).step root gap W.mem = (M', G'))
    (hs : Up s s') (hs' : ∀ l, l ≠ k → s' l = s l) (hidle : ∀ l, plan l = none → s' l = 0)
    (hg : ∀ (l : Nat) p x, l ≠ k → as[l]? = some (.set p x) → site l = none → g' (idAt t (View.dash (v.full p))) = g (idAt t (View.dash (v.full p))))
    (he : ∀ (l : Nat) A w, l ≠ k → site l = some (A, w) → ext' A.id = ext A.id ∧ M' (t.next + 2 * l + 1) = W.mem (t.next + 2 * l + 1))
    (hM : Grown t (Prune.mems base plan s') ext' g' M') (hexts : ∀ i, ext' i ≠ [] → Joined site none i)
    (hcores : ∀ i, (∀ (k : Nat) p x, as[k]? = some (.set p x) → site k = none → idAt t (View.dash (v.full p)) ≠ i) → g' i = fun c => c)
    (hk : St v t as base plan site B (S.count k + 1) s' ext' g' M' k G') :
    Blend v t as base plan site B (S ++ [k]) s' ext' g' (W.tick root gap k) := by
  have hmem : (W.tick root gap k).mem = M' := congrArg Prod.fst hstep
  refine ⟨hmem ▸ hM, hexts, hcores, hidle, fun l => ?_⟩
  by_cases e : l = k
  · subst e
    have h1 : (W.tick root gap l).gs l = G' := (if_pos rfl).trans (congrArg Prod.snd hstep)
    have h2 : (S ++ [l]).count l = S.count l + 1 := by simp [List.count_append]
    rw [h1, h2, hmem]
    exact hk
  · have h1 : (W.tick root gap k).gs l = W.gs l := if_neg e
    have h2 : (S ++ [k]).count l = S.count l := by simp [List.count_append, List.count_cons, Ne.symm e]
    rw [h1, h2, hmem]
    have a := I.all l
    refine ⟨a.none, a.get, fun p T h1 h2 => (a.rem p T h1 h2).up hs (hs' l e), fun p x h1 h2 => ?_, fun p x A w h1 h2 => ?_⟩
    · rw [hg l p x e h1 h2]; exact (a.set p x h1 h2).up hs
    · rw [(he l A w e h2).1, (he l A w e h2).2]; exact (a.new p x A w h1 h2).up hs

/-- What the proofs need of the tree and the calls. -/
structure Setting (v : View) (t : Tree α) (as : List (Act α)) (base : Mem α) (plan : Nat → Option Task) (site : Site α) (B : Nat → Nat) : Prop where
  ok : t.OK
  lays : Prune.Lays base t
  fits : Prune.Fits base plan
  sited : Sited v t as site
  pars : ∀ k T, plan k = some T → ∃ u P, (u, P) ∈ t.root.nodes [] ∧ P.id = T.par
  still : ∀ k T l A w, plan k = some T → site l = some (A, w) → T.par ≠ A.id
  plans : ∀ k T, plan k = some T → ∃ p, as[k]? = some (.remove p)
  old : ∀ (j k : Nat) (p : Str) (x : α) (p' : Str) (x' : α), as[j]? = some (.set p x) → as[k]? = some (.set p' x') →
    site j = none → site k = none → idAt t (View.dash (v.full p)) = idAt t (View.dash (v.full p')) → j = k
  sites : ∀ j k A w A' w', site j = some (A, w) → site k = some (A', w') → A.id = A'.id → j = k
  rem : ∀ (k : Nat) p T, as[k]? = some (.remove p) → plan k = some T → ∃ b, b + 2 * T.n + 7 ≤ B k ∧
    ∀ s, Searches t base plan (Joined site none) v p k T b s (.enter (v.full p) t.root.id none [])
  set : ∀ (k : Nat) p x, as[k]? = some (.set p x) → site k = none → ∃ b, b + 5 ≤ B k ∧
    ∀ s, Goes t base plan (Joined site none) (jobOf v t k p x) (.mark (idAt t (View.dash (v.full p)))) b s (.enter (View.dash (v.full p)) t.root.id)
  new : ∀ (k : Nat) p x A w, as[k]? = some (.set p x) → site k = some (A, w) → ∃ b, b + 5 ≤ B k ∧
    ∀ s, Goes t base plan (Joined site (some k)) (jobOf v t k p x) (.leaf w A.id) b s (.enter (View.dash (v.full p)) t.root.id)

/-- Nothing but the state of goroutine `k` changes. -/
theorem Blend.quiet (I : Blend v t as base plan site B S s ext g W) {root gap k : Nat} {G' : Gor α}
    (hstep : (W.gs k).step root gap W.mem = (W.mem, G')) (hk : St v t as base plan site B (S.count k + 1) s ext g W.mem k G') :
    Blend v t as base plan site B (S ++ [k]) s ext g (W.tick root gap k) :=
  I.next hstep (.refl s) (fun _ _ => rfl) I.idles (fun _ _ _ _ _ _ => rfl) (fun _ _ _ _ _ => ⟨rfl, rfl⟩) I.grown I.exts I.cores hk

theorem Setting.par_ne (X : Setting v t as base plan site B) {k : Nat} {T : Task} (h : plan k = some T) (l : Nat) : t.next + 2 * l + 1 ≠ T.par := by
  obtain ⟨u, P, h1, h2⟩ := X.pars k T h
  have := X.ok.lt _ h1
  simp only at this
  omega

theorem Blend.no_ext (X : Setting v t as base plan site B) (I : Blend v t as base plan site B S s ext g W) {k : Nat} {T : Task}
    (h : plan k = some T) : ext T.par = [] := by
  cases e : ext T.par with
  | nil => rfl
  | cons a as =>
    obtain ⟨l, A, w, _, h1, h2⟩ := I.exts T.par (by rw [e]; simp)
    exact absurd h2.symm (X.still k T l A w h h1)

theorem Blend.tick_rem (X : Setting v t as base plan site B) (I : Blend v t as base plan site B S s ext g W) (gap : Nat) {k : Nat} {p : Str}
    {T : Task} (ha : as[k]? = some (.remove p)) (hT : plan k = some T) :
    ∃ s', Up s s' ∧ Blend v t as base plan site B (S ++ [k]) s' ext g (W.tick t.root.id gap k) := by
  have st : ∀ {s' : Nat → Nat} {M' : Mem α} {G' : Gor α}, TakeSt t base plan v (Joined site none) p k T (B k) (S.count k + 1) s' G' →
      St v t as base plan site B (S.count k + 1) s' ext g M' k G' := fun h =>
    ⟨fun e => (by rw [ha] at e; cases e), fun _ e => (by rw [ha] at e; cases e), fun p' T' e e' => (by rw [ha] at e; rw [hT] at e'; cases e; cases e'; exact h),
      fun _ _ e => (by rw [ha] at e; cases e), fun _ _ _ _ e => by rw [ha] at e; cases e⟩
  have r := (I.all k).rem p T ha hT
  have hne := I.no_ext X hT
  obtain ⟨u, P, hP, hPid⟩ := X.pars k T hT
  generalize hG : W.gs k = G at r
  cases r with
  | idle f hn hs =>
    obtain ⟨b, hb, hc⟩ := X.rem k p T ha hT
    exact ⟨s, .refl s, I.quiet (G' := ⟨v, [], .asks (.remove p) (.enter (v.full p) t.root.id none []), [], f⟩) (by rw [hG]; rfl)
      (st (.search f b _ (hc s) (by omega) hs))⟩
  | done f hs => exact ⟨s, .refl s, I.quiet (G' := ⟨v, [], .idle, [.removed true], f⟩) (by rw [hG]; rfl) (st (.done f hs))⟩
  | search f b pc h hn hs =>
    have nf : ∀ pc', (∀ M, Prune.step (.remove p) v.delim M pc' = (M, pc')) → (∀ stk, pc' ≠ .ret true false (some T.item) (some T.par) stk) → pc ≠ pc' := by
      rintro pc' h1 h2 rfl
      obtain ⟨stk, e⟩ := h.fixed h1 fun s => ⟨_, like_self X.lays s⟩
      exact h2 stk e
    have hstep := asks_step (v := v) (root := t.root.id) (gap := gap) (M := W.mem) (c := .remove p) (pc := pc) (f := f) (todo := []) (outs := [])
      (fun a => nf _ (fun _ => rfl) (by intro stk e; cases e)) (fun b => nf _ (fun _ => rfl) (by intro stk e; cases e))
    have hq : (∃ stk, pc = .ret true false (some T.item) (some T.par) stk) ∨ ∃ b', b = b' + 1 ∧ ∀ s' M, Up s s' →
        Like t (Prune.mems base (Prune.but plan k)) (Joined site none) s' M → (Prune.step (.remove p) v.delim M pc).1 = M ∧
          Searches t base plan (Joined site none) v p k T b' s' (Prune.step (.remove p) v.delim M pc).2 := by
      cases b with
      | zero => exact .inl h
      | succ b => exact h.imp id fun h => ⟨b, rfl, h⟩
    rcases hq with ⟨stk, rfl⟩ | ⟨b', rfl, h'⟩
    · exact ⟨s, .refl s, I.quiet (G' := ⟨v, [], .asks (.remove p) (.pick T.par T.item), [], f⟩) (by rw [hG]; rfl)
        (st (.late f (2 * T.n + 5) _ (.pick _ (Nat.le_refl _)) (by omega) hs))⟩
    · obtain ⟨e1, e2⟩ := h' s W.mem (.refl s) ⟨ext, g, by rw [← X.fits.but hs]; exact I.grown, I.exts⟩
      rw [e1] at hstep
      exact ⟨s, .refl s, I.quiet (by rw [hG]; exact hstep) (st (.search f b' _ e2 (by omega) hs))⟩
  | late f b pc h hn hs =>
    by_cases hgone : pc = .gone true
    · subst hgone
      exact ⟨s, .refl s, I.quiet (G' := ⟨v, [], .idle, [.removed true], f⟩) (by rw [hG]; rfl) (st (.done f hs))⟩
    have hstep := asks_step (v := v) (root := t.root.id) (gap := gap) (M := W.mem) (c := .remove p) (pc := pc) (f := f) (todo := []) (outs := [])
      (fun a e => by subst e; cases h) (fun b e => by subst e; cases h; exact hgone rfl)
    have hb : 1 ≤ b := by cases h with
      | gone b => exact absurd rfl hgone
      | _ => omega
    have hcell := I.grown u P hP
    rw [hPid, hne] at hcell
    have m1 : (W.mem T.par).arr = (Prune.mems base plan s T.par).arr := by rw [hcell]; simp
    have m2 : (W.mem T.par).len = (Prune.mems base plan s T.par).len := by rw [hcell]; simp
    obtain ⟨l1, l2, l3⟩ := late_like (c := .remove p) (d := v.delim) h m1 m2
    obtain ⟨d1, d2, d3⟩ := Prune.doing_step (d := v.delim) X.fits hT (p := p) h hs
    let s' : Nat → Nat := fun l => if l = k then Prune.stage T (Prune.step (.remove p) v.delim (Prune.mems base plan s) pc).2 else s l
    have s1 : ∀ l, l ≠ k → s' l = s l := fun l e => if_neg e
    have s2 : s' k = Prune.stage T (Prune.step (.remove p) v.delim (Prune.mems base plan s) pc).2 := if_pos rfl
    have hup : Up s s' := by
      intro l
      by_cases e : l = k
      · rw [e, s2, hs]; exact d2
      · rw [s1 l e]; exact Nat.le_refl _
    have hm := d3 s' s1 s2
    refine ⟨s', hup, I.next (by rw [hG]; exact hstep) hup s1 (fun l hl => ?_) (fun _ _ _ _ _ _ => rfl) (fun l A w e hl => ⟨rfl, (l2 _ (X.par_ne hT l)).1⟩)
      (fun q m hm' => ?_) I.exts I.cores (st (.late f (b - 1) _ (l1 ▸ d1) (by omega) (by rw [s2, l1])))⟩
    · have e : l ≠ k := by rintro rfl; rw [hT] at hl; cases hl
      rw [s1 l e]; exact I.idles l hl
    · by_cases e : m.id = T.par
      · rw [e, l3, hm, ← e, I.grown q m hm', e, hne]
        simp
      · rw [(l2 _ e).1, I.grown q m hm', ← hm, (l2 _ e).2]

theorem grown_set {m : Mem α} {M : Mem α} (hok : t.OK) (h : Grown t m ext g M) {q : Str} {n : Node α} (hn : (q, n) ∈ t.root.nodes []) (gn : Core α → Core α)
    (en : List Nat) (c : Cell α) (hc : c = ⟨n.path, gn n.core, (m n.id).arr ++ en, (m n.id).len + en.length⟩) :
    Grown t m (fun i => if i = n.id then en else ext i) (fun i => if i = n.id then gn else g i) (M.set n.id c) := by
  intro q' n' hn'
  by_cases e : n'.id = n.id
  · obtain ⟨rfl, rfl⟩ := Prod.mk.inj (hok.id_inj hn' hn e)
    simp only [Mem.set, if_true, hc]
  · simp only [Mem.set, if_neg e]
    exact h q' n' hn'

theorem Blend.tick_set (X : Setting v t as base plan site B) (I : Blend v t as base plan site B S s ext g W) (gap : Nat) {k : Nat} {p : Str}
    {x : α} (ha : as[k]? = some (.set p x)) (hsite : site k = none) :
    ∃ g', Blend v t as base plan site B (S ++ [k]) s ext g' (W.tick t.root.id gap k) := by
  obtain ⟨m, hm⟩ := X.sited.old k p x ha hsite
  have hid := idAt_mem X.ok hm
  have st : ∀ {g' : Nat → Core α → Core α} {M' : Mem α} {G' : Gor α}, PutSt t base plan v (Joined site none) p (jobOf v t k p x)
      (idAt t (View.dash (v.full p))) (B k) (S.count k + 1) s (g' m.id) G' →
      St v t as base plan site B (S.count k + 1) s ext g' M' k G' := fun h =>
    ⟨fun e => (by rw [ha] at e; cases e), fun _ e => (by rw [ha] at e; cases e), fun p' T' e e' => (by rw [ha] at e; cases e),
      fun _ _ e _ => (by rw [ha] at e; cases e; rw [hid] at h ⊢; exact h), fun _ _ _ _ e e' => by rw [hsite] at e'; cases e'⟩
  have r := (I.all k).set p x ha hsite
  rw [hid] at r
  generalize hG : W.gs k = G at r
  have hJv : (jobOf v t k p x).val = x := rfl
  -- a change of the core
  have put : ∀ {pc : SetPc} {f : Nat} {gn : Core α → Core α} {pc' : SetPc}, W.gs k = ⟨v, [], .sets (jobOf v t k p x) pc, [], f⟩ → pc ≠ .done →
      insStep (jobOf v t k p x) W.mem pc = (W.mem.set m.id { W.mem m.id with core := gn (W.mem m.id).core }, pc') →
      PutSt t base plan v (Joined site none) p (jobOf v t k p x) (idAt t (View.dash (v.full p))) (B k) (S.count k + 1) s
        (fun c => gn (g m.id c)) ⟨v, [], .sets (jobOf v t k p x) pc', [], f⟩ →
      ∃ g', Blend v t as base plan site B (S ++ [k]) s ext g' (W.tick t.root.id gap k) := by
    intro pc f gn pc' hG hpc hins hst
    have hstep := sets_step (v := v) (root := t.root.id) (gap := gap) (M := W.mem) (J := jobOf v t k p x) (f := f) (todo := []) (outs := []) hpc
    rw [hins] at hstep
    have hgr := grown_set (c := { W.mem m.id with core := gn (W.mem m.id).core }) X.ok I.grown hm (fun c => gn (g m.id c)) (ext m.id)
      (by rw [I.grown _ m hm])
    have hext : (fun i => if i = m.id then ext m.id else ext i) = ext := by
      funext i
      by_cases e : i = m.id
      · rw [if_pos e, e]
      · rw [if_neg e]
    rw [hext] at hgr
    refine ⟨_, I.next (by rw [hG]; exact hstep) (.refl s) (fun _ _ => rfl) I.idles (fun l p' x' e h1 h2 => ?_)
      (fun l A w e hl => ⟨rfl, if_neg ?_⟩) hgr I.exts (fun i hi => ?_) (st (g' := fun i => if i = m.id then fun c => gn (g m.id c) else g i) (by
        rw [if_pos rfl]; exact hst))⟩
    · refine if_neg fun e' => e ?_
      exact X.old l k p' x' p x h1 ha h2 hsite (e'.trans hid.symm)
    · have := X.ok.lt _ hm
      simp only at this
      omega
    · have : i ≠ m.id := fun e => hi k p x ha hsite (hid.trans e.symm)
      show (if i = m.id then _ else g i) = _
      rw [if_neg this]
      exact I.cores i hi
  cases r with
  | idle hn hg =>
    obtain ⟨b, hb, hc⟩ := X.set k p x ha hsite
    exact ⟨g, I.quiet (G' := ⟨v, [], .sets (jobOf v t k p x) (.enter (View.dash (v.full p)) t.root.id), [], t.next + 2 * k + gap⟩) (by rw [hG]; rfl)
      (st (.finds _ b _ (hc s) (by omega) hg))⟩
  | finds f b pc h hn hg =>
    have hpc : pc ≠ .done := by
      rintro rfl
      cases goes_fixed X.lays h fun _ => rfl
    have hq : pc = .mark m.id ∨ ∃ b', b = b' + 1 ∧ ∀ s' M, Up s s' →
        Like t (Prune.mems base plan) (Joined site none) s' M → (insStep (jobOf v t k p x) M pc).1 = M ∧
          Goes t base plan (Joined site none) (jobOf v t k p x) (.mark m.id) b' s' (insStep (jobOf v t k p x) M pc).2 := by
      cases b with
      | zero => exact .inl h
      | succ b => exact h.imp id fun h => ⟨b, rfl, h⟩
    rcases hq with rfl | ⟨b', rfl, h'⟩
    · exact put (gn := fun c => { c with hasData := true }) hG hpc rfl (by rw [hid]; exact .store f (by omega) (by rw [hg]))
    · obtain ⟨e1, e2⟩ := h' s W.mem (.refl s) ⟨ext, g, I.grown, I.exts⟩
      have hstep := sets_step (v := v) (root := t.root.id) (gap := gap) (M := W.mem) (J := jobOf v t k p x) (f := f) (todo := []) (outs := []) hpc
      rw [e1] at hstep
      exact ⟨g, I.quiet (by rw [hG]; exact hstep) (st (by rw [hid]; exact .finds f b' _ e2 (by omega) hg))⟩
  | store f hn hg =>
    exact put (gn := fun c => { c with data := x }) hG (by intro e; cases e) rfl (by rw [hid]; exact .fin f (by omega) (by rw [hg]; rfl))
  | fin f hn hg => exact ⟨g, I.quiet (G' := ⟨v, [], .idle, [.stored], f⟩) (by rw [hG]; rfl) (st (.done f hg))⟩
  | done f hg => exact ⟨g, I.quiet (G' := ⟨v, [], .idle, [.stored], f⟩) (by rw [hG]; rfl) (st (.done f hg))⟩

/-- At a node from which nobody removes. -/
theorem mems_still (hl : Prune.Lays base t) {q : Str} {m : Node α} (hm : (q, m) ∈ t.root.nodes [])
    (h : ∀ k T, plan k = some T → T.par ≠ m.id) (s : Nat → Nat) : Prune.mems base plan s m.id = Prune.cellOf m := by
  rcases Prune.mems_cell (plan := plan) hl hm with h' | ⟨k, T, h1, h2, _⟩
  · exact h' s
  · exact absurd h2 (h k T h1)

theorem Blend.tick_new (X : Setting v t as base plan site B) (I : Blend v t as base plan site B S s ext g W) (gap : Nat) {k : Nat} {p : Str}
    {x : α} {A : Node α} {w : Str} (ha : as[k]? = some (.set p x)) (hsite : site k = some (A, w)) :
    ∃ ext', (∀ i, ext i ≠ [] → ext' i = ext i) ∧ Blend v t as base plan site B (S ++ [k]) s ext' g (W.tick t.root.id gap k) := by
  obtain ⟨p', x', ha', a, hA, hkey, hw, hheads⟩ := X.sited.new k A w hsite
  have hAlt := X.ok.lt _ hA
  simp only at hAlt
  have hstill := mems_still (plan := plan) X.lays hA fun l T hT => X.still l T k A w hT hsite
  have st : ∀ {ext' : Nat → List Nat} {M' : Mem α} {G' : Gor α}, LeafSt t base plan v (Joined site (some k)) p (jobOf v t k p x) A w
      (B k) (S.count k + 1) s (ext' A.id) (M' (t.next + 2 * k + 1)) G' →
      St v t as base plan site B (S.count k + 1) s ext' g M' k G' := fun h =>
    ⟨fun e => (by rw [ha] at e; cases e), fun _ e => (by rw [ha] at e; cases e), fun p' T' e e' => (by rw [ha] at e; cases e),
      fun _ _ _ e => (by rw [hsite] at e; cases e), fun _ _ _ _ e e' => by rw [ha] at e; rw [hsite] at e'; cases e; cases e'; exact h⟩
  have r := (I.all k).new p x A w ha hsite
  -- only the others have added something
  have hjoined : ext A.id = [] → ∀ i, ext i ≠ [] → Joined site (some k) i := by
    intro h0 i hi
    obtain ⟨l, A', w', _, h1, h2⟩ := I.exts i hi
    refine ⟨l, A', w', ?_, h1, h2⟩
    intro e
    cases e
    rw [hsite] at h1
    cases h1
    exact hi (h2 ▸ h0)
  generalize hG : W.gs k = G at r
  cases r with
  | idle hn he =>
    obtain ⟨b, hb, hc⟩ := X.new k p x A w ha hsite
    exact ⟨ext, fun _ _ => rfl, I.quiet (G' := ⟨v, [], .sets (jobOf v t k p x) (.enter (View.dash (v.full p)) t.root.id), [], t.next + 2 * k + gap⟩) (by rw [hG]; rfl)
      (st (.finds _ b _ (hc s) (by omega) he))⟩
  | finds f b pc h hn he =>
    have hpc : pc ≠ .done := by
      rintro rfl
      cases goes_fixed X.lays h fun _ => rfl
    have hstep := sets_step (v := v) (root := t.root.id) (gap := gap) (M := W.mem) (J := jobOf v t k p x) (f := f) (todo := []) (outs := []) hpc
    have hq : pc = .leaf w A.id ∨ ∃ b', b = b' + 1 ∧ ∀ s' M, Up s s' →
        Like t (Prune.mems base plan) (Joined site (some k)) s' M → (insStep (jobOf v t k p x) M pc).1 = M ∧
          Goes t base plan (Joined site (some k)) (jobOf v t k p x) (.leaf w A.id) b' s' (insStep (jobOf v t k p x) M pc).2 := by
      cases b with
      | zero => exact .inl h
      | succ b => exact h.imp id fun h => ⟨b, rfl, h⟩
    rcases hq with rfl | ⟨b', rfl, h'⟩
    · have hk : kids (W.mem A.id) = A.kids.map Node.id := by
        rw [I.grown _ A hA, he, hstill]
        simp only [kids, Prune.cellOf, List.append_nil, List.length_nil, Nat.add_zero]
        exact List.take_of_length_le (Nat.le_of_eq (by simp))
      refine ⟨ext, fun _ _ => rfl, I.next ((congrArg (Gor.step t.root.id gap W.mem) hG).trans hstep) (.refl s) (fun _ _ => rfl) I.idles (fun _ _ _ _ _ _ => rfl)
        (fun l A' w' e hl => ⟨rfl, if_neg ?_⟩) (fun q m hm => ?_) I.exts I.cores (st ?_)⟩
      · show t.next + 2 * l + 1 ≠ t.next + 2 * k + 1
        omega
      · refine (if_neg ?_).trans (I.grown q m hm)
        have := X.ok.lt _ hm
        simp only at this
        show m.id ≠ t.next + 2 * k + 1
        omega
      · show LeafSt t base plan v _ p _ A w _ _ s _ _ ⟨v, [], .sets _ (.link A.id (kids (W.mem A.id))), [], f⟩
        rw [hk]
        exact .link f (by omega) he (if_pos rfl)
    · obtain ⟨e1, e2⟩ := h' s W.mem (.refl s) ⟨ext, g, I.grown, hjoined he⟩
      rw [e1] at hstep
      exact ⟨ext, fun _ _ => rfl, I.quiet (by rw [hG]; exact hstep) (st (.finds f b' _ e2 (by omega) he))⟩
  | link f hn he hc =>
    have hstep := sets_step (v := v) (root := t.root.id) (gap := gap) (M := W.mem) (J := jobOf v t k p x)
      (pc := .link A.id (A.kids.map Node.id)) (f := f) (todo := []) (outs := []) (by intro e; cases e)
    have hgr := grown_set (c := { W.mem A.id with arr := A.kids.map Node.id ++ [t.next + 2 * k + 1], len := (A.kids.map Node.id).length + 1 }) X.ok I.grown hA
      (g A.id) [t.next + 2 * k + 1] (by rw [I.grown _ A hA, hstill]; simp [Prune.cellOf])
    have hgg : (fun i => if i = A.id then g A.id else g i) = g := by
      funext i
      by_cases e : i = A.id
      · rw [if_pos e, e]
      · rw [if_neg e]
    rw [hgg] at hgr
    refine ⟨_, fun i hi => if_neg ?_, I.next (by rw [hG]; exact hstep) (.refl s) (fun _ _ => rfl) I.idles (fun _ _ _ _ _ _ => rfl)
      (fun l A' w' e hl => ⟨if_neg ?_, if_neg ?_⟩) hgr (fun i hi => ?_) I.cores (st ?_)⟩
    · rintro rfl
      exact hi he
    · exact fun e' => e (X.sites l k A' w' A w hl hsite e')
    · omega
    · by_cases e : i = A.id
      · exact ⟨k, A, w, (by intro h; cases h), hsite, e.symm⟩
      · refine I.exts i ?_
        simp only [if_neg e] at hi
        exact hi
    · refine .fin f (by omega) (if_pos rfl) ?_
      exact (if_neg (by omega)).trans hc
  | fin f hn he hc => exact ⟨ext, fun _ _ => rfl, I.quiet (G' := ⟨v, [], .idle, [.stored], f⟩) (by rw [hG]; rfl) (st (.done f he hc))⟩
  | done f he hc => exact ⟨ext, fun _ _ => rfl, I.quiet (G' := ⟨v, [], .idle, [.stored], f⟩) (by rw [hG]; rfl) (st (.done f he hc))⟩

/-- A step of any goroutine. -/
theorem Blend.tick (X : Setting v t as base plan site B) (hrem : ∀ (k : Nat) p, as[k]? = some (.remove p) → ∃ T, plan k = some T)
    (I : Blend v t as base plan site B S s ext g W) (gap k : Nat) :
    ∃ s' ext' g', Up s s' ∧ (∀ i, ext i ≠ [] → ext' i = ext i) ∧ Blend v t as base plan site B (S ++ [k]) s' ext' g' (W.tick t.root.id gap k) := by
  have quiet : GetSt (W.gs k) → (∀ p, as[k]? ≠ some (.remove p)) → (∀ p x, as[k]? ≠ some (.set p x)) →
      ∃ s' ext' g', Up s s' ∧ (∀ i, ext i ≠ [] → ext' i = ext i) ∧ Blend v t as base plan site B (S ++ [k]) s' ext' g' (W.tick t.root.id gap k) := by
    intro h1 n1 n2
    obtain ⟨e1, e2⟩ := h1.step t.root.id gap W.mem
    exact ⟨s, ext, g, .refl s, fun _ _ => rfl, I.quiet (Prod.ext e1 rfl) ⟨fun _ => e2, fun _ _ => e2, fun p _ e => absurd e (n1 p), fun p x e => absurd e (n2 p x),
      fun p x _ _ e => absurd e (n2 p x)⟩⟩
  cases ha : as[k]? with
  | none => exact quiet ((I.all k).none ha) (by simp [ha]) (by simp [ha])
  | some a =>
    cases a with
    | get p => exact quiet ((I.all k).get p ha) (by simp [ha]) (by simp [ha])
    | remove p =>
      obtain ⟨T, hT⟩ := hrem k p ha
      obtain ⟨s', h1, h2⟩ := I.tick_rem X gap ha hT
      exact ⟨s', ext, g, h1, fun _ _ => rfl, h2⟩
    | set p x =>
      cases hsite : site k with
      | none =>
        obtain ⟨g', h⟩ := I.tick_set X gap ha hsite
        exact ⟨s, ext, g', .refl s, fun _ _ => rfl, h⟩
      | some y =>
        obtain ⟨A, w⟩ := y
        obtain ⟨ext', h0, h⟩ := I.tick_new X gap ha hsite
        exact ⟨s, ext', g, .refl s, h0, h⟩
end

end Parts
end Verif

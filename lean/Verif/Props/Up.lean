import Verif.Lemmas.Captures
import Verif.Lemmas.Join
import Verif.Props.Write
import Mathlib.Data.List.Induction
/-
C35 recursive-up lookups (`BR()`, radix/load.go:53-57).
-/
namespace Verif
variable {α : Type}

/-- The paths a recursive-up lookup of `w` is about, nearest first: `w`, then `w` with one, two, ...
components before the last one dropped. At least one component stays in front of the last one. -/
def scopes (d : Char) (w : Str) : List Str :=
  let a := splitOn d w
  w :: (List.range (a.length - 2)).map (fun j => joinWith d (a.take (a.length - 2 - j) ++ a.drop (a.length - 1)))

/-- Entry, parent and partial-match flag of a lookup. -/
abbrev Look (α : Type) := Option (Node α) × Option (Node α) × Bool

/-- A lookup that found something (an entry or at least a partial match). -/
def Look.hit (x : Look α) : Bool := x.1.isSome || x.2.2

/-- The first of `ws` for which `f` finds something. -/
def firstHit (f : Str → Go (Look α)) : List Str → Go (Look α)
  | [] => .ok (none, none, false)
  | w :: ws => match f w with
    | .error e => .error e
    | .ok x => if x.hit then .ok x else firstHit f ws

/-- A lookup without its captures. -/
def View.look (v : View) (t : Tree α) (w : Str) : Go (Look α) := (v.search t w).map (fun x => (x.1, x.2.1, x.2.2.1))

namespace Node

/-- A match comes with a node. -/
theorem verdict_child (d : Char) (n : Node α) (par : Option (Node α)) (wl src : Nat) {r : MR α} (h : r.matched = true → r.child.isSome) :
    (verdict d n par wl src r).matched = true → (verdict d n par wl src r).child.isSome := by
  simp only [verdict]
  split
  · simp
  · split
    · simp
    · split
      · simp
      · exact h

theorem matchR_child (d : Char) (n : Node α) : ∀ (w : Str) (l : Bool) (par : Option (Node α)) (kv : KV) {r kv'},
    matchR d n w l par kv = .ok (r, kv') → r.matched = true → r.child.isSome := by
  induction n using ind with
  | h i p c k ih =>
    intro w l par kv r kv' h hm
    by_cases hw : w = []
    · rw [matchR, if_pos hw] at h
      injection h with h; injection h with h _; subst h; rfl
    · rw [matchR_eq _ _ _ _ _ _ hw] at h
      generalize he : masterLoop d (mk i p c k) w l par kv = e at h
      rcases e with e | ⟨m, kv2⟩
      · simp at h
      · have hmc : ∀ src dst f r, m = .go src dst f r → r.matched = true → r.child.isSome := by
          rintro src dst f r rfl h2
          simp only [masterLoop] at he
          split at he
          · generalize retriever d _ w _ _ _ _ _ _ kv = x at he
            rcases x with e | ⟨x, kv3⟩
            · simp at he
            · cases x with
              | nothing => simp at he
              | found => simp at he
              | out a b f' m p =>
                simp only [Except.ok.injEq, Prod.mk.injEq, Master.go.injEq] at he
                rw [← he.1.2.2.2] at h2 ⊢
                cases m
                · simp at h2
                · rfl
          · simp only [Except.ok.injEq, Prod.mk.injEq, Master.go.injEq] at he
            rw [← he.1.2.2.2] at h2
            simp at h2
        cases m with
        | ret r' =>
          simp only [Except.ok.injEq, Prod.mk.injEq] at h
          obtain ⟨rfl, rfl⟩ := h
          simp only [masterLoop] at he
          split at he
          · generalize retriever d _ w _ _ _ _ _ _ kv = x at he
            rcases x with e | ⟨x, kv3⟩
            · simp at he
            · cases x with
              | nothing => simp only [Except.ok.injEq, Prod.mk.injEq, Master.ret.injEq] at he; rw [← he.1] at hm; simp at hm
              | found => simp only [Except.ok.injEq, Prod.mk.injEq, Master.ret.injEq] at he; rw [← he.1]; rfl
              | out a b f' m p => simp at he
          · simp at he
        | go src dst f r' =>
          simp only at h
          split at h
          · split at h
            · simp only [Except.ok.injEq, Prod.mk.injEq] at h
              rw [← h.1] at hm; simp at hm
            · simp only [kids_mk] at h
              generalize List.drop _ w = w' at h
              generalize hself : mk i p c k = self at h
              have : ∀ (ks : List (Node α)), (∀ a ∈ ks, a ∈ k) → ∀ kv2, matchKids d self ks w' f kv2 = .ok (r, kv') → r.child.isSome := by
                intro ks
                induction ks with
                | nil =>
                  intro _ kv2 h
                  rw [matchKids] at h
                  simp only [Except.ok.injEq, Prod.mk.injEq] at h
                  rw [← h.1] at hm; simp at hm
                | cons a as iha =>
                  intro hs kv2 h
                  rw [matchKids] at h
                  generalize hx : matchR d a w' f (some self) kv2 = x at h
                  rcases x with e | ⟨x, kv3⟩
                  · simp at h
                  · have hx' := ih a (hs a (by simp)) w' f _ _ hx
                    simp only at h
                    split at h
                    · simp only [Except.ok.injEq, Prod.mk.injEq] at h
                      rw [← h.1] at hm ⊢; exact hx' hm
                    · cases as with
                      | nil =>
                        simp only [Except.ok.injEq, Prod.mk.injEq] at h
                        rw [← h.1] at hm ⊢; exact hx' hm
                      | cons b bs => exact iha (fun n hn => hs n (by simp [hn])) _ h
              exact this k (fun _ h => h) _ h
          · simp only [Except.ok.injEq, Prod.mk.injEq] at h
            rw [← h.1] at hm ⊢
            exact verdict_child _ _ _ _ _ (hmc _ _ _ _ rfl) hm

end Node

/-- Lookup as a function of the outcome of the match. -/
def ofOutcome (r : MR α) : Look α := if r.matched || r.part then (r.child, r.parent, r.part) else (none, none, false)

theorem outcome_hit {d : Char} {n : Node α} {w : Str} {r : MR α} (h : n.outcome d w = .ok r) :
    (ofOutcome r).hit = (r.matched || r.part) := by
  simp only [Node.outcome] at h
  generalize hx : n.matchR d w false none [] = x at h
  rcases x with e | ⟨x, kv⟩
  · simp [Except.map] at h
  · simp only [Except.map, Except.ok.injEq] at h
    subst h
    have := Node.matchR_child d n w false none [] hx
    simp only [ofOutcome, Look.hit]
    cases hm : x.matched <;> cases hp : x.part <;> simp_all

theorem look_plain {v : View} {t : Tree α} (hm : v.mode ≠ .up) (w : Str) :
    v.look t w = (t.root.outcome v.delim w).map ofOutcome := by
  simp only [View.look, View.search, Node.outcome]
  rcases t.root.matchR v.delim w false none [] with e | ⟨r, kv⟩
  · rfl
  · simp only [hm, false_and, if_false]
    by_cases hr : (r.matched || r.part) = true
    · simp only [hr, if_true, Except.map, ofOutcome]
    · rw [if_neg hr]
      simp only [Except.map, ofOutcome]
      rw [if_neg hr]

/-- What `search` makes of the result of the retry loop. -/
def finish : Option (MR α) → Look α
  | some r => (r.child, r.parent, r.part)
  | none => (none, none, false)

/-- The retry loop visits the remaining scopes in order. -/
theorem retryUp_firstHit {v : View} {t : Tree α} (hm : v.mode ≠ .up) (l : Str) (hl : v.delim ∉ l) (b : List Str) :
    ∀ (fuel : Nat) (kv : KV), (∀ x ∈ b, v.delim ∉ x) → b.length ≤ fuel + 1 →
    (View.retryUp v.delim t.root fuel (joinWith v.delim (b ++ [l])) kv).map (fun x => finish x.1) =
      firstHit (v.look t) ((List.range (b.length - 1)).map (fun j => joinWith v.delim (b.take (b.length - 1 - j) ++ [l]))) := by
  induction b using List.reverseRecOn with
  | nil =>
    intro fuel kv _ _
    cases fuel with
    | zero => rfl
    | succ fuel => simp [View.retryUp, joinWith, splitOn_self hl, firstHit, Except.map, finish]
  | append_singleton b' x ih =>
    intro fuel kv hb hf
    have hs : splitOn v.delim (joinWith v.delim (b' ++ [x] ++ [l])) = b' ++ [x] ++ [l] :=
      splitOn_joinWith (by simp) (by intro w hw; rcases List.mem_append.mp hw with h | h; exact hb w h; simp at h; subst h; exact hl)
    cases fuel with
    | zero =>
      have : b' = [] := by cases b' <;> simp_all
      subst this; rfl
    | succ fuel =>
      rw [View.retryUp]
      simp only [hs]
      by_cases h0 : b' = []
      · subst h0; simp [firstHit, Except.map, finish]
      · have hpos : 0 < b'.length := List.length_pos_iff.mpr h0
        have h2 : (b' ++ [x] ++ [l]).length > 2 := by simp; omega
        have h3 : (b' ++ [x] ++ [l]).take ((b' ++ [x] ++ [l]).length - 2) ++ (b' ++ [x] ++ [l]).drop ((b' ++ [x] ++ [l]).length - 1) = b' ++ [l] := by
          simp [List.drop_append]
        have h4 : (List.range ((b' ++ [x]).length - 1)).map (fun j => joinWith v.delim ((b' ++ [x]).take ((b' ++ [x]).length - 1 - j) ++ [l])) =
            joinWith v.delim (b' ++ [l]) :: (List.range (b'.length - 1)).map (fun j => joinWith v.delim (b'.take (b'.length - 1 - j) ++ [l])) := by
          have : (b' ++ [x]).length - 1 = (b'.length - 1) + 1 := by simp; omega
          rw [this, List.range_succ_eq_map]
          simp only [List.map_cons, List.map_map, Nat.sub_zero]
          congr 1
          · rw [show b'.length - 1 + 1 = b'.length by omega]; simp
          · refine List.map_congr_left (fun j hj => ?_)
            simp only [Function.comp, Nat.succ_eq_add_one, List.mem_range] at hj ⊢
            rw [show b'.length - 1 + 1 - (j + 1) = b'.length - 1 - j by omega, List.take_append_of_le_length (by omega)]
        rw [h4, firstHit]
        simp only [h2, if_true, h3]
        rw [look_plain hm, ← Node.matchR_outcome v.delim t.root _ kv]
        generalize hx : t.root.matchR v.delim (joinWith v.delim (b' ++ [l])) false none kv = x
        rcases x with e | ⟨r, kv'⟩
        · rfl
        · have hh := outcome_hit (d := v.delim) (n := t.root) (w := joinWith v.delim (b' ++ [l])) (r := r)
            (by rw [← Node.matchR_outcome _ _ _ kv, hx]; rfl)
          have := ih fuel kv' (fun y hy => hb y (by simp [hy])) (by simp at hf; omega)
          by_cases hr : (r.matched || r.part) = true
          · have hh' : (ofOutcome r).hit = true := by rw [hh]; exact hr
            simp only [Except.map, hh', hr, if_true, finish]
            rw [ofOutcome, if_pos hr]
          · simp only [Except.map, hh, hr] at this ⊢
            exact this

theorem splitOn_length (d : Char) (s : Str) : (splitOn d s).length ≤ s.length + 1 := by
  induction s with
  | nil => simp [splitOn]
  | cons c cs ih =>
    by_cases hc : c = d
    · simp [splitOn, hc]; exact ih
    · obtain ⟨w, ws, h1, h2⟩ := splitOn_cons_ne hc cs
      rw [h1] at ih
      rw [h2]; simp at ih ⊢; omega

/-- **C35** A recursive-up lookup gives the answer of the plain lookup at the first of the scopes of the
path where the plain lookup finds something; it finds nothing exactly when that is so in all scopes. -/
theorem C35_nearest_scope (v : View) (t : Tree α) (w : Str) :
    (v.withMode .up).look t w = firstHit ((v.withMode .none).look t) (scopes v.delim w) := by
  obtain ⟨b, l, hbl⟩ : ∃ b l, splitOn v.delim w = b ++ [l] :=
    ⟨_, _, (List.dropLast_concat_getLast (splitOn_ne_nil v.delim w)).symm⟩
  have hw : joinWith v.delim (b ++ [l]) = w := by rw [← hbl, joinWith_splitOn]
  have hp := splitOn_pieces v.delim w
  rw [hbl] at hp
  have hlen := splitOn_length v.delim w
  rw [hbl] at hlen
  have hsc : scopes v.delim w = w :: (List.range (b.length - 1)).map (fun j => joinWith v.delim (b.take (b.length - 1 - j) ++ [l])) := by
    simp only [scopes, hbl]
    congr 1
    rw [show (b ++ [l]).length - 2 = b.length - 1 by simp]
    refine List.map_congr_left (fun j hj => ?_)
    simp only [List.mem_range] at hj
    rw [List.take_append_of_le_length (by omega)]
    simp
  have key := fun kv => retryUp_firstHit (v := v.withMode .none) (t := t) (by simp [View.withMode]) l (hp l (by simp)) b (w.length + 1) kv
    (fun x hx => hp x (by simp [hx])) (by simp at hlen; omega)
  rw [hsc, firstHit, look_plain (v := v.withMode .none) (by simp [View.withMode])]
  have hdel : (v.withMode .none).delim = v.delim := rfl
  simp only [hdel, hw] at key ⊢
  simp only [View.look, View.search]
  rw [← Node.matchR_outcome v.delim t.root w [], show (v.withMode .up).delim = v.delim from rfl, show (v.withMode .up).mode = .up from rfl]
  generalize hx : t.root.matchR v.delim w false none [] = x
  rcases x with e | ⟨r, kv⟩
  · rfl
  · have hh := outcome_hit (d := v.delim) (n := t.root) (w := w) (r := r) (by rw [Node.outcome, hx]; rfl)
    specialize key kv
    by_cases hr : (r.matched || r.part) = true
    · have hh' : (ofOutcome r).hit = true := by rw [hh]; exact hr
      simp only [Except.map, hh', hr, if_true]
      rw [ofOutcome, if_pos hr]
    · by_cases hd : v.delim ∈ w
      · simp only [Except.map, hh, hr, hd, true_and, if_true]
        simp only [Bool.false_eq_true, if_false]
        refine Eq.trans ?_ key
        generalize View.retryUp v.delim t.root (w.length + 1) w kv = y
        rcases y with e | ⟨_ | y, kv'⟩ <;> rfl
      · have hb : b = [] := by
          rw [splitOn_self hd] at hbl
          cases b with
          | nil => rfl
          | cons a as => cases as <;> simp at hbl
        subst hb
        simp only [Except.map, hh, hr, hd]
        simp [firstHit]

/-- What `Query` answers for the outcome of a lookup. -/
def Look.ans [Inhabited α] (d : Char) (x : Look α) : View.Ans α :=
  match x with
  | (some n, _, false) =>
    let found := !(n.core.isBranch && !n.endsWith d)
    ⟨if n.core.hasData then n.core.data else default, n.core.isBranch, found, !found⟩
  | _ => ⟨default, false, false, true⟩

theorem query_look [Inhabited α] (v : View) (t : Tree α) (p : Str) : v.query t p = (v.look t (v.full p)).map (Look.ans v.delim) := by
  simp only [View.query, View.queryKV, View.look]
  rcases v.search t (v.full p) with e | ⟨_ | n, par, _ | _, kv⟩ <;> rfl

theorem has_look [Inhabited α] (v : View) (t : Tree α) (p : Str) : v.has t p = (v.look t (v.full p)).map (fun x => x.1.isSome && !x.2.2) := by
  simp only [View.has, View.look]
  rcases v.search t (v.full p) with e | ⟨_ | n, par, _ | _, kv⟩ <;> rfl

theorem firstHit_of {f : Str → Go (Look α)} {pre post : List Str} {s : Str} {x : Look α}
    (h1 : ∀ w ∈ pre, ∃ y, f w = .ok y ∧ y.hit = false) (h2 : f s = .ok x) (h3 : x.hit = true) : firstHit f (pre ++ s :: post) = .ok x := by
  induction pre with
  | nil => simp only [List.nil_append, firstHit, h2, h3, if_true]
  | cons w ws ih =>
    obtain ⟨y, hy, hy'⟩ := h1 w (by simp)
    simp only [List.cons_append, firstHit, hy, hy']
    exact ih (fun w hw => h1 w (by simp [hw]))

/-- **C35** When the plain lookup finds anything, the recursive-up trie gives the same answers. -/
theorem C35_plain_first [Inhabited α] {v : View} {t : Tree α} {p : Str} {x : Look α}
    (h : (v.withMode .none).look t (v.full p) = .ok x) (hx : x.hit = true) :
    (v.withMode .up).query t p = (v.withMode .none).query t p ∧ (v.withMode .up).get t p = (v.withMode .none).get t p ∧
    (v.withMode .up).mustGet t p = (v.withMode .none).mustGet t p ∧ (v.withMode .up).has t p = (v.withMode .none).has t p := by
  have hl : (v.withMode .up).look t ((v.withMode .up).full p) = (v.withMode .none).look t ((v.withMode .none).full p) := by
    show (v.withMode .up).look t (v.full p) = (v.withMode .none).look t (v.full p)
    rw [C35_nearest_scope, h]
    exact firstHit_of (pre := []) (by simp) h hx
  have hq : (v.withMode .up).query t p = (v.withMode .none).query t p := by
    rw [query_look, query_look, hl]; rfl
  refine ⟨hq, by rw [View.get, View.get, hq], by rw [View.mustGet, View.mustGet, hq], ?_⟩
  rw [has_look, has_look, hl]

/-- **C35** Otherwise it answers as the plain trie does at the nearest scope that finds anything. -/
theorem C35_ancestor [Inhabited α] {v : View} {t : Tree α} {p s : Str} {nearer further : List Str} {x : Look α}
    (hs : scopes v.delim (v.full p) = nearer ++ s :: further)
    (h1 : ∀ w ∈ nearer, ∃ y, (v.withMode .none).look t w = .ok y ∧ y.hit = false)
    (h2 : (v.withMode .none).look t s = .ok x) (h3 : x.hit = true) :
    (v.withMode .up).query t p = (((v.withMode .none).withPrefixReplaced []).query t s) ∧
    (v.withMode .up).has t p = (((v.withMode .none).withPrefixReplaced []).has t s) := by
  have hl : (v.withMode .up).look t (v.full p) = .ok x := by rw [C35_nearest_scope, hs]; exact firstHit_of h1 h2 h3
  have hl2 : ((v.withMode .none).withPrefixReplaced []).look t (((v.withMode .none).withPrefixReplaced []).full s) = .ok x := by
    rw [← h2]; rfl
  constructor
  · rw [query_look, query_look, hl2]
    show Except.map _ ((v.withMode .up).look t (v.full p)) = _
    rw [hl]; rfl
  · rw [has_look, has_look, hl2]
    show Except.map _ ((v.withMode .up).look t (v.full p)) = _
    rw [hl]

/-- Partial matches count as finding: "a.level" answers `BR().Get("a.b.level")`, but no longer once the
unrelated key "a.b.levels" exists. -/
theorem C35_partial_blocks : ∃ (v : View) (t t' : Tree Nat), t = sets [(v, "a.level".toList, 1), (v, "a.b.x".toList, 2)] Tree.new ∧
    t' = (v.set t "a.b.levels".toList 3).1 ∧
    (v.withMode .up).get t "a.b.level".toList = .ok (1, true) ∧ (v.withMode .up).get t' "a.b.level".toList = .ok (0, false) :=
  ⟨View.new '.', _, _, rfl, rfl, by decide +kernel, by decide +kernel⟩

/-- The outermost scope is never tried: "level" does not answer `BR().Get("a.level")`. -/
theorem C35_top_never : ∃ (v : View) (t : Tree Nat), t = sets [(v, "level".toList, 1), (v, "x.y".toList, 2)] Tree.new ∧
    (v.withMode .up).get t "a.level".toList = .ok (0, false) :=
  ⟨View.new '.', _, rfl, by decide +kernel⟩

/-- `C35_ancestor` at work: the value two scopes up is found. -/
example : let v := View.new '.'
    let t := sets [(v, "a.level".toList, 1), (v, "a.b.x".toList, 2)] (Tree.new : Tree Nat)
    scopes '.' "a.b.c.level".toList = ["a.b.c.level".toList, "a.b.level".toList, "a.level".toList] ∧
    (v.withMode .up).query t "a.b.c.level".toList = .ok ⟨1, false, true, false⟩ := by
  constructor <;> decide +kernel

end Verif

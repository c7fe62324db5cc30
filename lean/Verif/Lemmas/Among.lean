import Verif.Lemmas.Pattern
import Verif.Lemmas.Search
/-
A route pattern in a tree with other entries.
-/
namespace Verif
namespace Node

/-- Positions moved by `k`. -/
def shiftR (k : Nat) : Retr → Retr
  | .nothing => .nothing
  | .found => .found
  | .out src dst l m p => .out (k + src) (k + dst) l m p

theorem extractor_lt (d : Char) {p : Str} {s : Nat} (h : s < p.length) :
    extractor d p s p.length =
      if s + ((p.drop s).takeWhile (· ≠ d)).length < p.length then
        ((p.drop s).takeWhile (· ≠ d), s + ((p.drop s).takeWhile (· ≠ d)).length, false)
      else ((p.drop s).takeWhile (· ≠ d), p.length, true) := by
  unfold extractor
  simp only [ge_iff_le, Nat.not_le.mpr h, if_false, List.take_length]

theorem extractor_shift (d : Char) (u p : Str) {s : Nat} (h : s < p.length) :
    extractor d (u ++ p) (u.length + s) (u ++ p).length =
      ((extractor d p s p.length).1, u.length + (extractor d p s p.length).2.1, (extractor d p s p.length).2.2) := by
  have e : (u ++ p).drop (u.length + s) = p.drop s := by simp [List.drop_append]
  rw [extractor_lt d h, extractor_lt d (by simp; omega), e]
  simp only [List.length_append]
  by_cases hc : s + ((p.drop s).takeWhile (· ≠ d)).length < p.length
  · rw [if_pos hc, if_pos (by omega)]; simp; omega
  · rw [if_neg hc, if_neg (by omega)]

/-- Where the text stops before the end there is the delimiter. -/
theorem extractor_stop {d : Char} {p : Str} {s : Nat} (h : s < p.length) (he : (extractor d p s p.length).2.2 = false) :
    ∃ r, p.drop (extractor d p s p.length).2.1 = d :: r := by
  unfold extractor at he ⊢
  rw [if_neg (by omega)] at he ⊢
  simp only [List.take_length] at he ⊢
  split at he
  · next hc =>
    rw [if_pos hc]
    simp only
    rw [← List.drop_drop]
    have hd := List.takeWhile_append_dropWhile (p := fun c => decide (c ≠ d)) (l := p.drop s)
    have e : (p.drop s).drop ((p.drop s).takeWhile (fun c => decide (c ≠ d))).length = (p.drop s).dropWhile (fun c => decide (c ≠ d)) := by
      conv_lhs => rw [← hd]
      rw [List.drop_left' (by rw [hd])]
    rw [e]
    cases hw : (p.drop s).dropWhile (fun c => decide (c ≠ d)) with
    | nil =>
      rw [hw] at hd
      have := congrArg List.length hd
      simp only [List.append_nil, List.length_drop] at this
      omega
    | cons a r =>
      have := List.head_dropWhile_not (fun c => decide (c ≠ d)) (l := p.drop s) (by rw [hw]; simp)
      simp only [hw, List.head_cons] at this
      simp at this
      exact ⟨r, by rw [this]⟩
  · simp at he

theorem retriever_shift {d : Char} (hd : d ≠ ':') {u path word : Str} {hk : Bool} (hl : path.getLast? ≠ some ':') (f : Nat) :
    ∀ (ch : Char) (src dst : Nat) (lrid : Bool) (kv : KV), (lrid = true → ch = ':' → src + 1 < path.length ∧ dst < word.length) →
      (dst ≤ word.length) →
      retriever d (u ++ path) (u ++ word) hk f ch (u.length + src) (u.length + dst) lrid kv =
        (retriever d path word hk f ch src dst lrid kv).map (fun r => (shiftR u.length r.1, r.2)) := by
  induction f with
  | zero => intros; rfl
  | succ f ih =>
    intro ch src dst lrid kv h hdst
    rw [retriever, retriever]
    cases lrid with
    | false => rfl
    | true =>
      simp only [if_true]
      by_cases h1 : ch = '*'
      · simp only [h1, if_true]
        have e : (extractor d (u ++ path) (u.length + src + 1) (u ++ path).length).1 = (extractor d path (src + 1) path.length).1 := by
          by_cases hs : src + 1 < path.length
          · rw [Nat.add_assoc, extractor_shift d u path hs]
          · unfold extractor
            rw [if_pos (by simp; omega), if_pos (by omega)]
        rw [e]
        simp [Except.map, shiftR, List.drop_append]
      simp only [h1, if_false]
      by_cases h2 : ch = ':'
      · obtain ⟨hs, hw⟩ := h rfl h2
        simp only [h2, if_true]
        rw [Nat.add_assoc, extractor_shift d u path hs, extractor_shift d u word hw]
        have hst := extractor_stop (d := d) hs
        have hwt := extractor_stop (d := d) hw
        have hb1 := (extractor_bounds d path (src + 1) path.length).1
        have hb2 := (extractor_bounds d word dst word.length).1
        generalize extractor d path (src + 1) path.length = e at *
        generalize extractor d word dst word.length = x at *
        simp only
        cases he : e.2.2 with
        | true =>
          cases hx : x.2.2 <;> simp [Except.map, shiftR]
        | false =>
          cases hx : x.2.2 with
          | true => simp [Except.map, shiftR]
          | false =>
            simp only [if_false, Bool.false_eq_true]
            obtain ⟨p', hp'⟩ := hst he
            obtain ⟨w', hw'⟩ := hwt hx
            have e1 : (u ++ path).drop (u.length + e.2.1) = path.drop e.2.1 := by simp [List.drop_append]
            have e2 : (u ++ word).drop (u.length + x.2.1) = word.drop x.2.1 := by simp [List.drop_append]
            rw [e1, e2]
            have hc0 : 0 < (cmpLoop d (path.drop e.2.1) (word.drop x.2.1) true).1 := by rw [hp', hw']; simp [cmpLoop]
            have hcb := cmpLoop_bounds d (path.drop e.2.1) (word.drop x.2.1) true
            simp only [List.length_drop] at hcb
            generalize hcc : cmpLoop d (path.drop e.2.1) (word.drop x.2.1) true = c at *
            have a1 : (u.length + e.2.1 + c.1 = (u ++ path).length) = (e.2.1 + c.1 = path.length) := by simp; omega
            have a2 : (u.length + x.2.1 + c.1 = (u ++ word).length) = (x.2.1 + c.1 = word.length) := by simp; omega
            have a3 : (u.length + x.2.1 + c.1 < (u ++ word).length) = (x.2.1 + c.1 < word.length) := by simp; omega
            have a4 : (u.length + e.2.1 + c.1 < (u ++ path).length) = (e.2.1 + c.1 < path.length) := by simp; omega
            simp only [a1, a2, a3, a4]
            by_cases b1 : e.2.1 + c.1 = path.length ∧ x.2.1 + c.1 = word.length
            · rw [if_pos b1, if_pos b1]; simp [Except.map, shiftR, Nat.add_assoc]
            rw [if_neg b1, if_neg b1]
            by_cases b2 : e.2.1 + c.1 = path.length ∧ x.2.1 + c.1 < word.length ∧ hk = true
            · rw [if_pos b2, if_pos b2]; simp [Except.map, shiftR, Nat.add_assoc]
            rw [if_neg b2, if_neg b2]
            have hgd : ∀ i c0, i < path.length → (u ++ path).getD (u.length + i) c0 = path.getD i c0 := by
              intro i c0 hi
              rw [List.getD_eq_getElem?_getD, List.getD_eq_getElem?_getD, List.getElem?_append_right (by omega)]
              simp
            by_cases b3 : e.2.1 + c.1 < path.length ∧ x.2.1 + c.1 < word.length
            · rw [if_pos b3, if_pos b3, Nat.add_assoc, Nat.add_assoc, hgd _ _ b3.1]
              refine ih _ _ _ _ _ ?_ (by omega)
              intro _ hch
              refine ⟨?_, b3.2⟩
              by_contra hlen
              apply hl
              rw [List.getLast?_eq_getElem?, show path.length - 1 = e.2.1 + c.1 by omega, List.getElem?_eq_getElem b3.1]
              rw [List.getD_eq_getElem?_getD, List.getElem?_eq_getElem b3.1, Option.getD_some] at hch
              rw [hch]
            · rw [if_neg b3, if_neg b3, if_pos hc0, if_pos hc0]
              rw [show u.length + e.2.1 + c.1 - 1 = u.length + (e.2.1 + c.1 - 1) by omega, hgd _ _ (by omega), Nat.add_assoc, Nat.add_assoc]
              refine ih _ _ _ _ _ ?_ (by omega)
              intro hlr hch
              exfalso
              have h3 := hcb.2.2.1 hc0
              rw [hlr, List.getElem?_drop, show e.2.1 + (c.1 - 1) = e.2.1 + c.1 - 1 by omega, List.getElem?_eq_getElem (by omega)] at h3
              rw [List.getD_eq_getElem?_getD, List.getElem?_eq_getElem (by omega), Option.getD_some] at hch
              rw [hch] at h3
              simp at h3
              exact hd h3.symm
      · simp only [h2, if_false]
        rfl

variable {α : Type}

theorem retriever_err {d : Char} {path word : Str} {hk : Bool} (f : Nat) : ∀ (ch : Char) (src dst : Nat) (lrid : Bool) (kv : KV) {e},
    retriever d path word hk f ch src dst lrid kv = .error e → e = .hang := by
  induction f with
  | zero => intro ch src dst lrid kv e h; simp [retriever] at h; exact h.symm
  | succ f ih =>
    intro ch src dst lrid kv e h
    cases hs : rstep d path word hk (ch, src, dst, lrid) with
    | none =>
      obtain ⟨r', hr⟩ := retriever_none hs kv
      rw [hr] at h; cases h
    | some s' =>
      obtain ⟨kv', hr⟩ := retriever_some hs kv
      rw [hr] at h
      exact ih _ _ _ _ _ h

theorem tl_last {d : Char} {ps : List Str} (h : ps.getLast? = some [':']) : (tl d ps).getLast? = some ':' := by
  induction ps with
  | nil => simp at h
  | cons p ps ih =>
    cases ps with
    | nil => simp at h; subst h; simp [tl]
    | cons q qs =>
      have := ih (by simpa using h)
      rw [tl_cons, List.getLast?_cons, List.getLast?_append, this]; rfl

theorem last_seg {d : Char} {s : Str} (h : s.getLast? ≠ some ':') : (splitOn d s).tail.getLast? ≠ some [':'] := by
  obtain ⟨p, ps, h1, h2, -⟩ := splitOn_tl d s
  rw [h1]
  intro h3
  apply h
  have h3 : ps.getLast? = some [':'] := h3
  rw [h2, List.getLast?_append, tl_last h3]; rfl

/-- The fuel of the model suffices when any fuel does. -/
theorem retriever_fuel {d : Char} {path word : Str} {hk : Bool} {ch : Char} {src dst : Nat} {lrid : Bool} {kv : KV}
    (hs : src ≤ path.length) (hd : dst ≤ word.length) {f : Nat} (hf : retrFuel path.length word.length ≤ f) {r}
    (h : retriever d path word hk f ch src dst lrid kv = .ok r) :
    retriever d path word hk (retrFuel path.length word.length) ch src dst lrid kv = .ok r := by
  cases hr : retriever d path word hk (retrFuel path.length word.length) ch src dst lrid kv with
  | ok r' =>
    have := retriever_mono _ _ _ _ _ _ hr f hf
    rw [h] at this; rw [Except.ok.injEq] at this ⊢; exact this.symm
  | error e =>
    cases retriever_err _ _ _ _ _ _ hr
    rw [retriever_adequate hs hd hr f] at h; cases h

theorem verdict_mk (d : Char) (i : Nat) (p : Str) (c : Core α) (k : List (Node α)) (par : Option (Node α)) (wl src : Nat) (r : MR α) :
    verdict d (mk i p c k) par wl src r =
      if src + 1 = p.length ∧ p[src]? = some d then ⟨true, r.part, some (mk i p c k), par⟩
      else if min p.length wl < p.length ∧ src = min p.length wl then ⟨r.matched, true, some (mk i p c k), par⟩
      else if min p.length wl ≥ p.length ∧ src = min p.length wl ∧ min p.length wl > 0 ∧ src > 0 ∧ (!r.part) = true then
        ⟨true, r.part, some (mk i p c k), par⟩
      else r := rfl

theorem verdict_shift {d : Char} {i : Nat} {u p : Str} {c : Core α} (hp : p ≠ []) {par : Option (Node α)} {wl src : Nat} {R R' : MR α}
    (h : verdict d (mk i (u ++ p) c []) par (u.length + wl) (u.length + src) R' = ⟨true, false, some (mk i (u ++ p) c []), par⟩)
    (h1 : R'.matched = R.matched) (h2 : R'.part = R.part)
    (h3 : R'.matched = true → R.child = some (mk i p c []) ∧ R.parent = par) :
    verdict d (mk i p c []) par wl src R = ⟨true, false, some (mk i p c []), par⟩ := by
  have hpp : 0 < p.length := List.length_pos_iff.mpr hp
  obtain ⟨m, pt, ch, pr⟩ := R
  obtain ⟨m', pt', ch', pr'⟩ := R'
  simp only at h1 h2 h3
  subst h1 h2
  rw [verdict_mk] at h ⊢
  simp only [List.length_append] at h ⊢
  have hA : (u.length + src + 1 = u.length + p.length ∧ (u ++ p)[u.length + src]? = some d) = (src + 1 = p.length ∧ p[src]? = some d) := by
    rw [List.getElem?_append_right (by omega), show u.length + src - u.length = src by omega]
    simp only [eq_iff_iff]
    constructor
    · rintro ⟨a, b⟩; exact ⟨by omega, b⟩
    · rintro ⟨a, b⟩; exact ⟨by omega, b⟩
  have hm : min (u.length + p.length) (u.length + wl) = u.length + min p.length wl := by omega
  simp only [hA, hm] at h
  by_cases a : src + 1 = p.length ∧ p[src]? = some d
  · rw [if_pos a] at h ⊢
    simp at h ⊢
    exact h
  rw [if_neg a] at h ⊢
  by_cases b : min p.length wl < p.length ∧ src = min p.length wl
  · rw [if_pos (by omega)] at h
    simp at h
  rw [if_neg (by omega)] at h
  rw [if_neg b]
  by_cases e : min p.length wl ≥ p.length ∧ src = min p.length wl ∧ min p.length wl > 0 ∧ src > 0 ∧ (!pt') = true
  · rw [if_pos (by refine ⟨by omega, by omega, by omega, by omega, e.2.2.2.2⟩)] at h
    rw [if_pos e]
    simp at h ⊢
    exact h
  · rw [if_neg (by rintro ⟨e1, e2, e3, e4, e5⟩; exact e ⟨by omega, by omega, by omega, by omega, e5⟩)] at h
    rw [if_neg e]
    simp at h
    obtain ⟨h4, h5, h6, h7⟩ := h
    obtain ⟨h8, h9⟩ := h3 h4
    rw [h4, h5, h8, h9]

/-- A leaf below the position `u`: it matches as if it had the whole path. -/
theorem matchR_leaf_at {d : Char} (hd : d ≠ ':') (hd' : d ≠ '*') {n : Node α} (hk : n.kids = []) (hP : n.path ≠ []) {u w : Str} (hw : w ≠ [])
    (hlast : (u ++ n.path).getLast? ≠ some ':') (par : Option (Node α)) {kv : KV} (h : leafFound d (u ++ n.path) (u ++ w) = some kv) :
    matchR d n w (endsW d u) par [] = .ok (⟨true, false, some n, par⟩, kv) := by
  obtain ⟨i, path, core, kids⟩ := n
  simp only [kids_mk, path_mk] at hk hP hlast h ⊢
  subst hk
  have hl := matchR_leaf hd hd' (n := mk i (u ++ path) core []) rfl (by simp [hP]) (w := u ++ w) (by simp [hw]) (last_seg hlast) par
  rw [path_mk, h] at hl
  simp only at hl
  rw [matchR_eq _ _ _ _ _ _ (by simp [hw]), masterLoop] at hl
  rw [matchR_eq _ _ _ _ _ _ hw, masterLoop]
  simp only [path_mk, kids_mk] at hl ⊢
  have hcl : cmpLoop d (u ++ path) (u ++ w) false = (u.length + (cmpLoop d path w (endsW d u)).1, (cmpLoop d path w (endsW d u)).2) := by
    rw [cmpLoop_append]
    by_cases hu : u = []
    · subst hu; simp [endsW]
    · rw [if_neg hu]
  simp only [hcl, List.length_append, List.isEmpty_nil, Bool.not_true, if_true] at hl
  simp only [List.isEmpty_nil, Bool.not_true, if_true]
  have hpl : path.getLast? ≠ some ':' := by
    intro e; apply hlast; rw [List.getLast?_append, e]; rfl
  have hpp : 0 < path.length := List.length_pos_iff.mpr hP
  have hwp : 0 < w.length := List.length_pos_iff.mpr hw
  have hm : min (u.length + path.length) (u.length + w.length) = u.length + min path.length w.length := by omega
  have hcb := cmpLoop_bounds d path w (endsW d u)
  generalize cmpLoop d path w (endsW d u) = c at *
  rw [hm] at hl
  by_cases hc : c.1 < min path.length w.length
  · rw [if_pos (by omega)] at hl
    rw [if_pos hc]
    have hg : (u ++ path).getD (u.length + c.1) d = path.getD c.1 d := by
      rw [List.getD_eq_getElem?_getD, List.getD_eq_getElem?_getD, List.getElem?_append_right (by omega)]
      simp
    rw [hg] at hl
    have hsh := retriever_shift hd (u := u) (path := path) (word := w) (hk := false) hpl
      (retrFuel (u.length + path.length) (u.length + w.length)) (path.getD c.1 d) c.1 c.1 c.2 [] (by
        intro _ hch
        refine ⟨?_, by omega⟩
        by_contra hlen
        apply hpl
        rw [List.getD_eq_getElem?_getD, List.getElem?_eq_getElem (by omega), Option.getD_some] at hch
        rw [List.getLast?_eq_getElem?, show path.length - 1 = c.1 by omega, List.getElem?_eq_getElem (by omega), hch]) (by omega)
    rw [hsh] at hl
    cases hr : retriever d path w false (retrFuel (u.length + path.length) (u.length + w.length)) (path.getD c.1 d) c.1 c.1 c.2 [] with
    | error e => rw [hr] at hl; simp [Except.map] at hl
    | ok r =>
      have hr2 := retriever_fuel (by omega) (by omega) (by
        simp only [retrFuel]
        have : 8 * (path.length + 2) * (w.length + 2) ≤ 8 * (u.length + path.length + 2) * (u.length + w.length + 2) :=
          Nat.mul_le_mul (by omega) (by omega)
        omega) hr
      rw [hr] at hl
      rw [hr2]
      obtain ⟨r, kv'⟩ := r
      simp only [Except.map] at hl
      cases r with
      | nothing => simp [shiftR] at hl
      | found => simp [shiftR] at hl ⊢; exact hl
      | out src dst f m p =>
        simp only [shiftR] at hl ⊢
        by_cases hlen : min path.length w.length < w.length
        · rw [if_pos (by omega)] at hl; simp at hl
        rw [if_neg (by omega)] at hl
        rw [if_neg hlen]
        rw [Except.ok.injEq, Prod.mk.injEq] at hl
        rw [verdict_shift hP hl.1 (by cases m <;> rfl) (by cases m <;> rfl) (by cases m <;> simp), hl.2]
  · rw [if_neg (by omega)] at hl
    rw [if_neg hc]
    simp only at hl ⊢
    by_cases hlen : min path.length w.length < w.length
    · rw [if_pos (by omega)] at hl; simp at hl
    rw [if_neg (by omega)] at hl
    rw [if_neg hlen]
    rw [Except.ok.injEq, Prod.mk.injEq] at hl
    rw [verdict_shift hP hl.1 rfl rfl (by simp), hl.2]

/-- A leaf does not match a path that leaves it at a place without a route marker. -/
theorem leafFound_misses {d : Char} (hd : d ≠ ':') (hd' : d ≠ '*') {P W : Str} (hP : P ≠ []) (hlast : P.getLast? ≠ some ':') (hW : W ≠ [])
    (hm : Misses d W P) (h2 : ¬ W <+: P) : leafFound d P W = none := by
  have hl := matchR_leaf hd hd' (n := mk 0 P (Core.zero : Core Nat) []) rfl hP hW (last_seg hlast) none
  rw [path_mk] at hl
  cases hf : leafFound d P W with
  | none => rfl
  | some kv =>
    rw [hf] at hl
    simp only at hl
    obtain ⟨r, e1, e2⟩ := matchR_clear d (mk 0 P (Core.zero : Core Nat) []) (by simp [wf_mk]) [] W false none [] hW (by simp [endsW])
      (by simpa [keys, nodes_eq, nodesL] using hm)
    rw [hl] at e1
    simp only [Except.ok.injEq, Prod.mk.injEq] at e1
    exfalso
    rcases e2.spec (by simp [wf_mk]) [] with hit | miss
    · obtain ⟨m, -, hmm, -⟩ := hit.node
      simp only [List.nil_append, nodes_eq, kids_mk, path_mk, nodesL, List.mem_singleton, Prod.mk.injEq] at hmm
      rcases hmm with ⟨e, -⟩ | ⟨⟨e, -⟩, -⟩
      · exact h2 (by rw [e])
      · exact h2 (by rw [← e]; simp)
    · have := miss.matched
      rw [← e1.1] at this; cases this

theorem matchKids_first {d : Char} {self : Node α} {ks : List (Node α)} {rest f kv} {c : Node α} {r kv'}
    (hc : c ∈ ks) (hcr : matchR d c rest f (some self) kv = .ok (r, kv')) (hr : r.matched = true)
    (h : ∀ c' ∈ ks, c' ≠ c → matchR d c' rest f (some self) kv = .ok (MR.nothing, kv)) :
    matchKids d self ks rest f kv = .ok (r, kv') := by
  induction ks with
  | nil => cases hc
  | cons a as ih =>
    rw [matchKids]
    by_cases hac : a = c
    · subst hac
      rw [hcr]
      simp [hr]
    · rw [h a (by simp) hac]
      have hc2 : c ∈ as := by
        rcases List.mem_cons.mp hc with h | h
        · exact absurd h.symm hac
        · exact h
      cases as with
      | nil => cases hc2
      | cons b bs =>
        simp only [Bool.or_self, Bool.false_eq_true, if_false]
        exact ih hc2 (fun c' hc' => h c' (by simp [hc']))

theorem leave_unique {s s' : Str} {a a' b b' : Char} {x x' y y' : Str} (h1 : s ++ a :: x = s' ++ a' :: x') (h2 : s ++ b :: y = s' ++ b' :: y')
    (hab : a ≠ b) (hab' : a' ≠ b') : s = s' ∧ a = a' := by
  induction s generalizing s' with
  | nil =>
    cases s' with
    | nil => simp at h1 ⊢; exact h1.1
    | cons c s' => simp at h1 h2; exact absurd (h1.1.trans h2.1.symm) hab
  | cons c s ih =>
    cases s' with
    | nil => simp at h1 h2; exact absurd (h1.1.symm.trans h2.1) hab'
    | cons c' s' =>
      simp at h1 h2
      obtain ⟨e1, e2⟩ := ih h1.2 h2.2
      exact ⟨by rw [h1.1, e1], e2⟩

/-- A node whose fragment is consumed hands the rest to its children. -/
theorem matchR_through {d : Char} {i : Nat} {p : Str} {co : Core α} {k : List (Node α)} (hk : k ≠ []) (b : Char) (y : Str) (lrid : Bool)
    (par : Option (Node α)) (kv : KV) :
    matchR d (mk i p co k) (p ++ b :: y) lrid par kv =
      matchKids d (mk i p co k) k (b :: y) (if p = [] then lrid else endsW d p) kv := by
  rw [matchR_eq _ _ _ _ _ _ (by simp)]
  have hc : cmpLoop d p (p ++ b :: y) lrid = (p.length, if p = [] then lrid else endsW d p) := by
    have := cmpLoop_append d p [] (b :: y) lrid
    simpa [cmpLoop] using this
  have hmin : min p.length (p ++ b :: y).length = p.length := by simp
  have hlt : p.length < (p ++ b :: y).length := by simp
  have hk0 : k.isEmpty = false := by simpa using hk
  simp only [masterLoop, path_mk, kids_mk, hc, hmin, Nat.lt_irrefl, if_false, hlt, if_true, hk0, Bool.false_eq_true]
  simp

/-- The path fits to none of the nodes: `matchR` finds nothing. -/
theorem matchR_skip {d : Char} {n : Node α} (hw : n.WF) {u w : Str} (hne : w ≠ []) (par : Option (Node α))
    (hm : ∀ q m, (q, m) ∈ nodes u n → Misses d (u ++ w) q ∧ ¬ u ++ w <+: q ∧ (m.kids = [] → ¬ q <+: u ++ w)) (kv : KV) :
    matchR d n w (endsW d u) par kv = .ok (MR.nothing, kv) := by
  obtain ⟨r, e1, e2⟩ := matchR_clear d n hw u w (endsW d u) par kv hne rfl (by
    intro q hq
    obtain ⟨x, hx, rfl⟩ := List.mem_map.mp hq
    exact (hm x.1 x.2 hx).1)
  rw [e1]
  rcases e2.spec hw u with hit | miss
  · obtain ⟨m, -, hmm, -⟩ := hit.node
    exfalso
    rcases hmm with h | ⟨h, -⟩
    · exact (hm _ _ h).2.1 List.prefix_rfl
    · exact (hm _ _ h).2.1 (by simp)
  · rcases miss.part with ⟨rfl, -⟩ | ⟨-, q, m, h1, h2, -⟩ | ⟨-, -, q, m, h1, h2, h3, -⟩
    · rfl
    · exact absurd h2 (hm _ _ h1).2.1
    · exact absurd h3 ((hm _ _ h1).2.2 h2)

/-- A route pattern at a leaf among other nodes that do not fit. -/
theorem matchR_among {d : Char} (hd : d ≠ ':') (hd' : d ≠ '*') {P : Str} (hP : P ≠ []) (hlast : P.getLast? ≠ some ':') {m : Node α} (hk : m.kids = [])
    (n : Node α) : ∀ (u w : Str) (par : Option (Node α)), n.WF → (n.path ≠ [] ∨ u = []) → (P, m) ∈ nodes u n → w ≠ [] →
    (∀ q m', (q, m') ∈ nodes u n → q ≠ P → Misses d (u ++ w) q ∧ ¬ u ++ w <+: q ∧ (m'.kids = [] → ¬ q <+: u ++ w)) →
    ∀ {kv}, leafFound d P (u ++ w) = some kv → ∃ par', matchR d n w (endsW d u) par [] = .ok (⟨true, false, some m, par'⟩, kv) := by
  induction n using ind with
  | h i p co k ih =>
    intro u w par hw hpu hmem hne hm kv hf
    have hw' := (wf_mk ..).mp hw
    by_cases hself : P = u ++ p
    · have hmm : (P, mk i p co k) ∈ nodes u (mk i p co k) := by rw [hself, nodes_eq]; simp
      obtain rfl := nodes_unique hw hmem hmm
      have hp : p ≠ [] := by
        rcases hpu with h | h
        · exact h
        · intro h'; apply hP; rw [hself, h, h']; rfl
      exact ⟨par, matchR_leaf_at hd hd' hk hp hne (by rw [path_mk, ← hself]; exact hlast) par (by rw [path_mk, ← hself]; exact hf)⟩
    · rw [mem_nodes] at hmem
      rcases hmem with hmem | ⟨c, hc, hmem⟩
      · simp at hmem; exact absurd hmem.1 hself
      simp only [kids_mk, path_mk] at hc hmem
      obtain ⟨hq1, hq2, -⟩ := hm (u ++ p) (mk i p co k) (by rw [nodes_eq]; simp) (fun h => hself h.symm)
      have hpP : u ++ p <+: P := (List.prefix_append _ _).trans (prefix_of_mem_nodes hmem)
      obtain ⟨s, x, y, hp, hwd, -, hxy⟩ := cmpLoop_spec d p w false
      have hy : y ≠ [] := by
        rintro rfl
        apply hq2
        rw [hp, hwd]; simp
      have hx : x = [] := by
        rcases hxy with h | h | ⟨a, b, x', y', rfl, rfl, hab⟩
        · exact h
        · exact absurd h hy
        · exfalso
          obtain ⟨z, hz⟩ := hpP
          have hPe : P = (u ++ s) ++ a :: (x' ++ z) := by rw [← hz, hp]; simp
          have hWe : u ++ w = (u ++ s) ++ b :: y' := by rw [hwd]; simp
          have := leafFound_misses hd hd' hP hlast (W := u ++ w) (by rw [hWe]; simp) (by
            intro s' a' x'' b' y'' e1 e2 e3 e4
            obtain ⟨e5, e6⟩ := leave_unique (hPe.symm.trans e1) (hWe.symm.trans e2) hab e3
            rw [← e6]
            rw [← e5] at e4
            exact hq1 (u ++ s) a x' b y' (by rw [hp]; simp) hWe hab e4) (by
            rw [hWe, hPe, List.prefix_append_right_inj, List.cons_prefix_cons]
            exact fun h => hab h.1.symm)
          rw [this] at hf; cases hf
      subst hx
      simp only [List.append_nil] at hp
      subst hp
      cases y with
      | nil => exact absurd rfl hy
      | cons b y' =>
        have hk0 : k ≠ [] := by rintro rfl; cases hc
        have hfl : (if p = [] then endsW d u else endsW d p) = endsW d (u ++ p) := by
          split
          · next h => rw [h]; simp
          · next h => rw [endsW_append h]
        rw [hwd, matchR_through hk0, hfl]
        have hWe : u ++ w = u ++ p ++ b :: y' := by rw [hwd]; simp
        rw [hWe] at hm hf
        have hup : ∀ c' ∈ k, ∀ q m', (q, m') ∈ nodes (u ++ p) c' → (q, m') ∈ nodes u (mk i p co k) :=
          fun c' hc' q m' h => (mem_nodes ..).mpr (.inr ⟨c', hc', h⟩)
        obtain ⟨par', h⟩ := ih c hc (u ++ p) (b :: y') (some (mk i p co k)) (hw'.2 c hc).2 (.inl (hw'.2 c hc).1) hmem (by simp)
          (fun q m' hq hqP => hm q m' (hup c hc q m' hq) hqP) hf
        refine ⟨par', matchKids_first hc h rfl ?_⟩
        intro c' hc' hne'
        refine matchR_skip (hw'.2 c' hc').2 (by simp) _ ?_ []
        intro q m' hq
        apply hm q m' (hup c' hc' q m' hq)
        rintro rfl
        apply hne'
        exact heads_inj hw'.1 hc' hc (by
          have h1 := prefix_of_mem_nodes hq
          have h2 := prefix_of_mem_nodes hmem
          have hc1 := (hw'.2 c hc).1
          have hc2 := (hw'.2 c' hc').1
          cases e1 : c.path with
          | nil => exact absurd e1 hc1
          | cons z zs =>
            rw [e1] at h2
            obtain ⟨t, ht⟩ := h2
            exact head_of_prefix hc2 (List.prefix_or_prefix_of_prefix h1 ⟨t, ht⟩))

end Node
end Verif

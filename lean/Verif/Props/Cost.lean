import Verif.Model.Cost
import Verif.Props.TTL
import Verif.Props.Compact
import Verif.Lemmas.Join
/-
C83: how much of the tree a lookup and an insertion look at.
-/
namespace Verif
namespace Cost
variable {α : Type}
open Node

/-! The answers are the ones of the plain model. -/

theorem kidsT_fst (d : Char) (self : Node α) (ks : List (Node α))
    (h : ∀ c ∈ ks, ∀ w f p kv, (matchRT d c w f p kv).1 = matchR d c w f p kv) (rest : Str) (f : Bool) (kv : KV) :
    (matchKidsT d self ks rest f kv).1 = matchKids d self ks rest f kv := by
  induction ks generalizing kv with
  | nil => rw [matchKidsT, matchKids]
  | cons a as ih =>
    rw [matchKidsT, matchKids, ← h a (by simp)]
    rcases (matchRT d a rest f (some self) kv).1 with e | ⟨r, kv'⟩
    · rfl
    · simp only
      split
      · rfl
      · cases as with
        | nil => rfl
        | cons b bs => exact ih (fun c hc => h c (by simp [hc])) kv'

theorem matchRT_fst (d : Char) (n : Node α) (w : Str) (f : Bool) (p : Option (Node α)) (kv : KV) :
    (matchRT d n w f p kv).1 = matchR d n w f p kv := by
  induction n using ind generalizing w f p kv with
  | h i q co k ih =>
    rw [matchRT, matchR]
    split
    · rfl
    · rcases masterLoop d (mk i q co k) w f p kv with e | ⟨m, kv'⟩
      · rfl
      · cases m with
        | ret r => rfl
        | go src dst g r =>
          simp only
          split
          · split
            · rfl
            · exact kidsT_fst d _ k (fun c hc => ih c hc) _ _ _
          · rfl

theorem retryUpT_fst (d : Char) (root : Node α) (fuel : Nat) (w : Str) (kv : KV) :
    (View.retryUpT d root fuel w kv).1 = View.retryUp d root fuel w kv := by
  induction fuel generalizing w kv with
  | zero => rfl
  | succ fuel ih =>
    simp only [View.retryUpT, View.retryUp, matchRT_fst]
    split
    · rcases matchR d root _ false none kv with e | ⟨r, kv'⟩
      · rfl
      · simp only
        split
        · rfl
        · exact ih _ _
    · rfl

theorem searchT_fst (v : View) (t : Tree α) (w : Str) : (v.searchT t w).1 = v.search t w := by
  simp only [View.searchT, View.search, matchRT_fst]
  rcases matchR v.delim t.root w false none [] with e | ⟨r, kv⟩
  · rfl
  · simp only
    split
    · rfl
    · split
      · simp only [retryUpT_fst]
        rcases View.retryUp v.delim t.root (w.length + 1) w kv with e | ⟨_ | r, kv'⟩ <;> rfl
      · rfl

/-! The nodes seen by one call of `matchR` are met in the order of a walk, each at most once. -/

theorem walkL_sub {d : Char} {self : Node α} (ks : List (Node α))
    (h : ∀ c ∈ ks, ∀ w f p kv, ((matchRT d c w f p kv).2.map (·.1)).Sublist (walk c)) (rest : Str) (f : Bool) (kv : KV) :
    ((matchKidsT d self ks rest f kv).2.map (·.1)).Sublist (walkL ks) := by
  induction ks generalizing kv with
  | nil => simp [matchKidsT, walkL]
  | cons a as ih =>
    have ha := h a (by simp) rest f (some self) kv
    have h0 : ((matchRT d a rest f (some self) kv).2.map (·.1)).Sublist (walkL (a :: as)) := by
      rw [walkL]; exact ha.trans (List.sublist_append_left ..)
    rw [matchKidsT]
    simp only
    rcases (matchRT d a rest f (some self) kv).1 with e | ⟨r, kv'⟩
    · exact h0
    · simp only
      split
      · exact h0
      · cases as with
        | nil => exact h0
        | cons b bs =>
          simp only [List.map_append]
          rw [walkL]
          exact ha.append (ih (fun c hc => h c (by simp [hc])) kv')

theorem walk_sub (d : Char) (n : Node α) (w : Str) (f : Bool) (p : Option (Node α)) (kv : KV) :
    ((matchRT d n w f p kv).2.map (·.1)).Sublist (walk n) := by
  induction n using ind generalizing w f p kv with
  | h i q co k ih =>
    have h1 : ∀ c : Nat, ([(mk i q co k, c)].map (·.1)).Sublist (walk (mk i q co k)) := by
      intro c; rw [walk]; simp
    rw [matchRT]
    split
    · exact h1 _
    · rcases masterLoop d (mk i q co k) w f p kv with e | ⟨m, kv'⟩
      · exact h1 _
      · cases m with
        | ret r => exact h1 _
        | go src dst g r =>
          simp only
          split
          · split
            · exact h1 _
            · simp only [List.map_cons]
              rw [walk]
              exact (walkL_sub k (fun c hc => ih c hc) _ _ _).cons_cons _
          · exact h1 _

/-! Trees without route patterns. -/

theorem compared_le (a b : Str) : compared a b ≤ a.length ∧ compared a b ≤ b.length := by
  induction a generalizing b with
  | nil => simp [compared]
  | cons x xs ih =>
    cases b with
    | nil => simp [compared]
    | cons y ys =>
      rw [compared]
      have := ih ys
      split <;> simp only [List.length_cons] <;> omega

/-- All nodes below `n` have at most `A` children. -/
def Wide (A : Nat) (n : Node α) : Prop := ∀ x ∈ walk n, x.kids.length ≤ A

theorem mem_walkL {x : Node α} {ks : List (Node α)} : x ∈ walkL ks ↔ ∃ c ∈ ks, x ∈ walk c := by
  induction ks with
  | nil => simp [walkL]
  | cons a as ih => simp [walkL, ih]

/-- A run over children none of which begins with the next rune. -/
theorem kids_none {d : Char} {self : Node α} {ks : List (Node α)} {rest f kv}
    (h : ∀ c ∈ ks, matchRT d c rest f (some self) kv = (.ok (MR.nothing, kv), [(c, 1)])) :
    (matchKidsT d self ks rest f kv).2 = ks.map (fun c => (c, 1)) := by
  induction ks with
  | nil => simp [matchKidsT]
  | cons a as ih =>
    rw [matchKidsT]
    simp only [h a (by simp)]
    cases as with
    | nil => simp
    | cons b bs =>
      simp only [Bool.or_self, Bool.false_eq_true, if_false]
      rw [ih (fun c hc => h c (by simp [hc]))]
      simp

theorem sum_ones (ks : List (Node α)) : ((ks.map (fun c => (c, 1))).map (·.2)).sum = ks.length := by
  induction ks with
  | nil => rfl
  | cons a as ih => simp only [List.map_cons, List.sum_cons, ih, List.length_cons]; omega

theorem kids_some {d : Char} {self : Node α} {ks : List (Node α)} {b : Char} {y : Str} {f kv L S}
    (hnd : (ks.map (fun c => c.path.head?)).Nodup)
    (h0 : ∀ c ∈ ks, c.path.head? ≠ some b →
      matchRT d c (b :: y) f (some self) kv = (.ok (MR.nothing, kv), [(c, 1)]))
    (h1 : ∀ c ∈ ks, c.path.head? = some b →
      (∃ r, (matchRT d c (b :: y) f (some self) kv).1 = .ok (r, kv)) ∧
      (matchRT d c (b :: y) f (some self) kv).2.length ≤ 1 + L ∧
      ((matchRT d c (b :: y) f (some self) kv).2.map (·.2)).sum ≤
        S + (matchRT d c (b :: y) f (some self) kv).2.length) :
    (matchKidsT d self ks (b :: y) f kv).2.length ≤ ks.length + L ∧
    ((matchKidsT d self ks (b :: y) f kv).2.map (·.2)).sum ≤ S + (matchKidsT d self ks (b :: y) f kv).2.length := by
  induction ks with
  | nil => simp [matchKidsT]
  | cons a as ih =>
    simp only [List.map_cons, List.nodup_cons] at hnd
    by_cases ha : a.path.head? = some b
    · obtain ⟨⟨r, e⟩, hl, hs⟩ := h1 a (by simp) ha
      have hrest : (matchKidsT d self as (b :: y) f kv).2 = as.map (fun c => (c, 1)) := by
        apply kids_none
        intro c hc
        apply h0 c (by simp [hc])
        intro hcb
        exact hnd.1 (List.mem_map.mpr ⟨c, hc, by rw [hcb, ha]⟩)
      rw [matchKidsT]
      simp only [e]
      split
      · simp only [List.length_cons]; omega
      · cases as with
        | nil => simp only [List.length_cons, List.length_nil]; omega
        | cons a2 as2 =>
          simp only [hrest, List.length_append, List.map_append, List.sum_append, sum_ones, List.length_map]
          simp only [List.length_cons] at *
          omega
    · rw [matchKidsT]
      simp only [h0 a (by simp) ha, Bool.or_self, Bool.false_eq_true, if_false]
      cases as with
      | nil => simp only [List.length_cons, List.length_nil, List.map_cons, List.map_nil, List.sum_cons, List.sum_nil]; omega
      | cons a2 as2 =>
        have := ih hnd.2 (fun c hc => h0 c (by simp [hc])) (fun c hc => h1 c (by simp [hc]))
        simp only [List.length_append, List.map_append, List.sum_append, List.length_cons, List.length_nil,
          List.map_cons, List.map_nil, List.sum_cons, List.sum_nil] at *
        omega

theorem plain_cost (d : Char) (A : Nat) (n : Node α) (hw : n.WF) (hA : Wide A n) (u w : Str) (lrid : Bool)
    (par : Option (Node α)) (kv : KV) (hne : w ≠ []) (hl : lrid = endsW d u)
    (hr : ∀ q ∈ keys u n, Misses d (u ++ w) q) :
    (n.path ≠ [] → n.path.head? ≠ w.head? → (matchRT d n w lrid par kv).2 = [(n, 1)]) ∧
    (matchRT d n w lrid par kv).2.length ≤ 1 + A * (w.length - n.path.length) ∧
    ((matchRT d n w lrid par kv).2.map (·.2)).sum ≤ w.length + (matchRT d n w lrid par kv).2.length := by
  induction n using ind generalizing u w lrid par kv with
  | h i p co k ih =>
    have hw' := (wf_mk ..).mp hw
    have hself : Misses d (u ++ w) (u ++ p) := hr _ (by simp [keys, nodes_eq])
    have hcp := compared_le p w
    have one : ∀ T : List (Node α × Nat), T = [(mk i p co k, compared p w)] →
        ((mk i p co k).path ≠ [] → (mk i p co k).path.head? ≠ w.head? → T = [(mk i p co k, 1)]) ∧
        T.length ≤ 1 + A * (w.length - (mk i p co k).path.length) ∧ (T.map (·.2)).sum ≤ w.length + T.length := by
      intro T hT
      subst hT
      refine ⟨?_, ?_, ?_⟩
      · intro h1 h2
        simp only [path_mk] at h1 h2
        cases p with
        | nil => exact absurd rfl h1
        | cons a as =>
          cases w with
          | nil => exact absurd rfl hne
          | cons b bs =>
            have : a ≠ b := by simpa using h2
            simp [compared, this]
      · simp
      · simp; omega
    obtain ⟨s, x, y, hp, hwd, hc, hxy⟩ := cmpLoop_spec d p w lrid
    have hf : (if s = [] then lrid else endsW d s) = endsW d (u ++ s) := by
      split
      · next h => subst h; simp [hl]
      · next h => rw [endsW_append h]
    rw [hf] at hc
    have hsp : s.length + x.length = p.length := by rw [hp]; simp
    have hsw : s.length + y.length = w.length := by rw [hwd]; simp
    by_cases hlt : s.length < min p.length w.length
    · apply one
      rw [matchRT, if_neg hne]
      simp only [masterLoop, path_mk, kids_mk, hc, hlt, if_true]
      rcases hxy with rfl | rfl | ⟨a, b, x', y', rfl, rfl, hab⟩
      · simp at hsp; omega
      · simp at hsw; omega
      · have hch : p.getD s.length d = a := by rw [hp]; simp
        rw [hch, retrFuel, retriever_plain (clear_special (x := x') (y := y') (b := b) (by rw [← hp, ← hwd]; exact hself) hab rfl)]
    · rcases Nat.lt_or_ge p.length w.length with hcmp | hcmp
      · have hx : x = [] := List.eq_nil_of_length_eq_zero (by omega)
        subst hx
        simp only [List.append_nil] at hp
        subst hp
        have hmin : min p.length w.length = p.length := by omega
        cases y with
        | nil => simp at hsw; omega
        | cons b y' =>
        have hrest : w.drop p.length = b :: y' := by rw [hwd]; simp
        by_cases hk : k = []
        · apply one
          rw [matchRT, if_neg hne]
          simp only [masterLoop, path_mk, kids_mk, hc, hmin, Nat.lt_irrefl, if_false, hcmp, if_true, hk, List.isEmpty_nil]
        · have hk0 : k.isEmpty = false := by simpa using hk
          have hT : (matchRT d (mk i p co k) w lrid par kv).2 =
              (mk i p co k, compared p w) :: (matchKidsT d (mk i p co k) k (b :: y') (endsW d (u ++ p)) kv).2 := by
            rw [matchRT, if_neg hne]
            simp only [masterLoop, path_mk, kids_mk, hc, hmin, Nat.lt_irrefl, if_false, hcmp, if_true, hk0, Bool.false_eq_true, hrest]
          have hrk : ∀ c ∈ k, ∀ q ∈ keys (u ++ p) c, Misses d (u ++ p ++ b :: y') q := by
            intro c hc q hq
            rw [List.append_assoc, ← hwd]
            apply hr
            simp only [keys, List.mem_map] at hq ⊢
            obtain ⟨x, hx, rfl⟩ := hq
            exact ⟨x, (mem_nodes ..).mpr (.inr ⟨c, hc, hx⟩), rfl⟩
          have hAk : ∀ c ∈ k, Wide A c := by
            intro c hc x hx
            exact hA x (by rw [walk]; exact List.mem_cons_of_mem _ (mem_walkL.mpr ⟨c, hc, hx⟩))
          have hAn : k.length ≤ A := hA (mk i p co k) (by rw [walk]; simp)
          have hih := fun c hc => ih c hc (hw'.2 c hc).2 (hAk c hc) (u ++ p) (b :: y') (endsW d (u ++ p))
            (some (mk i p co k)) kv (by simp) rfl (hrk c hc)
          have hm := fun c hc => matchR_clear d c (hw'.2 c hc).2 (u ++ p) (b :: y') (endsW d (u ++ p))
            (some (mk i p co k)) kv (by simp) rfl (hrk c hc)
          have hwl : w.length = p.length + (y'.length + 1) := by rw [hwd]; simp
          have key := kids_some (d := d) (self := mk i p co k) (b := b) (y := y') (f := endsW d (u ++ p)) (kv := kv)
            (L := A * y'.length) (S := y'.length + 1) hw'.1
            (by
              intro c hc hh
              obtain ⟨r, h1, h2⟩ := hm c hc
              have hcp := (hw'.2 c hc).1
              apply Prod.ext
              · rw [matchRT_fst, h1]
                suffices r = MR.nothing by rw [this]
                cases hcpath : c.path with
                | nil => exact absurd hcpath hcp
                | cons z zs =>
                  rw [hcpath] at hh
                  have hzb : z ≠ b := by simpa using hh
                  generalize hbb : b :: y' = bb at h2
                  cases h2 with
                  | exact h => rw [hcpath] at hbb; simp at hbb; exact absurd hbb.1.symm hzb
                  | delim h1 h => rw [← hbb, hcpath] at h; simp at h; exact absurd h.1 hzb
                  | part h1 h => rw [← hbb, hcpath] at h; simp at h; exact absurd h.1 hzb
                  | diff h => rfl
                  | dead h => rw [hcpath] at hbb; simp at hbb; exact absurd hbb.1.symm hzb
                  | deadRoot h h' => exact absurd h' hcp
                  | noKid h => rfl
                  | kid => rw [hcpath] at hbb; simp at hbb; exact absurd hbb.1.symm hzb
              · exact (hih c hc).1 hcp (by simpa using hh))
            (by
              intro c hc hh
              obtain ⟨r, h1, h2⟩ := hm c hc
              have h3 := hih c hc
              refine ⟨⟨r, by rw [matchRT_fst, h1]⟩, ?_, ?_⟩
              · have hcl : 1 ≤ c.path.length := List.length_pos_iff.mpr (hw'.2 c hc).1
                have h4 := h3.2.1
                have : A * ((b :: y').length - c.path.length) ≤ A * y'.length :=
                  Nat.mul_le_mul_left _ (by simp only [List.length_cons]; omega)
                omega
              · have h4 := h3.2.2
                simp only [List.length_cons] at h4
                exact h4)
          rw [hT]
          refine ⟨?_, ?_, ?_⟩
          · intro h1 h2
            simp only [path_mk] at h1 h2
            rw [hwd] at h2
            cases p with
            | nil => exact absurd rfl h1
            | cons a as => simp at h2
          · simp only [path_mk, List.length_cons]
            have e1 : w.length - p.length = y'.length + 1 := by omega
            rw [e1, Nat.mul_add]
            omega
          · simp only [List.map_cons, List.sum_cons, List.length_cons]
            omega
      · apply one
        have hmin : min p.length w.length = w.length := by omega
        rw [hmin] at hlt
        rw [matchRT, if_neg hne]
        simp only [masterLoop, path_mk, kids_mk, hc, hlt, hmin, if_false, Nat.lt_irrefl]

theorem nodesL_snd (u : Str) (ks : List (Node α)) (h : ∀ c ∈ ks, ∀ u, (c.nodes u).map (·.2) = walk c) :
    (nodesL u ks).map (·.2) = walkL ks := by
  induction ks with
  | nil => simp [nodesL, walkL]
  | cons a as ih =>
    rw [nodesL, walkL, List.map_append, h a (by simp), ih (fun c hc => h c (by simp [hc]))]

theorem nodes_snd (u : Str) (n : Node α) : (n.nodes u).map (·.2) = walk n := by
  induction n using ind generalizing u with
  | h i p co k ih =>
    rw [nodes_eq, walk, List.map_cons]
    simp only [kids_mk, path_mk]
    rw [nodesL_snd _ _ (fun c hc u => ih c hc u)]

/-- The number of children of a node is bounded by the number of different runes in the keys. -/
theorem wide_of {t : Tree α} (h : t.OK) {S : Str} (hS : ∀ q ∈ t.root.keys [], ∀ c ∈ q, c ∈ S) :
    Wide S.length t.root := by
  intro x hx
  rw [← nodes_snd [], List.mem_map] at hx
  obtain ⟨⟨q, x'⟩, hq, rfl⟩ := hx
  have hwf : x'.WF := by
    have hw := h.wf
    generalize t.root = n at hq hw
    generalize ([] : Str) = u at hq
    induction n using ind generalizing u with
    | h i p co k ih =>
      rcases (mem_nodes ..).mp hq with e | ⟨c, hc, hm⟩
      · simp only [Prod.mk.injEq] at e; rw [e.2]; exact hw
      · exact ih c hc (((wf_mk ..).mp hw).2 c hc).2 _ hm
  have hk := (wf_iff x').mp hwf
  have hsub : ∀ a ∈ x'.kids.map (fun c => c.path.head?), a ∈ S.map some := by
    intro a ha
    obtain ⟨c, hc, rfl⟩ := List.mem_map.mp ha
    have hkey : q ++ c.path ∈ t.root.keys [] := by
      simp only [keys, List.mem_map]
      refine ⟨(q ++ c.path, c), nodes_trans hq ?_, rfl⟩
      rw [mem_nodesL]
      exact ⟨c, hc, by rw [nodes_eq]; simp⟩
    cases hcp : c.path with
    | nil => exact absurd hcp (hk.2 c hc).1
    | cons b bs =>
      rw [hcp] at hkey
      simp only [List.head?_cons, List.mem_map, Option.some.injEq, exists_eq_right]
      exact hS _ hkey b (by simp)
  have := (List.subperm_of_subset hk.1 hsub).length_le
  simpa using this

/-! The retry loop of `RecusiveUp`. -/

theorem joinWith_drop_len {d : Char} (l : List Str) (a b : Str) :
    (joinWith d (l ++ [b])).length ≤ (joinWith d (l ++ [a, b])).length := by
  induction l with
  | nil => simp [joinWith]; omega
  | cons x xs ih =>
    rw [List.cons_append, List.cons_append, joinWith_cons (by simp), joinWith_cons (by simp)]
    simp only [List.length_append, List.length_cons]
    omega

theorem up_cut (d : Char) (w : Str) (h : (splitOn d w).length > 2) :
    let w' := joinWith d ((splitOn d w).take ((splitOn d w).length - 2) ++ (splitOn d w).drop ((splitOn d w).length - 1))
    w'.length ≤ w.length ∧ (splitOn d w').length = (splitOn d w).length - 1 := by
  intro w'
  have hj := joinWith_splitOn d w
  have hpc := splitOn_pieces d w
  have hform : ∃ (l : List Str) (a b : Str), splitOn d w = l ++ [a, b] := by
    generalize splitOn d w = s at h
    refine ⟨s.take (s.length - 2), s[s.length - 2]'(by omega), s[s.length - 1]'(by omega), ?_⟩
    have e1 : s.drop (s.length - 2) = [s[s.length - 2]'(by omega), s[s.length - 1]'(by omega)] := by
      apply List.ext_getElem
      · simp; omega
      · intro i h1 h2
        simp only [List.length_cons, List.length_nil] at h2
        rw [List.getElem_drop]
        rcases i with _ | _ | i
        · simp
        · simp only [List.getElem_cons_succ, List.getElem_cons_zero]
          congr 1; omega
        · omega
    rw [← e1, List.take_append_drop]
  obtain ⟨l, a, b, hs⟩ := hform
  have hw' : w' = joinWith d (l ++ [b]) := by
    show joinWith d _ = _
    rw [hs]
    have h1 : (l ++ [a, b]).length - 2 = l.length := by simp
    have h2 : (l ++ [a, b]).length - 1 = (l ++ [a]).length := by simp
    rw [h1, h2, List.take_left]
    have h3 : l ++ [a, b] = (l ++ [a]) ++ [b] := by simp
    rw [h3, List.drop_left]
  constructor
  · rw [hw']
    refine Nat.le_trans (joinWith_drop_len l a b) ?_
    rw [← hs, hj]; exact Nat.le_refl _
  · rw [hw', splitOn_joinWith (by simp), hs]
    · simp
    · intro x hx
      apply hpc
      rw [hs]
      simp only [List.mem_append, List.mem_cons, List.not_mem_nil, or_false] at hx ⊢
      rcases hx with hx | hx
      · exact .inl hx
      · exact .inr (.inr hx)

/-- What every single `matchR` call of a lookup costs. -/
theorem root_cost {t : Tree α} (h : t.OK) {d : Char} {A : Nat} (hp : t.Plain d) (hA : Wide A t.root) (w : Str) (kv : KV) :
    (matchRT d t.root w false none kv).2.length ≤ 1 + A * w.length ∧
    ((matchRT d t.root w false none kv).2.map (·.2)).sum ≤ w.length + (matchRT d t.root w false none kv).2.length := by
  by_cases hw : w = []
  · subst hw
    generalize t.root = n
    cases n
    rw [matchRT, if_pos rfl]
    simp
  · have := plain_cost d A t.root h.wf hA [] w false none kv hw (by simp [endsW])
      (fun q hq => by
        have := (hp.at ([] ++ w)).keys h
        exact this q hq)
    have h0 := this.2
    rw [h.nil] at h0
    simpa using h0

theorem up_cost {t : Tree α} (h : t.OK) {d : Char} {A : Nat} (hp : t.Plain d) (hA : Wide A t.root) (fuel : Nat) (w : Str) (kv : KV) :
    (View.retryUpT d t.root fuel w kv).2.length ≤ ((splitOn d w).length - 2) * (1 + A * w.length) ∧
    ((View.retryUpT d t.root fuel w kv).2.map (·.2)).sum ≤
      ((splitOn d w).length - 2) * w.length + (View.retryUpT d t.root fuel w kv).2.length := by
  induction fuel generalizing w kv with
  | zero => simp [View.retryUpT]
  | succ fuel ih =>
    rw [View.retryUpT]
    by_cases h2 : (splitOn d w).length > 2
    · have hcut := up_cut d w h2
      simp only at hcut
      simp only [h2, if_true]
      generalize joinWith d (List.take ((splitOn d w).length - 2) (splitOn d w) ++
        List.drop ((splitOn d w).length - 1) (splitOn d w)) = w' at hcut ⊢
      obtain ⟨hl, hs⟩ := hcut
      have hm := root_cost h hp hA w' kv
      obtain ⟨m, hm2⟩ : ∃ m, (splitOn d w).length = m + 3 := ⟨(splitOn d w).length - 3, by omega⟩
      have hA1 : A * w'.length ≤ A * w.length := Nat.mul_le_mul_left _ hl
      have e1 : (splitOn d w).length - 2 = m + 1 := by omega
      rw [e1, Nat.add_mul, Nat.one_mul, Nat.add_mul, Nat.one_mul]
      rcases (matchRT d t.root w' false none kv).1 with e | ⟨r, kv'⟩
      · simp only
        constructor
        · omega
        · omega
      · simp only
        split
        · simp only
          constructor
          · omega
          · omega
        · have hr := ih w' kv'
          have e2 : (splitOn d w').length - 2 = m := by omega
          rw [e2] at hr
          have hb1 : m * (1 + A * w'.length) ≤ m * (1 + A * w.length) := Nat.mul_le_mul_left _ (by omega)
          have hb2 : m * w'.length ≤ m * w.length := Nat.mul_le_mul_left _ hl
          simp only [List.length_append, List.map_append, List.sum_append]
          constructor
          · omega
          · omega
    · simp [h2]

/-! Insertion. -/
section
variable [Inhabited α]

theorem insKidsT_fst (ins : Node α → Ins α × InsCost) (ins' : Node α → Ins α) (h : ∀ n, (ins n).1 = ins' n)
    (fresh : Nat) (word : Str) (ps : List UInt8) (v : α) (ks : List (Node α)) :
    (insKidsT ins fresh word ps v ks).1 = insKids ins' fresh word ps v ks := by
  induction ks with
  | nil => rfl
  | cons c cs ih =>
    rw [insKidsT, insKids]
    split
    · simp only [h]
    · simp only [ih]

theorem cpl_if (a b : Str) : (if b.length > 0 ∧ a.length > 0 then commonPrefixLen a b else 0) = commonPrefixLen a b := by
  cases a <;> cases b <;> simp [commonPrefixLen]

theorem cmp_if (a b : Str) : (if b.length > 0 ∧ a.length > 0 then compared a b else 0) = compared a b := by
  cases a <;> cases b <;> simp [compared]

theorem insertFuelT_fst (fresh : Nat) (ps : List UInt8) (v : α) (fuel : Nat) (word : Str) (n : Node α) :
    (insertFuelT fresh ps v fuel word n).1 = insertFuel fresh ps v fuel word n := by
  induction fuel generalizing word n with
  | zero => rfl
  | succ fuel ih =>
    simp only [insertFuelT, insertFuel, cpl_if]
    split
    · rfl
    · split
      · rw [insKidsT_fst _ _ (fun m => ih _ m)]
      · rfl

theorem compared_cpl (a b : Str) : compared a b ≤ commonPrefixLen a b + 1 := by
  induction a generalizing b with
  | nil => simp [compared]
  | cons x xs ih =>
    cases b with
    | nil => simp [compared]
    | cons y ys =>
      rw [compared, commonPrefixLen]
      have := ih ys
      split <;> omega

theorem cpl_le (a b : Str) : commonPrefixLen a b ≤ a.length ∧ commonPrefixLen a b ≤ b.length := by
  induction a generalizing b with
  | nil => simp [commonPrefixLen]
  | cons x xs ih =>
    cases b with
    | nil => simp [commonPrefixLen]
    | cons y ys =>
      rw [commonPrefixLen]
      have := ih ys
      split <;> simp only [List.length_cons] <;> omega

theorem cpl_pos {a b : Str} (h : b.head? = a.head?) (hb : b ≠ []) : 1 ≤ commonPrefixLen a b := by
  cases b with
  | nil => exact absurd rfl hb
  | cons y ys =>
    cases a with
    | nil => simp at h
    | cons x xs =>
      simp only [List.head?_cons, Option.some.injEq] at h
      rw [commonPrefixLen, if_pos h.symm]
      omega

theorem cpl_diff {a b : Str} (ha : commonPrefixLen a b < a.length) (hb : commonPrefixLen a b < b.length) :
    (b.drop (commonPrefixLen a b)).head? ≠ (a.drop (commonPrefixLen a b)).head? := by
  induction a generalizing b with
  | nil => simp at ha
  | cons x xs ih =>
    cases b with
    | nil => simp at hb
    | cons y ys =>
      rw [commonPrefixLen] at *
      by_cases h : x = y
      · simp only [h, if_true, List.length_cons, List.drop_succ_cons] at *
        exact ih (by omega) (by omega)
      · simp only [h, if_false, List.drop_zero, List.head?_cons]
        intro e
        exact h (Option.some.inj e).symm

theorem insKidsT_cost {ins : Node α → Ins α × InsCost} {word : Str} {A C : Nat} (fresh : Nat) (ps : List UInt8) (v : α)
    (ks : List (Node α))
    (h : ∀ c ∈ ks, c.path.head? = word.head? →
      (ins c).2.calls ≤ C ∧ (ins c).2.looks ≤ A * (ins c).2.calls ∧ (ins c).2.pairs ≤ word.length + (ins c).2.calls) :
    let r := (insKidsT ins fresh word ps v ks).2
    r.calls ≤ C ∧ r.looks ≤ ks.length + A * r.calls ∧ r.pairs ≤ word.length + r.calls := by
  induction ks with
  | nil => simp [insKidsT]
  | cons c cs ih =>
    simp only [insKidsT]
    split
    · next hc =>
      have := h c (by simp) hc
      simp only [List.length_cons]
      omega
    · have := ih (fun c hc => h c (by simp [hc]))
      simp only [List.length_cons] at *
      omega

theorem insert_cost (fresh : Nat) (ps : List UInt8) (v : α) (A fuel : Nat) (word : Str) (n : Node α)
    (hw : n.WF) (hA : Wide A n) (h1 : n.path ≠ [] → 1 ≤ A) :
    let r := (insertFuelT fresh ps v fuel word n).2
    r.calls ≤ 1 + (word.length - commonPrefixLen word n.path) ∧ r.looks ≤ A * r.calls ∧
      r.pairs ≤ word.length + r.calls := by
  induction fuel generalizing word n with
  | zero => simp [insertFuelT]
  | succ fuel ih =>
    intro r
    show r.calls ≤ _ ∧ _
    have hr : r = (insertFuelT fresh ps v (fuel + 1) word n).2 := rfl
    clear_value r
    rw [insertFuelT] at hr
    simp only [cpl_if, cmp_if] at hr
    split at hr
    · subst hr; simp
    · have hcc := compared_cpl word n.path
      have hcl := cpl_le word n.path
      have hcw := (compared_le word n.path).1
      by_cases hlt : commonPrefixLen word n.path < word.length
      · simp only [hlt, if_true] at hr
        by_cases hsp : commonPrefixLen word n.path < n.path.length
        · have hpne : n.path ≠ [] := by intro e; rw [e] at hsp; simp at hsp
          simp only [hsp, if_true, split_kids] at hr
          have hd := cpl_diff hlt hsp
          rw [insKidsT, if_neg (by simpa using hd)] at hr
          simp only [insKidsT] at hr
          subst hr
          have := h1 hpne
          simp only [Nat.zero_add, Nat.mul_one]
          omega
        · simp only [hsp, if_false] at hr
          have hwk := (wf_iff n).mp hw
          have hAn : n.kids.length ≤ A := hA n (by cases n; rw [walk]; simp)
          have key := insKidsT_cost (ins := insertFuelT fresh ps v fuel (word.drop (commonPrefixLen word n.path)))
            (word := word.drop (commonPrefixLen word n.path)) (A := A)
            (C := (word.drop (commonPrefixLen word n.path)).length) fresh ps v n.kids
            (by
              intro c hc hh
              have hpos := cpl_pos hh (hwk.2 c hc).1
              have hcpl := (cpl_le (word.drop (commonPrefixLen word n.path)) c.path).1
              have := ih (word.drop (commonPrefixLen word n.path)) c (hwk.2 c hc).2
                (by
                  intro x hx
                  apply hA
                  cases n
                  rw [walk]
                  exact List.mem_cons_of_mem _ (mem_walkL.mpr ⟨c, hc, hx⟩))
                (fun _ => Nat.le_trans (List.length_pos_iff.mpr (List.ne_nil_of_mem hc)) hAn)
              simp only at this
              omega)
          simp only [List.length_drop] at key
          subst hr
          simp only [Nat.mul_add, Nat.mul_one]
          omega
      · simp only [hlt, if_false] at hr
        subst hr
        simp only [Nat.mul_one]
        omega

end

/-! The properties. -/

/-- Keys written with the runes of `S` only. -/
def Over (S : Str) (q : Str) : Prop := ∀ c ∈ q, c ∈ S

theorem wide_over [Inhabited α] {S : Str} {t : Tree α} (h : Reach (Over S) t) : Wide S.length t.root := by
  apply wide_of h.ok
  intro q hq
  have hi := (h.inv (entryInv_prefix (P := Over S) (by intro c hc; simp at hc)
    (fun hq hp c hc => hq c (hp.subset hc)))).2
  rw [← Node.entries_keys, List.mem_map] at hq
  obtain ⟨⟨q', c⟩, hm, rfl⟩ := hq
  exact hi _ _ ((Tree.contents_some h.ok).mpr hm)

/-- C83: the record keeping changes no answer: a lookup and an insertion that are watched answer like
the ones that are not. -/
theorem C83_same [Inhabited α] (v : View) (t : Tree α) (w key : Str) (x : α) :
    (v.searchT t w).1 = v.search t w ∧ (t.root.insertT t.next key x).1 = (View.insertAt t key x).2 :=
  ⟨searchT_fst v t w, insertFuelT_fst ..⟩

/-- C83: whatever the keys are (route patterns included), a lookup through a view that does not retry
upwards looks at the nodes in the order of `Walk`, at each one at most once. -/
theorem C83_once [Inhabited α] {P : Str → Prop} {t : Tree α} (h : Reach P t) {v : View} (hm : v.mode ≠ .up) (p : Str) :
    (v.visits t p).Sublist t.root.walk ∧ ((v.visits t p).map (·.id)).Nodup := by
  have h1 : (v.visits t p).Sublist t.root.walk := by
    have h0 := walk_sub v.delim t.root (v.full p) false none []
    rw [View.visits, View.searchT]
    simp only
    rcases (matchRT v.delim t.root (v.full p) false none []).1 with e | ⟨r, kv⟩
    · exact h0
    · simp only [hm, false_and, if_false]
      split <;> exact h0
  refine ⟨h1, ?_⟩
  have h2 : (t.root.walk.map (·.id)).Nodup := by
    rw [← nodes_snd [], List.map_map]; exact h.ok.nodup
  exact (h1.map _).nodup h2

/-- C83: without route patterns, a lookup looks at no more than `1 + |S|·|full path|` nodes, where `S`
are the runes in use in the keys, and compares no more rune pairs than there are runes in the path and
nodes looked at. How many entries the store has does not enter. -/
theorem C83_lookup [Inhabited α] {S : Str} {t : Tree α} {v : View} (h : Reach (fun q => NoRoute v.delim q ∧ Over S q) t)
    (hm : v.mode ≠ .up) (p : Str) :
    (v.visits t p).length ≤ 1 + S.length * (v.full p).length ∧
    v.pairs t p ≤ (v.full p).length + (v.visits t p).length := by
  have hw := wide_over (Reach.mono (fun _ h => h.2) h)
  have hp := Reach.plain (Reach.mono (fun _ h => h.1) h)
  have h0 := root_cost h.ok hp hw (v.full p) []
  rw [View.visits, View.pairs, View.searchT]
  simp only
  rcases (matchRT v.delim t.root (v.full p) false none []).1 with e | ⟨r, kv⟩
  · simpa using h0
  · simp only [hm, false_and, if_false]
    split <;> simpa using h0

/-- C83: a lookup that retries upwards does at most that much for every component of the path. -/
theorem C83_up [Inhabited α] {S : Str} {t : Tree α} {v : View} (h : Reach (fun q => NoRoute v.delim q ∧ Over S q) t)
    (p : Str) :
    (v.visits t p).length ≤ (splitOn v.delim (v.full p)).length * (1 + S.length * (v.full p).length) ∧
    v.pairs t p ≤ (splitOn v.delim (v.full p)).length * (v.full p).length + (v.visits t p).length := by
  have hw := wide_over (Reach.mono (fun _ h => h.2) h)
  have hp := Reach.plain (Reach.mono (fun _ h => h.1) h)
  have h0 := root_cost h.ok hp hw (v.full p) []
  have hu := fun kv => up_cost h.ok hp hw ((v.full p).length + 1) (v.full p) kv
  obtain ⟨m, hs⟩ : ∃ m, (splitOn v.delim (v.full p)).length = m + 1 :=
    ⟨(splitOn v.delim (v.full p)).length - 1, by
      have := List.length_pos_iff.mpr (splitOn_ne_nil v.delim (v.full p)); omega⟩
  have hle : (splitOn v.delim (v.full p)).length - 2 ≤ m := by omega
  have hb1 : ((splitOn v.delim (v.full p)).length - 2) * (1 + S.length * (v.full p).length) ≤
      m * (1 + S.length * (v.full p).length) := Nat.mul_le_mul_right _ hle
  have hb2 : ((splitOn v.delim (v.full p)).length - 2) * (v.full p).length ≤ m * (v.full p).length :=
    Nat.mul_le_mul_right _ hle
  rw [View.visits, View.pairs, View.searchT]
  rw [hs, Nat.add_mul, Nat.one_mul, Nat.add_mul, Nat.one_mul]
  simp only
  rcases (matchRT v.delim t.root (v.full p) false none []).1 with e | ⟨r, kv⟩
  · simp only [List.length_map]; omega
  · have := hu kv
    simp only
    split
    · simp only [List.length_map]; omega
    · split
      · simp only [List.length_map, List.length_append, List.map_append, List.sum_append]; omega
      · simp only [List.length_map]; omega

/-- C83: an insertion (route patterns or not) descends through at most `|key| + 1` nodes, reads the
first rune of at most `|S|` children at each of them, and compares at most `|key|` rune pairs and one
more per node. -/
theorem C83_insert [Inhabited α] {S : Str} {t : Tree α} (h : Reach (Over S) t) (key : Str) (x : α) :
    let c := (t.root.insertT t.next key x).2
    c.calls ≤ key.length + 1 ∧ c.looks ≤ S.length * c.calls ∧ c.pairs ≤ key.length + c.calls := by
  have := insert_cost t.next (utf8 key) x S.length (key.length + 2) key t.root h.ok.wf (wide_over h)
    (fun hne => absurd h.ok.nil hne)
  simp only at this
  have hc : commonPrefixLen key t.root.path = 0 := by rw [h.ok.nil]; cases key <;> rfl
  rw [hc] at this
  intro c
  show c.calls ≤ _ ∧ _
  have hc' : c = (insertFuelT t.next (utf8 key) x (key.length + 2) key t.root).2 := rfl
  rw [hc']
  omega

/-! Route patterns. -/

/-- Every key made of `k` components `ab` or `:i` between `r` and `x`. -/
def grid : Nat → List Str
  | 0 => ["x".toList]
  | k + 1 => (grid k).map ("ab.".toList ++ ·) ++ (grid k).map (":i.".toList ++ ·)

def rootView : View := ⟨[], '.', .none⟩

def gridTree (k : Nat) : Tree Nat :=
  (grid k).foldl (fun t q => (rootView.set t ("r.".toList ++ q) 1).1) Tree.new

/-- The path no key of the grid matches. -/
def miss : Nat → Str
  | 0 => "z".toList
  | k + 1 => "ab.".toList ++ miss k

/-- The bound of `C83_lookup` for a tree whose nodes have at most `A` children, on one tree and path. -/
def within (A : Nat) (v : View) (t : Tree Nat) (p : Str) : Bool :=
  t.root.walk.all (fun n => n.kids.length ≤ A) && (v.visits t p).length > 1 + A * (v.full p).length

theorem grid_check : within 2 rootView (gridTree 5) ("r.".toList ++ miss 5) = true := by decide +kernel

theorem gridTree_reach (k : Nat) : Reach (fun _ => True) (gridTree k) := by
  have : ∀ (l : List Str) (t : Tree Nat), Reach (fun _ => True) t →
      Reach (fun _ => True) (l.foldl (fun t q => (rootView.set t ("r.".toList ++ q) 1).1) t) := by
    intro l
    induction l with
    | nil => intro t h; exact h
    | cons a as ih =>
      intro t h
      exact ih _ (.step (.set rootView ("r.".toList ++ a) 1) h (fun _ _ => trivial) rfl)
  exact this _ _ .new

/-- C83: with route patterns among the keys the bound fails: the lookup tries the pattern after the
literal at every level. -/
theorem C83_routes_fails : ¬ ∀ (t : Tree Nat) (_ : Reach (fun _ => True) t) (v : View) (_ : v.mode ≠ .up) (A : Nat)
    (_ : Wide A t.root) (p : Str), (v.visits t p).length ≤ 1 + A * (v.full p).length := by
  intro h
  have hc := grid_check
  rw [within, Bool.and_eq_true, List.all_eq_true, decide_eq_true_eq] at hc
  have := h (gridTree 5) (gridTree_reach 5) rootView (by decide) 2
    (fun x hx => by simpa using hc.1 x hx) ("r.".toList ++ miss 5)
  omega

/-- The children at each level: a literal and a pattern. -/
def pairOf (c : Core Nat) : Nat → List (Node Nat)
  | 0 => [mk 0 ['x'] c []]
  | k + 1 => [mk 0 ['a', 'b', '.'] c (pairOf c k), mk 0 [':', 'i', '.'] c (pairOf c k)]

theorem pairOf_ne (c : Core Nat) (k : Nat) : (pairOf c k).isEmpty = false := by cases k <;> rfl

theorem miss_pos (k : Nat) : 1 ≤ (miss k).length := by
  cases k with
  | zero => decide
  | succ k => rw [miss]; simp

theorem miss_len (k : Nat) : (miss k).length = 3 * k + 1 := by
  induction k with
  | zero => rfl
  | succ k ih =>
    rw [miss, List.length_append, ih]
    have : "ab.".toList.length = 3 := by decide
    omega

theorem lit_step (c : Core Nat) (ks : List (Node Nat)) (hk : ks.isEmpty = false) (w : Str) (hw : 1 ≤ w.length) (par : Option (Node Nat)) (kv : KV) :
    matchRT '.' (mk 0 ['a', 'b', '.'] c ks) ('a' :: 'b' :: '.' :: w) true par kv =
      let t := matchKidsT '.' (mk 0 ['a', 'b', '.'] c ks) ks w true kv
      (t.1, (mk 0 ['a', 'b', '.'] c ks, 3) :: t.2) := by
  have h1 : min 3 (w.length + 1 + 1 + 1) = 3 := by omega
  have h2 : 3 < w.length + 1 + 1 + 1 := by omega
  rw [matchRT, if_neg (by simp)]
  simp [masterLoop, cmpLoop, compared, h1, h2, hk]

theorem pat_step (c : Core Nat) (ks : List (Node Nat)) (hk : ks.isEmpty = false) (w : Str) (hw : 1 ≤ w.length) (par : Option (Node Nat)) (kv : KV) :
    matchRT '.' (mk 0 [':', 'i', '.'] c ks) ('a' :: 'b' :: '.' :: w) true par kv =
      let t := matchKidsT '.' (mk 0 [':', 'i', '.'] c ks) ks w true (kv ++ [(['i'], ['a', 'b'])])
      (t.1, (mk 0 [':', 'i', '.'] c ks, 1) :: t.2) := by
  have h1 : min 3 (w.length + 1 + 1 + 1) = 3 := by omega
  have h2 : 3 < w.length + 1 + 1 + 1 := by omega
  have h3 : w ≠ [] := by intro e; subst e; simp at hw
  rw [matchRT, if_neg (by simp)]
  simp [masterLoop, cmpLoop, compared, h1, h2, hk, retrFuel, retriever, extractor, h3]

theorem pairs_visits (c : Core Nat) (k : Nat) : ∀ (self : Node Nat) (kv : KV),
    ∃ kv', (matchKidsT '.' self (pairOf c k) (miss k) true kv).1 = .ok (MR.nothing, kv') ∧
      2 ^ k ≤ (matchKidsT '.' self (pairOf c k) (miss k) true kv).2.length := by
  induction k with
  | zero =>
    intro self kv
    refine ⟨kv, ?_⟩
    have : matchRT '.' (mk 0 ['x'] c []) ['z'] true (some self) kv = (.ok (MR.nothing, kv), [(mk 0 ['x'] c [], 1)]) := by
      rw [matchRT, if_neg (by simp)]
      simp [masterLoop, cmpLoop, compared, retrFuel, retriever]
    have hm : miss 0 = ['z'] := by decide
    rw [hm, pairOf, matchKidsT]
    simp [this]
  | succ k ih =>
    intro self kv
    have hm : miss (k + 1) = 'a' :: 'b' :: '.' :: miss k := by
      rw [miss]
      have : "ab.".toList = ['a', 'b', '.'] := by decide
      rw [this]; rfl
    obtain ⟨kv1, h1, l1⟩ := ih (mk 0 ['a', 'b', '.'] c (pairOf c k)) kv
    obtain ⟨kv2, h2, l2⟩ := ih (mk 0 [':', 'i', '.'] c (pairOf c k)) (kv1 ++ [(['i'], ['a', 'b'])])
    refine ⟨kv2, ?_⟩
    rw [hm, pairOf, matchKidsT]
    simp only [lit_step c _ (pairOf_ne c k) _ (miss_pos k), h1, Bool.or_self, Bool.false_eq_true, if_false]
    rw [matchKidsT]
    simp only [pat_step c _ (pairOf_ne c k) _ (miss_pos k), h2, Bool.or_self, Bool.false_eq_true, if_false]
    refine ⟨trivial, ?_⟩
    simp only [List.length_append, List.length_cons, Nat.pow_succ]
    omega

theorem pairOf_wf (c : Core Nat) (k : Nat) :
    ((pairOf c k).map (fun n => n.path.head?)).Nodup ∧ ∀ n ∈ pairOf c k, n.path ≠ [] ∧ n.WF := by
  induction k with
  | zero => simp [pairOf, wf_mk]
  | succ k ih => simp [pairOf, wf_mk, ih.1]; exact fun a ha => ih.2 a ha

theorem pairOf_wide (c : Core Nat) (k : Nat) : (pairOf c k).length ≤ 2 ∧ ∀ n ∈ pairOf c k, Wide 2 n := by
  induction k with
  | zero =>
    refine ⟨by simp [pairOf], ?_⟩
    intro n hn
    simp only [pairOf, List.mem_singleton] at hn
    subst hn
    intro x hx
    simp [walk, walkL] at hx
    subst hx; simp
  | succ k ih =>
    refine ⟨by simp [pairOf], ?_⟩
    intro n hn
    simp only [pairOf, List.mem_cons, List.not_mem_nil, or_false] at hn
    intro x hx
    rcases hn with rfl | rfl <;> rw [walk, List.mem_cons] at hx <;> rcases hx with rfl | hx
    · exact ih.1
    · obtain ⟨m, hm, hx⟩ := mem_walkL.mp hx; exact ih.2 m hm x hx
    · exact ih.1
    · obtain ⟨m, hm, hx⟩ := mem_walkL.mp hx; exact ih.2 m hm x hx

/-- C83: it is not a matter of the constant: for every `k` there is a tree with at most two children
per node and a path of `3k + 3` runes on which one lookup looks at `2^k` nodes. -/
theorem C83_exponential_fails (k : Nat) : ∃ (n : Node Nat) (w : Str), n.WF ∧ n.path = [] ∧ Wide 2 n ∧
    w.length = 3 * k + 3 ∧ 2 ^ k ≤ (matchRT '.' n w false none []).2.length := by
  let c : Core Nat := Core.zero
  have hwf := pairOf_wf c k
  have hwd := pairOf_wide c k
  refine ⟨mk 0 [] c [mk 0 ['r', '.'] c (pairOf c k)], 'r' :: '.' :: miss k, ?_, rfl, ?_, ?_, ?_⟩
  · simp only [wf_mk, List.map_cons, List.map_nil, List.nodup_cons, List.not_mem_nil, not_false_eq_true, List.nodup_nil,
      and_self, List.mem_singleton, forall_eq, path_mk, ne_eq, reduceCtorEq, true_and]
    exact hwf
  · intro x hx
    rw [walk, List.mem_cons, mem_walkL] at hx
    rcases hx with rfl | ⟨m, hm, hx⟩
    · simp
    · simp only [List.mem_singleton] at hm
      subst hm
      rw [walk, List.mem_cons, mem_walkL] at hx
      rcases hx with rfl | ⟨m, hm, hx⟩
      · exact hwd.1
      · exact hwd.2 m hm x hx
  · simp only [List.length_cons, miss_len]
  · have hp := miss_pos k
    have h1 : min 2 ((miss k).length + 1 + 1) = 2 := by omega
    have h2 : 2 < (miss k).length + 1 + 1 := by omega
    obtain ⟨kv', e, hl⟩ := pairs_visits c k (mk 0 ['r', '.'] c (pairOf c k)) []
    have hin : ∀ par, (matchRT '.' (mk 0 ['r', '.'] c (pairOf c k)) ('r' :: '.' :: miss k) false par []).2 =
        (mk 0 ['r', '.'] c (pairOf c k), 2) :: (matchKidsT '.' (mk 0 ['r', '.'] c (pairOf c k)) (pairOf c k) (miss k) true []).2 := by
      intro par
      rw [matchRT, if_neg (by simp)]
      simp [masterLoop, cmpLoop, compared, h1, h2, pairOf_ne]
    have hfst : ∀ par, ∃ x, (matchRT '.' (mk 0 ['r', '.'] c (pairOf c k)) ('r' :: '.' :: miss k) false par []).1 = .ok x := by
      intro par
      refine ⟨(MR.nothing, kv'), ?_⟩
      rw [matchRT, if_neg (by simp)]
      simp [masterLoop, cmpLoop, compared, h1, h2, pairOf_ne, e]
    have hroot : (matchRT '.' (mk 0 [] c [mk 0 ['r', '.'] c (pairOf c k)]) ('r' :: '.' :: miss k) false none []).2 =
        (mk 0 [] c [mk 0 ['r', '.'] c (pairOf c k)], 0) ::
          (matchRT '.' (mk 0 ['r', '.'] c (pairOf c k)) ('r' :: '.' :: miss k) false
            (some (mk 0 [] c [mk 0 ['r', '.'] c (pairOf c k)])) []).2 := by
      rw [matchRT, if_neg (by simp)]
      simp only [masterLoop, path_mk, cmpLoop, compared, List.length_nil, List.length_cons, Nat.zero_min, Nat.lt_irrefl,
        if_false, Nat.zero_lt_succ, if_true, List.isEmpty_cons, Bool.false_eq_true, List.drop_zero]
      rw [matchKidsT]
      obtain ⟨⟨r, kv⟩, e'⟩ := hfst (some (mk 0 [] c [mk 0 ['r', '.'] c (pairOf c k)]))
      simp only [e']
      split <;> rfl
    rw [hroot, hin]
    simp only [List.length_cons]
    omega

/-! Examples. -/

/-- A history over the runes `a b c .` without route patterns. -/
def sample : Tree Nat :=
  (rootView.set (rootView.set (rootView.set Tree.new "a.b".toList 1).1 "a.c".toList 2).1 "b".toList 3).1

theorem sample_reach : Reach (fun q => NoRoute '.' q ∧ Over "abc.".toList q) sample := by
  have hk : ∀ (p : Str), (p = "a.b".toList ∨ p = "a.c".toList ∨ p = "b".toList) →
      (NoRoute '.' p ∧ Over "abc.".toList p) := by
    intro p hp
    have e1 : "a.b".toList = ['a', '.', 'b'] := by decide
    have e2 : "a.c".toList = ['a', '.', 'c'] := by decide
    have e3 : "b".toList = ['b'] := by decide
    have e4 : "abc.".toList = ['a', 'b', 'c', '.'] := by decide
    rw [e1, e2, e3] at hp
    rw [e4]
    have nr : ∀ x : Char, x ≠ ':' → x ≠ '*' → NoRoute '.' ['a', '.', x] := by
      intro x h1 h2 u c v e
      rcases u with _ | ⟨u1, _ | ⟨u2, _ | ⟨u3, u⟩⟩⟩
      · simp at e
      · simp at e; obtain ⟨_, rfl, _⟩ := e; exact ⟨h1, h2⟩
      · simp at e
      · simp at e
    have nb : NoRoute '.' ['b'] := by
      intro u c v e
      rcases u with _ | ⟨u1, u⟩ <;> simp at e
    rcases hp with rfl | rfl | rfl
    · exact ⟨nr 'b' (by decide) (by decide), by intro c hc; simp at hc ⊢; rcases hc with rfl | rfl | rfl <;> decide⟩
    · exact ⟨nr 'c' (by decide) (by decide), by intro c hc; simp at hc ⊢; rcases hc with rfl | rfl | rfl <;> decide⟩
    · exact ⟨nb, by intro c hc; simp at hc ⊢; subst hc; decide⟩
  refine .step (.set rootView "b".toList 3) (.step (.set rootView "a.c".toList 2) (.step (.set rootView "a.b".toList 1) .new ?_ rfl) ?_ rfl) ?_ rfl
  · intro k e
    have : k = "a.b".toList := by have h0 : some k = some "a.b".toList := by rw [← e]; decide
                                  exact Option.some.inj h0
    exact hk k (.inl this)
  · intro k e
    have : k = "a.c".toList := by have h0 : some k = some "a.c".toList := by rw [← e]; decide
                                  exact Option.some.inj h0
    exact hk k (.inr (.inl this))
  · intro k e
    have : k = "b".toList := by have h0 : some k = some "b".toList := by rw [← e]; decide
                                exact Option.some.inj h0
    exact hk k (.inr (.inr this))

/-- Looking for `a.c` looks at the root, at `a.`, at `b` and at `c` below it; the bound is 13. -/
example : (rootView.visits sample "a.c".toList).map (·.path) = [[], "a.".toList, "b".toList, "c".toList] ∧
    1 + "abc.".toList.length * (rootView.full "a.c".toList).length = 13 := by
  constructor
  · decide +kernel
  · decide +kernel

example : (rootView.visits sample "a.c".toList).length ≤ 1 + 4 * (rootView.full "a.c".toList).length :=
  (C83_lookup (v := rootView) sample_reach (by decide) "a.c".toList).1

/-- The insertion of `a.d` there: two calls, three children looked at. -/
example : (sample.root.insertT sample.next "a.d".toList 9).2.calls = 2 ∧
    (sample.root.insertT sample.next "a.d".toList 9).2.looks = 3 := by
  constructor <;> decide +kernel

end Cost
end Verif

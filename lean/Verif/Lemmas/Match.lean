import Verif.Lemmas.Nodes
/-
`matchR` on trees without route patterns.
-/
namespace Verif
namespace Node
variable {α : Type}

/-- The comparing loop stops at the common prefix. -/
theorem cmpLoop_spec (d : Char) (a b : Str) (f : Bool) :
    ∃ s x y, a = s ++ x ∧ b = s ++ y ∧ cmpLoop d a b f = (s.length, if s = [] then f else endsW d s) ∧
      (x = [] ∨ y = [] ∨ ∃ p q x' y', x = p :: x' ∧ y = q :: y' ∧ p ≠ q) := by
  induction a generalizing b f with
  | nil => exact ⟨[], [], b, by simp, by simp, by simp [cmpLoop], .inl rfl⟩
  | cons a1 as ih =>
    cases b with
    | nil => exact ⟨[], a1 :: as, [], by simp, by simp, by simp [cmpLoop], .inr (.inl rfl)⟩
    | cons b1 bs =>
      by_cases h : a1 = b1
      · subst h
        obtain ⟨s, x, y, rfl, rfl, h3, h4⟩ := ih bs (a1 == d)
        refine ⟨a1 :: s, x, y, by simp, by simp, ?_, h4⟩
        rw [cmpLoop, if_pos rfl, h3]
        cases s with
        | nil => simp [endsW]
        | cons s1 ss => simp [endsW]
      · exact ⟨[], a1 :: as, b1 :: bs, by simp, by simp, by simp [cmpLoop, h],
          .inr (.inr ⟨a1, b1, as, bs, rfl, rfl, h⟩)⟩

abbrev MR.nothing : MR α := ⟨false, false, none, none⟩

/-- What a lookup does on a tree without route patterns. -/
inductive PM (d : Char) : Node α → Str → Option (Node α) → MR α → Prop
  | exact {n : Node α} {par} (hne : n.path ≠ []) : PM d n n.path par ⟨true, false, some n, par⟩
  | delim {n : Node α} {w par} (hw : w ≠ []) (h : n.path = w ++ [d]) :
      PM d n w par ⟨true, false, some n, par⟩
  | part {n : Node α} {w x y par} (hw : w ≠ []) (h : n.path = w ++ x :: y) (hx : x :: y ≠ [d]) :
      PM d n w par ⟨false, true, some n, par⟩
  | diff {n : Node α} {s a b x y par} (h : n.path = s ++ a :: x) (hab : a ≠ b) :
      PM d n (s ++ b :: y) par MR.nothing
  | dead {n : Node α} {b y par} (hk : n.kids = []) (hne : n.path ≠ []) :
      PM d n (n.path ++ b :: y) par ⟨false, true, some n, par⟩
  | deadRoot {n : Node α} {b y par} (hk : n.kids = []) (hne : n.path = []) :
      PM d n (b :: y) par ⟨false, true, none, none⟩
  | noKid {n : Node α} {b y par} (hk : n.kids ≠ []) (h : ∀ c ∈ n.kids, c.path.head? ≠ some b) :
      PM d n (n.path ++ b :: y) par MR.nothing
  | kid {n c : Node α} {b y par r} (hc : c ∈ n.kids) (h : c.path.head? = some b)
      (hr : PM d c (b :: y) (some n) r) : PM d n (n.path ++ b :: y) par r

theorem PM.nothing {d : Char} {n : Node α} {w par r} (h : PM d n w par r)
    (h1 : r.matched = false) (h2 : r.part = false) : r = MR.nothing := by
  induction h with
  | kid hc h hr ih => exact ih h1 h2
  | _ => simp_all

theorem matchR_eq (d : Char) (n : Node α) (word : Str) (lrid : Bool) (parent : Option (Node α))
    (kv : KV) (hne : word ≠ []) :
    matchR d n word lrid parent kv =
      match masterLoop d n word lrid parent kv with
      | .error e => .error e
      | .ok (.ret r, kv) => .ok (r, kv)
      | .ok (.go src dst f r, kv) =>
        let r := verdict d n parent word.length src r
        if min n.path.length word.length < word.length then
          if n.kids.isEmpty then .ok ({ r with matched := false, part := true }, kv)
          else
            let dst := if dst = 0 then min n.path.length word.length else dst
            matchKids d n n.kids (word.drop dst) f kv
        else .ok (r, kv) := by
  obtain ⟨i, p, co, k⟩ := n
  rw [matchR, if_neg hne]
  rcases masterLoop d (mk i p co k) word lrid parent kv with e | ⟨m, kv'⟩
  · rfl
  · cases m <;> rfl

theorem endsW_append {d : Char} {u s : Str} (h : s ≠ []) : endsW d (u ++ s) = endsW d s := by
  simp only [endsW, List.getLast?_append]
  cases hs : s.getLast? with
  | none => simp_all
  | some c => simp

theorem endsW_concat {d : Char} {s : Str} (h : endsW d s = true) : ∃ t, s = t ++ [d] := by
  simp only [endsW, beq_iff_eq] at h
  exact List.getLast?_eq_some_iff.mp h

/-- The mismatch handler gives up immediately when there is no route pattern. -/
theorem retriever_plain {d : Char} {path word : Str} {hk fuel ch src dst lrid kv}
    (h : lrid = true → ch ≠ ':' ∧ ch ≠ '*') :
    retriever d path word hk (fuel + 1) ch src dst lrid kv = .ok (.nothing, kv) := by
  rw [retriever]
  cases lrid with
  | false => simp
  | true => simp [h]

theorem clear_special {d : Char} {u s : Str} {a b : Char} {x y : Str} {f : Bool}
    (hr : Misses d (u ++ (s ++ b :: y)) (u ++ (s ++ a :: x))) (hab : a ≠ b) (hf : f = endsW d (u ++ s)) (h : f = true) :
    a ≠ ':' ∧ a ≠ '*' := by
  subst hf
  exact hr (u ++ s) a x b y (by simp) (by simp) hab h

theorem _root_.Verif.NoRoute.clear {d : Char} {q : Str} (h : NoRoute d q) (w : Str) : Misses d w q := by
  intro s a x b y hq _ _ he
  obtain ⟨t, ht⟩ := endsW_concat he
  refine h t a x ?_
  rw [hq, ht]; simp

theorem matchKids_skip {d : Char} {self : Node α} {ks : List (Node α)} {rest f kv}
    (h : ∀ c ∈ ks, matchR d c rest f (some self) kv = .ok (MR.nothing, kv)) :
    matchKids d self ks rest f kv = .ok (MR.nothing, kv) := by
  induction ks with
  | nil => rw [matchKids]
  | cons a as ih =>
    rw [matchKids, h a (by simp)]
    cases as with
    | nil => simp
    | cons b bs => simpa using ih (fun c hc => h c (by simp [hc]))

theorem matchKids_pick {d : Char} {self : Node α} {ks : List (Node α)} {rest f kv} {c : Node α} {r}
    (hc : c ∈ ks) (hcr : matchR d c rest f (some self) kv = .ok (r, kv))
    (hr : r.matched = false → r.part = false → r = MR.nothing)
    (h : ∀ c' ∈ ks, c' ≠ c → matchR d c' rest f (some self) kv = .ok (MR.nothing, kv)) :
    matchKids d self ks rest f kv = .ok (r, kv) := by
  induction ks with
  | nil => cases hc
  | cons a as ih =>
    rw [matchKids]
    by_cases hac : a = c
    · subst hac
      rw [hcr]
      simp only
      by_cases hm : (r.matched || r.part) = true
      · simp [hm]
      · simp only [hm]
        simp only [Bool.or_eq_true, not_or, Bool.not_eq_true] at hm
        obtain rfl := hr hm.1 hm.2
        cases as with
        | nil => simp
        | cons b bs =>
          simp only [if_false, Bool.false_eq_true]
          apply matchKids_skip
          intro c' hc'
          by_cases hc'' : c' = a
          · subst hc''; exact hcr
          · exact h c' (by simp at hc'; simp [hc']) hc''
    · rw [h a (by simp) hac]
      have hc2 : c ∈ as := by
        rcases List.mem_cons.mp hc with h | h
        · exact absurd h.symm hac
        · exact h
      cases as with
      | nil => cases hc2
      | cons b bs =>
        simp only [Bool.or_self, Bool.false_eq_true, if_false]
        exact ih hc2 (fun c' hc' => h c' (by simp [hc']))

theorem heads_inj {k : List (Node α)} (hnd : (k.map (fun c => c.path.head?)).Nodup) {a b : Node α}
    (ha : a ∈ k) (hb : b ∈ k) (h : a.path.head? = b.path.head?) : a = b := by
  induction k with
  | nil => cases ha
  | cons c cs ih =>
    simp only [List.map_cons, List.nodup_cons, List.mem_map, not_exists, not_and] at hnd
    rcases List.mem_cons.mp ha with ha | ha <;> rcases List.mem_cons.mp hb with hb | hb
    · rw [ha, hb]
    · exact absurd (by rw [← h, ha]) (hnd.1 b hb)
    · exact absurd (by rw [h, hb]) (hnd.1 a ha)
    · exact ih hnd.2 ha hb

/-- If the path does not leave any key at a route marker, `matchR` returns, captures nothing, and does what
`PM` says. -/
theorem matchR_clear (d : Char) (n : Node α) (hw : n.WF) (u w : Str) (lrid : Bool)
    (par : Option (Node α)) (kv : KV) (hne : w ≠ []) (hl : lrid = endsW d u)
    (hr : ∀ q ∈ keys u n, Misses d (u ++ w) q) :
    ∃ r, matchR d n w lrid par kv = .ok (r, kv) ∧ PM d n w par r := by
  induction n using ind generalizing u w lrid par kv with
  | h i p co k ih =>
    have hw' := (wf_mk ..).mp hw
    have hself : Misses d (u ++ w) (u ++ p) := hr _ (by simp [keys, nodes_eq])
    rw [matchR_eq d _ w lrid par kv hne]
    obtain ⟨s, x, y, hp, hwd, hc, hxy⟩ := cmpLoop_spec d p w lrid
    have hf : (if s = [] then lrid else endsW d s) = endsW d (u ++ s) := by
      split
      · next h => subst h; simp [hl]
      · next h => rw [endsW_append h]
    rw [hf] at hc
    simp only [masterLoop, path_mk, kids_mk, hc]
    have hsp : s.length + x.length = p.length := by rw [hp]; simp
    have hsw : s.length + y.length = w.length := by rw [hwd]; simp
    by_cases hlt : s.length < min p.length w.length
    · -- mismatch
      simp only [hlt, if_true]
      rcases hxy with rfl | rfl | ⟨a, b, x', y', rfl, rfl, hab⟩
      · simp at hsp; omega
      · simp at hsw; omega
      · have hch : p.getD s.length d = a := by rw [hp]; simp
        rw [hch, retrFuel, retriever_plain (clear_special (x := x') (y := y') (b := b) (by rw [← hp, ← hwd]; exact hself) hab rfl)]
        refine ⟨_, rfl, ?_⟩
        rw [hwd]
        exact .diff (s := s) (a := a) (x := x') (by simpa using hp) hab
    · simp only [hlt, if_false]
      rcases Nat.lt_or_ge p.length w.length with hcmp | hcmp
      · -- the whole fragment is consumed and some of the word is left
        have hx : x = [] := List.eq_nil_of_length_eq_zero (by omega)
        subst hx
        simp only [List.append_nil] at hp
        subst hp
        have hmin : min p.length w.length = p.length := by omega
        cases y with
        | nil => simp at hsw; omega
        | cons b y' =>
        rw [hmin]
        simp only [hcmp, if_true]
        have hver : verdict d (mk i p co k) par w.length p.length MR.nothing =
            if p = [] then MR.nothing else ⟨true, false, some (mk i p co k), par⟩ := by
          simp only [verdict, path_mk, hmin]
          by_cases hp0 : p = []
          · subst hp0; simp
          · have : 0 < p.length := List.length_pos_iff.mpr hp0
            simp [hp0, this]
        rw [hver]
        by_cases hk : k = []
        · subst hk
          simp only [List.isEmpty_nil, if_true]
          refine ⟨_, rfl, ?_⟩
          by_cases hp0 : p = []
          · subst hp0
            simp only [if_true]
            rw [hwd]
            exact .deadRoot rfl rfl
          · simp only [hp0, if_false]
            rw [hwd]
            exact PM.dead (n := mk i p co []) rfl hp0
        · have hk0 : k.isEmpty = false := by simpa using hk
          simp only [hk0, Bool.false_eq_true, if_false]
          have hrest : w.drop p.length = b :: y' := by rw [hwd]; simp
          rw [hrest]
          have hrk : ∀ c ∈ k, ∀ q ∈ keys (u ++ p) c, Misses d (u ++ p ++ b :: y') q := by
            intro c hc q hq
            rw [List.append_assoc, ← hwd]
            apply hr
            simp only [keys, List.mem_map] at hq ⊢
            obtain ⟨x, hx, rfl⟩ := hq
            exact ⟨x, (mem_nodes ..).mpr (.inr ⟨c, hc, hx⟩), rfl⟩
          have hih := fun c hc => ih c hc (hw'.2 c hc).2 (u ++ p) (b :: y') (endsW d (u ++ p))
            (some (mk i p co k)) kv (by simp) rfl (hrk c hc)
          have hskip : ∀ c ∈ k, c.path.head? ≠ some b →
              matchR d c (b :: y') (endsW d (u ++ p)) (some (mk i p co k)) kv = .ok (MR.nothing, kv) := by
            intro c hc hhead
            obtain ⟨r, h1, h2⟩ := hih c hc
            rw [h1]
            have hcp := (hw'.2 c hc).1
            cases hcpath : c.path with
            | nil => exact absurd hcpath hcp
            | cons z zs =>
              rw [hcpath] at hhead
              have hzb : z ≠ b := by simpa using hhead
              suffices r = MR.nothing by rw [this]
              generalize hbb : b :: y' = bb at h2
              cases h2 with
              | exact h => rw [hcpath] at hbb; simp at hbb; exact absurd hbb.1.symm hzb
              | delim h1 h => rw [← hbb, hcpath] at h; simp at h; exact absurd h.1 hzb
              | part h1 h => rw [← hbb, hcpath] at h; simp at h; exact absurd h.1 hzb
              | diff h => rfl
              | dead h => rw [hcpath] at hbb; simp at hbb; exact absurd hbb.1.symm hzb
              | deadRoot h h' => exact absurd h' hcp
              | noKid h => rfl
              | kid => rw [hcpath] at hbb; simp at hbb; exact absurd hbb.1.symm hzb
          by_cases hex : ∃ c ∈ k, c.path.head? = some b
          · obtain ⟨c, hc, hhead⟩ := hex
            obtain ⟨r, h1, h2⟩ := hih c hc
            refine ⟨r, ?_, ?_⟩
            · refine matchKids_pick hc h1 (h2.nothing) ?_
              intro c' hc' hne'
              apply hskip c' hc'
              intro hhead'
              apply hne'
              exact heads_inj hw'.1 hc' hc (by rw [hhead, hhead'])
            · rw [hwd]
              exact PM.kid (n := mk i p co k) hc hhead h2
          · refine ⟨_, matchKids_skip (fun c hc => hskip c hc (fun h => hex ⟨c, hc, h⟩)), ?_⟩
            rw [hwd]
            exact PM.noKid (n := mk i p co k) hk (fun c hc h => hex ⟨c, hc, h⟩)
      · -- the word is exhausted inside the fragment
        have hy : y = [] := List.eq_nil_of_length_eq_zero (by omega)
        subst hy
        simp only [List.append_nil] at hwd
        subst hwd
        have hmin : min p.length w.length = w.length := by omega
        rw [hmin]
        have hwl : 0 < w.length := List.length_pos_iff.mpr hne
        simp only [Nat.lt_irrefl, if_false]
        refine ⟨_, rfl, ?_⟩
        simp only [verdict, path_mk, hmin]
        cases x with
        | nil =>
          simp only [List.append_nil] at hp
          subst hp
          simp only [Nat.lt_irrefl, false_and, if_false]
          have h1 : ¬ (p.length + 1 = p.length ∧ p[p.length]? = some d) := by omega
          simp only [h1, if_false]
          simp only [ge_iff_le, Nat.le_refl, hwl, Bool.not_false, and_self, if_true]
          exact PM.exact (n := mk i p co k) hne
        | cons x1 xs =>
          have hl' : w.length < p.length := by rw [hp]; simp
          have hget : p[w.length]? = some x1 := by rw [hp]; simp
          by_cases hxd : x1 :: xs = [d]
          · have h1 : w.length + 1 = p.length ∧ p[w.length]? = some d := by
              rw [hget]; simp at hxd; rw [hp]; simp [hxd]
            simp only [h1, and_self, if_true]
            exact .delim hne (by simpa [hxd] using hp)
          · have h1 : ¬ (w.length + 1 = p.length ∧ p[w.length]? = some d) := by
              rw [hget, hp]; simp at hxd ⊢
              intro h; exact fun h' => hxd h' h
            simp only [h1, hl', if_false, and_self, if_true]
            exact .part hne (by simpa using hp) hxd

/-- On a well-formed tree without route patterns `matchR` returns, captures nothing, and does what
`PM` says. -/
theorem matchR_plain (d : Char) (n : Node α) (hw : n.WF) (u w : Str) (lrid : Bool)
    (par : Option (Node α)) (kv : KV) (hne : w ≠ []) (hl : lrid = endsW d u)
    (hr : ∀ q ∈ keys u n, NoRoute d q) :
    ∃ r, matchR d n w lrid par kv = .ok (r, kv) ∧ PM d n w par r :=
  matchR_clear d n hw u w lrid par kv hne hl (fun q hq => (hr q hq).clear _)

end Node
end Verif

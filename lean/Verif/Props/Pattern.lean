import Verif.Lemmas.Pattern
import Verif.Props.Write
/-
C33: a trie that holds a single route pattern.
-/
namespace Verif

/-- Segment by segment: a literal corresponds to itself, ":ident" to any segment, "*ident" to any
non-empty list of segments. -/
def Corr : List Str → List Str → Prop
  | [], [] => True
  | p :: ps, w :: ws =>
    if p.head? = some ':' then Corr ps ws
    else if p.head? = some '*' then True
    else p = w ∧ Corr ps ws
  | _, _ => False

/-- The captures of corresponding segments. -/
def caps (d : Char) : List Str → List Str → KV
  | p :: ps, w :: ws =>
    if p.head? = some ':' then (p.tail, w) :: caps d ps ws
    else if p.head? = some '*' then [(p.tail, joinWith d (w :: ws))]
    else caps d ps ws
  | _, _ => []

/-- The text captured by an identifier does not itself begin like a route marker, and is not empty at
the end of the path. -/
def Fair : List Str → List Str → Prop
  | p :: ps, w :: ws =>
    if p.head? = some ':' then w.head? ≠ some ':' ∧ (ws = [] → w ≠ []) ∧ Fair ps ws
    else if p.head? = some '*' then w.head? ≠ some '*' ∧ (ws = [] → w ≠ [])
    else Fair ps ws
  | _, _ => True

/-- The pattern ends with a literal segment. -/
def EndsLit (ps : List Str) : Prop :=
  (∀ p ∈ ps, p.head? ≠ some '*') ∧ ∀ p, ps.getLast? = some p → p.head? ≠ some ':'

theorem swalk_corr (d : Char) (ps : List Str) : ∀ (ws : List Str) (kv : KV), Corr ps ws → Fair ps ws →
    (EndsLit ps → swalk d ps ws kv = .lit (kv ++ caps d ps ws)) ∧
    (¬ EndsLit ps → swalk d ps ws kv = .found (kv ++ caps d ps ws)) := by
  induction ps with
  | nil =>
    intro ws kv hc hf
    cases ws with
    | nil => simp [swalk, caps, EndsLit]
    | cons w ws => simp [Corr] at hc
  | cons p ps ih =>
    intro ws kv hc hf
    cases ws with
    | nil => simp [Corr] at hc
    | cons w ws =>
      simp only [Corr, Fair] at hc hf
      rw [swalk, caps]
      by_cases h1 : p.head? = some ':'
      · simp only [h1, if_true] at hc hf ⊢
        have hne : p ≠ w := by rintro rfl; exact hf.1 h1
        have hcond : ¬ ((w = [] ∧ ws = []) ∨ w.head? = some ':') := by
          rintro (⟨h2, h3⟩ | h2)
          · exact hf.2.1 h3 h2
          · exact hf.1 h2
        rw [if_neg hne, if_neg hcond]
        cases ps with
        | nil =>
          cases ws with
          | cons w2 ws => simp [Corr] at hc
          | nil =>
            have : ¬ EndsLit [p] := fun h => h.2 p rfl h1
            simp [this, caps]
        | cons p2 ps =>
          cases ws with
          | nil => simp [Corr] at hc
          | cons w2 ws =>
            simp only [reduceCtorEq, if_false]
            have he : EndsLit (p :: p2 :: ps) ↔ EndsLit (p2 :: ps) := by
              simp only [EndsLit, List.getLast?_cons_cons]
              constructor
              · rintro ⟨h2, h3⟩; exact ⟨fun q hq => h2 q (by simp [hq]), h3⟩
              · rintro ⟨h2, h3⟩
                refine ⟨fun q hq => ?_, h3⟩
                rcases List.mem_cons.mp hq with rfl | hq
                · rw [h1]; simp
                · exact h2 q hq
            have := ih (w2 :: ws) (kv ++ [(p.tail, w)]) hc hf.2.2
            rw [he]
            simpa using this
      · by_cases h2 : p.head? = some '*'
        · simp only [h2, if_true, Option.some.injEq, Char.reduceEq, if_false] at hc hf ⊢
          have hne : p ≠ w := by rintro rfl; exact hf.1 h2
          have hcond : ¬ ((w = [] ∧ ws = []) ∨ w.head? = some '*') := by
            rintro (⟨h2, h3⟩ | h2)
            · exact hf.2 h3 h2
            · exact hf.1 h2
          rw [if_neg hne, if_neg hcond]
          have : ¬ EndsLit (p :: ps) := fun h => h.1 p (by simp) h2
          simp [this, joinWith_tl]
        · simp only [h1, h2, if_false] at hc hf ⊢
          obtain ⟨rfl, hc⟩ := hc
          rw [if_pos rfl]
          have he : EndsLit (p :: ps) ↔ EndsLit ps := by
            cases ps with
            | nil => simp [EndsLit, h1, h2]
            | cons p2 ps =>
              simp only [EndsLit, List.getLast?_cons_cons]
              constructor
              · rintro ⟨h2, h3⟩; exact ⟨fun q hq => h2 q (by simp [hq]), h3⟩
              · rintro ⟨h2', h3⟩
                refine ⟨fun q hq => ?_, h3⟩
                rcases List.mem_cons.mp hq with rfl | hq
                · exact h2
                · exact h2' q hq
          rw [he]
          exact ih ws kv hc hf

theorem corr_of_swalk (d : Char) (ps : List Str) : ∀ (ws : List Str) (kv kv' : KV),
    (swalk d ps ws kv = .found kv' ∨ swalk d ps ws kv = .lit kv') → Corr ps ws := by
  induction ps with
  | nil =>
    intro ws kv kv' h
    cases ws with
    | nil => trivial
    | cons w ws => simp [swalk] at h
  | cons p ps ih =>
    intro ws kv kv' h
    cases ws with
    | nil => simp [swalk] at h
    | cons w ws =>
      rw [swalk] at h
      simp only [Corr]
      by_cases hpw : p = w
      · subst hpw
        simp only [if_true] at h
        have := ih ws kv kv' h
        split
        · exact this
        · split
          · trivial
          · exact ⟨rfl, this⟩
      · rw [if_neg hpw] at h
        split at h
        · simp at h
        · by_cases h1 : p.head? = some ':'
          · simp only [h1, if_true] at h ⊢
            cases ps with
            | nil =>
              cases ws with
              | nil => trivial
              | cons w2 ws => simp at h
            | cons p2 ps =>
              cases ws with
              | nil => simp at h
              | cons w2 ws =>
                simp only [reduceCtorEq, if_false] at h
                exact ih _ _ _ h
          · by_cases h2 : p.head? = some '*'
            · simp only [h2, if_true, Option.some.injEq, Char.reduceEq, if_false]
            · simp [h1, h2] at h

variable {α : Type} [Inhabited α]

/-- The trie after `Set(P, x)` on an empty trie. -/
theorem set_new_root (d : Char) {P : Str} (hP : P ≠ []) (hs : ' ' ∉ P) (x : α) :
    ((View.new d).set Tree.new P x).1.root = .mk 0 [] Core.zero [Node.newLeaf 2 P (utf8 P) x] := by
  have hk : View.dash ((View.new d).full P) = P := keyOf_nospace (v := View.new d) hs
  have hpos : 0 < P.length := List.length_pos_iff.mpr hP
  simp only [View.set, View.insertAt, Node.insert, hk]
  rw [Node.insertFuel]
  simp [Tree.new, hpos]

/-- Exactly which lookups succeed on a trie with the single pattern `P`, and what they capture. -/
theorem pattern_lookup {d : Char} (hd : d ≠ ':') (hd' : d ≠ '*') {P : Str} (hP : P ≠ []) (hs : ' ' ∉ P)
    (hlast : (splitOn d P).tail.getLast? ≠ some [':']) (x : α) {w : Str} (hw : w ≠ []) :
    match Node.leafFound d P w with
    | some kv => (View.new d).queryKV ((View.new d).set Tree.new P x).1 w = .ok (⟨x, false, true, false⟩, kv)
    | none => ∃ kv, (View.new d).queryKV ((View.new d).set Tree.new P x).1 w = .ok (⟨default, false, false, true⟩, kv) := by
  have hroot := set_new_root d hP hs x
  generalize ((View.new d).set Tree.new P x).1 = t at hroot ⊢
  have hwpos : 0 < w.length := List.length_pos_iff.mpr hw
  have hm : t.root.matchR d w false none [] = (Node.newLeaf 2 P (utf8 P) x).matchR d w false (some t.root) [] := by
    rw [hroot, Node.matchR_eq _ _ _ _ _ _ hw]
    simp only [Node.masterLoop, Node.path_mk, Node.kids_mk, List.length_nil, Nat.zero_min, Nat.not_lt_zero, if_false]
    rw [if_pos hwpos]
    simp only [List.isEmpty_cons, if_true, List.drop_zero, Bool.false_eq_true, if_false]
    rw [Node.matchKids, show (Node.cmpLoop d [] w false).2 = false by simp [Node.cmpLoop]]
    rcases Node.matchR d (Node.newLeaf 2 P (utf8 P) x) w false _ [] with e | ⟨r, kv⟩
    · rfl
    · simp only; split <;> rfl
  have hl := Node.matchR_leaf hd hd' (n := Node.newLeaf 2 P (utf8 P) x) rfl hP hw hlast (some t.root)
  have hfull : (View.new d).full w = w := rfl
  simp only [View.queryKV, View.search, hfull]
  rw [show (View.new d).delim = d from rfl, hm]
  rw [show (Node.newLeaf 2 P (utf8 P) x).path = P from rfl] at hl
  cases hf : Node.leafFound d P w with
  | some kv =>
    rw [hf] at hl
    simp only at hl ⊢
    rw [hl]
    rfl
  | none =>
    rw [hf] at hl
    obtain ⟨r, kv, h1, h2⟩ := hl
    simp only
    rw [h1]
    rcases h2 with ⟨h2, h3⟩ | h3
    · refine ⟨kv, ?_⟩
      simp [h2, h3, View.new]
    · refine ⟨kv, ?_⟩
      obtain ⟨m, p, c, q⟩ := r
      simp only at h3
      subst h3
      cases c <;> simp

theorem leafFound_corr {d : Char} {P0 W0 : Str} {Ps Ws : List Str} {P w : Str}
    (hP : splitOn d P = P0 :: Ps) (hW : splitOn d w = W0 :: Ws)
    (h0 : P0 = W0) (hc : Corr Ps Ws) (hf : Fair Ps Ws) (hl : EndsLit Ps → w.length ≤ P.length) :
    Node.leafFound d P w = some (caps d Ps Ws) := by
  have hsw := swalk_corr d Ps Ws [] hc hf
  simp only [Node.leafFound]
  split
  · rename_i hor
    rcases hor with rfl | hor
    · -- the path is the pattern itself: then there are no identifiers
      rw [hP] at hW
      injection hW with _ e2
      subst e2
      have hnil : ∀ ps : List Str, Fair ps ps → caps d ps ps = [] := by
        intro ps
        induction ps with
        | nil => intro _; rfl
        | cons p ps ih =>
          intro h
          simp only [Fair] at h
          simp only [caps]
          split at h
          · rename_i h1; exact absurd h1 h.1
          · split at h
            · rename_i h1; exact absurd h1 h.1
            · rename_i h1 h2; simp only [h1, h2, if_false]; exact ih h
      rw [hnil Ps hf]
    · -- the pattern is the path plus one delimiter: the segments cannot correspond
      exfalso
      have h1 : Ps = Ws ++ [[]] := by
        have e : splitOn d (w ++ [d]) = splitOn d w ++ [[]] := by
          have h3 : w ++ [d] = joinWith d (splitOn d w ++ [[]]) := by
            rw [joinWith_append (splitOn_ne_nil d w) (by simp), joinWith_splitOn]; rfl
          rw [h3, splitOn_joinWith (by simp)]
          intro y hy
          rcases List.mem_append.mp hy with hy | hy
          · exact splitOn_pieces d w y hy
          · simp at hy; subst hy; simp
        rw [hor, hP, hW] at e
        simpa using (List.cons.inj e).2
      have h2 : ∀ ps ws : List Str, (∀ p ∈ ps, p.head? ≠ some '*') → Corr ps ws → ps.length = ws.length := by
        intro ps
        induction ps with
        | nil => intro ws _ h; cases ws <;> simp_all [Corr]
        | cons p ps ih =>
          intro ws hst h
          cases ws with
          | nil => simp [Corr] at h
          | cons w ws =>
            simp only [Corr, hst p (by simp), if_false] at h
            have : Corr ps ws := by split at h; exact h; exact h.2
            simp [ih ws (fun q hq => hst q (by simp [hq])) this]
      by_cases hst : ∀ p ∈ Ps, p.head? ≠ some '*'
      · have := h2 Ps Ws hst hc
        rw [h1] at this; simp at this
      · -- a rest pattern takes a segment that equals its own text
        have h3 : ∀ ps ws zs : List Str, ps = ws ++ zs → (∃ p ∈ ps, p.head? = some '*') → zs = [[]] → Corr ps ws → ¬ Fair ps ws := by
          intro ps
          induction ps with
          | nil => intro ws zs h ⟨p, hp, _⟩; simp at hp
          | cons p ps ih =>
            intro ws zs h ⟨q, hq, hq'⟩ hz hc hf
            cases ws with
            | nil => simp [Corr] at hc
            | cons w ws =>
              simp only [List.cons_append, List.cons.injEq] at h
              obtain ⟨rfl, h⟩ := h
              simp only [Corr, Fair] at hc hf
              by_cases h1 : p.head? = some ':'
              · simp only [h1, if_true] at hf; exact absurd rfl hf.1
              · by_cases h2 : p.head? = some '*'
                · simp only [h2, if_true, Option.some.injEq, Char.reduceEq, if_false] at hf; exact absurd rfl hf.1
                · simp only [h1, h2, if_false] at hc hf
                  rcases List.mem_cons.mp hq with rfl | hq
                  · exact h2 hq'
                  · exact ih ws zs h ⟨q, hq, hq'⟩ hz hc.2 hf
        refine h3 Ps Ws [[]] h1 ?_ rfl hc hf
        by_contra hcon
        exact hst (fun p hp h => hcon ⟨p, hp, h⟩)
  · simp only [hP, hW, h0, if_true]
    by_cases he : EndsLit Ps
    · rw [hsw.1 he]; simp [hl he]
    · rw [hsw.2 he]; simp

/-- **C33** On a trie that holds a single pattern (delimiter neither ':' nor '*', last segment not a bare
":"), a path whose segments correspond is found and every identifier captures its segment, in order —
provided the captured texts are `Fair` and, if the pattern ends with a literal, the path is not longer
than the pattern. Missing: unfair captures and longer paths (`C33_literal_fails`, `C33_colon_fails`,
`C33_empty_fails`). -/
theorem C33_captures_partial {d : Char} (hd : d ≠ ':') (hd' : d ≠ '*') {P0 W0 : Str} {Ps Ws : List Str} {P w : Str}
    (hP : splitOn d P = P0 :: Ps) (hW : splitOn d w = W0 :: Ws) (hP' : P ≠ []) (hw : w ≠ []) (hs : ' ' ∉ P) (hlast : Ps.getLast? ≠ some [':'])
    (h0 : P0 = W0) (hc : Corr Ps Ws) (hf : Fair Ps Ws) (hl : EndsLit Ps → w.length ≤ P.length) (x : α) :
    (View.new d).queryKV ((View.new d).set Tree.new P x).1 w = .ok (⟨x, false, true, false⟩, caps d Ps Ws) := by
  have key := pattern_lookup hd hd' hP' hs (by rw [hP]; exact hlast) x hw
  rw [leafFound_corr hP hW h0 hc hf hl] at key
  exact key

/-- **C33**, converse: a found path corresponds to the pattern, unless it happens to be as long as the
pattern (`C33_length_fails`) or is the pattern without its trailing delimiter. -/
theorem C33_only_partial {d : Char} (hd : d ≠ ':') (hd' : d ≠ '*') {P0 W0 : Str} {Ps Ws : List Str} {P w : Str}
    (hP : splitOn d P = P0 :: Ps) (hW : splitOn d w = W0 :: Ws) (hP' : P ≠ []) (hw : w ≠ []) (hs : ' ' ∉ P) (hlast : Ps.getLast? ≠ some [':'])
    (x : α) {a : View.Ans α} {kv : KV} (ha : (View.new d).queryKV ((View.new d).set Tree.new P x).1 w = .ok (a, kv)) (hfound : a.found = true) :
    (P0 = W0 ∧ Corr Ps Ws) ∨ w.length = P.length ∨ w ++ [d] = P := by
  have key := pattern_lookup hd hd' hP' hs (by rw [hP]; exact hlast) x hw
  cases hf : Node.leafFound d P w with
  | none =>
    rw [hf] at key
    obtain ⟨kv', key⟩ := key
    rw [key] at ha
    simp only [Except.ok.injEq, Prod.mk.injEq] at ha
    rw [← ha.1] at hfound
    simp at hfound
  | some kv2 =>
    simp only [Node.leafFound] at hf
    split at hf
    · rename_i h
      rcases h with rfl | h
      · exact .inr (.inl rfl)
      · exact .inr (.inr h)
    · simp only [hP, hW] at hf
      split at hf
      · rename_i h0
        split at hf
        · rename_i kv3 he
          exact .inl ⟨h0, corr_of_swalk d Ps Ws [] kv3 (.inl he)⟩
        · rename_i kv3 he
          exact .inl ⟨h0, corr_of_swalk d Ps Ws [] kv3 (.inr he)⟩
        · split at hf
          · rename_i h; exact .inr (.inl h)
          · simp at hf
        · simp at hf
      · simp at hf

/-- A literal after an identifier is found only by paths that are not longer than the pattern: this holds
for every such pattern and path. -/
theorem C33_literal_fails {d : Char} (hd : d ≠ ':') (hd' : d ≠ '*') {P0 W0 : Str} {Ps Ws : List Str} {P w : Str}
    (hP : splitOn d P = P0 :: Ps) (hW : splitOn d w = W0 :: Ws) (hP' : P ≠ []) (hw : w ≠ []) (hs : ' ' ∉ P) (hlast : Ps.getLast? ≠ some [':'])
    (h0 : P0 = W0) (hc : Corr Ps Ws) (hf : Fair Ps Ws) (he : EndsLit Ps) (hl : P.length < w.length) (x : α) :
    ∃ kv, (View.new d).queryKV ((View.new d).set Tree.new P x).1 w = .ok (⟨default, false, false, true⟩, kv) := by
  have key := pattern_lookup hd hd' hP' hs (by rw [hP]; exact hlast) x hw
  have hn : Node.leafFound d P w = none := by
    have hne : ¬ (w = P ∨ w ++ [d] = P) := by
      rintro (rfl | rfl)
      · omega
      · simp at hl; omega
    simp only [Node.leafFound, hne, if_false, hP, hW, h0, if_true, (swalk_corr d Ps Ws [] hc hf).1 he]
    rw [if_neg (by omega)]
  rw [hn] at key
  exact key

/-- "/users/:id/edit" is not found for "/users/12345/edit". -/
example : ∃ kv, (View.new '/').queryKV ((View.new '/').set Tree.new "/users/:id/edit".toList 7).1 "/users/12345/edit".toList =
    .ok (⟨0, false, false, true⟩, kv) :=
  C33_literal_fails (P0 := []) (W0 := []) (Ps := ["users".toList, ":id".toList, "edit".toList]) (Ws := ["users".toList, "12345".toList, "edit".toList])
    (by decide) (by decide) (by decide +kernel) (by decide +kernel) (by decide) (by decide) (by decide) (by decide) rfl
    (by simp [Corr]) (by simp [Fair]) (by simp [EndsLit]) (by decide) 7

/-- `C33_captures_partial` at work, with two identifiers and a rest. -/
example : (View.new '/').queryKV ((View.new '/').set Tree.new "/u/:id/x/:n/*rest".toList 7).1 "/u/12/x//a/b".toList =
    .ok (⟨7, false, true, false⟩, [("id".toList, "12".toList), ("n".toList, []), ("rest".toList, "a/b".toList)]) :=
  C33_captures_partial (P0 := []) (W0 := []) (Ps := ["u".toList, ":id".toList, "x".toList, ":n".toList, "*rest".toList])
    (Ws := ["u".toList, "12".toList, "x".toList, [], "a".toList, "b".toList])
    (by decide) (by decide) (by decide +kernel) (by decide +kernel) (by decide) (by decide) (by decide) (by decide) rfl
    (by simp [Corr]) (by simp [Fair]) (by simp [EndsLit]) 7

/-- A path that does not correspond is found when it has the length of the pattern: "/:ab" takes "/c/d". -/
theorem C33_length_fails : (View.new '/').queryKV ((View.new '/').set Tree.new "/:ab".toList 7).1 "/c/d".toList =
    .ok (⟨7, false, true, false⟩, [("ab".toList, "c".toList)]) := by decide +kernel

/-- A segment that begins with ':' is not captured. -/
theorem C33_colon_fails : (View.new '/').queryKV ((View.new '/').set Tree.new "/:ab".toList 7).1 "/:x".toList =
    .ok (⟨0, false, false, true⟩, []) := by decide +kernel

/-- An empty last segment is not captured. -/
theorem C33_empty_fails : (View.new '/').queryKV ((View.new '/').set Tree.new "/:ab".toList 7).1 "/".toList =
    .ok (⟨0, false, false, true⟩, []) := by decide +kernel

end Verif

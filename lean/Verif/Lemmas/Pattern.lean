import Verif.Lemmas.Retriever
import Verif.Lemmas.Captures
import Verif.Lemmas.Join
/-
`matchR` on a leaf whose fragment is a route pattern, segment by segment.
-/
namespace Verif

/-- The segments after the first one, each with its delimiter. -/
def tl (d : Char) (ps : List Str) : Str := ps.flatMap (d :: ·)

@[simp] theorem tl_nil (d : Char) : tl d [] = [] := rfl
@[simp] theorem tl_cons (d : Char) (p : Str) (ps : List Str) : tl d (p :: ps) = d :: (p ++ tl d ps) := rfl

theorem joinWith_tl (d : Char) (p : Str) (ps : List Str) : joinWith d (p :: ps) = p ++ tl d ps := by
  induction ps generalizing p with
  | nil => simp [joinWith]
  | cons q qs ih => rw [joinWith_cons (by simp), ih q]; rfl

/-- How a pattern and a word compare. -/
inductive Walk where
  | nothing          -- they do not correspond
  | found (kv : KV)  -- the last pattern segment is a variable or a rest pattern and took the rest of the word
  | lit (kv : KV)    -- both are used up by a literal
  | over (kv : KV)   -- the last pattern segment is a variable, and the word has further segments
  deriving DecidableEq

/-- Compare the segments after the first one. -/
def swalk (d : Char) : List Str → List Str → KV → Walk
  | [], [], kv => .lit kv
  | [], _ :: _, _ => .nothing
  | _ :: _, [], _ => .nothing
  | p :: ps, w :: ws, kv =>
    if p = w then swalk d ps ws kv
    else if (w = [] ∧ ws = []) ∨ w.head? = p.head? then .nothing
    else if p.head? = some ':' then
      if ps = [] then (if ws = [] then .found (kv ++ [(p.tail, w)]) else .over (kv ++ [(p.tail, w)]))
      else if ws = [] then .nothing
      else swalk d ps ws (kv ++ [(p.tail, w)])
    else if p.head? = some '*' then .found (kv ++ [(p.tail, w ++ tl d ws)])
    else .nothing

namespace Node

theorem extractor_tl {d : Char} {path n : Str} {ps : List Str} {s : Nat} (h : path.drop s = n ++ tl d ps) (hn : d ∉ n)
    (hne : n ≠ [] ∨ ps ≠ []) : extractor d path s path.length = (n, s + n.length, ps.isEmpty) := by
  have hlen : path.length - s = n.length + (tl d ps).length := by
    have := congrArg List.length h
    simpa using this
  have hpos : 0 < n.length + (tl d ps).length := by
    rcases hne with h | h
    · have := List.length_pos_iff.mpr h; omega
    · cases ps with
      | nil => exact absurd rfl h
      | cons p ps => simp; omega
  have hlt : ¬ s ≥ path.length := by omega
  have htw : ((path.take path.length).drop s).takeWhile (fun x => decide (x ≠ d)) = n := by
    rw [List.take_length, h]
    have h1 : ∀ x ∈ n, decide (x ≠ d) = true := by intro x hx; simp; rintro rfl; exact hn hx
    rw [List.takeWhile_append_of_pos h1]
    cases ps with
    | nil => simp
    | cons p ps => simp
  simp only [extractor, hlt, if_false, htw]
  cases ps with
  | nil =>
    simp only [tl_nil, List.length_nil] at hlen
    have : ¬ s + n.length < path.length := by omega
    simp only [this, if_false, List.isEmpty_nil]
    rw [show path.length = s + n.length by omega]
  | cons p ps =>
    simp only [tl_cons, List.length_cons] at hlen
    have : s + n.length < path.length := by omega
    simp only [this, if_true, List.isEmpty_cons]

/-- The rest of a round of the `retriever` loop after the sub-comparing loop, for a leaf. -/
def cont (d : Char) (path word : Str) (f : Nat) (src dst : Nat) (lr : Bool) (kv : KV) : Go (Retr × KV) :=
  if src = path.length ∧ dst = word.length then .ok (.out src dst lr true false, kv)
  else retriever d path word false f
    (if src < path.length ∧ dst < word.length then path.getD src ':' else path.getD (src - 1) ':') src dst lr kv

/-- The result of the loop agrees with the comparison of the segments. -/
def Agree (l : Nat) : Walk → Go (Retr × KV) → Prop
  | .nothing, r => ∃ kv, r = .ok (.nothing, kv)
  | .found kv, r => r = .ok (.found, kv)
  | .lit kv, r => ∃ dst b, r = .ok (.out l dst b true false, kv)
  | .over kv, r => ∃ dst b, r = .ok (.out l dst b false false, kv)

theorem cmpLoop_append (d : Char) (s a b : Str) (f : Bool) : cmpLoop d (s ++ a) (s ++ b) f =
    (s.length + (cmpLoop d a b (if s = [] then f else endsW d s)).1, (cmpLoop d a b (if s = [] then f else endsW d s)).2) := by
  induction s generalizing f with
  | nil => simp
  | cons c cs ih =>
    simp only [List.cons_append, cmpLoop, if_true]
    rw [ih (c == d)]
    cases cs with
    | nil => simp [endsW]; omega
    | cons c' cs => simp [endsW]; omega

theorem endsW_dcons {d : Char} {p : Str} (h : d ∉ p) : endsW d (d :: p) = decide (p = []) := by
  cases p with
  | nil => simp [endsW]
  | cons a as =>
    simp only [endsW, List.getLast?_cons_cons]
    rw [Bool.eq_iff_iff]
    simp only [beq_iff_eq, decide_eq_true_eq]
    constructor
    · intro e
      exact absurd (List.mem_of_getLast? e) h
    · intro e; simp at e

/-- What a mismatch after `lr` does when the pattern rune is no route marker or `lr` is false. -/
theorem retriever_nothing {d : Char} {path word : Str} {hk : Bool} {f : Nat} {ch : Char} {src dst : Nat} {lr : Bool} {kv : KV}
    (hf : 0 < f) (h : lr = true → ch ≠ ':' ∧ ch ≠ '*') : retriever d path word hk f ch src dst lr kv = .ok (.nothing, kv) := by
  obtain ⟨f, rfl⟩ : ∃ g, f = g + 1 := ⟨f - 1, by omega⟩
  exact retriever_plain h

theorem drop_add {β : Type} {l a b : List β} {i : Nat} (h : l.drop i = a ++ b) : l.drop (i + a.length) = b := by
  rw [← List.drop_drop, h]; simp

theorem getD_of_drop {l : Str} {a : Char} {b : Str} {i : Nat} (h : l.drop i = a :: b) (c : Char) : l.getD i c = a ∧ i < l.length := by
  have h1 : i < l.length := by
    by_contra hc
    rw [List.drop_eq_nil_of_le (by omega)] at h
    cases h
  refine ⟨?_, h1⟩
  have : l[i]? = some a := by
    have := congrArg (fun x => x[0]?) h
    simpa using this
  simp [List.getD_eq_getElem?_getD, this]

theorem extractor_fst {d : Char} {path n : Str} {ps : List Str} {s : Nat} (h : path.drop s = n ++ tl d ps) (hn : d ∉ n) :
    (extractor d path s path.length).1 = n := by
  by_cases hne : n ≠ [] ∨ ps ≠ []
  · rw [extractor_tl h hn hne]
  · simp only [not_or, ne_eq, Decidable.not_not] at hne
    obtain ⟨rfl, rfl⟩ := hne
    have : s ≥ path.length := by
      have := congrArg List.length h
      simp at this; omega
    simp [extractor, this]

/-- The end of the comparison of two segments that differ. -/
theorem cmpLoop_differ {d : Char} {p w : Str} {ps ws : List Str} (hp : d ∉ p) (hw : d ∉ w) (hne : p ≠ w) (lr : Bool) :
    ∃ s x y, p = s ++ x ∧ w = s ++ y ∧ (x.head? ≠ y.head?) ∧
      cmpLoop d (tl d (p :: ps)) (tl d (w :: ws)) lr = (1 + s.length, decide (s = [])) := by
  obtain ⟨s, x, y, rfl, rfl, _, h⟩ := cmpLoop_spec d p w false
  have hs : d ∉ s := fun hm => hp (by simp [hm])
  have hxy : x.head? ≠ y.head? := by
    rcases h with rfl | rfl | ⟨a, b, x', y', rfl, rfl, hab⟩
    · cases y with
      | nil => exact absurd rfl hne
      | cons b y => simp
    · cases x with
      | nil => exact absurd rfl hne
      | cons b y => simp
    · simpa using hab
  refine ⟨s, x, y, rfl, rfl, hxy, ?_⟩
  have e1 : ∀ (z : Str) (zs : List Str), tl d ((s ++ z) :: zs) = (d :: s) ++ (z ++ tl d zs) := by intro z zs; simp
  rw [e1, e1, cmpLoop_append, if_neg (by simp), endsW_dcons hs]
  have : cmpLoop d (x ++ tl d ps) (y ++ tl d ws) (decide (s = [])) = (0, decide (s = [])) := by
    cases x with
    | nil =>
      cases y with
      | nil => simp at hxy
      | cons b y =>
        have hb : b ≠ d := by rintro rfl; exact hw (by simp)
        cases ps with
        | nil => simp [cmpLoop]
        | cons q qs => simp [cmpLoop, hb.symm]
    | cons a x =>
      have ha : a ≠ d := by rintro rfl; exact hp (by simp)
      cases y with
      | nil =>
        cases ws with
        | nil => simp [cmpLoop]
        | cons q qs => simp [cmpLoop, ha]
      | cons b y =>
        have : a ≠ b := by simpa using hxy
        simp [cmpLoop, this]
  rw [this]
  simp; omega

/-- The loop, started after a delimiter on both sides or at the end, does what `swalk` says. -/
theorem cont_swalk {d : Char} (hd : d ≠ ':') (hd' : d ≠ '*') {path word : Str} (ps : List Str) :
    ∀ (ws : List Str) (e x : Nat) (lr : Bool) (kv : KV) (f : Nat), (∀ p ∈ ps, d ∉ p) → (∀ w ∈ ws, d ∉ w) → ps.getLast? ≠ some [':'] →
    path.drop e = tl d ps → word.drop x = tl d ws → e ≤ path.length → x ≤ word.length →
    (ps = [] ∨ ws = [] → lr = true → path.getD (e - 1) ':' = d) → ps.length < f →
    Agree path.length (swalk d ps ws kv)
      (cont d path word f (e + (cmpLoop d (tl d ps) (tl d ws) lr).1) (x + (cmpLoop d (tl d ps) (tl d ws) lr).1)
        (cmpLoop d (tl d ps) (tl d ws) lr).2 kv) := by
  induction ps with
  | nil =>
    intro ws e x lr kv f hps hws hlast he hx hel hxl hlr hf
    have hee : e = path.length := by
      have := congrArg List.length he
      simp at this; omega
    cases ws with
    | nil =>
      have hxx : x = word.length := by
        have := congrArg List.length hx
        simp at this; omega
      simp only [tl_nil, cmpLoop, swalk, Nat.add_zero, cont, hee, hxx, and_self, if_true]
      exact ⟨_, _, rfl⟩
    | cons w ws =>
      have hxx := (getD_of_drop (by rw [hx]; rfl) ':').2
      simp only [tl_nil, cmpLoop, swalk, Nat.add_zero, cont, hee, true_and, Nat.lt_irrefl, false_and, if_false]
      rw [if_neg (by omega), retriever_nothing (by omega)]
      · exact ⟨_, rfl⟩
      · intro h
        rw [← hee, hlr (.inl rfl) h]
        exact ⟨hd, hd'⟩
  | cons p ps ih =>
    intro ws e x lr kv f hps hws hlast he hx hel hxl hlr hf
    have hee := getD_of_drop (by rw [he]; rfl) ':'
    have hp : d ∉ p := hps p (by simp)
    cases ws with
    | nil =>
      have hxx : x = word.length := by
        have := congrArg List.length hx
        simp at this; omega
      simp only [tl_nil, cmpLoop, swalk, Nat.add_zero, cont, hxx, Nat.lt_irrefl, and_false, if_false, tl_cons]
      rw [if_neg (by omega), retriever_nothing (by omega)]
      · exact ⟨_, rfl⟩
      · intro h
        rw [hlr (.inr rfl) h]
        exact ⟨hd, hd'⟩
    | cons w ws =>
      have hw : d ∉ w := hws w (by simp)
      have hlast' : ps.getLast? ≠ some [':'] := by
        cases ps with
        | nil => simp
        | cons q qs => simpa using hlast
      have hps' : ∀ q ∈ ps, d ∉ q := fun q hq => hps q (by simp [hq])
      have hws' : ∀ q ∈ ws, d ∉ q := fun q hq => hws q (by simp [hq])
      by_cases hpw : p = w
      · subst hpw
        rw [swalk, if_pos rfl]
        have e1 : ∀ zs : List Str, tl d (p :: zs) = (d :: p) ++ tl d zs := fun _ => rfl
        rw [e1] at he hx ⊢
        rw [e1, cmpLoop_append, if_neg (by simp), endsW_dcons hp]
        simp only [← Nat.add_assoc]
        refine ih ws (e + (d :: p).length) (x + (d :: p).length) _ kv f hps' hws' hlast' (drop_add he) (drop_add hx) ?_ ?_ ?_ (by simp at hf; omega)
        · have := congrArg List.length he
          simp at this ⊢; omega
        · have := congrArg List.length hx
          simp at this ⊢; omega
        · intro _ hp0
          simp only [decide_eq_true_eq] at hp0
          subst hp0
          simp only [List.length_singleton, Nat.add_sub_cancel]
          exact hee.1
      · obtain ⟨s, y, z, rfl, rfl, hyz, hc⟩ := cmpLoop_differ (ps := ps) (ws := ws) hp hw hpw lr
        rw [hc]
        rw [swalk, if_neg hpw]
        have e1 : ∀ (z : Str) (zs : List Str), tl d ((s ++ z) :: zs) = (d :: s) ++ (z ++ tl d zs) := by intro z zs; simp
        rw [e1] at he hx
        have hpath := drop_add he
        have hword := drop_add hx
        rw [show (d :: s).length = 1 + s.length by simp; omega] at hpath hword
        have hnb : ¬ (e + (1 + s.length) = path.length ∧ x + (1 + s.length) = word.length) := by
          rintro ⟨h1, h2⟩
          rw [h1, List.drop_length] at hpath
          rw [h2, List.drop_length] at hword
          have h1 := (List.append_eq_nil_iff.mp hpath.symm).1
          have h2 := (List.append_eq_nil_iff.mp hword.symm).1
          rw [h1, h2] at hyz
          exact hyz rfl
        simp only [cont, hnb, if_false]
        cases hs : s with
        | cons s1 ss =>
          have : (w : Str) → (s ++ w).head? = some s1 := by intro w; rw [hs]; rfl
          rw [if_pos (.inr (by rw [← hs, this, this]))]
          rw [retriever_nothing (by omega) (by simp)]
          exact ⟨_, rfl⟩
        | nil =>
          subst hs
          simp only [List.nil_append, List.length_nil, Nat.add_zero] at hpath hword hlast ⊢
          have hpd : path.getD e ':' = d := hee.1
          by_cases hzw : z = [] ∧ ws = []
          · obtain ⟨rfl, rfl⟩ := hzw
            rw [if_pos (.inl ⟨rfl, rfl⟩)]
            have : ¬ (x + 1 < word.length) := by
              intro hlt
              have := congrArg List.length hword
              simp at this; omega
            simp only [this, and_false, if_false, Nat.add_sub_cancel, hpd]
            rw [retriever_nothing (by omega) (fun _ => ⟨hd, hd'⟩)]
            exact ⟨_, rfl⟩
          · rw [if_neg (by rw [not_or]; exact ⟨hzw, fun h => hyz h.symm⟩)]
            have hwl : x + 1 < word.length := by
              have h1 := congrArg List.length hword
              have h2 : 0 < (z ++ tl d ws).length := by
                cases z with
                | cons a as => simp
                | nil =>
                  cases ws with
                  | nil => exact absurd ⟨rfl, rfl⟩ hzw
                  | cons a as => simp
              simp only [List.length_drop] at h1
              omega
            cases y with
            | nil =>
              simp only [List.head?_nil, reduceCtorEq, if_false]
              have hch : (if e + 1 < path.length ∧ x + 1 < word.length then path.getD (e + 1) ':' else path.getD (e + 1 - 1) ':') = d := by
                split
                · rename_i h
                  cases ps with
                  | nil =>
                    have := congrArg List.length hpath
                    simp at this; omega
                  | cons q qs => exact (getD_of_drop hpath ':').1
                · rw [Nat.add_sub_cancel]; exact hpd
              rw [hch, retriever_nothing (by omega) (fun _ => ⟨hd, hd'⟩)]
              exact ⟨_, rfl⟩
            | cons a y =>
              have hpa := getD_of_drop hpath ':'
              simp only [hpa.2, hwl, and_self, if_true, hpa.1, List.head?_cons, Option.some.injEq, decide_true, List.tail_cons]
              have hpath2 : path.drop (e + 1 + 1) = y ++ tl d ps := drop_add (a := [a]) hpath
              have hy : d ∉ y := fun h => hp (by simp [h])
              have hz : d ∉ z := fun h => hw (by simp [h])
              obtain ⟨f, rfl⟩ : ∃ g, f = g + 1 := ⟨f - 1, by omega⟩
              rw [retriever]
              simp only [if_true]
              by_cases ha : a = ':'
              · subst ha
                have hne : y ≠ [] ∨ ps ≠ [] := by
                  by_contra hcon
                  simp only [not_or, ne_eq, Decidable.not_not] at hcon
                  obtain ⟨rfl, rfl⟩ := hcon
                  simp at hlast
                have hzw' : z ≠ [] ∨ ws ≠ [] := by
                  by_contra hcon
                  simp only [not_or, ne_eq, Decidable.not_not] at hcon
                  exact hzw hcon
                rw [extractor_tl hpath2 hy hne, extractor_tl hword hz hzw']
                simp only [Char.reduceEq, if_false, if_true]
                cases ps with
                | nil =>
                  have hl : e + 1 + 1 + y.length = path.length := by
                    have := congrArg List.length hpath2
                    simp at this; have := hpa.2; omega
                  simp only [List.isEmpty_nil, if_true]
                  cases ws with
                  | nil => simp only [List.isEmpty_nil, if_true]; rfl
                  | cons w2 ws => simp only [List.isEmpty_cons, reduceCtorEq, if_false, hl]; exact ⟨_, _, rfl⟩
                | cons p2 ps =>
                  simp only [List.isEmpty_cons, reduceCtorEq, if_false]
                  cases ws with
                  | nil => simp only [List.isEmpty_nil, if_true]; exact ⟨_, rfl⟩
                  | cons w2 ws =>
                    simp only [List.isEmpty_cons, reduceCtorEq, if_false]
                    have hp2 := drop_add hpath2
                    have hw2 := drop_add hword
                    have key := ih (w2 :: ws) (e + 1 + 1 + y.length) (x + 1 + z.length) true (kv ++ [(y, z)]) f hps' hws' hlast' hp2 hw2
                      (by have := getD_of_drop hp2 ':'; omega) (by have := getD_of_drop hw2 ':'; omega) (by simp) (by simp at hf ⊢; omega)
                    rw [hp2, hw2]
                    have hc0 : (cmpLoop d (tl d (p2 :: ps)) (tl d (w2 :: ws)) true).1 > 0 := by simp [cmpLoop]
                    simp only [cont] at key
                    simp only [if_false, and_false, hc0, if_true]
                    exact key
              · simp only [ha, if_false]
                by_cases ha' : a = '*'
                · subst ha'
                  simp only [if_true]
                  rw [hword, extractor_fst hpath2 hy]
                  rfl
                · simp only [ha', if_false]
                  exact ⟨_, rfl⟩

/-- Does a leaf with fragment `P` match the word `w`, and with which captures? -/
def leafFound (d : Char) (P w : Str) : Option KV :=
  if w = P ∨ w ++ [d] = P then some []
  else match splitOn d P, splitOn d w with
    | P0 :: Ps, W0 :: Ws =>
      if P0 = W0 then
        match swalk d Ps Ws [] with
        | .found kv => some kv
        | .lit kv => if w.length ≤ P.length then some kv else none
        | .over kv => if w.length = P.length then some kv else none
        | .nothing => none
      else none
    | _, _ => none

theorem splitOn_tl (d : Char) (s : Str) : ∃ p ps, splitOn d s = p :: ps ∧ s = p ++ tl d ps ∧ d ∉ p ∧ ∀ q ∈ ps, d ∉ q := by
  have h := splitOn_pieces d s
  have h2 := joinWith_splitOn d s
  cases hs : splitOn d s with
  | nil => exact absurd hs (splitOn_ne_nil d s)
  | cons p ps =>
    rw [hs] at h h2
    exact ⟨p, ps, rfl, by rw [← h2, joinWith_tl], h p (by simp), fun q hq => h q (by simp [hq])⟩

theorem tl_length (d : Char) (ps : List Str) : ps.length ≤ (tl d ps).length := by
  induction ps with
  | nil => simp
  | cons p ps ih => simp; omega

theorem endsW_notMem {d : Char} {p : Str} (h : d ∉ p) : endsW d p = false := by
  simp only [endsW, beq_eq_false_iff_ne, ne_eq]
  intro e
  exact h (List.mem_of_getLast? e)

variable {α : Type}

theorem matchR_leaf {d : Char} (hd : d ≠ ':') (hd' : d ≠ '*') {n : Node α} (hk : n.kids = []) (hP : n.path ≠ []) {w : Str} (hw : w ≠ [])
    (hlast : (splitOn d n.path).tail.getLast? ≠ some [':']) (par : Option (Node α)) :
    match leafFound d n.path w with
    | some kv => matchR d n w false par [] = .ok (⟨true, false, some n, par⟩, kv)
    | none => ∃ r kv, matchR d n w false par [] = .ok (r, kv) ∧ ((r.matched = false ∧ r.part = false) ∨ r.part = true) := by
  obtain ⟨P0, Ps, hPs, hPe, hP0, hPd⟩ := splitOn_tl d n.path
  obtain ⟨W0, Ws, hWs, hWe, hW0, hWd⟩ := splitOn_tl d w
  rw [hPs] at hlast
  simp only [List.tail_cons] at hlast
  have hPpos : 0 < n.path.length := List.length_pos_iff.mpr hP
  have hwpos : 0 < w.length := List.length_pos_iff.mpr hw
  have hPl : Ps.length ≤ n.path.length := by
    have := tl_length d Ps
    rw [hPe]; simp; omega
  rw [matchR_eq d n w false par [] hw, masterLoop]
  obtain ⟨hb1, hb2, hb3, hb4⟩ := cmpLoop_bounds d n.path w false
  -- the loop, when the first segments agree
  have hcont : P0 = W0 → Agree n.path.length (swalk d Ps Ws [])
      (cont d n.path w (retrFuel n.path.length w.length) (cmpLoop d n.path w false).1 (cmpLoop d n.path w false).1 (cmpLoop d n.path w false).2 []) := by
    intro h0
    have h1 : n.path.drop P0.length = tl d Ps := by conv_lhs => rw [hPe]; simp
    have h2 : w.drop P0.length = tl d Ws := by conv_lhs => rw [hWe, h0]; simp
    have key := cont_swalk hd hd' (path := n.path) (word := w) Ps Ws P0.length P0.length false [] (retrFuel n.path.length w.length) hPd hWd hlast h1 h2
      (by conv_rhs => rw [hPe]
          simp) (by conv_rhs => rw [hWe, ← h0]
                    simp) (by simp) (by
        have h1 : n.path.length + 2 ≤ (n.path.length + 2) * (w.length + 2) := Nat.le_mul_of_pos_right _ (by omega)
        simp only [retrFuel, Nat.mul_assoc]
        omega)
    have hc : cmpLoop d n.path w false = (P0.length + (cmpLoop d (tl d Ps) (tl d Ws) false).1, (cmpLoop d (tl d Ps) (tl d Ws) false).2) := by
      conv_lhs => rw [hPe, hWe, ← h0]
      rw [cmpLoop_append]
      split
      · rfl
      · rw [endsW_notMem hP0]
    rw [hc]
    exact key
  have hret : ∀ f ch src dst kv, 0 < f → ch ≠ ':' ∧ ch ≠ '*' ∨ (cmpLoop d n.path w false).2 = false →
      retriever d n.path w false f ch src dst (cmpLoop d n.path w false).2 kv = .ok (.nothing, kv) := by
    intro f ch src dst kv hf h
    apply retriever_nothing hf
    intro h'
    rcases h with h | h
    · exact h
    · rw [h] at h'; cases h'
  generalize hc : cmpLoop d n.path w false = c at hcont hb1 hb2 hb3 hb4 hret ⊢
  simp only [hk, List.isEmpty_nil, Bool.not_true, if_true]
  by_cases hlt : c.1 < min n.path.length w.length
  · simp only [hlt, if_true]
    have hne : ¬ (w = n.path ∨ w ++ [d] = n.path) := by
      rintro (h | h)
      · rw [← h] at hc
        have := cmpLoop_append d w [] [] false
        simp [cmpLoop] at this
        rw [this] at hc
        rw [← hc] at hlt; simp at hlt
      · rw [← h] at hc
        have := cmpLoop_append d w [d] [] false
        simp [cmpLoop] at this
        rw [this] at hc
        rw [← hc] at hlt; simp at hlt
    simp only [leafFound, hne, if_false, hPs, hWs]
    by_cases h0 : P0 = W0
    · have hA := hcont h0
      simp only [cont] at hA
      rw [if_neg (by omega), if_pos (by omega), show n.path.getD c.1 ':' = n.path.getD c.1 d by
        rw [List.getD_eq_getElem?_getD, List.getD_eq_getElem?_getD, List.getElem?_eq_getElem (by omega)]; rfl] at hA
      simp only [h0, if_true]
      cases hs : swalk d Ps Ws [] with
      | nothing =>
        rw [hs] at hA
        obtain ⟨kv, hA⟩ := hA
        rw [hA]
        exact ⟨_, _, rfl, .inl ⟨rfl, rfl⟩⟩
      | found kv =>
        rw [hs] at hA
        simp only [Agree] at hA
        rw [hA]
      | lit kv =>
        rw [hs] at hA
        obtain ⟨dst, b, hA⟩ := hA
        rw [hA]
        simp only [if_true]
        have hv : verdict d n par w.length n.path.length ⟨true, false, some n, par⟩ = ⟨true, false, some n, par⟩ := by
          simp only [verdict]
          split
          · rfl
          · split
            · rename_i h; omega
            · split <;> rfl
        rw [hv]
        by_cases hl : w.length ≤ n.path.length
        · simp only [hl, if_true]
          rw [if_neg (by omega)]
        · simp only [hl, if_false]
          rw [if_pos (by omega)]
          exact ⟨_, _, rfl, .inr rfl⟩
      | over kv =>
        rw [hs] at hA
        obtain ⟨dst, b, hA⟩ := hA
        rw [hA]
        simp only [if_false, Bool.false_eq_true]
        by_cases hl : w.length = n.path.length
        · simp only [hl, if_true]
          have hv : verdict d n par n.path.length n.path.length ⟨false, false, none, none⟩ = ⟨true, false, some n, par⟩ := by
            simp only [verdict]
            rw [if_neg (by omega), if_neg (by omega), if_pos (by simp; omega)]
          rw [hv, if_neg (by omega)]
        · simp only [hl, if_false]
          by_cases hl2 : w.length < n.path.length
          · rw [if_neg (by omega)]
            have hv : verdict d n par w.length n.path.length ⟨false, false, none, none⟩ = ⟨false, false, none, none⟩ := by
              simp only [verdict]
              rw [if_neg (by omega), if_neg (by omega), if_neg (by omega)]
            rw [hv]
            exact ⟨_, _, rfl, .inl ⟨rfl, rfl⟩⟩
          · rw [if_pos (by omega)]
            exact ⟨_, _, rfl, .inr rfl⟩
    · simp only [h0, if_false]
      have hc2 : c.2 = false := by
        obtain ⟨s, x, y, h1, h2, h3, h4⟩ := cmpLoop_spec d P0 W0 false
        have hs : d ∉ s := fun h => hP0 (by rw [h1]; simp [h])
        have hcc : cmpLoop d n.path w false = (s.length + (cmpLoop d (x ++ tl d Ps) (y ++ tl d Ws) false).1, (cmpLoop d (x ++ tl d Ps) (y ++ tl d Ws) false).2) := by
          conv_lhs => rw [hPe, hWe, h1, h2, List.append_assoc, List.append_assoc]
          rw [cmpLoop_append]
          split
          · rfl
          · rw [endsW_notMem hs]
        rw [← hc, hcc]
        have : cmpLoop d (x ++ tl d Ps) (y ++ tl d Ws) false = (0, false) := by
          have hx : d ∉ x := fun h => hP0 (by rw [h1]; simp [h])
          have hy : d ∉ y := fun h => hW0 (by rw [h2]; simp [h])
          have hxy : ¬ (x = [] ∧ y = []) := by rintro ⟨rfl, rfl⟩; exact h0 (by rw [h1, h2])
          cases x with
          | nil =>
            cases y with
            | nil => exact absurd ⟨rfl, rfl⟩ hxy
            | cons b y =>
              have hb : d ≠ b := by rintro rfl; exact hy (by simp)
              cases Ps with
              | nil => simp [cmpLoop]
              | cons q qs => simp [cmpLoop, hb]
          | cons a x =>
            have ha : a ≠ d := by rintro rfl; exact hx (by simp)
            cases y with
            | nil =>
              cases Ws with
              | nil => simp [cmpLoop]
              | cons q qs => simp [cmpLoop, ha]
            | cons b y =>
              simp only [reduceCtorEq, false_or] at h4
              obtain ⟨p, q, x', y', e1, e2, hpq⟩ := h4
              simp only [List.cons.injEq] at e1 e2
              have : a ≠ b := by rw [e1.1, e2.1]; exact hpq
              simp [cmpLoop, this]
        rw [this]
      rw [hret _ _ _ _ _ (by simp [retrFuel]) (.inr hc2)]
      exact ⟨_, _, rfl, .inl ⟨rfl, rfl⟩⟩
  · have hc1 : c.1 = min n.path.length w.length := by omega
    simp only [hlt, if_false]
    -- one string is a prefix of the other
    obtain ⟨s, x, y, h1, h2, h3, h4⟩ := cmpLoop_spec d n.path w false
    rw [hc] at h3
    have hsl : s.length = min n.path.length w.length := by rw [← hc1, h3]
    have hl1 : n.path.length = s.length + x.length := by rw [h1]; simp
    have hl2 : w.length = s.length + y.length := by rw [h2]; simp
    cases y with
    | cons b y =>
      have hx : x = [] := List.eq_nil_of_length_eq_zero (by simp at hl2; omega)
      have hlw : n.path.length < w.length := by simp [hx] at hl1 hl2; omega
      have hnf : leafFound d n.path w = none := by
        have hne : ¬ (w = n.path ∨ w ++ [d] = n.path) := by
          rintro (h | h)
          · have := congrArg List.length h; omega
          · have := congrArg List.length h; simp at this; omega
        simp only [leafFound, hne, if_false, hPs, hWs]
        by_cases h0 : P0 = W0
        · have hA := hcont h0
          simp only [cont] at hA
          rw [if_neg (by omega), if_neg (by omega)] at hA
          have hr := hret (retrFuel n.path.length w.length) (n.path.getD (c.1 - 1) ':') c.1 c.1 [] (by simp [retrFuel]) (by
            by_cases hc0 : c.1 = 0
            · right; exact hb4 hc0
            · by_cases hcd : c.2 = true
              · left
                have := hb3 (by omega)
                rw [hcd] at this
                have := (beq_iff_eq.mp this.symm)
                rw [List.getD_eq_getElem?_getD, this]
                exact ⟨hd, hd'⟩
              · right; simpa using hcd)
          rw [hr] at hA
          simp only [h0, if_true]
          cases hs : swalk d Ps Ws [] with
          | nothing => rfl
          | found kv => rw [hs] at hA; simp [Agree] at hA
          | lit kv => rw [hs] at hA; simp [Agree] at hA
          | over kv => rw [hs] at hA; simp [Agree] at hA
        · simp only [h0, if_false]
      rw [hnf]
      simp only
      rw [if_pos (by omega)]
      exact ⟨_, _, rfl, .inr rfl⟩
    | nil =>
      have hws : w = s := by simpa using h2
      have hsn : s.length = w.length := by rw [hws]
      rw [if_neg (by omega)]
      cases x with
      | nil =>
        have hwp : w = n.path := by rw [hws, h1]; simp
        simp only [leafFound, hwp, true_or, if_true]
        have hv : verdict d n par n.path.length (min n.path.length n.path.length) ⟨false, false, none, none⟩ = ⟨true, false, some n, par⟩ := by
          simp only [verdict]
          rw [if_neg (by omega), if_neg (by omega), if_pos (by simp; omega)]
        rw [hv]
      | cons b x =>
        have hl : w.length < n.path.length := by simp at hl1; omega
        have hmin : min n.path.length w.length = w.length := by omega
        have hget : n.path[w.length]? = some b := by rw [h1, ← hsn]; simp
        by_cases hdd : w ++ [d] = n.path
        · simp only [leafFound, hdd, or_true, if_true, hmin]
          have hv : verdict d n par w.length w.length ⟨false, false, none, none⟩ = ⟨true, false, some n, par⟩ := by
            simp only [verdict]
            rw [if_pos]
            refine ⟨by rw [← hdd]; simp, by rw [← hdd]; simp⟩
          rw [hv]
        · have hnf : leafFound d n.path w = none := by
            have hne : ¬ (w = n.path ∨ w ++ [d] = n.path) := by
              rintro (h | h)
              · have := congrArg List.length h; omega
              · exact hdd h
            simp only [leafFound, hne, if_false, hPs, hWs]
            by_cases h0 : P0 = W0
            · have hA := hcont h0
              simp only [cont] at hA
              rw [if_neg (by omega), if_neg (by omega)] at hA
              have hr := hret (retrFuel n.path.length w.length) (n.path.getD (c.1 - 1) ':') c.1 c.1 [] (by simp [retrFuel]) (by
                by_cases hc0 : c.1 = 0
                · right; exact hb4 hc0
                · by_cases hcd : c.2 = true
                  · left
                    have := hb3 (by omega)
                    rw [hcd] at this
                    have := (beq_iff_eq.mp this.symm)
                    rw [List.getD_eq_getElem?_getD, this]
                    exact ⟨hd, hd'⟩
                  · right; simpa using hcd)
              rw [hr] at hA
              simp only [h0, if_true]
              cases hs : swalk d Ps Ws [] with
              | nothing => rfl
              | found kv => rw [hs] at hA; simp [Agree] at hA
              | lit kv => rw [hs] at hA; simp [Agree] at hA
              | over kv => rw [hs] at hA; simp [Agree] at hA
            · simp only [h0, if_false]
          rw [hnf]
          simp only
          refine ⟨_, _, rfl, .inr ?_⟩
          simp only [verdict, hmin]
          rw [if_neg, if_pos ⟨hl, trivial⟩]
          rintro ⟨h5, h6⟩
          rw [hget] at h6
          simp only [Option.some.injEq] at h6
          apply hdd
          rw [h1, hws, ← h6]
          have : x = [] := List.eq_nil_of_length_eq_zero (by simp at hl1; omega)
          rw [this]

end Node
end Verif

import Verif.Model.RaceSweep
import Verif.Lemmas.RaceAfter
import Verif.Lemmas.RaceWalk
/-
An export beside goroutines that remove keys.
-/
namespace Verif
namespace Prune
variable {α : Type} [Inhabited α]

/-- What a node adds to the map. -/
def entryOf (d : Char) (c : Core α) : List (Str × α) := if Race.shown d c then [(runes c.pathS, c.data)] else []

section
variable {σ : Type} {R : σ → σ → Prop} {ms : σ → Mem α} {d : Char} {Q Q' : Ex × List (Str × α) → Prop}

/-- Whatever the others do meanwhile: within `n` steps of its own the export comes to a state with `Q`. -/
def ELeads (d : Char) (R : σ → σ → Prop) (ms : σ → Mem α) (Q : Ex × List (Str × α) → Prop) : Nat → σ → Ex × List (Str × α) → Prop
  | 0, _, e => Q e
  | n + 1, s, e => Q e ∨ ∀ s', R s s' → ELeads d R ms Q n s' (estep d (ms s') e)

theorem ELeads.now {s : σ} {e : Ex × List (Str × α)} (h : Q e) : ∀ n, ELeads d R ms Q n s e
  | 0 => h
  | _ + 1 => .inl h

theorem ELeads.up (hR : ∀ a b c, R a b → R b c → R a c) {s s' : σ} (hs : R s s') {e : Ex × List (Str × α)} :
    ∀ {n}, ELeads d R ms Q n s e → ELeads d R ms Q n s' e
  | 0, h => h
  | _ + 1, h => h.imp id fun h t ht => h t (hR _ _ _ hs ht)

theorem ELeads.mono {n m : Nat} (hnm : n ≤ m) {s : σ} {e : Ex × List (Str × α)} (h : ELeads d R ms Q n s e) : ELeads d R ms Q m s e := by
  induction n generalizing m s e with
  | zero => exact .now h m
  | succ n ih =>
    cases m with
    | zero => omega
    | succ m => exact h.imp id fun h t ht => ih (by omega) (h t ht)

theorem ELeads.trans (hr : ∀ a, R a a) (hR : ∀ a b c, R a b → R b c → R a c) {n m : Nat} {s : σ} {e : Ex × List (Str × α)}
    (h : ELeads d R ms Q n s e) (h' : ∀ s' e, R s s' → Q e → ELeads d R ms Q' m s' e) : ELeads d R ms Q' (n + m) s e := by
  induction n generalizing s e with
  | zero => exact (h' s e (hr s) h).mono (by omega)
  | succ n ih =>
    rcases h with h | h
    · exact (h' s e (hr s) h).mono (by omega)
    · rw [show n + 1 + m = n + m + 1 by omega]
      exact .inr fun t ht => ih (h t ht) fun s' e hs he => h' s' e (hR _ _ _ ht hs) he

theorem ELeads.to (hR : ∀ a b c, R a b → R b c → R a c) {s : σ} {e : Ex × List (Str × α)} (e' : Ex × List (Str × α)) {n : Nat}
    (he : ∀ s', R s s' → estep d (ms s') e = e') (h : ELeads d R ms Q n s e') : ELeads d R ms Q (n + 1) s e :=
  .inr fun s' hs => by rw [he s' hs]; exact h.up hR hs

/-- What the memories have in common with the tree at a node. -/
structure EShows (R : σ → σ → Prop) (ms : σ → Mem α) (m : Node α) : Prop where
  core : ∀ s, (ms s m.id).core = m.core
  len : ∀ s, (ms s m.id).len ≤ m.kids.length
  elts : ∀ s s' k, R s s' → k < (ms s m.id).len → ∃ c ∈ m.kids, (ms s' m.id).arr.getD k 0 = c.id

/-- A loop over the children of `m` comes to `c`, whenever it begins. -/
def ESure (R : σ → σ → Prop) (ms : σ → Mem α) (m c : Node α) : Prop :=
  ∀ s, ∃ k, k < (ms s m.id).len ∧ ∀ s', R s s' → (ms s' m.id).arr.getD k 0 = c.id

/-- The walk is sure to come from `n` to `m`. -/
inductive Way (R : σ → σ → Prop) (ms : σ → Mem α) : Node α → Node α → Prop
  | here (n : Node α) : Way R ms n n
  | down {n c m : Node α} (hc : c ∈ n.kids) (hs : ESure R ms n c) (h : Way R ms c m) : Way R ms n m

/-- What a walk adds: nothing but entries of the tree, and those it is sure to come to. -/
def Adds (d : Char) (R : σ → σ → Prop) (ms : σ → Mem α) (n : Node α) (u : Str) (new : List (Str × α)) : Prop :=
  (∀ x ∈ new, ∃ q m, (q, m) ∈ n.nodes u ∧ x ∈ entryOf d m.core) ∧ ∀ m, Way R ms n m → ∀ x ∈ entryOf d m.core, x ∈ new

/-- The loop over the children. -/
theorem eleads_loop (hr : ∀ a, R a a) (hR : ∀ a b c, R a b → R b c → R a c) {n : Node α} {u : Str} {N h : Nat} {stk : List Turn}
    (hid : ∀ a ∈ n.kids, ∀ b ∈ n.kids, a.id = b.id → a = b)
    (hin : ∀ e ∈ n.kids, ∀ s stk out, ELeads d R ms (fun r => ∃ new, r = (.next stk, out ++ new) ∧ Adds d R ms e u new) N s (.visit e.id stk, out)) :
    ∀ j k, j + k = h → ∀ s out, (∀ s', R s s' → ∀ k, k < h → ∃ e ∈ n.kids, (ms s' n.id).arr.getD k 0 = e.id) →
      ELeads d R ms (fun r => ∃ new, r = (.next stk, out ++ new) ∧
        (∀ x ∈ new, ∃ e ∈ n.kids, ∃ q m, (q, m) ∈ e.nodes u ∧ x ∈ entryOf d m.core) ∧
        ∀ e ∈ n.kids, ∀ k', k ≤ k' → k' < h → (∀ s', R s s' → (ms s' n.id).arr.getD k' 0 = e.id) →
          ∀ m, Way R ms e m → ∀ x ∈ entryOf d m.core, x ∈ new)
        (1 + (N + 1) * j) s (.next (⟨n.id, h, k⟩ :: stk), out) := by
  intro j
  induction j with
  | zero =>
    intro k hk s out _
    refine .to hR (.next stk, out) (fun s' _ => ?_) (.now ⟨[], by simp, nofun, fun e _ k' h1 h2 => by omega⟩ _)
    simp only [estep]
    rw [if_neg (by omega)]
  | succ j ih =>
    intro k hk s out hel
    rw [show 1 + (N + 1) * (j + 1) = (N + (1 + (N + 1) * j)) + 1 by rw [Nat.mul_add]; omega]
    refine .inr fun s1 hs1 => ?_
    simp only [estep]
    rw [if_pos (by omega)]
    obtain ⟨e, he, hek⟩ := hel s1 hs1 k (by omega)
    rw [hek]
    refine (hin e he s1 _ out).trans hr hR ?_
    rintro s2 r hs2 ⟨new, rfl, a1, a2⟩
    refine ((ih (k + 1) (by omega) s2 (out ++ new) fun s' hs' => hel s' (hR _ _ _ (hR _ _ _ hs1 hs2) hs')).trans
      (m := 0) hr hR ?_).mono (by omega)
    rintro s3 r hs3 ⟨new', rfl, b1, b2⟩
    refine ⟨new ++ new', by rw [List.append_assoc], fun x hx => ?_, fun e' he' k' h1 h2 h3 m hw x hx => ?_⟩
    · rcases List.mem_append.mp hx with hx | hx
      · exact ⟨e, he, a1 x hx⟩
      · exact b1 x hx
    · rw [List.mem_append]
      by_cases ek : k' = k
      · subst ek
        have := h3 s1 hs1
        rw [hek] at this
        rw [hid e he e' he' this] at a2
        exact .inl (a2 m hw x hx)
      · exact .inr (b2 e' he' k' (by omega) h2 (fun s' hs' => h3 s' (hR _ _ _ (hR _ _ _ hs1 hs2) hs')) m hw x hx)

theorem uniform {ι : Type} (P : ι → Nat → Prop) (hP : ∀ a n m, n ≤ m → P a n → P a m) : ∀ (L : List ι), (∀ a ∈ L, ∃ n, P a n) → ∃ N, ∀ a ∈ L, P a N
  | [], _ => ⟨0, nofun⟩
  | a :: L, h => by
    obtain ⟨N, hN⟩ := uniform P hP L fun b hb => h b (by simp [hb])
    obtain ⟨n, hn⟩ := h a (by simp)
    refine ⟨max N n, fun b hb => ?_⟩
    rcases List.mem_cons.mp hb with rfl | hb
    · exact hP _ n _ (by omega) hn
    · exact hP _ N _ (by omega) (hN b hb)

omit [Inhabited α] in
theorem ids_apart : ∀ (k : List (Node α)), (k.flatMap Node.ids).Nodup → ∀ a ∈ k, ∀ b ∈ k, a.id = b.id → a = b
  | [], _, a, ha, _, _, _ => by cases ha
  | n :: k, h, a, ha, b, hb, e => by
    rw [List.flatMap_cons, List.nodup_append] at h
    have hin : ∀ c : Node α, c.id ∈ c.ids := fun c => by rw [Node.ids_cons]; simp
    rcases List.mem_cons.mp ha with ea | ha' <;> rcases List.mem_cons.mp hb with eb | hb'
    · rw [ea, eb]
    · rw [ea] at e
      exact absurd e (h.2.2 _ (hin n) _ (List.mem_flatMap.mpr ⟨b, hb', hin b⟩))
    · rw [eb] at e
      exact absurd e.symm (h.2.2 _ (hin n) _ (List.mem_flatMap.mpr ⟨a, ha', hin a⟩))
    · exact ids_apart k h.2.1 a ha' b hb' e

/-- The walk below a node. -/
theorem eleads_walk (hr : ∀ a, R a a) (hR : ∀ a b c, R a b → R b c → R a c) (n : Node α) : ∀ (u : Str), n.ids.Nodup →
    (∀ q m, (q, m) ∈ n.nodes u → EShows R ms m) →
    ∃ N, ∀ s stk out, ELeads d R ms (fun r => ∃ new, r = (.next stk, out ++ new) ∧ Adds d R ms n u new) N s (.visit n.id stk, out) := by
  induction n using Node.ind with
  | h i p c k ih =>
    intro u hnd hS
    rw [Node.ids_mk, List.nodup_cons] at hnd
    have hsub : ∀ e ∈ k, ∀ q m, (q, m) ∈ e.nodes (u ++ p) → (q, m) ∈ (Node.mk i p c k).nodes u :=
      fun e he q m hm => (Node.mem_nodes u (.mk i p c k) _).mpr (.inr ⟨e, he, hm⟩)
    have hself : (u ++ p, Node.mk i p c k) ∈ (Node.mk i p c k).nodes u := (Node.mem_nodes u (.mk i p c k) _).mpr (.inl rfl)
    obtain ⟨N, hN⟩ := uniform (fun e N => ∀ s stk out, ELeads d R ms (fun r => ∃ new, r = (.next stk, out ++ new) ∧ Adds d R ms e (u ++ p) new) N s (.visit e.id stk, out))
      (fun e n m hnm h s stk out => (h s stk out).mono hnm) k
      (fun e he => ih e he (u ++ p) (Node.ids_nodup_kid hnd.2 he) fun q m hm => hS q m (hsub e he q m hm))
    have hsh := hS _ _ hself
    have hcore : ∀ s, (ms s i).core = c := hsh.core
    have hid := ids_apart k hnd.2
    have loop : ∀ s stk out, ELeads d R ms (fun r => ∃ new, r = (.next stk, out ++ new) ∧
        (∀ x ∈ new, ∃ e ∈ k, ∃ q m, (q, m) ∈ e.nodes (u ++ p) ∧ x ∈ entryOf d m.core) ∧
        ∀ e ∈ k, ESure R ms (.mk i p c k) e → ∀ m, Way R ms e m → ∀ x ∈ entryOf d m.core, x ∈ new)
        ((1 + (N + 1) * k.length) + 1) s (.kids i stk, out) := by
      intro s stk out
      refine .inr fun s1 hs1 => ?_
      simp only [estep]
      have hl : (ms s1 i).len ≤ k.length := hsh.len s1
      refine ((eleads_loop (n := .mk i p c k) (u := u ++ p) (h := (ms s1 i).len) hr hR hid hN (ms s1 i).len 0 (by omega) s1 out
        (fun s' hs' k' hk' => hsh.elts s1 s' k' hs' hk')).trans (m := 0) hr hR ?_).mono
          (by have := Nat.mul_le_mul_left (N + 1) hl; omega)
      rintro s2 r hs2 ⟨new, rfl, a1, a2⟩
      refine ⟨new, rfl, a1, fun e he hsure m hw x hx => ?_⟩
      obtain ⟨k', h1, h2⟩ := hsure s1
      exact a2 e he k' (by omega) h1 h2 m hw x hx
    have fin : ∀ new, (∀ x ∈ new, ∃ e ∈ k, ∃ q m, (q, m) ∈ e.nodes (u ++ p) ∧ x ∈ entryOf d m.core) →
        (∀ e ∈ k, ESure R ms (.mk i p c k) e → ∀ m, Way R ms e m → ∀ x ∈ entryOf d m.core, x ∈ new) →
        Adds d R ms (.mk i p c k) u (entryOf d c ++ new) := by
      intro new a1 a2
      refine ⟨fun x hx => ?_, fun m hw x hx => ?_⟩
      · rcases List.mem_append.mp hx with hx | hx
        · exact ⟨_, _, hself, hx⟩
        · obtain ⟨e, he, q, m, hm, hx⟩ := a1 x hx
          exact ⟨q, m, hsub e he q m hm, hx⟩
      · rw [List.mem_append]
        cases hw with
        | here => exact .inl hx
        | down hc hs hw => exact .inr (a2 _ hc hs m hw x hx)
    refine ⟨((1 + (N + 1) * k.length) + 1) + 3, fun s stk out => ?_⟩
    refine .to hR (.test i c.pathS stk, out) (fun s' _ => by simp only [estep, Node.id]; rw [hcore]) ?_
    by_cases hsw : Race.shown d c = true
    · have hen : entryOf d c = [(runes c.pathS, c.data)] := by rw [entryOf, if_pos hsw]
      rw [hen] at fin
      refine .to hR (.data i c.pathS stk, out) (fun s' _ => ?_) (.to hR (.kids i stk, out ++ [(runes c.pathS, c.data)]) (fun s' _ => ?_)
        ((loop s stk _).trans (m := 0) hr hR ?_))
      · simp only [estep]; rw [hcore]; exact if_pos hsw
      · simp only [estep]; rw [hcore]
      · rintro s2 r _ ⟨new, rfl, a1, a2⟩
        exact ⟨_, by rw [List.append_assoc], fin new a1 a2⟩
    · have hen : entryOf d c = [] := by rw [entryOf, if_neg hsw]
      rw [hen] at fin
      refine ((ELeads.to hR (.kids i stk, out) (fun s' _ => ?_) (loop s stk out)).trans (m := 0) hr hR ?_).mono (by omega)
      · simp only [estep]; rw [hcore]; exact if_neg hsw
      · rintro s2 r _ ⟨new, rfl, a1, a2⟩
        exact ⟨_, rfl, fin new a1 a2⟩

/-- An export that is over stays over. -/
theorem eleads_done (hr : ∀ a, R a a) {out : List (Str × α)} : ∀ {n : Nat} {s : σ}, ELeads d R ms Q n s (.done, out) → Q (.done, out)
  | 0, _, h => h
  | n + 1, s, h => by
    rcases h with h | h
    · exact h
    · exact eleads_done hr (h s (hr s))

/-- From the steps of the export to the schedule of all. -/
theorem collect_leads (hr : ∀ a, R a a) (hR : ∀ a b c, R a b → R b c → R a c) {cs : List Call} {J : World α → σ → Prop} (hmem : ∀ W s, J W s → W.mem = ms s)
    (htick : ∀ W s k, J W s → ∃ s', R s s' ∧ J (W.tick d cs k) s') (hQ : ∀ e, Q e → e.1 = .done) :
    ∀ (S : List (Option Nat)) {n : Nat} {s : σ} {W : World α} {e : Ex × List (Str × α)}, J W s → ELeads d R ms Q n s e →
      let r := (collect d cs (W, e) S).2
      (n ≤ S.count none → r.1 = .done) ∧ (r.1 = .done → Q r)
  | [], n, s, W, e, hJ, h => by
    refine ⟨fun hn => ?_, fun hd => ?_⟩
    · have : n = 0 := by simpa using hn
      subst this
      exact hQ _ h
    · obtain ⟨e1, e2⟩ := e
      cases hd
      exact eleads_done hr h
  | some k :: S, n, s, W, e, hJ, h => by
    obtain ⟨s', h1, h2⟩ := htick W s k hJ
    have := collect_leads hr hR hmem htick hQ S h2 (h.up hR h1)
    simpa [collect] using this
  | none :: S, 0, s, W, e, hJ, h => by
    have hd := hQ _ h
    obtain ⟨e1, e2⟩ := e
    cases hd
    have := collect_leads hr hR hmem htick hQ S (n := 0) hJ (h : ELeads d R ms Q 0 s _)
    simpa [collect, estep] using this
  | none :: S, n + 1, s, W, e, hJ, h => by
    have h' : ELeads d R ms Q n s (estep d W.mem e) := by
      rcases h with h | h
      · have hd := hQ _ h
        obtain ⟨e1, e2⟩ := e
        cases hd
        exact .now h n
      · rw [hmem W s hJ]; exact h s (hr s)
    have := collect_leads hr hR hmem htick hQ S hJ h'
    simpa [collect] using this
end

end Prune
end Verif

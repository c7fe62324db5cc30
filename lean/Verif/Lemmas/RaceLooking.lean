import Verif.Lemmas.RaceDeck
import Verif.Lemmas.RaceMixGet
/-
Lookups beside `Set` for new keys and `Remove`.
-/
namespace Verif
namespace Parts
variable {α : Type} [Inhabited α]
open Prune (Cell Mem Pc Call Up Shows Sure Task Loop)
open Race (Job)

/-- Who comes to a state of the search is in one. -/
theorem comes_hunts {c : Call} {d : Char} {R : (Nat → Nat) → Mem α → Prop} {Q : Pc α → Prop} (hR : ∀ s, ∃ M, R s M) (hQ : ∀ r, Q r → hunts r = true) :
    ∀ (b : Nat) (s : Nat → Nat) (pc : Pc α), Comes (Prune.step c d) R Q b s pc → hunts pc = true
  | 0, _, pc, h => hQ pc h
  | b + 1, s, pc, h => by
    rcases h with h | h
    · exact hQ pc h
    · obtain ⟨M, hM⟩ := hR s
      have := comes_hunts hR hQ b s _ (h s M (.refl s) hM).2
      cases e : hunts pc with
      | true => rfl
      | false => rw [hunts_step e] at this; cases this

/-- A goroutine with a lookup, after `n` steps. While it searches, `C` holds, with a bound for the steps that are left. What it finds is the node
`i`; if it has found it, `Z`. -/
inductive Looking (v : View) (p : Str) (C : Nat → Pc α → Prop) (i : Nat) (br fo : Bool) (Z : Prop) (B n : Nat) (Good : View.Ans α → Prop) : Gor α → Prop
  | idle (f) (hn : n = 0) : Looking v p C i br fo Z B n Good ⟨v, [.get p], .idle, [], f⟩
  | finds (f b pc) (hf : C b pc) (hn : n + b ≤ B + 1) (h0 : 0 < n) : Looking v p C i br fo Z B n Good ⟨v, [], .asks (.get p) pc, [], f⟩
  | branch (f) (hz : Z) (hn : n ≤ B + 2) (h0 : 0 < n) : Looking v p C i br fo Z B n Good ⟨v, [], .asks (.get p) (.branch i), [], f⟩
  | ends (f) (hz : Z) (hb : br = true) (hn : n ≤ B + 3) (h0 : 0 < n) : Looking v p C i br fo Z B n Good ⟨v, [], .asks (.get p) (.ends i), [], f⟩
  | has (f) (hz : Z) (hn : n ≤ B + 4) (h0 : 0 < n) : Looking v p C i br fo Z B n Good ⟨v, [], .asks (.get p) (.has i br fo), [], f⟩
  | data (f) (hz : Z) (hn : n ≤ B + 5) (h0 : 0 < n) : Looking v p C i br fo Z B n Good ⟨v, [], .asks (.get p) (.data i br fo), [], f⟩
  | fin (f a) (ha : Good a) (hn : n ≤ B + 6) : Looking v p C i br fo Z B n Good ⟨v, [], .asks (.get p) (.done a), [], f⟩
  | done (f a) (ha : Good a) : Looking v p C i br fo Z B n Good ⟨v, [], .idle, [.got a], f⟩

section
variable {v : View} {p : Str} {C C' : Nat → Pc α → Prop} {i : Nat} {br fo : Bool} {Z Z' : Prop} {B n : Nat} {Good Good' : View.Ans α → Prop} {G : Gor α}

theorem Looking.up (hC : ∀ b pc, C b pc → C' b pc) (hZ : Z → Z') (hG : ∀ a, Good a → Good' a) (h : Looking v p C i br fo Z B n Good G) :
    Looking v p C' i br fo Z' B n Good' G := by
  cases h with
  | idle f hn => exact .idle f hn
  | finds f b pc hf hn h0 => exact .finds f b pc (hC b pc hf) hn h0
  | branch f hz hn h0 => exact .branch f (hZ hz) hn h0
  | ends f hz hb hn h0 => exact .ends f (hZ hz) hb hn h0
  | has f hz hn h0 => exact .has f (hZ hz) hn h0
  | data f hz hn h0 => exact .data f (hZ hz) hn h0
  | fin f a ha hn => exact .fin f a (hG a ha) hn
  | done f a ha => exact .done f a (hG a ha)

/-- One step of the lookup. -/
theorem Looking.step {root : Nat} {M : Mem α} (hB : C B (.enter (v.full p) root none []))
    (hC : ∀ b pc, C b pc → hunts pc = true ∧ ((Ends i pc ∧ Z) ∨ (Quits p v.delim pc ∧ Good ansNone) ∨
      ∃ b', b = b' + 1 ∧ C b' (Prune.step (.get p) v.delim M pc).2))
    (hleaf : Z → (M i).core.leaf = !br) (hend : Z → br = true → ((M i).path.getLast? == some v.delim) = fo) (hfo : br = false → fo = true)
    (hnone : Z → 0 < n → (M i).core.hasData = false → Good ⟨default, br, fo, !fo⟩)
    (hread : Z → 0 < n → Good ⟨(M i).core.data, br, fo, !fo⟩)
    (gap : Nat) (hL : Looking v p C i br fo Z B n Good G) :
    Looking v p C i br fo Z B (n + 1) Good (Gor.step root gap M G).2 := by
  cases hL with
  | idle f hn => exact .finds f B _ hB (by omega) (by omega)
  | finds f b pc hf hn h0 =>
    obtain ⟨hh, h1⟩ := hC b pc hf
    have e : (Gor.step root gap M ⟨v, [], .asks (.get p) pc, [], f⟩).2 =
        ⟨v, [], .asks (.get p) (Prune.step (.get p) v.delim M pc).2, [], f⟩ := by
      cases pc with
      | enter | cmp | tail | kids | range | ret => rfl
      | _ => cases hh
    rcases h1 with ⟨⟨par, stk, rfl⟩, hz⟩ | ⟨⟨_, h2⟩, hg⟩ | ⟨b', rfl, h2⟩
    · exact .branch f hz (by omega) (by omega)
    · rw [e, h2]
      exact .fin f _ hg (by omega)
    · rw [e]
      exact .finds f b' _ h2 (by omega) (by omega)
  | branch f hz hn h0 =>
    have e : (Gor.step root gap M ⟨v, [], .asks (.get p) (.branch i), [], f⟩).2 =
        ⟨v, [], .asks (.get p) (if (M i).core.isBranch then .ends i else .has i false true), [], f⟩ := rfl
    rw [e, Core.isBranch, hleaf hz]
    cases hb : br with
    | true => exact .ends f hz rfl (by omega) (by omega)
    | false =>
      rw [hfo hb]
      exact .has f hz (by omega) (by omega)
  | ends f hz hb hn h0 =>
    have e : (Gor.step root gap M ⟨v, [], .asks (.get p) (.ends i), [], f⟩).2 =
        ⟨v, [], .asks (.get p) (.has i true ((M i).path.getLast? == some v.delim)), [], f⟩ := rfl
    rw [e, hend hz hb, hb]
    exact .has f hz (by omega) (by omega)
  | has f hz hn h0 =>
    have e : (Gor.step root gap M ⟨v, [], .asks (.get p) (.has i br fo), [], f⟩).2 =
        ⟨v, [], .asks (.get p) (if (M i).core.hasData then .data i br fo else .done ⟨default, br, fo, !fo⟩), [], f⟩ := rfl
    rw [e]
    cases hd : (M i).core.hasData with
    | true => exact .data f hz (by omega) (by omega)
    | false => exact .fin f _ (hnone hz h0 hd) (by omega)
  | data f hz hn h0 =>
    have e : (Gor.step root gap M ⟨v, [], .asks (.get p) (.data i br fo), [], f⟩).2 =
        ⟨v, [], .asks (.get p) (.done ⟨(M i).core.data, br, fo, !fo⟩), [], f⟩ := rfl
    rw [e]
    exact .fin f _ (hread hz h0) (by omega)
  | fin f a ha hn => exact .done f a ha
  | done f a ha => exact .done f a ha

/-- What is to be seen of a lookup. -/
theorem Looking.seen (hC : ∀ b pc, C b pc → hunts pc = true) (h : Looking v p C i br fo Z B n Good G) :
    ¬ G.crashed ∧ (B + 7 ≤ n → ∃ a, G.outs = [.got a]) ∧ ∀ a, .got a ∈ G.outs → Good a := by
  cases h with
  | finds f b pc hf hn h0 =>
    refine ⟨?_, fun h => by omega, fun a h => by cases h⟩
    have hh := hC b pc hf
    rintro (⟨_, e⟩ | ⟨_, e⟩)
    · cases e; cases hh
    · cases e
  | idle | branch | ends | has | data | fin =>
    exact ⟨(by rintro (⟨_, e⟩ | ⟨_, e⟩) <;> cases e), fun h => by omega, fun a h => by cases h⟩
  | done f a ha =>
    refine ⟨(by rintro (⟨_, e⟩ | ⟨_, e⟩) <;> cases e), fun _ => ⟨a, rfl⟩, fun a' h => ?_⟩
    cases List.mem_singleton.mp h
    exact ha
end

section
variable {v : View} {t : Tree α} {as : List (Act α)} {base : Mem α} {plan : Nat → Option Task} {site : Site α} {B : Nat → Nat}
  {S : List Nat} {s : Nat → Nat} {ext : Nat → List Nat} {g : Nat → Core α → Core α} {W : World α}

/-- What the calls of `Set` have made of a node. -/
theorem Blend.core (X : Setting v t as base plan site B) (hj : Joins v t as) (I : Blend v t as base plan site B S s ext g W) {q : Str} {m : Node α} (hm : (q, m) ∈ t.root.nodes []) :
    (g m.id m.core).leaf = m.core.leaf ∧ (m.core.hasData = true → (g m.id m.core).hasData = true) ∧
    ((g m.id m.core).hasData = false → ∀ (j : Nat) (p : Str) (x : α), as[j]? = some (.set p x) → View.dash (v.full p) = q → (W.gs j).outs = []) ∧
    ((g m.id m.core).data = m.core.data ∧
        (∀ (j : Nat) (p : Str) (x : α), as[j]? = some (.set p x) → View.dash (v.full p) = q → (W.gs j).outs = []) ∨
      ∃ (j : Nat) (p : Str) (x : α), as[j]? = some (.set p x) ∧ View.dash (v.full p) = q ∧ (g m.id m.core).data = x ∧ (W.gs j).todo = []) := by
  have h := X.ok
  have hsite : ∀ (j : Nat) (p : Str) (x : α), as[j]? = some (.set p x) → View.dash (v.full p) = q → site j = none := by
    intro j p x ha hq
    cases hs : site j with
    | none => rfl
    | some y =>
      obtain ⟨A, w⟩ := y
      obtain ⟨p', x', ha', hL⟩ := X.sited.new j A w hs
      rw [ha] at ha'
      cases ha'
      rw [hq] at hL
      exact absurd hm (Tree.contents_none.mp (hL.none h) m)
  by_cases hex : ∃ (j : Nat) (p : Str) (x : α), as[j]? = some (.set p x) ∧ View.dash (v.full p) = q
  · obtain ⟨j, p, x, ha, hq⟩ := hex
    have r := (I.all j).set p x ha (hsite j p x ha hq)
    have one : (W.gs j).outs = [] → ∀ (j' : Nat) (p' : Str) (x' : α), as[j']? = some (.set p' x') → View.dash (v.full p') = q → (W.gs j').outs = [] := by
      intro h1 j' p' x' ha' hq'
      rw [hj.apart j' j p' x' p x ha' ha (hq'.trans hq.symm)]
      exact h1
    rw [hq, idAt_mem h hm] at r
    generalize hG : W.gs j = G at r
    rw [hG] at one
    cases r with
    | idle hn hg =>
      rw [hg]
      exact ⟨rfl, id, fun _ => one rfl, .inl ⟨rfl, one rfl⟩⟩
    | finds f b pc hf hn hg =>
      rw [hg]
      exact ⟨rfl, id, fun _ => one rfl, .inl ⟨rfl, one rfl⟩⟩
    | store f hn hg =>
      rw [hg]
      exact ⟨rfl, fun _ => rfl, (fun e => by cases e), .inl ⟨rfl, one rfl⟩⟩
    | fin f hn hg =>
      rw [hg]
      exact ⟨rfl, fun _ => rfl, (fun e => by cases e), .inr ⟨j, p, x, ha, hq, rfl, by rw [hG]⟩⟩
    | done f hg =>
      rw [hg]
      exact ⟨rfl, fun _ => rfl, (fun e => by cases e), .inr ⟨j, p, x, ha, hq, rfl, by rw [hG]⟩⟩
  · have hg : g m.id = fun c => c := by
      refine I.cores _ fun k p x ha hs e => ?_
      obtain ⟨m', hm'⟩ := X.sited.old k p x ha hs
      rw [idAt_mem h hm'] at e
      exact hex ⟨k, p, x, ha, (Prod.mk.inj (h.id_inj hm' hm e)).1⟩
    rw [hg]
    exact ⟨rfl, id, fun _ j p x ha hq => absurd ⟨j, p, x, ha, hq⟩ hex, .inl ⟨rfl, fun j p x ha hq => absurd ⟨j, p, x, ha, hq⟩ hex⟩⟩

/-- The way of the lookup of a key that is stored. -/
theorem comes_look (h : t.OK) (hp : t.Plain v.delim) (hm : v.mode ≠ .up) (Y : Nat → Prop) {p q : Str} {m : Node α}
    (hr : resolve v.delim t.nodeAt (v.full p) = some (q, m))
    (hs : ∀ c P x, c ∈ calls as → Prune.Takes v t c P x → Prune.Spares t P x q) :
    ∃ N, ∀ σ, Comes (Prune.step (.get p) v.delim)
      (Like t (Prune.mems (Prune.start v t (calls as)).mem (Prune.planOf v t (calls as))) Y) (Ends m.id) N σ (.enter (v.full p) t.root.id none []) := by
  have hl := Prune.start_lays (v := v) h (calls as)
  by_cases hw : v.full p = []
  · have : (q, m) = ([], t.root) := by
      rw [hw] at hr
      simpa [resolve, (Tree.nodeAt_some h).mpr h.root_mem] using hr.symm
    obtain ⟨rfl, rfl⟩ := Prod.mk.inj this
    rw [hw]
    exact ⟨0 + 1, fun σ => .to (.ret true false (some t.root.id) none []) (fun _ _ _ _ => rfl) (.now ⟨_, _, rfl⟩ 0)⟩
  · obtain ⟨P, u, _, _, N, hN⟩ := comes_found (ms := Prune.mems (Prune.start v t (calls as)).mem (Prune.planOf v t (calls as)))
      (R := Like t (Prune.mems (Prune.start v t (calls as)).mem (Prune.planOf v t (calls as))) Y) (.get p) h (hp.at _) hw
      (fun q m hm => Prune.mems_shows hl hm) (fun q m hm => like_looks hl hm) hr (fun u P ch hP hch hpre => Prune.spares_sure (R := fun _ => False) h hp hm
        (fun l c P x _ hc htk => hs c P x (List.mem_of_getElem? hc) htk) (fun l T hT => ⟨id, hT⟩) hl hP hch hpre)
    exact ⟨N, fun σ => (hN σ).weak fun r ⟨stk, e⟩ => ⟨_, _, e⟩⟩
end

end Parts
end Verif

import Verif.Model.Pool
import Verif.Props.Join
/-
C78 pooled buffers and match contexts.
-/
namespace Verif
namespace Pool

variable {κ α : Type}

/-- The values an object takes on under a list of writes. -/
def scan : α → List (α → α) → List α
  | _, [] => []
  | x, f :: fs => f x :: scan (f x) fs

theorem scan_snoc (x : α) (fs : List (α → α)) (f : α → α) :
    scan x (fs ++ [f]) = scan x fs ++ [f (fs.foldl (fun y g => g y) x)] := by
  induction fs generalizing x with
  | nil => rfl
  | cons g gs ih => simp [scan, ih]

/-- The object a goroutine holds. -/
def Thread.held : Thread κ α → Option Nat
  | .hold _ b _ _ | .read _ b _ | .clean _ b _ _ | .put _ b _ _ => some b
  | _ => none

/-- What a goroutine has seen so far is what it would see alone, from some object the pool may give. -/
def Good (k : Kind κ α) (P : α → Prop) (objs : List α) : Thread κ α → Prop
  | .start _ => True
  | .hold c b todo seen => ∃ ops x0 done, k.body c = .inr ops ∧ P x0 ∧ ops = done ++ todo ∧ seen = scan x0 done ∧
      objs[b]? = some (done.foldl (fun y g => g y) x0)
  | .read c b seen => ∃ ops x0, k.body c = .inr ops ∧ P x0 ∧ seen = scan x0 ops ∧ objs[b]? = some (ops.foldl (fun y g => g y) x0)
  | .clean c b seen r => ∃ ops x0, k.body c = .inr ops ∧ P x0 ∧ seen = scan x0 ops ∧ r = ops.foldl (fun y g => g y) x0 ∧ ∃ x, objs[b]? = some x
  | .put c b seen r => ∃ ops x0, k.body c = .inr ops ∧ P x0 ∧ seen = scan x0 ops ∧ r = ops.foldl (fun y g => g y) x0 ∧
      ∃ x, objs[b]? = some x ∧ P x
  | .done c seen r => k.body c = .inl r ∧ seen = [] ∨
      ∃ ops x0, k.body c = .inr ops ∧ P x0 ∧ seen = scan x0 ops ∧ r = ops.foldl (fun y g => g y) x0

structure Inv (k : Kind κ α) (P : α → Prop) (s : State κ α) : Prop where
  apart : ∀ (i j : Nat) (t u : Thread κ α) (b : Nat), i ≠ j → s.threads[i]? = some t → s.threads[j]? = some u → t.held = some b → u.held ≠ some b
  out : ∀ (i : Nat) (t : Thread κ α) (b : Nat), s.threads[i]? = some t → t.held = some b → b ∉ s.free
  nodup : s.free.Nodup
  clean : ∀ b ∈ s.free, ∃ x, s.objs[b]? = some x ∧ P x
  good : ∀ (i : Nat) (t : Thread κ α), s.threads[i]? = some t → Good k P s.objs t

theorem Good.frame {k : Kind κ α} {P : α → Prop} {objs objs' : List α} {t : Thread κ α} (h : Good k P objs t)
    (hf : ∀ b x, t.held = some b → objs[b]? = some x → objs'[b]? = some x) : Good k P objs' t := by
  cases t with
  | start => trivial
  | hold c b todo seen => obtain ⟨o, x, d, h1, h2, h3, h4, h5⟩ := h; exact ⟨o, x, d, h1, h2, h3, h4, hf _ _ rfl h5⟩
  | read c b seen => obtain ⟨o, x, h1, h2, h3, h4⟩ := h; exact ⟨o, x, h1, h2, h3, hf _ _ rfl h4⟩
  | clean c b seen r => obtain ⟨o, x, h1, h2, h3, h4, y, h5⟩ := h; exact ⟨o, x, h1, h2, h3, h4, y, hf _ _ rfl h5⟩
  | put c b seen r => obtain ⟨o, x, h1, h2, h3, h4, y, h5, h6⟩ := h; exact ⟨o, x, h1, h2, h3, h4, y, hf _ _ rfl h5, h6⟩
  | done c seen r => exact h

theorem Inv.upd {k : Kind κ α} {P : α → Prop} {s : State κ α} (h : Inv k P s) {i : Nat} {t p : Thread κ α} {objs' : List α} {free' : List Nat}
    (hi : s.threads[i]? = some t)
    (hfr : ∀ b x, t.held ≠ some b → s.objs[b]? = some x → objs'[b]? = some x)
    (hp : ∀ b, p.held = some b → b ∉ free' ∧ ∀ (j : Nat) (u : Thread κ α), j ≠ i → s.threads[j]? = some u → u.held ≠ some b)
    (hn : free'.Nodup)
    (hf : ∀ b ∈ free', (∃ x, objs'[b]? = some x ∧ P x) ∧ ∀ (j : Nat) (u : Thread κ α), j ≠ i → s.threads[j]? = some u → u.held ≠ some b)
    (hg : Good k P objs' p) : Inv k P ⟨objs', free', s.threads.set i p⟩ := by
  have look : ∀ (j : Nat) (u : Thread κ α), (s.threads.set i p)[j]? = some u → (j = i ∧ u = p) ∨ (j ≠ i ∧ s.threads[j]? = some u) := by
    intro j u hj
    rw [List.getElem?_set] at hj
    by_cases e : i = j
    · rw [if_pos e] at hj
      split at hj
      · simp at hj; exact .inl ⟨e.symm, hj.symm⟩
      · exact absurd hj (by simp)
    · rw [if_neg e] at hj; exact .inr ⟨fun h => e h.symm, hj⟩
  refine ⟨?_, ?_, hn, fun b hb => (hf b hb).1, ?_⟩
  · intro a c u w b hac ha hc hu hw
    rcases look _ _ ha with ⟨na, ea⟩ | ⟨na, ha'⟩ <;> rcases look _ _ hc with ⟨nc, ec⟩ | ⟨nc, hc'⟩
    · exact hac (na.trans nc.symm)
    · exact (hp b (ea ▸ hu)).2 c w nc hc' hw
    · exact (hp b (ec ▸ hw)).2 a u na ha' hu
    · exact h.apart a c u w b hac ha' hc' hu hw
  · intro a u b ha hu hb
    rcases look _ _ ha with ⟨ha, rfl⟩ | ⟨ha, ha'⟩
    · exact (hp b hu).1 hb
    · exact (hf b hb).2 a u ha ha' hu
  · intro a u ha
    rcases look _ _ ha with ⟨ha, rfl⟩ | ⟨ha, ha'⟩
    · exact hg
    · exact (h.good a u ha').frame fun b x hb hx => hfr b x (fun ht => h.apart a i u t b ha ha' hi hb ht) hx

theorem set_off {l : List α} {b c : Nat} {x y : α} (h : c ≠ b) (hx : l[c]? = some x) : (l.set b y)[c]? = some x := by
  rw [List.getElem?_set_ne (Ne.symm h)]; exact hx

theorem set_at {l : List α} {b : Nat} {x y : α} (hx : l[b]? = some x) : (l.set b y)[b]? = some y := by
  have : b < l.length := (List.getElem?_eq_some_iff.mp hx).1
  simp [this]

theorem Inv.go {k : Kind κ α} {P : α → Prop} (hk : P k.fresh) (hr : ∀ x, P (k.reset x)) {s s' : State κ α} (h : Inv k P s) {i : Nat} {ch : Option Nat}
    (hs : s.go k i ch = some s') : Inv k P s' := by
  unfold State.go at hs
  simp only at hs
  have keep : ∀ (t p : Thread κ α) (b : Nat) (objs' : List α), s.threads[i]? = some t → t.held = some b → p.held = some b →
      (∀ c x, c ≠ b → s.objs[c]? = some x → objs'[c]? = some x) → Good k P objs' p → Inv k P ⟨objs', s.free, s.threads.set i p⟩ := by
    intro t p b objs' hi ht hp hfr hg
    refine h.upd hi ?_ ?_ h.nodup ?_ hg
    · intro c x hc hx; exact hfr c x (fun e => hc (by rw [e]; exact ht)) hx
    · intro c hc
      have : c = b := by rw [hp] at hc; simpa using hc.symm
      subst this
      exact ⟨h.out i t c hi ht, fun j u hj hu hc' => h.apart j i u t c hj hu hi hc' ht⟩
    · intro c hc
      have hcb : c ≠ b := fun e => h.out i t b hi ht (e ▸ hc)
      obtain ⟨x, hx, px⟩ := h.clean c hc
      exact ⟨⟨x, hfr c x hcb hx, px⟩, fun j u hj hu hc' => h.out j u c hu hc' hc⟩
  split at hs
  · next c hi =>
    split at hs
    · next r hb =>
      cases hs
      refine h.upd hi (fun b x _ hx => hx) (fun b hb => by simp [Thread.held] at hb) h.nodup ?_ (.inl ⟨hb, rfl⟩)
      exact fun b hb => ⟨h.clean b hb, fun j u _ hu hc => h.out j u b hu hc hb⟩
    · next ops hb =>
      cases ch with
      | none =>
        cases hs
        have lt : ∀ {j : Nat} {u : Thread κ α} {b : Nat}, s.threads[j]? = some u → u.held = some b → b < s.objs.length := by
          intro j u b hu hb
          have := h.good j u hu
          cases u with
          | start => simp [Thread.held] at hb
          | hold c b' todo seen =>
            simp [Thread.held] at hb; subst hb; obtain ⟨_, _, _, _, _, _, _, h5⟩ := this; exact (List.getElem?_eq_some_iff.mp h5).1
          | read c b' seen => simp [Thread.held] at hb; subst hb; obtain ⟨_, _, _, _, _, h5⟩ := this; exact (List.getElem?_eq_some_iff.mp h5).1
          | clean c b' seen r =>
            simp [Thread.held] at hb; subst hb; obtain ⟨_, _, _, _, _, _, _, h5⟩ := this; exact (List.getElem?_eq_some_iff.mp h5).1
          | put c b' seen r =>
            simp [Thread.held] at hb; subst hb; obtain ⟨_, _, _, _, _, _, _, h5, _⟩ := this; exact (List.getElem?_eq_some_iff.mp h5).1
          | done => simp [Thread.held] at hb
        have old : ∀ (b : Nat) (x : α), s.objs[b]? = some x → (s.objs ++ [k.fresh])[b]? = some x := by
          intro b x hx
          rw [List.getElem?_append_left (List.getElem?_eq_some_iff.mp hx).1]; exact hx
        refine h.upd hi (fun b x _ hx => old b x hx) ?_ h.nodup ?_ ⟨ops, k.fresh, [], hb, hk, rfl, rfl, by simp⟩
        · intro b hb
          have : b = s.objs.length := by simpa [Thread.held] using hb.symm
          subst this
          refine ⟨fun hf => ?_, fun j u _ hu hc => Nat.lt_irrefl _ (lt hu hc)⟩
          obtain ⟨x, hx, _⟩ := h.clean _ hf
          simp at hx
        · intro b hb
          obtain ⟨x, hx, px⟩ := h.clean b hb
          exact ⟨⟨x, old b x hx, px⟩, fun j u _ hu hc => h.out j u b hu hc hb⟩
      | some j =>
        simp only at hs
        split at hs
        · exact absurd hs (by simp)
        · next b hj =>
          cases hs
          obtain ⟨hlt, hjb⟩ := List.getElem?_eq_some_iff.mp hj
          have hmem : b ∈ s.free := List.mem_of_getElem? hj
          have hnot : b ∉ s.free.eraseIdx j := by
            intro hm
            obtain ⟨q, hq, hqb⟩ := List.mem_eraseIdx_iff_getElem?.mp hm
            obtain ⟨hqlt, hqe⟩ := List.getElem?_eq_some_iff.mp hqb
            exact hq ((List.getElem_inj h.nodup).mp (hqe.trans hjb.symm))
          obtain ⟨x, hx, px⟩ := h.clean b hmem
          refine h.upd hi (fun b x _ hx => hx) ?_ (h.nodup.eraseIdx j) ?_ ⟨ops, x, [], hb, px, rfl, rfl, by simpa using hx⟩
          · intro c hc
            have : c = b := by simpa [Thread.held] using hc.symm
            subst this
            exact ⟨hnot, fun j u _ hu hc => h.out j u c hu hc hmem⟩
          · intro c hc
            have hc' := List.mem_of_mem_eraseIdx hc
            exact ⟨h.clean c hc', fun j u _ hu hd => h.out j u c hu hd hc'⟩
  · next c b seen hi =>
    cases hs
    refine keep _ _ b _ hi rfl rfl (fun _ _ _ hx => hx) ?_
    obtain ⟨ops, x0, d, h1, h2, h3, h4, h5⟩ := h.good _ _ hi
    rw [List.append_nil] at h3; subst h3
    exact ⟨_, x0, h1, h2, h4, h5⟩
  · next c b f todo seen hi =>
    split at hs
    · exact absurd hs (by simp)
    · next x hx =>
      cases hs
      obtain ⟨ops, x0, d, h1, h2, h3, h4, h5⟩ := h.good _ _ hi
      rw [hx] at h5
      refine keep _ _ b _ hi rfl rfl (fun c y hc hy => set_off hc hy) ⟨ops, x0, d ++ [f], h1, h2, by simp [h3], ?_, ?_⟩
      · rw [scan_snoc, h4]; simp at h5; rw [h5]
      · rw [set_at hx]; simp at h5; simp [h5]
  · next c b seen hi =>
    split at hs
    · exact absurd hs (by simp)
    · next x hx =>
      cases hs
      obtain ⟨ops, x0, h1, h2, h3, h4⟩ := h.good _ _ hi
      rw [hx] at h4
      exact keep _ _ b _ hi rfl rfl (fun _ _ _ hx => hx) ⟨ops, x0, h1, h2, h3, by simpa using h4, x, hx⟩
  · next c b seen r hi =>
    split at hs
    · exact absurd hs (by simp)
    · next x hx =>
      cases hs
      obtain ⟨ops, x0, h1, h2, h3, h4, _⟩ := h.good _ _ hi
      exact keep _ _ b _ hi rfl rfl (fun c y hc hy => set_off hc hy) ⟨ops, x0, h1, h2, h3, h4, _, set_at hx, hr x⟩
  · next c b seen r hi =>
    obtain ⟨ops, x0, h1, h2, h3, h4, x, hx, px⟩ := h.good _ _ hi
    have others : ∀ (j : Nat) (u : Thread κ α), j ≠ i → s.threads[j]? = some u → u.held ≠ some b :=
      fun j u hj hu hc => h.apart j i u _ b hj hu hi hc rfl
    cases ch with
    | none =>
      cases hs
      refine h.upd hi (fun b x _ hx => hx) (fun b hb => by simp [Thread.held] at hb) h.nodup ?_ (.inr ⟨ops, x0, h1, h2, h3, h4⟩)
      exact fun b hb => ⟨h.clean b hb, fun j u _ hu hc => h.out j u b hu hc hb⟩
    | some _ =>
      cases hs
      refine h.upd hi (fun b x _ hx => hx) (fun b hb => by simp [Thread.held] at hb) ?_ ?_ (.inr ⟨ops, x0, h1, h2, h3, h4⟩)
      · exact List.nodup_cons.mpr ⟨h.out i _ b hi rfl, h.nodup⟩
      · intro c hc
        rcases List.mem_cons.mp hc with rfl | hc
        · exact ⟨⟨x, hx, px⟩, others⟩
        · exact ⟨h.clean c hc, fun j u _ hu hd => h.out j u c hu hd hc⟩
  · exact absurd hs (by simp)
  · exact absurd hs (by simp)

theorem Inv.act {k : Kind κ α} {P : α → Prop} (hk : P k.fresh) (hr : ∀ x, P (k.reset x)) {s : State κ α} (h : Inv k P s) (a : Act κ) :
    Inv k P (s.act k a) := by
  cases a with
  | call c =>
    have look : ∀ (j : Nat) (u : Thread κ α), (s.threads ++ [Thread.start c])[j]? = some u → s.threads[j]? = some u ∨ u = .start c := by
      intro j u hj
      rw [List.getElem?_append] at hj
      split at hj
      · exact .inl hj
      · right
        have := List.mem_of_getElem? hj
        simpa using this
    refine ⟨?_, ?_, h.nodup, h.clean, ?_⟩
    · intro i j t u b hij ht hu hb hc
      rcases look _ _ ht with ht | rfl <;> rcases look _ _ hu with hu | rfl
      · exact h.apart i j t u b hij ht hu hb hc
      · simp [Thread.held] at hc
      · simp [Thread.held] at hb
      · simp [Thread.held] at hb
    · intro i t b ht hb
      rcases look _ _ ht with ht | rfl
      · exact h.out i t b ht hb
      · simp [Thread.held] at hb
    · intro i t ht
      rcases look _ _ ht with ht | rfl
      · exact h.good i t ht
      · trivial
  | go i ch =>
    simp only [State.act]
    cases e : s.go k i ch with
    | none => exact h
    | some s' => exact h.go hk hr e
  | drop j =>
    exact ⟨h.apart, fun i t b ht hb hm => h.out i t b ht hb (List.mem_of_mem_eraseIdx hm), h.nodup.eraseIdx j,
      fun b hb => h.clean b (List.mem_of_mem_eraseIdx hb), h.good⟩

theorem inv_new (k : Kind κ α) (P : α → Prop) : Inv k P .new :=
  ⟨by simp [State.new], by simp [State.new], by simp [State.new], by simp [State.new], by simp [State.new]⟩

theorem inv_run {k : Kind κ α} {P : α → Prop} (hk : P k.fresh) (hr : ∀ x, P (k.reset x)) (acts : List (Act κ)) : Inv k P (run k acts) := by
  have : ∀ (acts : List (Act κ)) (s : State κ α), Inv k P s → Inv k P (acts.foldl (State.act k) s) := by
    intro acts
    induction acts with
    | nil => exact fun s h => h
    | cons a as ih => exact fun s h => ih _ (h.act hk hr a)
  exact this acts _ (inv_new k P)

/-! ## What the writes of a join amount to -/

def apply (ops : List (Bytes → Bytes)) (x : Bytes) : Bytes := ops.foldl (fun y g => g y) x

theorem loop1_eq (d : Char) (l : List Bytes) (x : Bytes) : apply (loop1 d l) x = x ++ joinRestBytes d l := by
  induction l generalizing x with
  | nil => simp [loop1, apply, joinRestBytes]
  | cons a as ih =>
    by_cases h : a = []
    · simp only [loop1, joinRestBytes, h, ne_eq, not_true, if_false]; exact ih x
    · simp only [loop1, joinRestBytes, ne_eq, h, not_false_iff, if_true]
      have := ih (x ++ [UInt8.ofNat d.toNat] ++ a)
      simp only [apply, List.foldl_cons] at this ⊢
      rw [this]; simp

theorem loop_eq (d : Char) (l : List Bytes) (n : Nat) (hn : n > 0) (x : Bytes) : apply (loop d n l) x = x ++ joinRestBytes d l := by
  induction l generalizing x n with
  | nil => simp [loop, apply, joinRestBytes]
  | cons a as ih =>
    by_cases h : a = []
    · simp only [loop, joinRestBytes, h, ne_eq, not_true, if_false]; exact ih n hn x
    · simp only [loop, joinRestBytes, ne_eq, h, not_false_iff, if_true, hn]
      have := ih (n + 1) (by omega) (x ++ [UInt8.ofNat d.toNat] ++ a)
      simp only [apply, List.foldl_cons, List.cons_append, List.nil_append] at this ⊢
      rw [this]; simp

/-- The non-empty parts, separated by single delimiter bytes. -/
def glue (d : Char) (parts : List Bytes) : Bytes := List.intercalate [UInt8.ofNat d.toNat] (parts.filter (fun p => p ≠ []))

theorem glue_cons (d : Char) {a : Bytes} (ha : a ≠ []) (l : List Bytes) : glue d (a :: l) = a ++ joinRestBytes d l := by
  unfold glue
  rw [List.filter_cons_of_pos (by simpa using ha)]
  induction l generalizing a with
  | nil => simp [joinRestBytes, List.intercalate]
  | cons b bs ih =>
    by_cases h : b = []
    · subst h
      simp only [joinRestBytes, ne_eq, not_true, if_false]
      rw [List.filter_cons_of_neg (by simp)]
      exact ih ha
    · rw [List.filter_cons_of_pos (by simpa using h)]
      simp only [joinRestBytes, ne_eq, h, not_false_iff, if_true]
      have := ih (a := b) h
      rw [List.intercalate_cons_cons, this]
      simp

theorem join_glue (d : Char) (l : List Bytes) : (∀ r, join d l = .inl r → r = glue d l) ∧ (∀ ops, join d l = .inr ops → apply ops [] = glue d l) := by
  induction l with
  | nil => exact ⟨fun r h => by simp [join] at h; simp [glue, h], fun _ h => by simp [join] at h⟩
  | cons a as ih =>
    cases as with
    | nil =>
      refine ⟨fun r h => ?_, fun _ h => by simp [join] at h⟩
      simp [join] at h; subst h
      by_cases ha : a = []
      · subst ha; simp [glue]
      · rw [glue_cons d ha]; simp [joinRestBytes]
    | cons b bs =>
      by_cases ha : a = []
      · subst ha
        have e : join d ([] :: b :: bs) = join d (b :: bs) := by simp [join]
        have g : glue d ([] :: b :: bs) = glue d (b :: bs) := by
          unfold glue; rw [List.filter_cons_of_neg (by simp)]
        rw [e, g]; exact ih
      · have e : join d (a :: b :: bs) = .inr (loop d 0 (a :: b :: bs)) := by simp [join, ha]
        rw [e]
        refine ⟨fun _ h => by simp at h, fun ops h => ?_⟩
        simp only [Sum.inr.injEq] at h; subst h
        rw [glue_cons d ha]
        have := loop_eq d (b :: bs) 1 (by omega) a
        rw [← this]
        simp only [loop, ha, ne_eq, not_false_iff, if_true, gt_iff_lt, Nat.lt_irrefl, if_false, List.nil_append, apply, List.foldl_cons, Nat.zero_add]

/-! ## C78 -/

/-- The string a call should give, by itself: its non-empty parts, separated by the delimiter of its own view. -/
def Call.wanted : Call → Bytes
  | .join d args => glue d args
  | .join1 d pre args => glue d (pre :: args)

theorem wanted_eq (c : Call) : (∀ r, c.body = .inl r → r = c.wanted) ∧ (∀ ops, c.body = .inr ops → apply ops [] = c.wanted) := by
  cases c with
  | join d args => exact join_glue d args
  | join1 d pre args =>
    simp only [Call.body, Call.wanted, join1]
    by_cases hp : pre = []
    · subst hp
      have g : glue d ([] :: args) = glue d args := by
        unfold glue; rw [List.filter_cons_of_neg (by simp)]
      rw [if_pos rfl, g]; exact join_glue d args
    · rw [if_neg hp, glue_cons d hp]
      by_cases ha : args = []
      · subst ha
        rw [if_pos rfl]
        exact ⟨fun r h => by simp at h; subst h; simp [joinRestBytes], fun _ h => by simp at h⟩
      · rw [if_neg ha]
        refine ⟨fun _ h => by simp at h, fun ops h => ?_⟩
        simp only [Sum.inr.injEq] at h; subst h
        have := loop1_eq d args pre
        simpa [apply] using this

theorem buffers_inv (acts : List (Act Call)) : Inv buffers (fun x => x = []) (run buffers acts) :=
  inv_run (P := fun x => x = []) rfl (fun _ => rfl) acts

/-- **C78** However many goroutines join paths at the same time, with whatever delimiters, and whatever the pool hands out, forgets or makes anew: each
gets its own parts, joined by its own delimiter. -/
theorem C78_join (acts : List (Act Call)) (i : Nat) (c : Call) (seen : List Bytes) (ret : Bytes)
    (h : (run buffers acts).threads[i]? = some (.done c seen ret)) : ret = c.wanted := by
  rcases (buffers_inv acts).good _ _ h with ⟨h1, _⟩ | ⟨ops, x0, h1, rfl, _, h4⟩
  · exact (wanted_eq c).1 _ h1
  · exact h4.trans ((wanted_eq c).2 _ h1)

/-- **C78** No two goroutines hold the same buffer, and none in use is in the pool. -/
theorem C78_apart (acts : List (Act Call)) (i j b : Nat) (t u : Thread Call Bytes) (hij : i ≠ j)
    (ht : (run buffers acts).threads[i]? = some t) (hu : (run buffers acts).threads[j]? = some u) (hb : t.held = some b) :
    u.held ≠ some b ∧ b ∉ (run buffers acts).free :=
  ⟨(buffers_inv acts).apart i j t u b hij ht hu hb, (buffers_inv acts).out i t b ht hb⟩

/-- **C78** The buffers in the pool are empty. -/
theorem C78_clean (acts : List (Act Call)) (b : Nat) (hb : b ∈ (run buffers acts).free) : (run buffers acts).objs[b]? = some [] := by
  obtain ⟨x, hx, rfl⟩ := (buffers_inv acts).clean b hb; exact hx

theorem contexts_inv (acts : List (Act Search)) : Inv contexts (fun _ => True) (run contexts acts) := inv_run trivial (fun _ => trivial) acts

theorem scan_retries (d : Char) (ws : List Bytes) (x : Ctx) (hx : x.delimiter = d) :
    scan x (ws.map (fun w (y : Ctx) => { y with fullPath := w })) = ws.map (fun w => ⟨w, d⟩) := by
  induction ws generalizing x with
  | nil => rfl
  | cons w ws ih =>
    simp only [List.map_cons, scan, hx]
    rw [ih _ rfl]

/-- **C78** A match context is not cleared when it is put back. Still, whatever other searches — in other views, with other delimiters — do meanwhile or
did before, a search sees its own words and its own delimiter from beginning to end. -/
theorem C78_ctx (acts : List (Act Search)) (i : Nat) (q : Search) (seen : List Ctx) (ret : Ctx)
    (h : (run contexts acts).threads[i]? = some (.done q seen ret)) : seen = (q.word :: q.retries).map (fun w => ⟨w, q.delimiter⟩) := by
  rcases (contexts_inv acts).good _ _ h with ⟨h1, _⟩ | ⟨ops, x0, h1, _, h3, _⟩
  · simp [contexts] at h1
  · simp only [contexts, Sum.inr.injEq] at h1
    subst h1
    rw [h3]
    simp only [scan, List.map_cons]
    rw [scan_retries q.delimiter _ _ rfl]

/-- Also on the way: what a search has seen so far is a beginning of that. -/
theorem C78_ctx_now (acts : List (Act Search)) (i b : Nat) (q : Search) (todo : List (Ctx → Ctx)) (seen : List Ctx)
    (h : (run contexts acts).threads[i]? = some (.hold q b todo seen)) : ∀ x ∈ seen, x.delimiter = q.delimiter := by
  obtain ⟨ops, x0, d, h1, _, h3, h4, _⟩ := (contexts_inv acts).good _ _ h
  simp only [contexts, Sum.inr.injEq] at h1
  have pre : ∀ (d t : List (Ctx → Ctx)) (x : Ctx), ∀ y ∈ scan x d, y ∈ scan x (d ++ t) := by
    intro d
    induction d with
    | nil => intro t x y hy; simp [scan] at hy
    | cons f fs ih =>
      intro t x y hy
      simp only [scan, List.cons_append, List.mem_cons] at hy ⊢
      rcases hy with hy | hy
      · exact .inl hy
      · exact .inr (ih t _ y hy)
  intro x hx
  subst h4
  have := pre d todo x0 x hx
  rw [← h3, ← h1] at this
  simp only [scan] at this
  rw [scan_retries q.delimiter _ _ rfl] at this
  simp only [List.mem_cons, List.mem_map] at this
  rcases this with rfl | ⟨w, _, rfl⟩ <;> rfl

/-- **C78** No call ever waits for another: one that has not ended can go on, whatever the state of the pool. -/
theorem C78_free (acts : List (Act Call)) (i : Nat) (t : Thread Call Bytes) (h : (run buffers acts).threads[i]? = some t) :
    (∃ c seen r, t = .done c seen r) ∨ ∃ s', (run buffers acts).go buffers i none = some s' := by
  have g := (buffers_inv acts).good _ _ h
  cases t with
  | start c =>
    right
    unfold State.go; simp only [h]
    cases e : buffers.body c with
    | inl r => exact ⟨_, rfl⟩
    | inr ops => exact ⟨_, rfl⟩
  | hold c b todo seen =>
    right
    obtain ⟨_, _, _, _, _, _, _, h5⟩ := g
    unfold State.go; simp only [h]
    cases todo with
    | nil => exact ⟨_, rfl⟩
    | cons f fs => simp only [h5]; exact ⟨_, rfl⟩
  | read c b seen =>
    right
    obtain ⟨_, _, _, _, _, h5⟩ := g
    unfold State.go; simp only [h, h5]; exact ⟨_, rfl⟩
  | clean c b seen r =>
    right
    obtain ⟨_, _, _, _, _, _, _, h5⟩ := g
    unfold State.go; simp only [h, h5]; exact ⟨_, rfl⟩
  | put c b seen r => right; unfold State.go; simp only [h]; exact ⟨_, rfl⟩
  | done c seen r => exact .inl ⟨c, seen, r, rfl⟩

/-! ## Examples -/

/-- The answers given so far. -/
def answers (s : State Call Bytes) : List (Option Bytes) :=
  s.threads.map fun t => match t with | .done _ _ r => some r | _ => none

/-- Two joins interleaved with different delimiters, the second call of the first goroutine's buffer being reused by a third join. -/
def exActs : List (Act Call) :=
  [.call (.join '.' [[97], [], [98]]), .call (.join1 '/' [120] [[121], [122]]), .go 0 none, .go 1 none, .go 0 none, .go 1 none, .go 1 none, .go 0 none,
   .go 0 none, .go 0 none, .go 0 none, .go 0 none, .go 0 (some 0), .call (.join '.' [[], [99], [100]]), .go 2 (some 0), .go 1 none, .go 2 none,
   .go 2 none, .go 1 none, .go 1 none, .go 1 none, .go 1 none, .go 1 none, .go 1 (some 0), .go 2 none, .go 2 none, .go 2 none, .go 2 none, .go 2 none]

example : answers (run buffers exActs) = [some [97, 46, 98], some [120, 47, 121, 47, 122], some [99, 46, 100]] := by decide +kernel

example : (run buffers exActs).objs.length = 2 := by decide +kernel

/-- A context used with `/` is found dirty by a search with `.`. -/
def exSearch : List (Act Search) :=
  [.call ⟨[97, 47, 98], '/', []⟩, .go 0 none, .go 0 none, .go 0 none, .go 0 none, .go 0 none, .go 0 (some 0),
   .call ⟨[97, 46, 98, 46, 99], '.', [[97, 46, 99]]⟩, .go 1 (some 0), .go 1 none, .go 1 none, .go 1 none, .go 1 none, .go 1 none, .go 1 none]

example : (run contexts exSearch).threads.map (fun t => match t with | .done _ seen _ => seen | _ => []) =
    [[⟨[97, 47, 98], '/'⟩], [⟨[97, 46, 98, 46, 99], '.'⟩, ⟨[97, 46, 99], '.'⟩]] := by decide +kernel

end Pool
end Verif

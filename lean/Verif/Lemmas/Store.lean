import Verif.Model.Store
import Verif.Props.Entry
import Verif.Props.Join
/-
Lemmas about the store layer: `setKV` and sequences of it on the contents of the tree.
-/
namespace Verif

namespace Node
variable {α : Type}

theorem modify_core_comp (i : Nat) (f g : Core α → Core α) (n : Node α) :
    modify i (mapCore g) (modify i (mapCore f) n) = modify i (mapCore (g ∘ f)) n := by
  induction n using ind with
  | h j p c k ih =>
    have hk : k.map (modify i (mapCore g) ∘ modify i (mapCore f)) = k.map (modify i (mapCore (g ∘ f))) :=
      List.map_congr_left (fun a ha => ih a ha)
    by_cases e : j = i
    · simp only [modify, modifyL_eq, e, if_true, mapCore, List.map_map, hk, Function.comp]
    · simp only [modify, modifyL_eq, e, if_false, List.map_map, hk]

theorem modify_core_id_fun (i : Nat) (n : Node α) : modify i (mapCore (fun c => c)) n = n := by
  induction n using ind with
  | h j p c k ih =>
    have hk : k.map (modify i (mapCore (fun c => c))) = k := by
      conv => rhs; rw [← List.map_id k]
      exact List.map_congr_left (fun a ha => ih a ha)
    by_cases e : j = i
    · simp only [modify, modifyL_eq, e, if_true, mapCore, hk]
    · simp only [modify, modifyL_eq, e, if_false, hk]
end Node

section
variable {α : Type} [Inhabited α]

theorem Reach.writes {P : Str → Prop} {t : Tree α} (h : Reach P t) (i : Nat) (os : List (NodeOp α)) :
    Reach P (View.writeCore t i (NodeOp.runs os)) := by
  induction os generalizing t with
  | nil =>
    have : View.writeCore t i (NodeOp.runs []) = t := by
      change { t with root := t.root.modify i (Node.mapCore (fun c => c)) } = t
      rw [Node.modify_core_id_fun]
    rw [this]; exact h
  | cons o os ih =>
    have : View.writeCore t i (NodeOp.runs (o :: os)) = View.writeCore (View.writeCore t i o.app) i (NodeOp.runs os) := by
      simp only [View.writeCore, Node.modify_core_comp]
      rfl
    rw [this]
    exact ih (.step (.node i o) h (by simp [Op.key]) rfl)

/-- Effect of `setKV` on the tree, with the key already joined and dashed. -/
def putTree (user : Bool) (t : Tree α) (key : Str) (x : α) : Tree α :=
  let r := View.insertAt t key x
  if user then View.writeCore r.1 r.2.hit.id (NodeOp.runs [.setModified true]) else r.1

/-- A sequence of them. -/
def putTrees (user : Bool) (t : Tree α) (l : List (Str × α)) : Tree α :=
  l.foldl (fun t a => putTree user t a.1 a.2) t

theorem putTrees_append (user : Bool) (t : Tree α) (l l' : List (Str × α)) :
    putTrees user t (l ++ l') = putTrees user (putTrees user t l) l' := by
  simp [putTrees]

/-- The mark after a write. -/
def markAfter (user : Bool) (c0 : Option (Core α)) : Bool := user || (c0.elim false (·.modified))

/-- What a sequence of writes does. -/
structure PutsSpec (user : Bool) (t t' : Tree α) (l : List (Str × α)) : Prop where
  ok : t'.OK
  val : ∀ q x, lastWrite l q = some x → ∃ c, t'.contents q = some c ∧ c.hasData = true ∧ c.data = x ∧
    c.modified = markAfter user (t.contents q)
  keep : ∀ q c, lastWrite l q = none → t.contents q = some c → t'.contents q = some c
  new : ∀ q c, lastWrite l q = none → t.contents q = none → t'.contents q = some c →
    c.hasData = false ∧ c.data = default ∧ c.modified = false ∧ c.leaf = false

theorem putTree_reach {P : Str → Prop} {t : Tree α} (h : Reach P t) (user : Bool) {key : Str} (hk : P key) (x : α) :
    Reach P (putTree user t key x) := by
  have h1 : Reach P (View.insertAt t key x).1 := by
    have := Reach.step (P := P) (.setEx (View.new '.') key x) h
      (fun k e => by simp [Op.key, View.full, View.new] at e; rw [← e]; exact hk) rfl
    simpa [View.setEx, View.full, View.new] using this
  simp only [putTree]
  cases user
  · exact h1
  · exact h1.writes _ _

theorem putTrees_reach {P : Str → Prop} {t : Tree α} (h : Reach P t) (user : Bool) {l : List (Str × α)}
    (hk : ∀ a ∈ l, P a.1) : Reach P (putTrees user t l) := by
  induction l generalizing t with
  | nil => exact h
  | cons a l ih =>
    exact ih (putTree_reach h user (hk a (by simp)) a.2) (fun b hb => hk b (by simp [hb]))

theorem putTree_contents {t : Tree α} (h : t.OK) (user : Bool) (key : Str) (x : α) :
    (putTree user t key x).OK ∧
    (∃ c, putCore t key x c ∧
      (putTree user t key x).contents key = some (if user then { c with modified := true } else c)) ∧
    ∀ q, q ≠ key → (putTree user t key x).contents q = (View.insertAt t key x).1.contents q := by
  have hok := View.insertAt_ok h key x
  obtain ⟨c, h1, h2⟩ := (View.insertAt_spec h key x).atKey
  cases user
  · exact ⟨hok, ⟨c, h2, by simpa [putTree] using h1⟩, fun q _ => rfl⟩
  · have hhit := insertAt_hit h key x
    have hw := writeCore_contents hok hhit (NodeOp.runs [.setModified true])
    have hc : (View.insertAt t key x).2.hit.core = c := by
      have := (Tree.contents_node hok).mpr ⟨_, hhit, rfl⟩
      rw [h1] at this
      exact (Option.some.inj this).symm
    refine ⟨writeCore_ok hok _ _, ⟨c, h2, ?_⟩, fun q hq => ?_⟩
    · simp only [putTree, if_true]
      rw [hw key, if_pos rfl, hc]; rfl
    · simp only [putTree, if_true]
      rw [hw q, if_neg hq]

theorem putCore_modified {t : Tree α} {k : Str} {x : α} {c : Core α} (h : putCore t k x c) :
    c.modified = (t.contents k).elim false (·.modified) := by
  simp only [putCore] at h
  split at h
  · rename_i c0 h0; rw [h, h0]; rfl
  · rename_i h0
    rw [h0]
    rcases h with ⟨rfl, _⟩ | ⟨_, _, _, _, _, rfl⟩ <;> rfl

theorem putTree_spec {t : Tree α} (h : t.OK) (user : Bool) (key : Str) (x : α) :
    PutsSpec user t (putTree user t key x) [(key, x)] := by
  obtain ⟨hok, ⟨c, h1, h2⟩, h3⟩ := putTree_contents h user key x
  have hs := View.insertAt_spec h key x
  refine ⟨hok, ?_, ?_, ?_⟩
  · intro q y hq
    simp only [lastWrite] at hq
    by_cases e : key = q
    · simp only [e, if_true, Option.some.injEq] at hq
      subst e hq
      refine ⟨_, h2, ?_⟩
      have hd := putCore_data h1
      have hm := putCore_modified h1
      cases user
      · exact ⟨hd.1, hd.2, by simp only [markAfter, Bool.false_or]; exact hm⟩
      · exact ⟨hd.1, hd.2, rfl⟩
    · simp [e] at hq
  · intro q c0 hq hc
    have e : q ≠ key := by rintro rfl; simp [lastWrite] at hq
    rw [h3 q e]; exact hs.keep q c0 e hc
  · intro q c0 hq hc hc'
    have e : q ≠ key := by rintro rfl; simp [lastWrite] at hq
    rw [h3 q e] at hc'
    obtain ⟨_, _, _, _, _, rfl⟩ := hs.new q c0 e hc hc'
    exact ⟨rfl, rfl, rfl, rfl⟩

theorem putTrees_spec {t : Tree α} (h : t.OK) (user : Bool) (l : List (Str × α)) :
    PutsSpec user t (putTrees user t l) l := by
  induction l using snocInd with
  | h0 => exact ⟨h, by simp [lastWrite], fun q c _ hc => hc, fun q c _ h1 h2 => by
      have h2' : t.contents q = some c := h2
      rw [h1] at h2'; simp at h2'⟩
  | h1 l a ih =>
    obtain ⟨k, x⟩ := a
    rw [putTrees_append]
    have hs := putTree_spec ih.ok user k x
    change PutsSpec user t (putTree user (putTrees user t l) k x) _
    generalize putTree user (putTrees user t l) k x = t2 at *
    generalize putTrees user t l = t1 at *
    refine ⟨hs.ok, ?_, ?_, ?_⟩
    · intro q y hq
      rw [lastWrite_snoc] at hq
      by_cases e : k = q
      · simp only [e, if_true, Option.some.injEq] at hq
        subst e hq
        obtain ⟨c, h1, h2, h3, h4⟩ := hs.val k x (by simp [lastWrite])
        refine ⟨c, h1, h2, h3, ?_⟩
        rw [h4]
        cases user
        · simp only [markAfter, Bool.false_or]
          cases hl : lastWrite l k with
          | some z =>
            obtain ⟨c1, g1, _, _, g4⟩ := ih.val k z hl
            rw [g1]; simpa [markAfter] using g4
          | none =>
            cases h0 : t.contents k with
            | some c0 => rw [ih.keep k c0 hl h0]
            | none =>
              cases h5 : t1.contents k with
              | none => rfl
              | some c1 => simpa using (ih.new k c1 hl h0 h5).2.2.1
        · rfl
      · simp only [e, if_false] at hq
        obtain ⟨c, h1, h2⟩ := ih.val q y hq
        exact ⟨c, hs.keep q c (by simp [lastWrite, e]) h1, h2⟩
    · intro q c hq hc
      rw [lastWrite_snoc] at hq
      by_cases e : k = q
      · simp [e] at hq
      · simp only [e, if_false] at hq
        exact hs.keep q c (by simp [lastWrite, e]) (ih.keep q c hq hc)
    · intro q c hq hc hc'
      rw [lastWrite_snoc] at hq
      by_cases e : k = q
      · simp [e] at hq
      · simp only [e, if_false] at hq
        cases h1 : t1.contents q with
        | some c1 =>
          have := hs.keep q c1 (by simp [lastWrite, e]) h1
          rw [hc'] at this
          cases this
          exact ih.new q c hq hc h1
        | none => exact hs.new q c (by simp [lastWrite, e]) h1 hc'

end

namespace Store
variable {α κ : Type}

theorem setKV_eq (s : Store α κ) (path : Str) (x : Any α κ) (create : Bool) (onSet : List (NodeOp (Any α κ)))
    (h : s.loading = true ∨ onSet = []) :
    (s.setKV path x create onSet).1 =
      { s with tree := putTree (!s.loading) s.tree (View.dash (s.view.full path)) x } := by
  rcases h with h | h
  · simp [setKV, putTree, h, View.set]
  · subst h; simp [setKV, putTree, View.set]

theorem tryOnSet_nil {s : Store α κ} (h : s.hs = ⟨[], [], []⟩) (path : Str) (user : Bool) (old x : Any α κ) (create : Bool) :
    s.tryOnSet path user old x create = [] := by
  cases create <;> simp [tryOnSet, h]

theorem dupS_events (s : Store α κ) (v : View) (path : Str) (x : Any α κ) (create : Bool) (onSet) :
    ((s.dupS v).setKV path x create onSet).2.1 = [] := by
  exact tryOnSet_nil rfl _ _ _ _ _

theorem privateSetter_eq (s : Store α κ) (position k : Str) (x : Any α κ) (create : Bool) (onSet : List (NodeOp (Any α κ)))
    (h : s.loading = true ∨ onSet = []) :
    privateSetter s position k x create onSet =
      ({ s with tree := putTree (!s.loading) s.tree (View.dash (joinSpec s.view.delim [position, k])) x }, []) := by
  simp only [privateSetter, withPrefixReplaced]
  rw [dupS_events, setKV_eq _ _ _ _ _ (by simpa [dupS] using h)]
  simp only [dupS, C11_replaced]
  rfl

end Store
end Verif

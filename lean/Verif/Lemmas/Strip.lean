import Verif.Lemmas.Modify
import Verif.Model.Ops
/-
Lookups do not look at identities, descriptions, comments and tags.
-/
namespace Verif
variable {α : Type}

/-- Forget description, comment and tag. -/
def Core.strip (c : Core α) : Core α := { c with desc := [], comment := [], tag := none }

namespace Node

mutual
/-- Forget identities and metadata. -/
def strip : Node α → Node α
  | mk _ p c k => mk 0 p c.strip (stripL k)
def stripL : List (Node α) → List (Node α)
  | [] => []
  | n :: ns => strip n :: stripL ns
end

theorem stripL_eq (k : List (Node α)) : stripL k = k.map strip := by
  induction k with
  | nil => rfl
  | cons a as ih => simp [stripL, ih]

@[simp] theorem strip_path (n : Node α) : n.strip.path = n.path := by cases n; rfl
@[simp] theorem strip_core (n : Node α) : n.strip.core = n.core.strip := by cases n; rfl
@[simp] theorem strip_kids (n : Node α) : n.strip.kids = n.kids.map strip := by cases n; simp [strip, stripL_eq]
@[simp] theorem strip_endsWith (n : Node α) (d : Char) : n.strip.endsWith d = n.endsWith d := by simp [endsWith]

/-- Image of a result under `strip`. -/
def stripMR (r : MR α) : MR α := { r with child := r.child.map strip, parent := r.parent.map strip }
def stripMaster : Master α → Master α
  | .ret r => .ret (stripMR r)
  | .go s t l r => .go s t l (stripMR r)

theorem masterLoop_strip (d : Char) (n : Node α) (w : Str) (l : Bool) (par : Option (Node α)) (kv : KV) :
    masterLoop d n.strip w l (par.map strip) kv = (masterLoop d n w l par kv).map (fun x => (stripMaster x.1, x.2)) := by
  simp only [masterLoop, strip_path, strip_kids, List.isEmpty_map]
  split
  · generalize retriever d n.path w (!n.kids.isEmpty) _ _ _ _ _ kv = r
    rcases r with e | ⟨r, kv'⟩
    · rfl
    · cases r with
      | nothing => rfl
      | found => rfl
      | out s t l m p => cases m <;> rfl
  · rfl

theorem verdict_strip (d : Char) (n : Node α) (par : Option (Node α)) (wl src : Nat) (r : MR α) :
    verdict d n.strip (par.map strip) wl src (stripMR r) = stripMR (verdict d n par wl src r) := by
  simp only [verdict, strip_path, stripMR]
  split
  · rfl
  · split
    · rfl
    · split <;> rfl

theorem matchR_strip (d : Char) (n : Node α) : ∀ (w : Str) (l : Bool) (par : Option (Node α)) (kv : KV),
    matchR d n.strip w l (par.map strip) kv = (matchR d n w l par kv).map (fun x => (stripMR x.1, x.2)) := by
  induction n using ind with
  | h i p c k ih =>
    intro w l par kv
    by_cases hw : w = []
    · subst hw; simp only [strip, matchR, if_true]; rfl
    · rw [matchR_eq _ _ _ _ _ _ hw, matchR_eq _ _ _ _ _ _ hw, masterLoop_strip]
      have hk : ∀ (self : Node α) (ks : List (Node α)), (∀ n ∈ ks, n ∈ k) → ∀ (w : Str) (l : Bool) (kv : KV),
          matchKids d self.strip (ks.map strip) w l kv = (matchKids d self ks w l kv).map (fun x => (stripMR x.1, x.2)) := by
        intro self ks
        induction ks with
        | nil => intro _ w l kv; rfl
        | cons a as iha =>
          intro hs w l kv
          have ha := ih a (hs a (by simp)) w l (some self) kv
          simp only [Option.map_some] at ha
          rw [List.map_cons, matchKids, matchKids, ha]
          rcases matchR d a w l (some self) kv with e | ⟨r, kv'⟩
          · rfl
          · simp only [Except.map]
            rw [show (stripMR r).matched = r.matched from rfl, show (stripMR r).part = r.part from rfl]
            split
            · rfl
            · cases as with
              | nil => rfl
              | cons b bs => exact iha (fun n hn => hs n (by simp [hn])) w l kv'
      rcases masterLoop d (mk i p c k) w l par kv with e | ⟨m, kv'⟩
      · rfl
      · cases m with
        | ret r => rfl
        | go src dst f r =>
          simp only [Except.map, stripMaster, strip_path, strip_kids, verdict_strip, List.isEmpty_map, kids_mk, path_mk]
          by_cases h1 : min p.length w.length < w.length
          · simp only [h1, if_true]
            by_cases h2 : k.isEmpty = true
            · simp only [h2, if_true]; rfl
            · simp only [h2, Bool.false_eq_true, if_false]
              exact hk (mk i p c k) k (fun _ h => h) _ _ _
          · simp only [h1, if_false]

end Node

/-- Forget identities and metadata. -/
def Tree.strip (t : Tree α) : Tree α := { root := t.root.strip, next := 0 }

namespace View

theorem retryUp_strip (d : Char) (n : Node α) (fuel : Nat) : ∀ (w : Str) (kv : KV),
    retryUp d n.strip fuel w kv = (retryUp d n fuel w kv).map (fun x => (x.1.map Node.stripMR, x.2)) := by
  induction fuel with
  | zero => intro w kv; rfl
  | succ fuel ih =>
    intro w kv
    simp only [retryUp]
    split
    · have := Node.matchR_strip d n (joinWith d (List.take ((splitOn d w).length - 2) (splitOn d w) ++ List.drop ((splitOn d w).length - 1) (splitOn d w))) false none kv
      simp only [Option.map_none] at this
      rw [this]
      generalize Node.matchR d n _ false none kv = r
      rcases r with e | ⟨r, kv'⟩
      · rfl
      · simp only [Except.map]
        rw [show (Node.stripMR r).matched = r.matched from rfl, show (Node.stripMR r).part = r.part from rfl]
        split
        · rfl
        · exact ih _ _
    · rfl

theorem search_strip (v : View) (t : Tree α) (w : Str) :
    v.search t.strip w = (v.search t w).map (fun x => (x.1.map Node.strip, x.2.1.map Node.strip, x.2.2.1, x.2.2.2)) := by
  simp only [search]
  have h := Node.matchR_strip v.delim t.root w false none []
  simp only [Option.map_none] at h
  rw [show t.strip.root = t.root.strip from rfl, h]
  rcases Node.matchR v.delim t.root w false none [] with e | ⟨r, kv'⟩
  · rfl
  · simp only [Except.map]
    rw [show (Node.stripMR r).matched = r.matched from rfl, show (Node.stripMR r).part = r.part from rfl]
    split
    · rfl
    · split
      · rw [retryUp_strip]
        rcases retryUp v.delim t.root (w.length + 1) w kv' with e | ⟨_ | r, kv''⟩ <;> rfl
      · rfl

variable [Inhabited α]

theorem queryKV_strip (v : View) (t : Tree α) (p : Str) : v.queryKV t.strip p = v.queryKV t p := by
  simp only [queryKV, search_strip]
  rcases v.search t (v.full p) with e | ⟨n, par, pm, kv⟩
  · rfl
  · cases n with
    | none => cases pm <;> rfl
    | some n =>
      cases pm
      · simp only [Except.map, Option.map_some, Node.strip_core, Node.strip_endsWith]; rfl
      · rfl

omit [Inhabited α] in
theorem has_strip (v : View) (t : Tree α) (p : Str) : v.has t.strip p = v.has t p := by
  simp only [has, search_strip]
  rcases v.search t (v.full p) with e | ⟨n, par, pm, kv⟩
  · rfl
  · cases n <;> rfl

omit [Inhabited α] in
theorem hasPart_strip (v : View) (t : Tree α) (p : Str) : v.hasPart t.strip p = v.hasPart t p := by
  simp only [hasPart, search_strip]
  rcases v.search t (v.full p) with e | ⟨n, par, pm, kv⟩
  · rfl
  · cases n with
    | none => cases pm <;> rfl
    | some n =>
      cases pm
      · rfl
      · simp only [Except.map, Option.map_some, Node.strip_core]; rfl

omit [Inhabited α] in
theorem walk_stripN (n : Node α) : n.strip.walk = n.walk.map Node.strip := by
  induction n using Node.ind with
  | h i p c k ih =>
    simp only [Node.strip, Node.walk, List.map_cons, List.cons.injEq, true_and]
    induction k with
    | nil => rfl
    | cons a as iha =>
      simp only [Node.stripL, Node.walkL, List.map_append]
      rw [ih a (by simp), iha (fun n hn => ih n (by simp [hn]))]

omit [Inhabited α] in
theorem walk_strip (v : View) (t : Tree α) (p : Str) : v.walk t.strip p = (v.walk t p).map (·.map Node.strip) := by
  simp only [walk]
  split
  · simp only [Tree.strip, walk_stripN, Except.map]
  · simp only [search_strip]
    rcases v.search t p with e | ⟨n, par, pm, kv⟩
    · rfl
    · simp only [Except.map]
      cases pm
      · by_cases h : p.getLast? = some v.delim
        · cases n with
          | none => simp [h]
          | some n => simp [h, walk_stripN]
        · cases par with
          | none => simp [h]
          | some n => simp [h, walk_stripN]
      · simp [Tree.strip, walk_stripN]

end View
end Verif

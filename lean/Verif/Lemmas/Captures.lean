import Verif.Lemmas.Match
/-
The captures collected so far do not influence a lookup: they are only appended to.
-/
namespace Verif
namespace Node
variable {α : Type}

/-- Put the captures `kv` in front. -/
def addKV {β : Type} (kv : KV) (r : Go (β × KV)) : Go (β × KV) := r.map (fun x => (x.1, kv ++ x.2))

@[simp] theorem addKV_ok {β : Type} (kv : KV) (b : β) (kv' : KV) : addKV kv (.ok (b, kv')) = .ok (b, kv ++ kv') := rfl
@[simp] theorem addKV_error {β : Type} (kv : KV) (e : Stop) : addKV (β := β) kv (.error e) = .error e := rfl
theorem addKV_addKV {β : Type} (kv kv' : KV) (r : Go (β × KV)) : addKV kv (addKV kv' r) = addKV (kv ++ kv') r := by
  cases r with
  | error e => rfl
  | ok x => simp [addKV, Except.map]

theorem retriever_kv (d : Char) (path word : Str) (hk : Bool) (f : Nat) : ∀ (ch : Char) (src dst : Nat) (lrid : Bool) (kv : KV),
    retriever d path word hk f ch src dst lrid kv = addKV kv (retriever d path word hk f ch src dst lrid []) := by
  induction f with
  | zero => intros; rfl
  | succ f ih =>
    intro ch src dst lrid kv
    rw [retriever, retriever]
    by_cases h1 : lrid = true
    · simp only [h1, if_true]
      by_cases h2 : ch = '*'
      · simp only [h2, if_true, addKV_ok, List.nil_append]
      · simp only [h2, if_false]
        by_cases h3 : ch = ':'
        · simp only [h3, if_true]
          by_cases h4 : (extractor d path (src + 1) path.length).2.2 = true
          · simp only [h4, if_true]
            by_cases h5 : (extractor d word dst word.length).2.2 = true
            · simp only [h5, if_true, addKV_ok, List.nil_append]
            · simp only [h5, List.nil_append]; rfl
          · simp only [h4]
            by_cases h5 : (extractor d word dst word.length).2.2 = true
            · simp only [h5, if_true, List.nil_append]; rfl
            · simp only [h5]
              generalize cmpLoop d _ _ true = c
              simp only [Bool.false_eq_true, if_false]
              split
              · simp
              · split
                · simp
                · rw [ih, ih (kv := [] ++ _), addKV_addKV]; simp
        · simp [h3]
    · simp [h1]

theorem masterLoop_kv (d : Char) (n : Node α) (w : Str) (l : Bool) (par : Option (Node α)) (kv : KV) :
    masterLoop d n w l par kv = addKV kv (masterLoop d n w l par []) := by
  simp only [masterLoop]
  split
  · rw [retriever_kv]
    generalize retriever d n.path w (!n.kids.isEmpty) _ _ _ _ _ [] = r
    rcases r with e | ⟨r, kv'⟩
    · rfl
    · cases r <;> rfl
  · simp

theorem matchR_kv (d : Char) (n : Node α) : ∀ (w : Str) (l : Bool) (par : Option (Node α)) (kv : KV),
    matchR d n w l par kv = addKV kv (matchR d n w l par []) := by
  induction n using ind with
  | h i p c k ih =>
    intro w l par kv
    by_cases hw : w = []
    · subst hw; simp [matchR]
    · rw [matchR_eq _ _ _ _ _ _ hw, matchR_eq _ _ _ _ _ _ hw, masterLoop_kv]
      have hk : ∀ (self : Node α) (ks : List (Node α)), (∀ n ∈ ks, n ∈ k) → ∀ (w : Str) (l : Bool) (kv : KV),
          matchKids d self ks w l kv = addKV kv (matchKids d self ks w l []) := by
        intro self ks
        induction ks with
        | nil => intro _ w l kv; simp [matchKids]
        | cons a as iha =>
          intro hs w l kv
          rw [matchKids, matchKids, ih a (hs a (by simp)) w l (some self) kv]
          rcases matchR d a w l (some self) [] with e | ⟨r, kv'⟩
          · rfl
          · simp only [addKV_ok]
            split
            · rfl
            · cases as with
              | nil => rfl
              | cons b bs =>
                simp only
                rw [iha (fun n hn => hs n (by simp [hn])), iha (fun n hn => hs n (by simp [hn])) (kv := kv'), addKV_addKV]
      rcases masterLoop d (mk i p c k) w l par [] with e | ⟨m, kv'⟩
      · rfl
      · cases m with
        | ret r => rfl
        | go src dst f r =>
          simp only [addKV_ok]
          split
          · split
            · rfl
            · rw [hk _ _ (by simp), hk _ _ (by simp) (kv := kv'), addKV_addKV]
          · rfl

/-- The outcome of a lookup without the captures. -/
def outcome (d : Char) (n : Node α) (w : Str) : Go (MR α) := (matchR d n w false none []).map (·.1)

theorem matchR_outcome (d : Char) (n : Node α) (w : Str) (kv : KV) : (matchR d n w false none kv).map (·.1) = outcome d n w := by
  rw [matchR_kv, outcome]
  rcases matchR d n w false none [] with e | x <;> rfl

end Node
end Verif

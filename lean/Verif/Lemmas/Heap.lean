import Verif.Lemmas.Insert
import Verif.Model.Heap
/-
Memory that holds trees.
-/
namespace Verif

/-- A node without what is below it. -/
structure Rec (α : Type) where
  id : Nat
  path : Str
  core : Core α
  kids : List Nat

namespace Node
variable {α : Type}

def toRec (n : Node α) : Rec α := ⟨n.id, n.path, n.core, n.kids.map id⟩

mutual
/-- All nodes of a tree. -/
def recs : Node α → List (Rec α)
  | mk i p c k => ⟨i, p, c, k.map id⟩ :: recsL k
def recsL : List (Node α) → List (Rec α)
  | [] => []
  | n :: ns => recs n ++ recsL ns
end

theorem recs_eq (n : Node α) : recs n = toRec n :: recsL n.kids := by
  cases n; rw [recs]; rfl

theorem recsL_append (k l : List (Node α)) : recsL (k ++ l) = recsL k ++ recsL l := by
  induction k with
  | nil => simp [recsL]
  | cons c cs ih => simp [recsL, ih]

mutual
theorem recs_walk : ∀ (n : Node α), recs n = (walk n).map toRec
  | mk i p c k => by rw [recs, walk, List.map_cons, recsL_walk k]; rfl
theorem recsL_walk : ∀ (k : List (Node α)), recsL k = (walkL k).map toRec
  | [] => rfl
  | n :: ns => by rw [recsL, walkL, List.map_append, recs_walk n, recsL_walk ns]
end

end Node

namespace Heap
variable {α : Type}

/-- The memory has, at the identity of each of the nodes, what the node says, and no two of them share an
array. -/
structure Holds (H : Heap α) (L : List (Rec α)) : Prop where
  path : ∀ r ∈ L, (H.cell r.id).path = r.path
  core : ∀ r ∈ L, (H.cell r.id).core = r.core
  kids : ∀ r ∈ L, H.kids r.id = r.kids
  len : ∀ r ∈ L, (H.cell r.id).len = r.kids.length
  nodup : (L.map (·.id)).Nodup
  arrs : ∀ r ∈ L, (H.cell r.id).arr < H.na
  sep : ∀ r ∈ L, ∀ q ∈ L, (H.cell r.id).arr = (H.cell q.id).arr → r.id = q.id

theorem Holds.perm {H : Heap α} {L M : List (Rec α)} (h : Holds H L) (p : L.Perm M) : Holds H M :=
  ⟨fun r hr => h.path r (p.mem_iff.mpr hr), fun r hr => h.core r (p.mem_iff.mpr hr),
    fun r hr => h.kids r (p.mem_iff.mpr hr), fun r hr => h.len r (p.mem_iff.mpr hr),
    (p.map _).nodup_iff.mp h.nodup, fun r hr => h.arrs r (p.mem_iff.mpr hr),
    fun r hr q hq => h.sep r (p.mem_iff.mpr hr) q (p.mem_iff.mpr hq)⟩

theorem Holds.sub {H : Heap α} {L M : List (Rec α)} (h : Holds H L) (p : M.Sublist L) : Holds H M :=
  ⟨fun r hr => h.path r (p.subset hr), fun r hr => h.core r (p.subset hr),
    fun r hr => h.kids r (p.subset hr), fun r hr => h.len r (p.subset hr),
    (p.map _).nodup h.nodup, fun r hr => h.arrs r (p.subset hr),
    fun r hr q hq => h.sep r (p.subset hr) q (p.subset hq)⟩

/-- What is not touched between two states of the memory. -/
structure Keeps (R : List (Rec α)) (H H' : Heap α) : Prop where
  cell : ∀ q ∈ R, H'.cell q.id = H.cell q.id
  arr : ∀ q ∈ R, H'.arr (H.cell q.id).arr = H.arr (H.cell q.id).arr
  na : H.na ≤ H'.na

theorem Keeps.refl (R : List (Rec α)) (H : Heap α) : Keeps R H H := ⟨fun _ _ => rfl, fun _ _ => rfl, Nat.le_refl _⟩

theorem Keeps.trans {R : List (Rec α)} {H H1 H2 : Heap α} (h : Keeps R H H1) (h' : Keeps R H1 H2) : Keeps R H H2 :=
  ⟨fun q hq => (h'.cell q hq).trans (h.cell q hq),
    fun q hq => by have := h'.arr q hq; rw [h.cell q hq] at this; exact this.trans (h.arr q hq),
    Nat.le_trans h.na h'.na⟩

theorem Keeps.mono {R S : List (Rec α)} {H H' : Heap α} (h : Keeps R H H') (hs : ∀ r ∈ S, r ∈ R) : Keeps S H H' :=
  ⟨fun q hq => h.cell q (hs q hq), fun q hq => h.arr q (hs q hq), h.na⟩

/-- New nodes beside what is kept. -/
theorem Holds.put {H H' : Heap α} {R N : List (Rec α)} (h : Holds H R) (hk : Keeps R H H')
    (path : ∀ r ∈ N, (H'.cell r.id).path = r.path) (core : ∀ r ∈ N, (H'.cell r.id).core = r.core)
    (kids : ∀ r ∈ N, H'.kids r.id = r.kids) (len : ∀ r ∈ N, (H'.cell r.id).len = r.kids.length)
    (nodup : ((N ++ R).map (·.id)).Nodup) (arrs : ∀ r ∈ N, (H'.cell r.id).arr < H'.na)
    (sep : ∀ r ∈ N, ∀ q ∈ N, (H'.cell r.id).arr = (H'.cell q.id).arr → r.id = q.id)
    (away : ∀ r ∈ N, ∀ q ∈ R, (H'.cell r.id).arr ≠ (H.cell q.id).arr) : Holds H' (N ++ R) := by
  refine ⟨?_, ?_, ?_, ?_, nodup, ?_, ?_⟩
  · intro r hr
    rcases List.mem_append.mp hr with hr | hr
    · exact path r hr
    · rw [hk.cell r hr]; exact h.path r hr
  · intro r hr
    rcases List.mem_append.mp hr with hr | hr
    · exact core r hr
    · rw [hk.cell r hr]; exact h.core r hr
  · intro r hr
    rcases List.mem_append.mp hr with hr | hr
    · exact kids r hr
    · rw [Heap.kids, hk.cell r hr, hk.arr r hr]; exact h.kids r hr
  · intro r hr
    rcases List.mem_append.mp hr with hr | hr
    · exact len r hr
    · rw [hk.cell r hr]; exact h.len r hr
  · intro r hr
    rcases List.mem_append.mp hr with hr | hr
    · exact arrs r hr
    · rw [hk.cell r hr]; exact Nat.lt_of_lt_of_le (h.arrs r hr) hk.na
  · intro r hr q hq e
    rcases List.mem_append.mp hr with hr | hr <;> rcases List.mem_append.mp hq with hq | hq
    · exact sep r hr q hq e
    · rw [hk.cell q hq] at e; exact absurd e (away r hr q hq)
    · rw [hk.cell r hr] at e; exact absurd e.symm (away q hq r hr)
    · rw [hk.cell r hr, hk.cell q hq] at e; exact h.sep r hr q hq e

theorem Holds.head {H : Heap α} {r : Rec α} {R : List (Rec α)} (h : Holds H (r :: R)) :
    (∀ q ∈ R, q.id ≠ r.id) ∧ (∀ q ∈ R, (H.cell q.id).arr ≠ (H.cell r.id).arr) := by
  have hn := List.nodup_cons.mp h.nodup
  have h1 : ∀ q ∈ R, q.id ≠ r.id := fun q hq e => hn.1 (List.mem_map.mpr ⟨q, hq, e⟩)
  exact ⟨h1, fun q hq e => h1 q hq (h.sep q (by simp [hq]) r (by simp) e)⟩

/-- A write to the fields of a node. -/
theorem Holds.write {H : Heap α} {r : Rec α} {R : List (Rec α)} (h : Holds H (r :: R)) (c : Core α) :
    Holds (H.setCell r.id { H.cell r.id with core := c }) ({ r with core := c } :: R) ∧
      Keeps R H (H.setCell r.id { H.cell r.id with core := c }) := by
  have hh := h.head
  have hk : Keeps R H (H.setCell r.id { H.cell r.id with core := c }) :=
    ⟨fun q hq => by simp [setCell, hh.1 q hq], fun _ _ => rfl, Nat.le_refl _⟩
  refine ⟨?_, hk⟩
  refine (h.sub (List.sublist_cons_self r R)).put hk (N := [_]) ?_ ?_ ?_ ?_ ?_ ?_ ?_ ?_
  · simp [setCell, h.path r]
  · simp [setCell]
  · simp only [List.mem_singleton, forall_eq]; have := h.kids r (by simp); simpa [setCell, Heap.kids] using this
  · simp [setCell, h.len r]
  · simpa using h.nodup
  · simpa [setCell] using h.arrs r (by simp)
  · simp
  · simp only [List.mem_singleton, forall_eq]
    intro q hq e
    simp [setCell] at e
    exact hh.2 q hq e.symm

/-- A node is made. -/
theorem Holds.make {H : Heap α} {R : List (Rec α)} (h : Holds H R) (i : Nat) (hi : i ∉ R.map (·.id)) (p : Str)
    (c : Core α) (room : Nat) : Holds (H.make i p c room) (⟨i, p, c, []⟩ :: R) ∧ Keeps R H (H.make i p c room) := by
  have h1 : ∀ q ∈ R, q.id ≠ i := fun q hq e => hi (List.mem_map.mpr ⟨q, hq, e⟩)
  have hk : Keeps R H (H.make i p c room) := by
    refine ⟨fun q hq => by simp [Heap.make, setCell, setArr, h1 q hq], fun q hq => ?_, by simp [Heap.make]⟩
    have := h.arrs q hq
    have h2 : (H.cell q.id).arr ≠ H.na := by omega
    simp [Heap.make, setCell, setArr, h2]
  refine ⟨h.put hk (N := [_]) ?_ ?_ ?_ ?_ ?_ ?_ ?_ ?_, hk⟩
  · simp [Heap.make, setCell]
  · simp [Heap.make, setCell]
  · simp [Heap.make, setCell, Heap.kids]
  · simp [Heap.make, setCell]
  · simp only [List.cons_append, List.nil_append, List.map_cons, List.nodup_cons]; exact ⟨hi, h.nodup⟩
  · simp [Heap.make, setCell]
  · simp
  · simp only [List.mem_singleton, forall_eq]
    intro q hq e
    have := h.arrs q hq
    simp [Heap.make, setCell] at e
    omega

theorem take_set_len {l : List Nat} {n j : Nat} (h : n < l.length) : (l.set n j).take (n + 1) = l.take n ++ [j] := by
  rw [List.take_add_one]
  simp [List.take_set_of_le, h]

/-- A child is appended. -/
theorem Holds.append {H : Heap α} {r : Rec α} {R : List (Rec α)} (h : Holds H (r :: R)) (grow : Nat → Nat) (j : Nat) :
    Holds (H.append grow r.id j) ({ r with kids := r.kids ++ [j] } :: R) ∧ Keeps R H (H.append grow r.id j) := by
  have hh := h.head
  have hkids := h.kids r (by simp)
  have hlen := h.len r (by simp)
  have harr := h.arrs r (by simp)
  have hk : Keeps R H (H.append grow r.id j) := by
    simp only [Heap.append]
    split
    · exact ⟨fun q hq => by simp [setCell, setArr, hh.1 q hq], fun q hq => by simp [setCell, setArr, hh.2 q hq], Nat.le_refl _⟩
    · refine ⟨fun q hq => by simp [setCell, setArr, hh.1 q hq], fun q hq => ?_, by simp⟩
      have := h.arrs q (by simp [hq])
      have h2 : (H.cell q.id).arr ≠ H.na := by omega
      simp [setCell, setArr, h2]
  refine ⟨?_, hk⟩
  refine (h.sub (List.sublist_cons_self r R)).put hk (N := [_]) ?_ ?_ ?_ ?_ ?_ ?_ ?_ ?_
  · simp only [List.mem_singleton, forall_eq, Heap.append]
    split <;> simp [setCell, h.path r]
  · simp only [List.mem_singleton, forall_eq, Heap.append]
    split <;> simp [setCell, h.core r]
  · simp only [List.mem_singleton, forall_eq, Heap.append]
    split
    · rename_i hlt
      simp only [Heap.kids, setCell, setArr, if_true]
      rw [take_set_len hlt, ← hkids]; rfl
    · simp only [Heap.kids, setCell, setArr, if_true]
      have : ((H.arr (H.cell r.id).arr).take (H.cell r.id).len).length = (H.cell r.id).len := by
        have := congrArg List.length hkids
        rw [Heap.kids] at this
        rw [this, hlen]
      rw [List.take_append, this]
      have h2 : (H.cell r.id).len + 1 - (H.cell r.id).len = 1 := by omega
      rw [h2, List.take_of_length_le (by omega), ← hkids]
      rfl
  · simp only [List.mem_singleton, forall_eq, Heap.append]
    split <;> simp [setCell, hlen]
  · simpa using h.nodup
  · simp only [List.mem_singleton, forall_eq, Heap.append]
    split <;> simp [setCell, setArr, harr]
  · simp
  · simp only [List.mem_singleton, forall_eq, Heap.append]
    intro q hq
    have := h.arrs q (by simp [hq])
    split
    · simp only [setCell, if_true]; exact fun e => hh.2 q hq e.symm
    · simp only [setCell, if_true]; omega

/-- A child is removed. -/
theorem Holds.remove {H : Heap α} {r : Rec α} {R : List (Rec α)} (h : Holds H (r :: R)) (item k : Nat)
    (hi : r.kids.findIdx? (fun j => j = item) = some k) :
    Holds (H.remove r.id item) ({ r with kids := r.kids.eraseIdx k } :: R) ∧ Keeps R H (H.remove r.id item) := by
  have hh := h.head
  have hkids := h.kids r (by simp)
  have hlen := h.len r (by simp)
  have harr := h.arrs r (by simp)
  have hkl : k < r.kids.length := by
    have := List.findIdx?_eq_some_iff_getElem.mp hi
    exact this.1
  have hk : Keeps R H (H.remove r.id item) := by
    simp only [Heap.remove, hkids, hi]
    exact ⟨fun q hq => by simp [setCell, setArr, hh.1 q hq], fun q hq => by simp [setCell, setArr, hh.2 q hq], Nat.le_refl _⟩
  refine ⟨?_, hk⟩
  have hcap : r.kids.length ≤ (H.arr (H.cell r.id).arr).length := by
    rw [← hkids, Heap.kids, List.length_take]; omega
  have hed : (r.kids.eraseIdx k).length = r.kids.length - 1 := List.length_eraseIdx_of_lt hkl
  refine (h.sub (List.sublist_cons_self r R)).put hk (N := [_]) ?_ ?_ ?_ ?_ ?_ ?_ ?_ ?_
  · simp only [List.mem_singleton, forall_eq, Heap.remove, hkids, hi]; simp [setCell, h.path r]
  · simp only [List.mem_singleton, forall_eq, Heap.remove, hkids, hi]; simp [setCell, h.core r]
  · simp only [List.mem_singleton, forall_eq, Heap.remove, hkids, hi]
    simp only [Heap.kids, setCell, setArr, if_true]
    have e1 : (H.arr (H.cell r.id).arr).take k = r.kids.take k := by
      rw [← hkids, Heap.kids, List.take_take, hlen, Nat.min_eq_left (by omega)]
    rw [e1, hlen, ← List.eraseIdx_eq_take_drop_succ, List.take_append, hed, Nat.sub_self, List.take_zero,
      List.append_nil, List.take_of_length_le (by omega)]
  · simp only [List.mem_singleton, forall_eq, Heap.remove, hkids, hi]; simp [setCell, hlen, hed]
  · simpa using h.nodup
  · simp only [List.mem_singleton, forall_eq, Heap.remove, hkids, hi]; simp [setCell, setArr, harr]
  · simp
  · simp only [List.mem_singleton, forall_eq, Heap.remove, hkids, hi]
    intro q hq e
    simp only [setCell, if_true] at e
    exact hh.2 q hq e.symm

/-- A node is split. -/
theorem Holds.split [Inhabited α] {H : Heap α} {r : Rec α} {R : List (Rec α)} (h : Holds H (r :: R)) (f pos : Nat)
    (hf : f ∉ (r :: R).map (·.id)) :
    Holds (H.split f pos r.id)
      (⟨r.id, r.path.take pos,
        { Core.zero with pathS := r.core.pathS.take (r.core.pathS.length - (r.path.length - pos)) }, [f]⟩ ::
        ⟨f, r.path.drop pos, r.core, r.kids⟩ :: R) ∧ Keeps R H (H.split f pos r.id) := by
  have hh := h.head
  have hfr : r.id ≠ f := fun e => hf (by simp [e])
  have hfR : ∀ q ∈ R, q.id ≠ f := fun q hq e => hf (by rw [← e]; exact List.mem_map_of_mem (List.mem_cons_of_mem _ hq))
  have harr := h.arrs r (by simp)
  have hk : Keeps R H (H.split f pos r.id) := by
    refine ⟨fun q hq => by simp [Heap.split, setCell, setArr, hh.1 q hq, hfR q hq], fun q hq => ?_, by simp [Heap.split]⟩
    have := h.arrs q (by simp [hq])
    have h2 : (H.cell q.id).arr ≠ H.na := by omega
    simp [Heap.split, setCell, setArr, h2]
  refine ⟨?_, hk⟩
  have hne : (H.cell r.id).arr ≠ H.na := by omega
  refine (h.sub (List.sublist_cons_self r R)).put hk (N := [_, _]) ?_ ?_ ?_ ?_ ?_ ?_ ?_ ?_
  · intro q hq
    simp only [List.mem_cons, List.not_mem_nil, or_false] at hq
    rcases hq with rfl | rfl <;> simp [Heap.split, setCell, setArr, h.path r, hfr.symm]
  · intro q hq
    simp only [List.mem_cons, List.not_mem_nil, or_false] at hq
    rcases hq with rfl | rfl <;> simp [Heap.split, setCell, setArr, h.core r, h.path r, hfr.symm]
  · intro q hq
    simp only [List.mem_cons, List.not_mem_nil, or_false] at hq
    rcases hq with rfl | rfl
    · simp [Heap.split, setCell, setArr, Heap.kids]
    · simp only [Heap.split, setCell, setArr, Heap.kids, hfr.symm, if_false, if_true, hne]
      exact h.kids r (by simp)
  · intro q hq
    simp only [List.mem_cons, List.not_mem_nil, or_false] at hq
    rcases hq with rfl | rfl
    · simp [Heap.split, setCell, setArr]
    · simp [Heap.split, setCell, setArr, hfr.symm, h.len r]
  · have hn := List.nodup_cons.mp h.nodup
    simp only [List.cons_append, List.nil_append, List.map_cons, List.nodup_cons, List.mem_cons, not_or]
    simp only [List.map_cons, List.mem_cons, not_or] at hf
    exact ⟨⟨hfr, hn.1⟩, hf.2, hn.2⟩
  · intro q hq
    simp only [List.mem_cons, List.not_mem_nil, or_false] at hq
    rcases hq with rfl | rfl
    · simp [Heap.split, setCell, setArr]
    · simp [Heap.split, setCell, setArr, hfr.symm]; omega
  · intro q hq s hs
    simp only [List.mem_cons, List.not_mem_nil, or_false] at hq hs
    rcases hq with rfl | rfl <;> rcases hs with rfl | rfl
    · simp
    · simp [Heap.split, setCell, setArr, hfr.symm]; omega
    · simp [Heap.split, setCell, setArr, hfr.symm]; omega
    · simp
  · intro q hq s hs
    have := h.arrs s (by simp [hs])
    simp only [List.mem_cons, List.not_mem_nil, or_false] at hq
    rcases hq with rfl | rfl
    · simp [Heap.split, setCell, setArr]; omega
    · simp only [Heap.split, setCell, setArr, hfr.symm, if_false, if_true]
      exact fun e => hh.2 s hs e.symm

end Heap

namespace Node
variable {α : Type} [Inhabited α]

theorem insKids_cases (ins : Node α → Ins α) (fresh : Nat) (w : Str) (ps : List UInt8) (v : α) (k : List (Node α)) :
    (∃ pre c post, k = pre ++ c :: post ∧ (∀ d ∈ pre, d.path.head? ≠ w.head?) ∧ c.path.head? = w.head? ∧
      (insKids ins fresh w ps v k).kids = pre ++ (ins c).tree :: post) ∨
    ((∀ d ∈ k, d.path.head? ≠ w.head?) ∧
      (insKids ins fresh w ps v k).kids = k ++ [newLeaf (fresh + 1) w ps v]) := by
  induction k with
  | nil => exact .inr ⟨by simp, rfl⟩
  | cons c cs ih =>
    rw [insKids]
    by_cases hh : c.path.head? = w.head?
    · rw [if_pos hh]
      exact .inl ⟨[], c, cs, rfl, by simp, hh, rfl⟩
    · rw [if_neg hh]
      rcases ih with ⟨pre, d, post, rfl, h1, h2, h3⟩ | ⟨h1, h2⟩
      · refine .inl ⟨c :: pre, d, post, rfl, ?_, h2, ?_⟩
        · intro x hx
          rcases List.mem_cons.mp hx with rfl | hx
          · exact hh
          · exact h1 x hx
        · simp only [h3, List.cons_append]
      · refine .inr ⟨?_, ?_⟩
        · intro x hx
          rcases List.mem_cons.mp hx with rfl | hx
          · exact hh
          · exact h1 x hx
        · simp only [h2, List.cons_append]

theorem recs_split (f pos : Nat) (n : Node α) : recs (split f pos n) =
    ⟨n.id, n.path.take pos, { Core.zero with pathS := n.core.pathS.take (n.core.pathS.length - (n.path.length - pos)) }, [f]⟩ ::
      ⟨f, n.path.drop pos, n.core, n.kids.map id⟩ :: recsL n.kids := by
  obtain ⟨i, p, c, k⟩ := n
  simp [split, recs, recsL]

theorem recs_newLeaf (f : Nat) (w : Str) (ps : List UInt8) (v : α) :
    recs (newLeaf f w ps v) = [⟨f, w, leafCore ps v, []⟩] := by
  simp [newLeaf, recs, recsL, leafCore]

end Node

namespace Heap
variable {α : Type} [Inhabited α]

omit [Inhabited α] in
theorem mem_recs_self (n : Node α) : n.toRec ∈ n.recs := by rw [Node.recs_eq]; simp

/-- A leaf is added below a node. -/
theorem Holds.leaf {H : Heap α} {n : Node α} {R : List (Rec α)} (h : Holds H (n.recs ++ R)) (grow : Nat → Nat)
    (f : Nat) (hf : f + 1 ∉ (n.recs ++ R).map (·.id)) (w : Str) (ps : List UInt8) (v : α) :
    Holds (H.leaf grow f n.id w ps v)
      ((Node.mk n.id n.path n.core (n.kids ++ [Node.newLeaf (f + 1) w ps v])).recs ++ R) ∧
    Keeps R H (H.leaf grow f n.id w ps v) := by
  obtain ⟨h1, k1⟩ := h.make (f + 1) hf w (Node.leafCore ps v) 0
  rw [Node.recs_eq] at h1 k1
  have h2 := h1.perm (M := n.toRec :: ⟨f + 1, w, Node.leafCore ps v, []⟩ :: (Node.recsL n.kids ++ R))
    (by simp only [List.cons_append]; exact List.Perm.swap ..)
  obtain ⟨h3, k3⟩ := h2.append grow (f + 1)
  refine ⟨?_, ?_⟩
  · refine h3.perm ?_
    rw [Node.recs_eq]
    simp only [Node.toRec, Node.id_mk, Node.path_mk, Node.core_mk, Node.kids_mk, Node.recsL_append, Node.recsL,
      Node.recs_newLeaf, List.map_append, List.map_cons, List.map_nil, List.cons_append, List.append_assoc, List.nil_append]
    refine List.Perm.cons _ ?_
    exact List.perm_middle.symm
  · refine (k1.mono (fun r hr => by simp [hr])).trans (k3.mono (fun r hr => by simp [hr]))

omit [Inhabited α] in
theorem find_kids {H : Heap α} {w : Str} {k : List (Node α)} (hp : ∀ c ∈ k, (H.cell c.id).path = c.path) :
    (k.map Node.id).find? (fun j => (H.cell j).path.head? = w.head?) =
      (k.find? (fun c => c.path.head? = w.head?)).map Node.id := by
  induction k with
  | nil => rfl
  | cons c cs ih =>
    simp only [List.map_cons, List.find?_cons, hp c (by simp)]
    split
    · rfl
    · exact ih (fun d hd => hp d (by simp [hd]))

omit [Inhabited α] in
theorem mem_recsL {k : List (Node α)} {c : Node α} (hc : c ∈ k) : c.toRec ∈ Node.recsL k := by
  obtain ⟨pre, post, rfl⟩ := List.append_of_mem hc
  rw [Node.recsL_append, Node.recsL, Node.recs_eq]; simp

/-- Insertion in memory is insertion in the tree, and touches nothing else. -/
theorem insert_holds (grow : Nat → Nat) (fresh : Nat) (ps : List UInt8) (v : α) (fuel : Nat) :
    ∀ (word : Str) (n : Node α) (H : Heap α) (R : List (Rec α)), Holds H (n.recs ++ R) →
      fresh ∉ (n.recs ++ R).map (·.id) → fresh + 1 ∉ (n.recs ++ R).map (·.id) →
      Holds (insert grow fresh ps v fuel word n.id H) ((Node.insertFuel fresh ps v fuel word n).tree.recs ++ R) ∧
      Keeps R H (insert grow fresh ps v fuel word n.id H) ∧
      (Node.insertFuel fresh ps v fuel word n).tree.id = n.id := by
  induction fuel with
  | zero => intro word n H R h _ _; exact ⟨h, Keeps.refl R H, rfl⟩
  | succ fuel ih =>
    intro word n H R h hf hf1
    have hrec : n.toRec ∈ n.recs ++ R := List.mem_append_left _ (mem_recs_self n)
    have hpath : (H.cell n.id).path = n.path := h.path _ hrec
    have hcore : (H.cell n.id).core = n.core := h.core _ hrec
    have hlen : (H.cell n.id).len = n.kids.length := by
      have := h.len _ hrec
      rw [show n.toRec.id = n.id from rfl, show n.toRec.kids = n.kids.map Node.id from rfl] at this
      simpa using this
    rw [insert, Node.insertFuel]
    simp only [hpath, hlen]
    by_cases hearly : n.path.length = 0 ∧ word.length > 0 ∧ n.kids.length = 0
    · rw [if_pos hearly, if_pos hearly]
      obtain ⟨h1, k1⟩ := h.leaf grow fresh hf1 word ps v
      exact ⟨h1, k1, rfl⟩
    · rw [if_neg hearly, if_neg hearly]
      have hmax : ∀ pos, pos = (if n.path.length > 0 ∧ word.length > 0 then Node.commonPrefixLen word n.path else 0) →
          pos < n.path.length → pos < word.length → (n.path.drop pos).head? ≠ (word.drop pos).head? := by
        intro pos hpos h1 h2
        have hc : n.path.length > 0 ∧ word.length > 0 := ⟨by omega, by omega⟩
        rw [if_pos hc] at hpos
        obtain ⟨s, x, y, ha, hb, hc, hd⟩ := Node.commonPrefixLen_spec word n.path
        rw [hc] at hpos
        have e1 : n.path.drop pos = y := by rw [hpos, hb]; simp
        have e2 : word.drop pos = x := by rw [hpos, ha]; simp
        rw [e1, e2]
        rcases hd with rfl | rfl | ⟨p, q, x', y', rfl, rfl, hpq⟩
        · rw [ha, hpos] at h2; simp at h2
        · rw [hb, hpos] at h1; simp at h1
        · simp; exact fun e => hpq e.symm
      generalize hpos : (if n.path.length > 0 ∧ word.length > 0 then Node.commonPrefixLen word n.path else 0) = pos at hmax ⊢
      have hmax := hmax pos rfl
      -- after the split
      have hbase : ∀ base H1, base = (if pos < n.path.length then Node.split fresh pos n else n) →
          H1 = (if pos < n.path.length then H.split fresh pos n.id else H) →
          Holds H1 (base.recs ++ R) ∧ Keeps R H H1 ∧ base.id = n.id ∧ fresh + 1 ∉ (base.recs ++ R).map (·.id) := by
        intro base H1 hb hH
        by_cases hlt : pos < n.path.length
        · rw [if_pos hlt] at hb hH
          subst hb hH
          have h0 := h
          rw [Node.recs_eq, List.cons_append] at h0
          have hf0 := hf
          rw [Node.recs_eq, List.cons_append] at hf0
          obtain ⟨h1, k1⟩ := h0.split fresh pos hf0
          refine ⟨?_, k1.mono (fun r hr => by simp [hr]), Node.split_id .., ?_⟩
          · rw [Node.recs_split]; exact h1
          · rw [Node.recs_split]
            rw [Node.recs_eq] at hf1
            simp only [List.cons_append, List.map_cons, List.mem_cons, not_or] at hf1 ⊢
            exact ⟨hf1.1, by omega, hf1.2⟩
        · rw [if_neg hlt] at hb hH
          subst hb hH
          exact ⟨h, Keeps.refl R _, rfl, hf1⟩
      have hkey : pos < n.path.length → pos < word.length →
          ∀ c ∈ (if pos < n.path.length then Node.split fresh pos n else n).kids, c.path.head? ≠ (word.drop pos).head? := by
        intro h1 h2 c hc
        rw [if_pos h1, Node.split_kids] at hc
        simp only [List.mem_singleton] at hc
        subst hc
        exact hmax h1 h2
      have hsame : ¬ pos < n.path.length → (if pos < n.path.length then Node.split fresh pos n else n) = n := fun h => if_neg h
      have hb := hbase _ _ rfl rfl
      generalize (if pos < n.path.length then Node.split fresh pos n else n) = base at hb hkey hsame ⊢
      generalize (if pos < n.path.length then H.split fresh pos n.id else H) = H1 at hb ⊢
      obtain ⟨h1, k1, hid, hf1'⟩ := hb
      have hrec1 : base.toRec ∈ base.recs ++ R := List.mem_append_left _ (mem_recs_self base)
      rw [← hid]
      by_cases hlt : pos < word.length
      · rw [if_pos hlt, if_pos hlt]
        have hkids : H1.kids base.id = base.kids.map Node.id := h1.kids _ hrec1
        have hpk : ∀ c ∈ base.kids, (H1.cell c.id).path = c.path := by
          intro c hc
          refine h1.path c.toRec (List.mem_append_left _ ?_)
          rw [Node.recs_eq]
          exact List.mem_cons_of_mem _ (mem_recsL hc)
        rw [hkids, find_kids hpk]
        rcases Node.insKids_cases (Node.insertFuel fresh ps v fuel (word.drop pos)) fresh (word.drop pos) ps v base.kids with
          ⟨pre, c, post, hk, hpre, hc, hres⟩ | ⟨hno, hres⟩
        · have hfind : base.kids.find? (fun c => c.path.head? = (word.drop pos).head?) = some c := by
            rw [hk]
            rw [List.find?_append]
            have : pre.find? (fun c => decide (c.path.head? = (word.drop pos).head?)) = none := by
              simp only [List.find?_eq_none]
              intro x hx; simpa using hpre x hx
            rw [this]
            simp [hc]
          simp only [hfind, Option.map_some, hres]
          have hns : ¬ pos < n.path.length := fun h => hkey h hlt c (by rw [hk]; simp) hc
          obtain rfl := hsame hns
          have hperm : (base.recs ++ R).Perm (c.recs ++ (base.toRec :: (Node.recsL pre ++ Node.recsL post) ++ R)) := by
            rw [Node.recs_eq, hk, Node.recsL_append, Node.recsL]
            simp only [List.cons_append, List.append_assoc]
            refine List.Perm.trans ?_ List.perm_middle.symm
            refine List.Perm.cons _ ?_
            rw [← List.append_assoc, ← List.append_assoc c.recs]
            exact List.perm_append_comm.append_right _
          obtain ⟨h2, k2, hid2⟩ := ih (word.drop pos) c H1 _ (h1.perm hperm)
            (fun hm => hf ((hperm.map _).mem_iff.mpr hm)) (fun hm => hf1 ((hperm.map _).mem_iff.mpr hm))
          refine ⟨?_, k1.trans (k2.mono (fun r hr => by simp [hr])), rfl⟩
          refine h2.perm ?_
          rw [Node.recs_eq (Node.mk ..)]
          have e : (Node.mk base.id base.path base.core (pre ++ (Node.insertFuel fresh ps v fuel (word.drop pos) c).tree :: post)).toRec
              = base.toRec := by
            simp [Node.toRec, hk, hid2]
          rw [e, Node.kids_mk, Node.recsL_append, Node.recsL]
          simp only [List.cons_append, List.append_assoc]
          refine List.perm_middle.trans ?_
          refine List.Perm.cons _ ?_
          rw [← List.append_assoc, ← List.append_assoc (Node.recsL pre)]
          exact List.perm_append_comm.append_right _
        · have hfind : base.kids.find? (fun c => c.path.head? = (word.drop pos).head?) = none := by
            simp only [List.find?_eq_none]
            intro x hx; simpa using hno x hx
          simp only [hfind, Option.map_none, hres]
          obtain ⟨h2, k2⟩ := h1.leaf grow fresh hf1' (word.drop pos) ps v
          exact ⟨h2, k1.trans k2, rfl⟩
      · rw [if_neg hlt, if_neg hlt]
        have h2 := h1
        rw [Node.recs_eq, List.cons_append] at h2
        obtain ⟨h3, k3⟩ := h2.write { (H1.cell base.id).core with hasData := true, data := v }
        have hc1 : (H1.cell base.id).core = base.core := h1.core _ hrec1
        refine ⟨?_, k1.trans (k3.mono (fun r hr => by simp [hr])), rfl⟩
        rw [Node.recs_eq (Node.mk ..), List.cons_append]
        simp only [hc1] at h3 ⊢
        exact h3

end Heap
end Verif

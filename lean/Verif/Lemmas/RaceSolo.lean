import Verif.Lemmas.Race
/-
Insertion with a program counter: what one goroutine does when it runs alone.
-/
namespace Verif
namespace Race
variable {α : Type} [Inhabited α]

open Node (commonPrefixLen)

/-! ### `insertInternal`, one level at a time -/

theorem insKids_pass (ins : Node α → Node.Ins α) (f : Nat) (w : Str) (ps : List UInt8) (v : α) (pre : List (Node α))
    (c : Node α) (post : List (Node α)) (hpre : ∀ d ∈ pre, d.path.head? ≠ w.head?) (hc : c.path.head? = w.head?) :
    (Node.insKids ins f w ps v (pre ++ c :: post)).kids = pre ++ (ins c).tree :: post := by
  induction pre with
  | nil => simp [Node.insKids, hc]
  | cons a as ih =>
    rw [List.cons_append, Node.insKids, if_neg (hpre a (by simp))]
    simp only [List.cons_append, ih (fun d hd => hpre d (by simp [hd]))]

theorem insKids_stop (ins : Node α → Node.Ins α) (f : Nat) (w : Str) (ps : List UInt8) (v : α) (k : List (Node α))
    (h : ∀ d ∈ k, d.path.head? ≠ w.head?) :
    (Node.insKids ins f w ps v k).kids = k ++ [Node.newLeaf (f + 1) w ps v] := by
  induction k with
  | nil => rfl
  | cons a as ih =>
    rw [Node.insKids, if_neg (h a (by simp))]
    simp only [List.cons_append, ih (fun d hd => h d (by simp [hd]))]

theorem insertFuel_pass (f : Nat) (ps : List UInt8) (v : α) (fuel : Nat) {w : Str} {n c : Node α}
    {pre post : List (Node α)} (hp : n.path <+: w) (hl : n.path.length < w.length) (hk : n.kids = pre ++ c :: post)
    (hpre : ∀ d ∈ pre, d.path.head? ≠ (w.drop n.path.length).head?)
    (hc : c.path.head? = (w.drop n.path.length).head?) :
    (Node.insertFuel f ps v (fuel + 1) w n).tree =
      .mk n.id n.path n.core (pre ++ (Node.insertFuel f ps v fuel (w.drop n.path.length) c).tree :: post) := by
  have hcpl : (if n.path.length > 0 ∧ w.length > 0 then commonPrefixLen w n.path else 0) = n.path.length := by
    have := cplOf_eq w n.path
    rw [cplOf] at this
    exact this.trans (cpl_prefix hp)
  rw [Node.insertFuel, if_neg (by rw [hk]; simp)]
  simp only [hcpl, Nat.lt_irrefl, if_false, hl, if_true]
  rw [hk, insKids_pass _ _ _ _ _ pre c post hpre hc]

/-- What the insertion does where it stops. -/
def local_ (f : Nat) (ps : List UInt8) (v : α) (w : Str) (m : Node α) : Node α :=
  let b := if commonPrefixLen w m.path < m.path.length then Node.split f (commonPrefixLen w m.path) m else m
  if commonPrefixLen w m.path < w.length then
    .mk b.id b.path b.core (b.kids ++ [Node.newLeaf (f + 1) (w.drop (commonPrefixLen w m.path)) ps v])
  else .mk b.id b.path { b.core with hasData := true, data := v } b.kids

theorem insertFuel_stop (f : Nat) (ps : List UInt8) (v : α) (fuel : Nat) {w : Str} {m : Node α} (hs : Stop w m) :
    (Node.insertFuel f ps v (fuel + 1) w m).tree = local_ f ps v w m := by
  have hcpl : (if m.path.length > 0 ∧ w.length > 0 then commonPrefixLen w m.path else 0) = commonPrefixLen w m.path :=
    cplOf_eq w m.path
  rw [Node.insertFuel]
  by_cases hl : m.path.length = 0 ∧ w.length > 0 ∧ m.kids.length = 0
  · have hp : m.path = [] := List.eq_nil_of_length_eq_zero hl.1
    have hc0 : commonPrefixLen w m.path = 0 := by rw [hp]; cases w <;> rfl
    rw [if_pos hl, local_]
    simp [hc0, hl.2.1, hl.1]
  · rw [if_neg hl]
    simp only [hcpl]
    rw [local_]
    by_cases hw : commonPrefixLen w m.path < w.length
    · simp only [hw, if_true]
      congr 1
      refine insKids_stop _ _ _ _ _ _ ?_
      by_cases hp : commonPrefixLen w m.path < m.path.length
      · simp only [hp, if_true, Node.split_kids]
        intro d hd
        simp only [List.mem_singleton] at hd
        subst hd
        exact cpl_part hw hp
      · have hp' := prefix_cpl hp
        have he := cpl_prefix hp'
        rw [he] at hw
        simp only [he, Nat.lt_irrefl, if_false]
        exact hs.kids hp' hw
    · simp only [hw, if_false]

/-! ### The memory at the end of an insertion -/

/-- The receiver after the first `k` assignments of `split`. -/
def cutTo (f pos d : Nat) : Nat → Cell α → Cell α
  | 0, s => s
  | k + 1, s => assign f pos d k (cutTo f pos d k s)

/-- The memory when `split`, if any, is over. -/
def base (J : Job α) (M : Mem α) (i : Nat) (w : Str) : Mem α :=
  let s := M i
  let pos := commonPrefixLen w s.path
  if pos < s.path.length then
    (M.set J.fresh (lower pos s)).set i (cutTo J.fresh pos (s.path.length - pos) 8 s)
  else M

/-- The memory when the insertion is over. -/
def final (J : Job α) (M : Mem α) (i : Nat) (w : Str) : Mem α :=
  let B := base J M i w
  let pos := commonPrefixLen w (M i).path
  if pos < w.length then
    (B.set (J.fresh + 1) (leafCell (w.drop pos) J)).set i { B i with kids := (B i).kids ++ [J.fresh + 1] }
  else B.set i { B i with core := { (B i).core with hasData := true, data := J.val } }

omit [Inhabited α] in
theorem set_eq (M : Mem α) (i : Nat) (c : Cell α) : M.set i c i = c := by simp [Mem.set]
omit [Inhabited α] in
theorem set_ne (M : Mem α) {i j : Nat} (c : Cell α) (h : j ≠ i) : M.set i c j = M j := by simp [Mem.set, h]

theorem base_out (J : Job α) (M : Mem α) (i : Nat) (w : Str) {x : Nat} (h1 : x ≠ i) (h2 : x ≠ J.fresh) :
    base J M i w x = M x := by
  rw [base]
  split
  · rw [set_ne _ _ h1, set_ne _ _ h2]
  · rfl

theorem final_out (J : Job α) (M : Mem α) (i : Nat) (w : Str) {x : Nat} (h1 : x ≠ i) (h2 : x ≠ J.fresh)
    (h3 : x ≠ J.fresh + 1) : final J M i w x = M x := by
  rw [final]
  split
  · rw [set_ne _ _ h1, set_ne _ _ h3, base_out J M i w h1 h2]
  · rw [set_ne _ _ h1, base_out J M i w h1 h2]

/-- At the end the memory holds what the insertion makes of the node where it stops. -/
theorem final_holds (J : Job α) (M : Mem α) {m : Node α} (h : Holds M m) (hnd : m.ids.Nodup)
    (hf : J.fresh ∉ m.ids) (hf' : J.fresh + 1 ∉ m.ids) (w : Str) :
    Holds (final J M m.id w) (local_ J.fresh (utf8 J.key) J.val w m) := by
  have hc := h.cell
  have hi : m.id ≠ J.fresh := fun e => hf (e ▸ id_ids m)
  have hi' : m.id ≠ J.fresh + 1 := fun e => hf' (e ▸ id_ids m)
  rw [Node.ids_cons, List.nodup_cons] at hnd
  -- the children are not touched
  have hkid : ∀ c ∈ m.kids, Holds (final J M m.id w) c := by
    intro c hc
    refine (h.kid hc).frame fun x hx => ?_
    refine final_out J M m.id w ?_ ?_ ?_
    · rintro rfl; exact hnd.1 (List.mem_flatMap.mpr ⟨c, hc, hx⟩)
    · rintro rfl; exact hf (kid_ids hc hx)
    · rintro rfl; exact hf' (kid_ids hc hx)
  have hpath : (M m.id).path = m.path := by rw [hc]
  -- the lower half, when there is one
  have hlow : commonPrefixLen w m.path < m.path.length →
      Holds (final J M m.id w) (.mk J.fresh (m.path.drop (commonPrefixLen w m.path)) m.core m.kids) := by
    intro hlt
    refine .mk ?_ hkid
    have hb : base J M m.id w J.fresh = ⟨m.path.drop (commonPrefixLen w m.path), m.core, m.kids.map Node.id⟩ := by
      rw [base]
      simp only [hpath, hlt, if_true]
      rw [set_ne _ _ (Ne.symm hi), set_eq, hc, lower]
    rw [final]
    split
    · rw [set_ne _ _ (Ne.symm hi), set_ne _ _ (by omega), hb]
    · rw [set_ne _ _ (Ne.symm hi), hb]
  have hbase : base J M m.id w m.id =
      (let b := if commonPrefixLen w m.path < m.path.length then Node.split J.fresh (commonPrefixLen w m.path) m else m
       ⟨b.path, b.core, b.kids.map Node.id⟩) := by
    rw [base]
    simp only [hpath]
    by_cases hlt : commonPrefixLen w m.path < m.path.length
    · simp only [hlt, if_true, set_eq, hc, Node.split_path, Node.split_core, Node.split_kids]
      rfl
    · simp only [hlt, if_false, hc]
  have hkidb : ∀ c ∈ (if commonPrefixLen w m.path < m.path.length then Node.split J.fresh (commonPrefixLen w m.path) m else m).kids,
      Holds (final J M m.id w) c := by
    by_cases hlt : commonPrefixLen w m.path < m.path.length
    · simp only [hlt, if_true, Node.split_kids, List.mem_singleton]
      rintro c rfl
      exact hlow hlt
    · simp only [hlt, if_false]
      exact hkid
  have hid : (if commonPrefixLen w m.path < m.path.length then Node.split J.fresh (commonPrefixLen w m.path) m else m).id = m.id := by
    split
    · exact Node.split_id ..
    · rfl
  rw [local_]
  by_cases hw : commonPrefixLen w m.path < w.length
  · simp only [hw, if_true]
    refine .mk ?_ ?_
    · rw [hid, final]
      simp only [hpath, hw, if_true, set_eq, hbase, List.map_append]
      rfl
    · intro c hcm
      rcases List.mem_append.mp hcm with hcm | hcm
      · exact hkidb c hcm
      · simp only [List.mem_singleton] at hcm
        subst hcm
        refine .mk ?_ (by simp)
        rw [final]
        simp only [hpath, hw, if_true]
        rw [set_ne _ _ (Ne.symm hi'), set_eq]
        rfl
  · simp only [hw, if_false]
    refine .mk ?_ hkidb
    rw [hid, final]
    simp only [hpath, hw, if_false, set_eq, hbase]

/-- The whole tree, when the goroutine is alone. -/
theorem insert_holds (J : Job α) {M M' : Mem α} {n : Node α} {w : Str} {m : Node α} {w' : Str} (hg : Goes n w m w')
    (hs : Stop w' m) (hn : Holds M n) (hnd : n.ids.Nodup)
    (hout : ∀ x, x ≠ m.id → x ∈ n.ids → M' x = M x)
    (hm : Holds M' (local_ J.fresh (utf8 J.key) J.val w' m)) {fuel : Nat}
    (hfuel : n.WF ∧ (n.path = [] ∧ w.length + 2 ≤ fuel ∨ n.path ≠ [] ∧ w.length + 1 ≤ fuel)) :
    Holds M' (Node.insertFuel J.fresh (utf8 J.key) J.val fuel w n).tree := by
  induction hg generalizing fuel with
  | here n w =>
    obtain ⟨fuel, rfl⟩ : ∃ k, fuel = k + 1 := ⟨fuel - 1, by omega⟩
    rw [insertFuel_stop _ _ _ _ hs]
    exact hm
  | @down n w c m w' hp hg ih =>
    obtain ⟨fuel, rfl⟩ : ∃ k, fuel = k + 1 := ⟨fuel - 1, by omega⟩
    have hcm := hp.mem
    obtain ⟨h1, h2, pre, post, h3, h4, h5⟩ := hp
    rw [insertFuel_pass _ _ _ _ h1 h2 h3 h4 h5]
    rw [Node.ids_cons, List.nodup_cons] at hnd
    have hwn := (Node.wf_iff n).mp hfuel.1
    have hmc : m.id ∈ c.ids := hg.ids (id_ids m)
    have hmk : m.id ∈ n.kids.flatMap Node.ids := List.mem_flatMap.mpr ⟨c, hcm, hmc⟩
    have htid : (Node.insertFuel J.fresh (utf8 J.key) J.val fuel (w.drop n.path.length) c).tree.id = c.id := by
      refine (Node.insertFuel_ok J.fresh (utf8 J.key) J.val fuel _ c [] (hwn.2 c hcm).2 (.inr ⟨?_, (hwn.2 c hcm).1, h5, ?_⟩)).id
      · intro e
        have := congrArg List.length e
        rw [List.length_drop] at this
        simp at this; omega
      · rw [List.length_drop]
        rcases hfuel.2 with ⟨h, h'⟩ | ⟨h, h'⟩
        · rw [h]; simp; omega
        · have := List.length_pos_iff.mpr h; omega
    refine .mk ?_ ?_
    · rw [hout n.id ?_ (id_ids n), hn.cell, h3]
      · simp only [List.map_append, List.map_cons, htid]
      · intro e; exact hnd.1 (e ▸ hmk)
    · intro d hd
      have hother : ∀ d ∈ n.kids, d ≠ c → Holds M' d := by
        intro d hd hne
        refine (hn.kid hd).frame fun x hx => hout x ?_ (kid_ids hd hx)
        rintro rfl
        exact hne (Node.ids_kids_disjoint hnd.2 hd hcm hx hmc)
      have hdc : ∀ d, d ∈ pre ∨ d ∈ post → d ≠ c := by
        intro d hd e
        have hn1 := hnd.2
        rw [h3, List.flatMap_append, List.flatMap_cons, List.nodup_append, List.nodup_append] at hn1
        rcases hd with hd | hd
        · exact hn1.2.2 c.id (List.mem_flatMap.mpr ⟨d, hd, e ▸ id_ids _⟩) c.id
            (List.mem_append_left _ (id_ids c)) rfl
        · exact hn1.2.1.2.2 c.id (id_ids c) c.id (List.mem_flatMap.mpr ⟨d, hd, e ▸ id_ids _⟩) rfl
      rcases List.mem_append.mp hd with hd | hd
      · exact hother d (by rw [h3]; simp [hd]) (hdc d (.inl hd))
      · rcases List.mem_cons.mp hd with rfl | hd
        · refine ih hs (hn.kid hcm) (Node.ids_nodup_kid hnd.2 hcm)
            (fun x h1 h2 => hout x h1 (kid_ids hcm h2)) hm ⟨(hwn.2 c hcm).2, .inr ⟨(hwn.2 c hcm).1, ?_⟩⟩
          rw [List.length_drop]
          rcases hfuel.2 with ⟨h, h'⟩ | ⟨h, h'⟩
          · rw [h]; simp; omega
          · have := List.length_pos_iff.mpr h; omega
        · exact hother d (by rw [h3]; simp [hd]) (hdc d (.inr hd))

end Race
end Verif

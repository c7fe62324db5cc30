import Verif.Model.Dump
import Verif.Props.Entry
/-
C50: Dump.
-/
namespace Verif
variable {α : Type}

/-- How many of the paths are proper prefixes of `q`. -/
def depthOf (l : List Str) (q : Str) : Nat := (l.filter (fun k => decide (k <+: q ∧ k ≠ q))).length

namespace Node

mutual
/-- `nodes` with depths. -/
def nodesD (u : Str) (lvl : Nat) : Node α → List (Nat × Str × Node α)
  | mk i p c k => (lvl, u ++ p, mk i p c k) :: nodesDL (u ++ p) (lvl + 1) k
def nodesDL (u : Str) (lvl : Nat) : List (Node α) → List (Nat × Str × Node α)
  | [] => []
  | n :: ns => nodesD u lvl n ++ nodesDL u lvl ns
end

theorem nodesDL_eq (u : Str) (lvl : Nat) (k : List (Node α)) : nodesDL u lvl k = k.flatMap (nodesD u lvl) := by
  induction k with
  | nil => rfl
  | cons a as ih => simp [nodesDL, ih]

theorem dumpRL_eq (f : DumpFmt α) (nc : Bool) (lvl : Nat) (k : List (Node α)) : dumpRL f nc lvl k = k.flatMap (dumpR f nc lvl) := by
  induction k with
  | nil => rfl
  | cons a as ih => simp [dumpRL, ih]

theorem flatMap_congr' {β γ : Type} {l : List β} {f g : β → List γ} (h : ∀ x ∈ l, f x = g x) : l.flatMap f = l.flatMap g := by
  induction l with
  | nil => rfl
  | cons a as ih =>
    rw [List.flatMap_cons, List.flatMap_cons, h a (by simp), ih (fun x hx => h x (by simp [hx]))]

theorem dumpR_eq (f : DumpFmt α) (nc : Bool) (u : Str) (lvl : Nat) (n : Node α) :
    dumpR f nc lvl n = (nodesD u lvl n).flatMap (fun x => dumpLine f nc x.1 x.2.2) := by
  induction n using ind generalizing u lvl with
  | h i p c k ih =>
    rw [dumpR, nodesD, List.flatMap_cons, dumpRL_eq, nodesDL_eq, List.flatMap_assoc]
    congr 1
    exact flatMap_congr' (fun x hx => ih x hx (u ++ p) (lvl + 1))

theorem nodesD_map (u : Str) (lvl : Nat) (n : Node α) : (nodesD u lvl n).map (·.2) = nodes u n := by
  induction n using ind generalizing u lvl with
  | h i p c k ih =>
    rw [nodesD, nodes, List.map_cons, nodesDL_eq, nodesL_eq, List.map_flatMap]
    congr 1
    exact flatMap_congr' (fun x hx => ih x hx (u ++ p) (lvl + 1))

theorem filter_none {β : Type} {p : β → Bool} {l : List β} (h : ∀ x ∈ l, p x = false) : l.filter p = [] := by
  rw [List.filter_eq_nil_iff]; intro x hx; simp [h x hx]

theorem suffix_of_mem_nodes {u : Str} {n : Node α} {q m} (h : (q, m) ∈ nodes u n) : m.path <:+ q := by
  induction n using ind generalizing u with
  | h i p c k ih =>
    rw [mem_nodes] at h
    rcases h with h | ⟨y, hy, h⟩
    · simp only [Prod.mk.injEq] at h
      rw [h.1, h.2]; exact List.suffix_append ..
    · exact ih y hy h

theorem path_ne_of_mem_nodes {u : Str} {n : Node α} (hw : n.WF) {q m} (h : (q, m) ∈ nodes u n) : (q = u ++ n.path ∧ m = n) ∨ m.path ≠ [] := by
  induction n using ind generalizing u with
  | h i p c k ih =>
    rw [mem_nodes] at h
    rcases h with h | ⟨y, hy, h⟩
    · simp only [Prod.mk.injEq] at h
      exact .inl h
    · have hwk := ((wf_mk ..).mp hw).2 y hy
      rcases ih y hy hwk.2 h with ⟨-, rfl⟩ | h1
      · exact .inr hwk.1
      · exact .inr h1

/-- In a radix tree the depth of a node is the number of entries that are proper prefixes of its path. -/
theorem nodesD_depth {u : Str} {lvl : Nat} {n : Node α} (hw : n.WF) {x} (hx : x ∈ nodesD u lvl n) :
    x.1 = lvl + depthOf ((nodes u n).map (·.1)) x.2.1 := by
  induction n using ind generalizing u lvl with
  | h i p c k ih =>
    have hwk := (wf_mk ..).mp hw
    rw [nodesD, List.mem_cons, nodesDL_eq, List.mem_flatMap] at hx
    rw [nodes, nodesL_eq]
    rcases hx with rfl | ⟨y, hy, hx⟩
    · -- the node itself: nothing above it
      simp only [depthOf, List.map_cons, List.filter_cons, ne_eq, not_true_eq_false, and_false, decide_false, Bool.false_eq_true, if_false]
      rw [filter_none]; · rfl
      intro q hq
      simp only [List.map_flatMap, List.mem_flatMap, List.mem_map] at hq
      obtain ⟨z, hz, ⟨q', m⟩, hm, rfl⟩ := hq
      have h1 := prefix_of_mem_nodes hm
      have h2 := h1.length_le
      have h3 : 0 < z.path.length := List.length_pos_iff.mpr (hwk.2 z hz).1
      simp only [decide_eq_false_iff_not, not_and]
      intro h4
      have h5 := h4.length_le
      simp only [List.length_append] at h2 h5
      omega
    · have hmem : (x.2.1, x.2.2) ∈ nodes (u ++ p) y := by
        rw [← nodesD_map (u ++ p) (lvl + 1) y]; exact List.mem_map.mpr ⟨x, hx, rfl⟩
      have hpre := prefix_of_mem_nodes hmem
      have hyne := (hwk.2 y hy).1
      rw [ih y hy (hwk.2 y hy).2 hx]
      -- split the children around y
      obtain ⟨l1, l2, hk⟩ := List.append_of_mem hy
      have hnd := hwk.1
      rw [hk] at hnd
      simp only [List.map_append, List.map_cons] at hnd
      have hother : ∀ z ∈ l1 ++ l2, ∀ q ∈ (nodes (u ++ p) z).map (·.1), decide (q <+: x.2.1 ∧ q ≠ x.2.1) = false := by
        intro z hz q hq
        obtain ⟨⟨q', m⟩, hm, rfl⟩ := List.mem_map.mp hq
        have h1 := prefix_of_mem_nodes hm
        have hzk : z ∈ k := by rw [hk]; simp only [List.mem_append, List.mem_cons] at hz ⊢; exact hz.imp (fun h => h) .inr
        have hzne := (hwk.2 z hzk).1
        have hd : z.path.head? ≠ y.path.head? := by
          rw [List.nodup_append] at hnd
          rcases List.mem_append.mp hz with hz | hz
          · exact hnd.2.2 _ (List.mem_map.mpr ⟨z, hz, rfl⟩) _ (by simp)
          · have := (List.nodup_cons.mp hnd.2.1).1
            intro e; exact this (e ▸ List.mem_map.mpr ⟨z, hz, rfl⟩)
        simp only [decide_eq_false_iff_not, not_and]
        intro h2
        exfalso
        obtain ⟨a, ha⟩ := h1.trans h2
        obtain ⟨b, hb⟩ := hpre
        obtain ⟨za, zs, hzp⟩ := List.exists_cons_of_ne_nil hzne
        obtain ⟨ya, ys, hyp⟩ := List.exists_cons_of_ne_nil hyne
        rw [← hb, hzp, hyp, List.append_assoc (u ++ p), List.append_assoc (u ++ p)] at ha
        have := List.append_cancel_left ha
        simp only [List.cons_append, List.cons.injEq] at this
        rw [hzp, hyp] at hd
        exact hd (by simp [this.1])
      have hself : decide ((u ++ p) <+: x.2.1 ∧ (u ++ p) ≠ x.2.1) = true := by
        have h1 : (u ++ p) <+: x.2.1 := (List.prefix_append (u ++ p) y.path).trans hpre
        have h2 := hpre.length_le
        have h3 : 0 < y.path.length := List.length_pos_iff.mpr hyne
        rw [decide_eq_true_eq]
        refine ⟨h1, fun e => ?_⟩
        rw [← e] at h2
        simp only [List.length_append] at h2
        omega
      have e1 : ∀ l : List (Node α), (∀ z ∈ l, z ∈ l1 ++ l2) →
          ((l.flatMap (nodes (u ++ p))).map (·.1)).filter (fun q => decide (q <+: x.2.1 ∧ q ≠ x.2.1)) = [] := by
        intro l hl
        apply filter_none
        intro q hq
        simp only [List.map_flatMap, List.mem_flatMap] at hq
        obtain ⟨z, hz, hq⟩ := hq
        exact hother z (hl z hz) q hq
      simp only [depthOf, List.map_cons, List.filter_cons, hself, if_true, List.length_cons]
      rw [hk]
      simp only [List.flatMap_append, List.flatMap_cons, List.map_append, List.filter_append, List.length_append]
      rw [e1 l1 (by simp +contextual), e1 l2 (by simp +contextual)]
      simp only [List.length_nil]
      omega

end Node

/-- **C50** `Dump` prints the entries in the order of `Walk`, one block each, indented by the number of entries whose path is a proper prefix. -/
theorem C50_dump [Inhabited α] (f : DumpFmt α) (nc : Bool) {P : Str → Prop} {t : Tree α} (h : Reach P t) :
    ∃ l : List (Str × Node α), l.map (·.2) = t.root.walk ∧ (l.map (·.1)).Nodup ∧
      (∀ q c, t.contents q = some c ↔ ∃ n, (q, n) ∈ l ∧ n.core = c) ∧
      t.dump f nc = l.flatMap (fun x => dumpLine f nc (depthOf (l.map (·.1)) x.1) x.2) := by
  refine ⟨t.root.nodes [], ?_, ?_, ?_, ?_⟩
  · exact (Node.walk_eq [] t.root).symm
  · exact Node.keys_nodup h.ok.wf []
  · intro q c; exact Tree.contents_node h.ok
  · rw [Tree.dump, Node.dumpR_eq f nc [] 0, ← Node.nodesD_map [] 0 t.root, List.flatMap_map]
    apply Node.flatMap_congr'
    intro x hx
    rw [Node.nodesD_depth h.ok.wf hx, Node.nodesD_map, Nat.zero_add]

/-- **C50** For every entry other than the root that has data, the dump shows its key and its data. -/
theorem C50_shows [Inhabited α] (f : DumpFmt α) (nc : Bool) {t : Tree α} (h : Reach Ascii t) {q : Str} {c : Core α}
    (hc : t.contents q = some c) (hq : q ≠ []) (hd : c.hasData = true) :
    ascii " " ++ utf8 q ++ ascii " => " ++ f.dim (f.sprint c.data) <:+: t.dump f nc := by
  obtain ⟨n, hn, rfl⟩ := (Tree.contents_node h.ok).mp hc
  have hk := ((h.inv keyInv_ascii).2 q _ hc).2
  have hp : n.path ≠ [] := by
    rcases Node.path_ne_of_mem_nodes h.ok.wf hn with ⟨h1, -⟩ | h1
    · exact absurd (by rw [h1, h.ok.nil]; rfl) hq
    · exact h1
  rw [Tree.dump, Node.dumpR_eq f nc [] 0]
  rw [← Node.nodesD_map [] 0 t.root] at hn
  obtain ⟨x, hx, hx2⟩ := List.mem_map.mp hn
  obtain ⟨l1, l2, e⟩ := List.append_of_mem hx
  rw [e, List.flatMap_append, List.flatMap_cons]
  have key : ascii " " ++ utf8 q ++ ascii " => " ++ f.dim (f.sprint n.core.data) <:+: dumpLine f nc x.1 x.2.2 := by
    rw [hx2, dumpLine, if_neg hp, if_pos hd, hk]
    simp only [List.append_assoc]
    refine List.IsInfix.trans ?_ (List.suffix_append _ _).isInfix
    refine List.IsInfix.trans ?_ (List.suffix_append _ _).isInfix
    refine List.IsInfix.trans ?_ (List.suffix_append _ _).isInfix
    refine List.IsInfix.trans ?_ (List.suffix_append _ _).isInfix
    apply List.IsPrefix.isInfix
    rw [List.prefix_append_right_inj, List.prefix_append_right_inj, List.prefix_append_right_inj]
    exact List.prefix_append ..
  obtain ⟨a, b, hab⟩ := key
  exact ⟨l1.flatMap (fun x => dumpLine f nc x.1 x.2.2) ++ a, b ++ l2.flatMap (fun x => dumpLine f nc x.1 x.2.2), by
    rw [← hab]; simp only [List.append_assoc]⟩

/-- **C50** With ASCII keys no entry is marked as wrong: every fragment is a suffix of its key. -/
theorem C50_no_wrong [Inhabited α] {t : Tree α} (h : Reach Ascii t) {n : Node α} (hn : n ∈ t.root.walk) :
    utf8 n.path <:+ n.core.pathS := by
  rw [Node.walk_eq [] t.root] at hn
  obtain ⟨⟨q, m⟩, hm, rfl⟩ := List.mem_map.mp hn
  have hk := ((h.inv keyInv_ascii).2 q m.core ((Tree.contents_node h.ok).mpr ⟨m, hm, rfl⟩)).2
  obtain ⟨a, ha⟩ := Node.suffix_of_mem_nodes hm
  rw [hk, ← ha, utf8_append]
  exact List.suffix_append ..

/-- **C50** With ASCII keys the dump has, for every entry other than the root, a line that consists of an end of its path, spaces, the kind of the
entry, and, if there are any, data (with the full path), comment, tag and description; nothing else. -/
theorem C50_line [Inhabited α] (f : DumpFmt α) (nc : Bool) {t : Tree α} (h : Reach Ascii t) {q : Str} {c : Core α}
    (hc : t.contents q = some c) (hq : q ≠ []) :
    ∃ (frag : Str) (pad : Nat), frag ≠ [] ∧ frag <:+ q ∧
      utf8 frag ++ List.replicate (pad + 1) 32 ++
      (if nc then ascii (if c.isBranch then "<B>" else "<L>") else f.dim (ascii (if c.isBranch then "<B>" else "<L>"))) ++
      (if c.hasData then ascii " " ++ utf8 q ++ ascii " => " ++ f.dim (f.sprint c.data) else []) ++
      (if c.comment = [] then [] else f.light (ascii " // " ++ utf8 c.comment)) ++
      (match c.tag with | none => [] | some x => ascii " | tag = " ++ f.green (f.sprint x)) ++
      (if c.desc = [] then [] else f.light (ascii " ~ " ++ utf8 c.desc)) ++ ascii "\n" <:+: t.dump f nc := by
  obtain ⟨n, hn, rfl⟩ := (Tree.contents_node h.ok).mp hc
  have hk := ((h.inv keyInv_ascii).2 q _ hc).2
  have hp : n.path ≠ [] := by
    rcases Node.path_ne_of_mem_nodes h.ok.wf hn with ⟨h1, -⟩ | h1
    · exact absurd (by rw [h1, h.ok.nil]; rfl) hq
    · exact h1
  have hsuf := Node.suffix_of_mem_nodes hn
  have hw := C50_no_wrong h (n := n) (by rw [Node.walk_eq [] t.root]; exact List.mem_map.mpr ⟨_, hn, rfl⟩)
  rw [Tree.dump, Node.dumpR_eq f nc [] 0]
  rw [← Node.nodesD_map [] 0 t.root] at hn
  obtain ⟨x, hx, hx2⟩ := List.mem_map.mp hn
  obtain ⟨l1, l2, e⟩ := List.append_of_mem hx
  rw [e, List.flatMap_append, List.flatMap_cons]
  obtain ⟨pad, hpad⟩ : ∃ pad, (if x.1 * 2 + n.path.length < 32 then List.replicate (32 - x.1 * 2 - n.path.length) (32 : UInt8) else [32]) =
      List.replicate (pad + 1) 32 := by
    by_cases hl : x.1 * 2 + n.path.length < 32
    · exact ⟨32 - x.1 * 2 - n.path.length - 1, by rw [if_pos hl]; congr 1; omega⟩
    · exact ⟨0, by rw [if_neg hl]; rfl⟩
  have key : dumpLine f nc x.1 x.2.2 = List.replicate (2 * x.1) 32 ++ (utf8 n.path ++ List.replicate (pad + 1) 32 ++
      (if nc then ascii (if n.core.isBranch then "<B>" else "<L>") else f.dim (ascii (if n.core.isBranch then "<B>" else "<L>"))) ++
      (if n.core.hasData then ascii " " ++ utf8 q ++ ascii " => " ++ f.dim (f.sprint n.core.data) else []) ++
      (if n.core.comment = [] then [] else f.light (ascii " // " ++ utf8 n.core.comment)) ++
      (match n.core.tag with | none => [] | some x => ascii " | tag = " ++ f.green (f.sprint x)) ++
      (if n.core.desc = [] then [] else f.light (ascii " ~ " ++ utf8 n.core.desc)) ++ ascii "\n") := by
    rw [hx2, dumpLine, if_neg hp, hpad, if_pos hw, hk]
    simp only [ne_eq, ite_not, List.append_assoc, List.nil_append, apply_ite ascii]
    congr 4
    cases n.core.tag <;> rfl
  refine ⟨n.path, pad, hp, hsuf, l1.flatMap (fun x => dumpLine f nc x.1 x.2.2) ++ List.replicate (2 * x.1) 32,
    l2.flatMap (fun x => dumpLine f nc x.1 x.2.2), ?_⟩
  rw [key]
  simp only [List.append_assoc]

/-- The colours off, numbers as bytes. -/
def plainFmt : DumpFmt Nat := ⟨fun n => [48 + n.toUInt8], id, id, id, id⟩

/-- With other keys entries can be marked as wrong: the branch "a" after setting "aé" and "ab". -/
theorem C50_wrong_fails : ∃ v : View, ¬ ∀ n ∈ (sets [(v, "aé".toList, 1), (v, "ab".toList, 2)] (Tree.new : Tree Nat)).root.walk,
    utf8 n.path <:+ n.core.pathS :=
  ⟨View.new '.', by decide +kernel⟩

/-- The data of the root entry (the empty key) is not shown. -/
theorem C50_root_hidden : ∃ v : View, v.mustGet (v.set (Tree.new : Tree Nat) [] 5).1 [] = .ok 5 ∧
    (v.set (Tree.new : Tree Nat) [] 5).1.dump plainFmt true = [] :=
  ⟨View.new '.', by decide +kernel, by decide +kernel⟩

/-- A small dump: `ab` with the entries `abc` and `abd` below it. -/
example : (sets [(View.new '.', "abc".toList, 1), (View.new '.', "abd".toList, 2)] (Tree.new : Tree Nat)).dump plainFmt true =
    ascii ("  ab" ++ "                            " ++ "<B>\n" ++
      "    c" ++ "                           " ++ "<L> abc => 1\n" ++
      "    d" ++ "                           " ++ "<L> abd => 2\n") := by decide +kernel

end Verif

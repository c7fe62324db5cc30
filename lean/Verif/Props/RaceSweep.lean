import Verif.Lemmas.RaceSkip
import Verif.Props.RaceExport
import Verif.Props.RaceRemove
/-
C103: exporting the trie while other goroutines remove keys.
-/
namespace Verif
namespace Prune
variable {α : Type} [Inhabited α]

section helpers
variable {v : View} {t : Tree α}

theorem mem_entryOf {d : Char} {q : Str} {c : Core α} (h : c.leaf = true → c.pathS = utf8 q) {x : Str × α} :
    x ∈ entryOf d c ↔ x = (q, c.data) ∧ c.leaf = true ∧ endsW d q = false := by
  rw [entryOf, Race.shown_eq h]
  cases hl : c.leaf with
  | false => simp
  | true =>
    rw [h hl, runes_utf8]
    cases endsW d q <;> simp

/-- The entries of the nodes are what is exported. -/
theorem exported_iff {d : Char} (hok : t.OK) (hn : Race.Named t) {q : Str} {x : α} :
    Race.Exported d t q x ↔ ∃ m, (q, m) ∈ t.root.nodes [] ∧ (q, x) ∈ entryOf d m.core := by
  constructor
  · rintro ⟨c, h1, h2, h3, rfl⟩
    obtain ⟨m, hm, rfl⟩ := (Tree.contents_node hok).mp h1
    exact ⟨m, hm, (mem_entryOf (hn q m hm)).mpr ⟨rfl, h2, h3⟩⟩
  · rintro ⟨m, hm, h⟩
    obtain ⟨h1, h2, h3⟩ := (mem_entryOf (hn q m hm)).mp h
    exact ⟨m.core, (Tree.contents_node hok).mpr ⟨m, hm, rfl⟩, h2, h3, (Prod.mk.inj h1).2.symm⟩

theorem entry_key {d : Char} (hn : Race.Named t) {q : Str} {m : Node α} (hm : (q, m) ∈ t.root.nodes []) {e : Str × α} (he : e ∈ entryOf d m.core) :
    e.1 = q := by
  obtain ⟨rfl, _⟩ := (mem_entryOf (hn q m hm)).mp he
  rfl

end helpers

variable {K : Str → Prop} {t : Tree α} {v : View}

/-- **C103** Whatever keys goroutines remove at the same time, and whatever they do to each other: an export ends
after finitely many steps of its own, and all that it has put into the map are entries of the trie with their
values. It may begin at any moment. -/
theorem C103_sound (h : Reach K t) (_hp : t.Plain v.delim) (cs : List Call) :
    ∃ N, ∀ S0 S, let s := (collect v.delim cs ((start v t cs).run v.delim cs S0, .visit t.root.id [], []) S).2
      (N ≤ S.count none → s.1 = .done) ∧ (s.1 = .done → ∀ e ∈ s.2, Race.Exported v.delim t e.1 e.2) := by
  have hok := h.ok
  have hn := Race.named h
  obtain ⟨N, hN⟩ := eleads_all (d := v.delim) (R := fun _ _ => True) (ms := fun M : {M : Mem α // Sane t M} => M.1)
    (fun _ => trivial) (fun _ _ _ _ _ => trivial) hok.ids_nodup [] fun q m hm => Sane.shows hm
  refine ⟨N, fun S0 S => ?_⟩
  have hW := (sane_start (v := v) hok cs).run (d := v.delim) (cs := cs) hok S0
  obtain ⟨h1, h2⟩ := collect_leads (cs := cs) (J := fun W M => SaneW t W ∧ W.mem = M.1) (fun _ => trivial) (fun _ _ _ _ _ => trivial)
    (fun W M hJ => hJ.2) (fun W M k hJ => ⟨⟨_, (hJ.1.tick (d := v.delim) (cs := cs) hok k).1⟩, trivial, hJ.1.tick hok k, rfl⟩)
    (fun e he => he.1) S (s := ⟨_, hW.1⟩) ⟨hW, rfl⟩ (hN _)
  refine ⟨h1, fun hd e he => ?_⟩
  obtain ⟨q, m, hm, hx⟩ := (h2 hd).2.1 e he
  obtain rfl := entry_key hn hm hx
  exact (exported_iff hok hn).mpr ⟨m, hm, hx⟩

/-- **C103** … and an entry is there if none of the goroutines removes, on the way to it, the node to go to or a sibling
before that node (unless the node to go to is the last of its siblings). The goroutines must remove from different
nodes, and spare each other's ways in the same sense. -/
theorem C103_kept (h : Reach K t) (hp : t.Plain v.delim) (hm : v.mode ≠ .up) {cs : List Call} (ht : Tidy v t cs)
    {q : Str} {x : α} (hq : Race.Exported v.delim t q x) (hs : ∀ c P y, c ∈ cs → Takes v t c P y → Spares t P y q) (S0 : List Nat)
    (S : List (Option Nat)) : let s := (collect v.delim cs ((start v t cs).run v.delim cs S0, .visit t.root.id [], []) S).2
      s.1 = .done → (q, x) ∈ s.2 := by
  have hok := h.ok
  have hn := Race.named h
  have hl := start_lays (v := v) hok cs
  have F := planOf_fits hok hp hm ht
  obtain ⟨N, hN⟩ := eleads_all (d := v.delim) (R := Up) (ms := mems (start v t cs).mem (planOf v t cs)) Up.refl (fun _ _ _ => Up.trans)
    hok.ids_nodup [] fun q m hm =>
      have sh := mems_shows (plan := planOf v t cs) hl hm
      ⟨sh.core, sh.len, sh.elts⟩
  obtain ⟨B, _, I⟩ := start_inv (Tr := fun _ => False) (Q := fun _ _ => False) (N := fun _ => 0) hok hp hm ht (fun _ e => e.elim)
  have I0 := I.run F (fun _ _ e => e.elim) S0
  intro s hd
  obtain ⟨_, h2⟩ := collect_leads (cs := cs) (d := v.delim) (ms := mems (start v t cs).mem (planOf v t cs))
    (J := fun W s => s = stages (planOf v t cs) W.pcs ∧
      ∃ B, Inv v.delim cs (start v t cs).mem (planOf v t cs) (fun _ => False) (fun _ _ => False) W B) Up.refl (fun _ _ _ => Up.trans)
    (fun W s hJ => by obtain ⟨rfl, B, I⟩ := hJ; exact I.mem)
    (fun W s k hJ => by
      obtain ⟨rfl, B, I⟩ := hJ
      obtain ⟨I', hu⟩ := I.tick_up F (fun _ _ e => e.elim) k
      exact ⟨_, hu, rfl, _, I'⟩)
    (fun e he => he.1) S ⟨rfl, _, I0⟩ (hN _)
  obtain ⟨m, hmem, hx⟩ := (exported_iff hok hn).mp hq
  refine (h2 hd).2.2 m ?_ _ hx
  -- the way to the node
  have way : ∀ (n : Node α) (u : Str), (∀ q' m', (q', m') ∈ n.nodes u → (q', m') ∈ t.root.nodes []) → (q, m) ∈ n.nodes u →
      Way Up (mems (start v t cs).mem (planOf v t cs)) n m := by
    intro n
    induction n using Node.ind with
    | h i p c k ih =>
      intro u hsub hin
      rw [Node.mem_nodes] at hin
      rcases hin with e | ⟨e, he, hin⟩
      · rw [(Prod.mk.inj e).2]; exact .here _
      · refine .down he ?_ (ih e he _ (fun q' m' hm' => hsub q' m' ((Node.mem_nodes u (.mk i p c k) _).mpr (.inr ⟨e, he, hm'⟩))) hin)
        exact spares_sure (R := fun _ => False) hok hp hm (fun l c P y _ hc hy => hs c P y (List.mem_of_getElem? hc) hy)
          (fun l T hT => ⟨id, hT⟩) hl (u := u ++ p) (hsub _ _ ((Node.mem_nodes u (.mk i p c k) _).mpr (.inl rfl))) he
          (Node.prefix_of_mem_nodes hin)
  exact way t.root [] (fun _ _ h => h) hmem

/-- **C103** An export that begins when all removals have returned gives exactly the entries of the trie without the
keys. -/
theorem C103_after (h : Reach K t) (hp : t.Plain v.delim) (hm : v.mode ≠ .up) {cs : List Call} (ht : Tidy v t cs) (S0 : List Nat)
    (hr : Returned cs ((start v t cs).run v.delim cs S0)) (S : List (Option Nat)) :
    let s := (collect v.delim cs ((start v t cs).run v.delim cs S0, .visit t.root.id [], []) S).2
    s.1 = .done → ∀ q x, (q, x) ∈ s.2 ↔ Race.Exported v.delim (after v t cs) q x := by
  have hok := h.ok
  have U := upto_all hok hp hm ht
  have hl := start_lays (v := v) hok cs
  have hn : Race.Named (after v t cs) := by
    intro q m hmem hlf
    obtain ⟨m0, h0, e⟩ := U.old q m hmem
    have h1 := (U.holds q m hmem).2.1
    rw [mems_core, e, hl q m0 h0] at h1
    have h1 : m0.core = m.core := h1
    rw [← h1] at hlf ⊢
    exact Race.named h q m0 h0 hlf
  obtain ⟨N, hN⟩ := eleads_all (d := v.delim) (R := fun _ _ : Unit => True)
    (ms := fun _ => mems (start v t cs).mem (planOf v t cs) (ends (planOf v t cs) cs.length)) (fun _ => trivial)
    (fun _ _ _ _ _ => trivial) (n := (after v t cs).root) U.ok.ids_nodup [] fun q m hm =>
      have sh := (U.holds q m hm).shows
      ⟨fun _ => sh.core (fun _ => 0), fun _ => sh.len (fun _ => 0), fun _ _ k _ hk => sh.elts (fun _ => 0) (fun _ => 0) k (.refl _) hk⟩
  rw [U.rid] at hN
  intro s hd
  obtain ⟨_, h2⟩ := collect_leads (cs := cs) (d := v.delim)
    (J := fun W _ => ∃ S, W = (start v t cs).run v.delim cs S ∧ Returned cs W) (fun _ => trivial) (fun _ _ _ _ _ => trivial)
    (fun W s hJ => by
      obtain ⟨S, rfl, hr⟩ := hJ
      exact returned_mem hok hp hm ht S hr)
    (fun W s k hJ => by
      obtain ⟨S, rfl, hr⟩ := hJ
      refine ⟨(), trivial, S ++ [k], by rw [run_append]; rfl, fun l p hl => ?_⟩
      obtain ⟨b, hb⟩ := hr l p hl
      exact ⟨b, gone_stays [k] _ hb⟩)
    (fun e he => he.1) S ⟨S0, rfl, hr⟩ (hN ())
  obtain ⟨_, a1, a2⟩ := h2 hd
  intro q x
  constructor
  · intro hx
    obtain ⟨q', m, hm', hx'⟩ := a1 _ hx
    obtain rfl := entry_key hn hm' hx'
    exact (exported_iff U.ok hn).mpr ⟨m, hm', hx'⟩
  · intro hx
    obtain ⟨m, hmem, hx⟩ := (exported_iff U.ok hn).mp hx
    refine a2 m ?_ _ hx
    have way : ∀ (n : Node α) (u : Str), (∀ q' m', (q', m') ∈ n.nodes u → (q', m') ∈ (after v t cs).root.nodes []) → (q, m) ∈ n.nodes u →
        Way (fun _ _ : Unit => True) (fun _ => mems (start v t cs).mem (planOf v t cs) (ends (planOf v t cs) cs.length)) n m := by
      intro n
      induction n using Node.ind with
      | h i p c k ih =>
        intro u hsub hin
        rw [Node.mem_nodes] at hin
        rcases hin with e | ⟨e, he, hin⟩
        · rw [(Prod.mk.inj e).2]; exact .here _
        · refine .down he (fun _ => ?_) (ih e he _ (fun q' m' hm' => hsub q' m' ((Node.mem_nodes u (.mk i p c k) _).mpr (.inr ⟨e, he, hm'⟩))) hin)
          obtain ⟨i', h1, h2⟩ := (U.holds _ _ (hsub _ _ ((Node.mem_nodes u (.mk i p c k) _).mpr (.inl rfl)))).sure he (fun _ => 0)
          exact ⟨i', h1, fun _ _ => h2 _ (.refl _)⟩
    exact way _ [] (fun _ _ h => h) hmem

/-- **C103** The condition in `C103_kept` is needed. Whenever a goroutine removes a sibling before a node, and that is not
the last of its siblings, there is a schedule on which the export lacks every key at or below that node, although
they are in the trie before, after and all the time: `remove` moves the node to a place where the loop has been. -/
theorem C103_missed_fails (h : Reach K t) (hp : t.Plain v.delim) (hm : v.mode ≠ .up) {cs : List Call}
    {r : Nat} {pr : Str} (hrm : cs[r]? = some (.remove pr)) {P x : Node α} (htk : Takes v t (.remove pr) P x)
    {u : Str} (hP : (u, P) ∈ t.root.nodes []) {A C : List (Node α)} {n : Node α} (hkids : P.kids = A ++ n :: C)
    (hx : x ∈ A) (hC : C ≠ []) :
    ∃ S, let s := (collect v.delim cs (start v t cs, .visit t.root.id [], []) S).2
      s.1 = .done ∧ ∀ q, u ++ n.path <+: q → (∀ y, (q, y) ∉ s.2) ∧
        ∀ y, Race.Exported v.delim t q y → ∀ t' b, v.remove t pr = .ok (t', b) → Race.Exported v.delim t' q y := by
  have hok := h.ok
  have hn := Race.named h
  have hl := start_lays (v := v) hok cs
  have hwP := (Node.wf_iff P).mp (Node.wf_of_mem hok.wf hP)
  have hnm : n ∈ P.kids := by rw [hkids]; simp
  have hlen : P.kids.length = A.length + C.length + 1 := by rw [hkids]; simp; omega
  have hClen := List.length_pos_iff.mpr hC
  -- to the loop over the children of `P`
  obtain ⟨N1, stk', hs, h1⟩ := clean_reach (d := v.delim) (sane_start (v := v) hok cs).1 hl hkids t.root [] hok.wf hok.ids_nodup
    (fun _ _ h => h) hP
  obtain ⟨n1, e1, c1, new, rfl, a1⟩ := collect_drive (cs := cs) (W := start v t cs) (h1 [] [])
  -- the removal
  have hpc : (start v t cs).pcs r = .enter (v.full pr) t.root.id none [] := by simp only [start, hrm]; rfl
  obtain ⟨n2, g1, _, g3, g4⟩ := solo_remove hok hp hm hrm htk rfl hpc
  have c2 := collect_other (d := v.delim) (cs := cs) (k := r)
    (e := (Ex.next (⟨P.id, P.kids.length, A.length⟩ :: (stk' ++ [])), ([] : List (Str × α)) ++ new)) n2 (start v t cs)
  have hsane := (sane_start (v := v) hok cs).run (d := v.delim) (cs := cs) hok (List.replicate n2 r)
  generalize (start v t cs).run v.delim cs (List.replicate n2 r) = W at g1 g3 g4 c2 hsane
  -- the rest
  have hix : (P.kids.map Node.id).idxOf x.id < A.length := by
    rw [hkids, List.map_append, List.idxOf_append, if_pos (List.mem_map.mpr ⟨x, hx, rfl⟩)]
    have := List.idxOf_lt_length_of_mem (List.mem_map.mpr ⟨x, hx, rfl⟩ : x.id ∈ A.map Node.id)
    simpa using this
  obtain ⟨N2, h2⟩ := clean_rest (d := v.delim) (k := u ++ n.path) hsane.1 (⟨P.id, P.kids.length, A.length⟩ :: (stk' ++ [])) (by
    intro L hL
    rw [List.append_nil] at hL
    rcases List.mem_cons.mp hL with rfl | hL
    · intro j hj1 hj2
      have hj1 : A.length ≤ j := hj1
      have hj2 : j < P.kids.length := hj2
      show ∃ (u' : Str) (e : Node α), (W.mem P.id).arr.getD j 0 = e.id ∧ _
      rw [g4, hl _ P hP]
      simp only [slid, cellOf]
      rw [slide_getD (by simpa using hj2)]
      generalize (P.kids.map Node.id).idxOf x.id = ix at hix
      have : ∃ i, A.length < i ∧ i < P.kids.length ∧
          (if ix ≤ j ∧ j < ix + (P.kids.length - ix) ∧ j + 1 < (P.kids.map Node.id).length then j + 1 else j) = i := by
        refine ⟨_, ?_, ?_, rfl⟩ <;> rw [List.length_map] <;> split <;> omega
      obtain ⟨i, i1, i2, i3⟩ := this
      rw [i3, ids_getD i2]
      have hnd := ids_nodup_mem hok.ids_nodup hP
      rw [Node.ids_cons, List.nodup_cons] at hnd
      refine ⟨u, P.kids[i], rfl, fun q' m' hm' => Node.nodes_trans hP (by rw [Node.mem_nodesL]; exact ⟨_, List.getElem_mem i2, hm'⟩),
        Node.ids_nodup_kid hnd.2 (List.getElem_mem i2), clean_sibling (Node.wf_of_mem hok.wf hP) hnm (List.getElem_mem i2) ?_ (List.prefix_refl _)⟩
      intro e
      have hnd2 := kids_ids_nodup hok hP
      have k1 : (P.kids.map Node.id)[i]'(by simpa using i2) = n.id := by rw [List.getElem_map, e]
      have hA : A.length < P.kids.length := by omega
      have k2 : (P.kids.map Node.id)[A.length]'(by simpa using hA) = n.id := by
        rw [List.getElem_map]; congr 1; simp [hkids]
      have := (idxOf_at hnd2 (by simpa using i2) k1).symm.trans (idxOf_at hnd2 (by simpa using hA) k2)
      omega
    · obtain ⟨s1, s2⟩ := hs L hL
      intro j j1 j2
      rw [g3 _ s1]
      exact s2 j j1 j2)
  obtain ⟨n3, e3, c3, new', rfl, a2⟩ := collect_drive (cs := cs) (W := W) (h2 ([] ++ new))
  refine ⟨List.replicate n1 none ++ List.replicate n2 (some r) ++ List.replicate n3 none, ?_⟩
  rw [collect_append, collect_append, c1, c2, c3]
  refine ⟨rfl, fun q hq => ⟨fun y hy => ?_, fun y hy t' b e => ?_⟩⟩
  · have hy : (q, y) ∈ [] ++ new ++ new' := hy
    have : Apart v.delim t (u ++ n.path) (q, y) := by
      rw [List.nil_append, List.mem_append] at hy
      exact hy.elim (a1 _) (a2 _)
    obtain ⟨q', m, hm', hk, he⟩ := this
    obtain rfl := entry_key hn hm' he
    exact hk hq
  · obtain ⟨c, c1, c2, c3, c4⟩ := hy
    refine ⟨c, ?_, c2, c3, c4⟩
    obtain ⟨pr', t1, e1, hex⟩ := htk
    cases e1
    obtain ⟨_, rfl, u', hu', hxk, _, _⟩ := takes_spec hok hp hm hex
    obtain rfl : u' = u := congrArg Prod.fst (hok.id_inj hu' hP rfl)
    obtain ⟨ok1, ct1⟩ := removeAt_ok hok hP hxk
    have het : t' = { t with root := t.root.modify P.id (Node.removeChild x.id) } := by
      simp only [View.remove, hex, Except.ok.injEq, Prod.mk.injEq] at e
      exact e.1.symm
    subst het
    rw [ct1, if_neg, c1]
    intro hpre
    have hne : x ≠ n := by
      rintro rfl
      have hnd := kids_ids_nodup hok hP
      rw [hkids, List.map_append, List.map_cons, List.nodup_append] at hnd
      exact hnd.2.2 x.id (List.mem_map.mpr ⟨x, hx, rfl⟩) x.id (by simp) rfl
    have hw := Node.wf_of_mem hok.wf hP
    rcases List.prefix_or_prefix_of_prefix hpre hq with e | e
    · exact clean_sibling hw hxk hnm (Ne.symm hne) (List.prefix_refl (u' ++ x.path)) _ n ((Node.mem_nodes u' n _).mpr (.inl rfl)) e
    · exact clean_sibling hw hnm hxk hne (List.prefix_refl (u' ++ n.path)) _ x ((Node.mem_nodes u' x _).mpr (.inl rfl)) e

/-! ### Examples -/

section examples

example : ∃ N, ∀ S0 S, let cs := [.remove "abc".toList, .remove "abc".toList]
    let s := (collect '.' cs ((start Race.top abc cs).run '.' cs S0, .visit abc.root.id [], []) S).2
    (N ≤ S.count none → s.1 = .done) ∧ (s.1 = .done → ∀ e ∈ s.2, Race.Exported '.' abc e.1 e.2) :=
  C103_sound (v := Race.top) abc_reach abc_reach.plain _

example (S0 S) : let s := (collect '.' calls ((start Race.top Race.three calls).run '.' calls S0, .visit Race.three.root.id [], []) S).2
    s.1 = .done → ("a.log.level".toList, 2) ∈ s.2 :=
  C103_kept (v := Race.top) Race.three_reach Race.three_plain.plain (by decide) calls_tidy
    ⟨(nd 4 "log.level" "a.log.level" (some 2) []).core, by exact rfl, rfl, by decide +kernel, rfl⟩ calls_spare S0 S

/-- What an export has put into the map when it is over. -/
def exports (t : Tree Nat) (cs : List Call) (S : List (Option Nat)) : Option (List (Str × Nat)) :=
  match (collect '.' cs (start Race.top t cs, .visit t.root.id [], []) S).2 with
  | (.done, out) => some out
  | _ => none

/-- The removal returns first: `C103_after`. -/
example : exports Race.three calls (List.replicate 100 (some 1) ++ List.replicate 100 (some 2) ++ List.replicate 100 none) =
    some [("a.log.level".toList, 2)] := by decide +kernel

/-- `a1` is removed after it has been exported: `a2` is not exported, and `a3` is visited twice. -/
example : exports (trie ["a1", "a2", "a3"]) [.remove "a1".toList] (List.replicate 12 none ++ List.replicate 40 (some 0) ++ List.replicate 30 none) =
    some [("a1".toList, 1), ("a3".toList, 3), ("a3".toList, 3)] := by decide +kernel

/-- `a3` is removed instead: nothing is missing, and `a3` may still be there. -/
example : exports (trie ["a1", "a2", "a3"]) [.remove "a3".toList] (List.replicate 12 none ++ List.replicate 40 (some 0) ++ List.replicate 30 none) =
    some [("a1".toList, 1), ("a2".toList, 2), ("a3".toList, 3)] := by decide +kernel

def a123 : Tree Nat := trie ["a1", "a2", "a3"]

def n1 := nd 3 "1" "a1" (some 1) []
def n2 := nd 4 "2" "a2" (some 2) []
def n3 := nd 6 "3" "a3" (some 3) []

example : ∃ S, let s := (collect '.' [.remove "a1".toList] (start Race.top a123 [.remove "a1".toList], .visit a123.root.id [], []) S).2
    s.1 = .done ∧ ∀ y, ("a2".toList, y) ∉ s.2 := by
  have hr : Reach (NoRoute '.') a123 := trie_reach _ (by decide)
  obtain ⟨S, h1, h2⟩ := C103_missed_fails (v := Race.top) (r := 0) (cs := [.remove "a1".toList]) hr hr.plain (by decide) rfl
    (taken_iff.mpr (by exact rfl) : Takes Race.top a123 (.remove "a1".toList) (nd 2 "a" "a" none [n1, n2, n3]) n1)
    (u := "a".toList) ((Tree.nodeAt_some hr.ok).mp (by exact rfl)) (A := [n1]) (C := [n3]) (n := n2) rfl (by simp) (by simp)
  exact ⟨S, h1, (h2 "a2".toList (by decide)).1⟩

end examples

end Prune
end Verif

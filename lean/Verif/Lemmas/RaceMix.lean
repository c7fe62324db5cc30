import Verif.Lemmas.RaceCore
/-
`Set` for a path at which there is a node, while children are removed.
-/
namespace Verif
namespace Parts
variable {α : Type} [Inhabited α]
open Prune (Cell Mem Pc Call Leads Up Shows Sure Task)
open Race (Job)

/-- A memory with other cores. -/
def over (g : Nat → Core α → Core α) (M : Mem α) : Mem α := fun i => { M i with core := g i (M i).core }

/-- Whatever the others do meanwhile: within `n` steps of its own the goroutine comes to the node `i`, and changes
nothing until then. -/
def Finds (J : Job α) (ms : (Nat → Nat) → Mem α) (i : Nat) : Nat → (Nat → Nat) → SetPc → Prop
  | 0, _, r => r = .mark i
  | n + 1, s, r => r = .mark i ∨ ∀ s' g, Up s s' →
    (insStep J (over g (ms s')) r).1 = over g (ms s') ∧ Finds J ms i n s' (insStep J (over g (ms s')) r).2

section
variable {J : Job α} {ms : (Nat → Nat) → Mem α} {i : Nat}

theorem Finds.up {s s' : Nat → Nat} (hs : Up s s') {r : SetPc} : ∀ {n}, Finds J ms i n s r → Finds J ms i n s' r
  | 0, h => h
  | _ + 1, h => h.imp id fun h t g ht => h t g (hs.trans ht)

theorem Finds.mono {n m : Nat} (hnm : n ≤ m) {s : Nat → Nat} {r : SetPc} (h : Finds J ms i n s r) : Finds J ms i m s r := by
  induction n generalizing m s r with
  | zero =>
    cases m with
    | zero => exact h
    | succ m => exact .inl h
  | succ n ih =>
    cases m with
    | zero => omega
    | succ m =>
      rcases h with h | h
      · exact .inl h
      · exact .inr fun s' g hs => ⟨(h s' g hs).1, ih (by omega) (h s' g hs).2⟩

theorem finds_scan {n ch : Node α} {w : Str} {N h k' : Nat} (hw : n.WF) (hch : ch ∈ n.kids) (hb : ch.path.head? = w.head?)
    (hK : ∀ e ∈ n.kids, Shows ms e) (hin : ∀ σ, Finds J ms i N σ (.enter w ch.id)) :
    ∀ j k, j + k = k' → k' < h → ∀ σ, (∀ σ', Up σ σ' → ∀ k, k < h → ∃ e ∈ n.kids, (ms σ' n.id).arr.getD k 0 = e.id) →
      (∀ σ', Up σ σ' → (ms σ' n.id).arr.getD k' 0 = ch.id) → Finds J ms i (N + j + 1) σ (.scan w n.id h k) := by
  have hwn := (Node.wf_iff n).mp hw
  intro j
  induction j with
  | zero =>
    intro k hk hh σ hel hat
    rw [Nat.zero_add] at hk
    subst hk
    refine .inr fun σ' g hs => ⟨rfl, ?_⟩
    have e1 : (over g (ms σ') n.id).arr.getD k 0 = ch.id := hat σ' hs
    have e2 : (over g (ms σ') ch.id).path = ch.path := (hK ch hch).path σ'
    simp only [insStep]
    rw [if_pos hh, e1, e2, if_pos hb]
    exact hin σ'
  | succ j ih =>
    intro k hk hh σ hel hat
    refine .inr fun σ' g hs => ⟨rfl, ?_⟩
    obtain ⟨e, he, hee⟩ := hel σ' hs k (by omega)
    have e1 : (over g (ms σ') n.id).arr.getD k 0 = e.id := hee
    have e2 : (over g (ms σ') e.id).path = e.path := (hK e he).path σ'
    simp only [insStep]
    rw [if_pos (by omega), e1, e2]
    by_cases hd : e.path.head? = w.head?
    · rw [if_pos hd]
      have : e = ch := Node.heads_inj hwn.1 he hch (hd.trans hb.symm)
      subst this
      exact (hin σ').mono (by omega)
    · rw [if_neg hd]
      exact ih (k + 1) (by omega) hh σ' (fun σ'' hs'' => hel σ'' (hs.trans hs'')) fun σ'' hs'' => hat σ'' (hs.trans hs'')

/-- The way of `Set` to a node. -/
theorem finds_node {q : Str} {m : Node α} (n : Node α) : ∀ (u w : Str), n.WF → (∀ a A, (a, A) ∈ n.nodes u → Shows ms A) →
    (∀ a A, (a, A) ∈ n.nodes u → ∀ s, (ms s A.id).len ≤ (ms s A.id).arr.length) →
    (∀ a A ch, (a, A) ∈ n.nodes u → ch ∈ A.kids → a ++ ch.path <+: q → Sure ms A ch) → (q, m) ∈ n.nodes u → q = u ++ w →
    ∃ N, ∀ σ, Finds J ms m.id N σ (.enter w n.id) := by
  induction n using Node.ind with
  | h i p c k ih =>
    intro u w hw hS hlen hK hm hq
    have hwn := (Node.wf_iff _).mp hw
    have hSn := hS _ _ ((Node.mem_nodes u _ _).mpr (.inl rfl))
    rcases (Node.mem_nodes u _ _).mp hm with e | ⟨e, he, hm'⟩
    · cases e
      simp only [Node.path_mk] at hq
      have hwp : w = p := (List.append_cancel_left hq).symm
      refine ⟨1, fun σ => .inr fun σ' g _ => ?_⟩
      have e1 : (over g (ms σ') i).path = p := hSn.path σ'
      have hc : Race.cplOf w p = p.length := by
        rw [Race.cplOf_eq]; exact Race.cpl_prefix (by rw [hwp]; exact List.prefix_refl _)
      simp only [Node.id_mk, insStep, e1]
      rw [if_neg (by rw [hwp]; rintro ⟨h1, h2, _⟩; omega), hc, if_neg (by omega), if_neg (by rw [hwp]; omega)]
      exact ⟨rfl, rfl⟩
    · simp only [Node.kids_mk, Node.path_mk] at he hm'
      have hpre := Node.prefix_of_mem_nodes hm'
      obtain ⟨y, hy⟩ := hpre
      have hwe : w = p ++ (e.path ++ y) := by
        have : u ++ w = u ++ (p ++ (e.path ++ y)) := by rw [← hq, ← hy]; simp
        exact List.append_cancel_left this
      have hne := (hwn.2 e he).1
      have hepos := List.length_pos_iff.mpr hne
      have hhead : e.path.head? = (e.path ++ y).head? := by
        obtain ⟨a, b, hab⟩ := List.exists_cons_of_ne_nil hne
        rw [hab]; rfl
      obtain ⟨N, hN⟩ := ih e he (u ++ p) (e.path ++ y) (hwn.2 e he).2
        (fun a A hA => hS a A ((Node.mem_nodes u _ _).mpr (.inr ⟨e, he, hA⟩)))
        (fun a A hA => hlen a A ((Node.mem_nodes u _ _).mpr (.inr ⟨e, he, hA⟩)))
        (fun a A ch hA => hK a A ch ((Node.mem_nodes u _ _).mpr (.inr ⟨e, he, hA⟩))) hm'
        (by rw [← hy, List.append_assoc])
      have hsure := hK _ _ e ((Node.mem_nodes u _ _).mpr (.inl rfl)) he (by simp only [Node.path_mk]; exact ⟨y, hy⟩)
      refine ⟨(N + k.length + 1) + 1 + 1, fun σ => .inr fun σ' g hs => ?_⟩
      have e1 : (over g (ms σ') i).path = p := hSn.path σ'
      have hc : Race.cplOf w p = p.length := by
        rw [Race.cplOf_eq]; exact Race.cpl_prefix (by rw [hwe]; exact List.prefix_append _ _)
      have hlw : p.length < w.length := by rw [hwe]; simp only [List.length_append]; omega
      have hk0 : (kids (over g (ms σ') i)).length ≠ 0 := by
        obtain ⟨k0, hk0, _⟩ := hsure σ'
        have := hlen _ _ ((Node.mem_nodes u _ _).mpr (.inl rfl)) σ'
        simp only [Node.id_mk] at hk0 this
        show ((ms σ' i).arr.take (ms σ' i).len).length ≠ 0
        rw [List.length_take]; omega
      simp only [Node.id_mk, insStep, e1]
      rw [if_neg (fun h => hk0 h.2.2), hc, if_neg (by omega), if_pos hlw]
      refine ⟨rfl, .inr fun σ'' g' hs' => ⟨rfl, ?_⟩⟩
      simp only [insStep]
      have hd : w.drop p.length = e.path ++ y := by rw [hwe, List.drop_left]
      rw [hd]
      obtain ⟨k0, hk0, hat⟩ := hsure σ''
      have hle := hSn.len σ''
      simp only [Node.id_mk, Node.kids_mk] at hk0 hle
      exact Finds.mono (by omega) (finds_scan hw he hhead
        (fun e' he' => hS _ e' ((Node.mem_nodes u _ _).mpr (.inr ⟨e', he', (Node.mem_nodes _ _ _).mpr (.inl rfl)⟩))) hN k0 0
        (by omega) hk0 σ'' (fun τ hτ j hj => hSn.elts σ'' τ j hτ hj) hat)
end

/-! ### Removals do not read the values -/

/-- The states of a removal. -/
def safe : Pc α → Bool
  | .branch _ | .ends _ | .has .. | .data .. | .done _ => false
  | _ => true

theorem safe_step {p : Str} {d : Char} {M : Mem α} {pc : Pc α} (h : safe pc = true) : safe (Prune.step (.remove p) d M pc).2 = true := by
  cases pc <;> simp only [Prune.step] <;> (try cases h) <;> (repeat' split) <;> (try rfl) <;>
    (rename_i q ch par _ _; cases q <;> cases ch <;> cases par <;> rfl)

omit [Inhabited α] in
theorem over_set (g : Nat → Core α → Core α) (M : Mem α) (i : Nat) (c : Cell α) :
    over g (M.set i c) = (over g M).set i { c with core := g i c.core } := by
  funext j
  simp only [over, Mem.set]
  by_cases e : j = i
  · subst e; simp
  · simp [e]

theorem step_over {p : Str} {d : Char} (g : Nat → Core α → Core α) {M : Mem α} {pc : Pc α} (h : safe pc = true) :
    Prune.step (.remove p) d (over g M) pc =
      (over g (Prune.step (.remove p) d M pc).1, (Prune.step (.remove p) d M pc).2) := by
  cases pc with
  | move par k n j =>
    simp only [Prune.step]
    by_cases e : j < n
    · rw [if_pos e, if_pos e, over_set]; rfl
    · rw [if_neg e, if_neg e, over_set]; rfl
  | branch | ends | has | data | done => cases h
  | _ => rfl

omit [Inhabited α] in
theorem read_over (g : Nat → Core α → Core α) (M : Mem α) (d : Nat) : ∀ i,
    Prune.read (over g M) d i = (Prune.read M d i).recore g := by
  induction d with
  | zero => intro i; simp only [Prune.read, Node.recore_mk]; rfl
  | succ d ih =>
    intro i
    simp only [Prune.read, Node.recore_mk, List.map_map]
    refine congrArg _ (List.map_congr_left fun j _ => ih j)

/-! ### How far the removals have come -/

section
variable {v : View} {t : Tree α} {cs : List Call}

theorem move_bound (h : t.OK) (hp : t.Plain v.delim) (hm : v.mode ≠ .up) (ht : Prune.Tidy v t cs) (S : List Nat) (k : Nat) (T : Task)
    (hT : Prune.planOf v t cs k = some T) (par ix n j : Nat)
    (e : ((Prune.start v t cs).run v.delim cs S).pcs k = .move par ix n j) : j ≤ T.n - T.ix := by
  obtain ⟨B, _, I⟩ := Prune.start_inv (Tr := fun _ => False) (Q := fun _ _ => False) (N := fun _ => 0) h hp hm ht (fun _ e => e.elim)
  have I' := I.run (Prune.planOf_fits h hp hm ht) (fun l pc hq M => hq.elim) S
  rcases (I'.rem k T hT).2 with ⟨h1, _⟩ | h1
  · rw [e] at h1; cases h1
  · rw [e] at h1
    cases h1 with
    | move _ _ hj => omega

theorem stages_up (h : t.OK) (hp : t.Plain v.delim) (hm : v.mode ≠ .up) (ht : Prune.Tidy v t cs) (S : List Nat) (k : Nat) :
    Up (Prune.stages (Prune.planOf v t cs) ((Prune.start v t cs).run v.delim cs S).pcs)
      (Prune.stages (Prune.planOf v t cs) ((Prune.start v t cs).run v.delim cs (S ++ [k])).pcs) := by
  have hb := move_bound h hp hm ht S k
  rw [Prune.run_append]
  generalize (Prune.start v t cs).run v.delim cs S = W at hb
  intro l
  by_cases e : l = k
  · subst e
    simp only [Prune.stages]
    cases hT : Prune.planOf v t cs l with
    | none => exact Nat.le_refl _
    | some T =>
      have hb := hb T hT
      simp only [Prune.World.run, Prune.World.tick, if_true]
      generalize cs[l]?.getD (.get []) = c
      generalize W.pcs l = pc at hb
      cases pc with
      | move par ix n j =>
        have := hb par ix n j rfl
        simp only [Prune.step]
        by_cases e : j < n
        · rw [if_pos e]; exact Nat.le_succ _
        · rw [if_neg e]; exact this
      | gone b => exact Nat.le_refl _
      | _ => exact Nat.zero_le _
  · show Prune.stages _ W.pcs l ≤ Prune.stages _ (W.tick v.delim cs k).pcs l
    rw [Prune.stages_tick _ W k l e]
    exact Nat.le_refl _
end

/-! ### All goroutines -/

/-- A goroutine with a `Remove`, after `n` steps; on its own it would have made `n'` steps and be at `pc`. -/
inductive RemSt (v : View) (root : Nat) (p : Str) (B n n' : Nat) (pc : Pc α) : Gor α → Prop
  | idle (f) (hn : n = 0) (hn' : n' = 0) (hpc : pc = .enter (v.full p) root none []) : RemSt v root p B n n' pc ⟨v, [.remove p], .idle, [], f⟩
  | asks (f) (hn : n = n' + 1) (hB : n' ≤ B) (hs : safe pc = true) : RemSt v root p B n n' pc ⟨v, [], .asks (.remove p) pc, [], f⟩
  | done (f) (hpc : pc = .gone true) : RemSt v root p B n n' pc ⟨v, [], .idle, [.removed true], f⟩

/-- A goroutine with a `Set` for the path of the node `i`, after `n` steps; `gi` is what it has done to the node. -/
inductive SetSt (v : View) (p : Str) (J : Job α) (ms : (Nat → Nat) → Mem α) (i B n : Nat) (s : Nat → Nat) (gi : Core α → Core α) : Gor α → Prop
  | idle (hn : n = 0) (hg : gi = fun c => c) : SetSt v p J ms i B n s gi ⟨v, [.set p J.val], .idle, [], J.fresh⟩
  | finds (f b pc) (hf : Finds J ms i b s pc) (hn : n + b ≤ B + 1) (hg : gi = fun c => c) : SetSt v p J ms i B n s gi ⟨v, [], .sets J pc, [], f⟩
  | store (f) (hn : n ≤ B + 2) (hg : gi = fun c => { c with hasData := true }) : SetSt v p J ms i B n s gi ⟨v, [], .sets J (.store i), [], f⟩
  | fin (f) (hn : n ≤ B + 3) (hg : gi = fun c => { c with hasData := true, data := J.val }) : SetSt v p J ms i B n s gi ⟨v, [], .sets J .done, [], f⟩
  | done (f) (hg : gi = fun c => { c with hasData := true, data := J.val }) : SetSt v p J ms i B n s gi ⟨v, [], .idle, [.stored], f⟩

/-- A goroutine with a lookup, or with nothing. -/
inductive GetSt : Gor α → Prop
  | idle (v todo outs f) (h : todo = [] ∨ ∃ p, todo = [.get p]) : GetSt ⟨v, todo, .idle, outs, f⟩
  | asks (v p pc outs f) (h : pc.reads = true) : GetSt ⟨v, [], .asks (.get p) pc, outs, f⟩

/-- The call of goroutine `k` in `Set`. -/
def jobOf (v : View) (t : Tree α) (k : Nat) (p : Str) (x : α) : Job α := ⟨View.dash (v.full p), x, t.next + 2 * k⟩

structure Mixed (v : View) (t : Tree α) (as : List (Act α)) (B : Nat → Nat) (S S' : List Nat) (g : Nat → Core α → Core α) (W : World α) : Prop where
  mem : W.mem = over g ((Prune.start v t (calls as)).run v.delim (calls as) S').mem
  frame : ∀ i, (∀ p x, .set p x ∈ as → idAt t (View.dash (v.full p)) ≠ i) → g i = fun c => c
  none : ∀ k, as[k]? = none → GetSt (W.gs k)
  get : ∀ k p, as[k]? = some (.get p) → GetSt (W.gs k)
  rem : ∀ k p, as[k]? = some (.remove p) → RemSt v t.root.id p (B k) (S.count k) (S'.count k)
    (((Prune.start v t (calls as)).run v.delim (calls as) S').pcs k) (W.gs k)
  set : ∀ k p x, as[k]? = some (.set p x) → SetSt v p (jobOf v t k p x) (Prune.mems (Prune.start v t (calls as)).mem (Prune.planOf v t (calls as)))
    (idAt t (View.dash (v.full p))) (B k) (S.count k)
    (Prune.stages (Prune.planOf v t (calls as)) ((Prune.start v t (calls as)).run v.delim (calls as) S').pcs)
    (g (idAt t (View.dash (v.full p)))) (W.gs k)

theorem GetSt.step {g : Gor α} (h : GetSt g) (root gap : Nat) (M : Mem α) : (g.step root gap M).1 = M ∧ GetSt (g.step root gap M).2 := by
  cases h with
  | idle v todo outs f h =>
    rcases h with rfl | ⟨p, rfl⟩
    · exact ⟨rfl, .idle _ _ _ _ (.inl rfl)⟩
    · exact ⟨rfl, .asks _ _ _ _ _ rfl⟩
  | asks v p pc outs f h =>
    by_cases hd : (∃ a, pc = .done a) ∨ ∃ b, pc = .gone b
    · rcases hd with ⟨a, rfl⟩ | ⟨b, rfl⟩
      · exact ⟨rfl, .idle _ _ _ _ (.inl rfl)⟩
      · cases h
    · have e : Gor.step root gap M ⟨v, [], .asks (.get p) pc, outs, f⟩ =
          ((Prune.step (.get p) v.delim M pc).1, ⟨v, [], .asks (.get p) (Prune.step (.get p) v.delim M pc).2, outs, f⟩) := by
        unfold Gor.step
        cases pc <;> first | rfl | (exfalso; exact hd (.inl ⟨_, rfl⟩)) | (exfalso; exact hd (.inr ⟨_, rfl⟩))
      rw [e]
      exact ⟨Prune.reads_mem h, .asks _ _ _ _ _ (Prune.get_reads h)⟩

theorem SetSt.up {v : View} {p : Str} {J : Job α} {ms : (Nat → Nat) → Mem α} {i B n : Nat} {s s' : Nat → Nat} {gi : Core α → Core α}
    {G : Gor α} (hs : Up s s') (h : SetSt v p J ms i B n s gi G) : SetSt v p J ms i B n s' gi G := by
  cases h with
  | idle a b => exact .idle a b
  | finds f b pc hf hn hg => exact .finds f b pc (hf.up hs) hn hg
  | store f hn hg => exact .store f hn hg
  | fin f hn hg => exact .fin f hn hg
  | done f hg => exact .done f hg

theorem finds_done {J : Job α} {ms : (Nat → Nat) → Mem α} {i : Nat} : ∀ {n : Nat} {s : Nat → Nat}, ¬ Finds J ms i n s .done
  | 0, _, h => by cases h
  | n + 1, s, h => by
    rcases h with h | h
    · cases h
    · exact finds_done (h s (fun _ c => c) (fun _ => Nat.le_refl _)).2

omit [Inhabited α] in
theorem over_mark (g : Nat → Core α → Core α) (M : Mem α) (i : Nat) (f : Core α → Core α) :
    over (fun j c => if j = i then f (g i c) else g j c) M = (over g M).set i { over g M i with core := f (over g M i).core } := by
  funext j
  simp only [over, Mem.set]
  by_cases e : j = i
  · subst e; simp
  · simp [e]

omit [Inhabited α] in
theorem calls_get {as : List (Act α)} {k : Nat} {p : Str} (h : (calls as)[k]? = some (.remove p)) : as[k]? = some (.remove p) := by
  rw [calls, List.getElem?_map] at h
  cases e : as[k]? with
  | none => rw [e] at h; cases h
  | some a =>
    rw [e] at h
    cases a with
    | get q => cases h
    | set q x => cases h
    | remove q => cases h; rfl

omit [Inhabited α] in
theorem get_calls {as : List (Act α)} {k : Nat} {p : Str} (h : as[k]? = some (.remove p)) : (calls as)[k]? = some (.remove p) := by
  rw [calls, List.getElem?_map, h]; rfl

section
variable {v : View} {t : Tree α} {as : List (Act α)} {B : Nat → Nat}

theorem Mixed.tick (h : t.OK) (hp : t.Plain v.delim) (hm : v.mode ≠ .up) (ht : Prune.Tidy v t (calls as))
    (hinj : ∀ (j k : Nat) (p : Str) (x : α) (p' : Str) (x' : α), as[j]? = some (.set p x) → as[k]? = some (.set p' x') →
      idAt t (View.dash (v.full p)) = idAt t (View.dash (v.full p')) → j = k)
    (hR : ∀ k p, as[k]? = some (.remove p) → ∀ S' : List Nat, let r := ((Prune.start v t (calls as)).run v.delim (calls as) S').pcs k
      r ≠ .gone false ∧ (B k ≤ S'.count k → r = .gone true))
    (hS : ∀ k p x, as[k]? = some (.set p x) → ∀ σ, Finds (jobOf v t k p x) (Prune.mems (Prune.start v t (calls as)).mem (Prune.planOf v t (calls as)))
      (idAt t (View.dash (v.full p))) (B k) σ (.enter (View.dash (v.full p)) t.root.id))
    (hmem : ∀ S' : List Nat, ((Prune.start v t (calls as)).run v.delim (calls as) S').mem =
      Prune.mems (Prune.start v t (calls as)).mem (Prune.planOf v t (calls as))
        (Prune.stages (Prune.planOf v t (calls as)) ((Prune.start v t (calls as)).run v.delim (calls as) S').pcs))
    (gap : Nat) {S S' : List Nat} {g : Nat → Core α → Core α} {W : World α} (I : Mixed v t as B S S' g W) (k : Nat) :
    ∃ S'' g', (S'' = S' ∨ S'' = S' ++ [k]) ∧ Mixed v t as B (S ++ [k]) S'' g' (W.tick t.root.id gap k) := by
  have hc : ∀ l, l ≠ k → (S ++ [k]).count l = S.count l := fun l e => by simp [List.count_append, List.count_cons, Ne.symm e]
  have hck : (S ++ [k]).count k = S.count k + 1 := by simp [List.count_append]
  have hne : ∀ l, l ≠ k → (W.tick t.root.id gap k).gs l = W.gs l := fun l e => if_neg e
  have hk : (W.tick t.root.id gap k).gs k = ((W.gs k).step t.root.id gap W.mem).2 := if_pos rfl
  have hmm : (W.tick t.root.id gap k).mem = ((W.gs k).step t.root.id gap W.mem).1 := rfl
  have quiet : (((W.gs k).step t.root.id gap W.mem).1 = W.mem ∧ GetSt ((W.gs k).step t.root.id gap W.mem).2) →
      (∀ p, as[k]? ≠ some (.remove p)) → (∀ p x, as[k]? ≠ some (.set p x)) → Mixed v t as B (S ++ [k]) S' g (W.tick t.root.id gap k) := by
    intro hq n1 n2
    refine ⟨hmm.trans (hq.1.trans I.mem), I.frame, fun l hl => ?_, fun l p hl => ?_, fun l p hl => ?_, fun l p x hl => ?_⟩
    · by_cases e : l = k
      · subst e; rw [hk]; exact hq.2
      · rw [hne l e]; exact I.none l hl
    · by_cases e : l = k
      · subst e; rw [hk]; exact hq.2
      · rw [hne l e]; exact I.get l p hl
    · have e : l ≠ k := fun e => n1 p (e ▸ hl)
      rw [hne l e, hc l e]; exact I.rem l p hl
    · have e : l ≠ k := fun e => n2 p x (e ▸ hl)
      rw [hne l e, hc l e]; exact I.set l p x hl
  cases ha : as[k]? with
  | none => exact ⟨S', g, .inl rfl, quiet ((I.none k ha).step _ _ _) (by simp [ha]) (by simp [ha])⟩
  | some a =>
    cases a with
    | get p => exact ⟨S', g, .inl rfl, quiet ((I.get k p ha).step _ _ _) (by simp [ha]) (by simp [ha])⟩
    | remove p =>
      -- a removal that does not advance
      have stay : W.mem = ((W.gs k).step t.root.id gap W.mem).1 →
          RemSt v t.root.id p (B k) (S.count k + 1) (S'.count k) (((Prune.start v t (calls as)).run v.delim (calls as) S').pcs k)
            ((W.gs k).step t.root.id gap W.mem).2 → Mixed v t as B (S ++ [k]) S' g (W.tick t.root.id gap k) := by
        intro h1 h2
        refine ⟨hmm.trans (h1.symm.trans I.mem), I.frame, fun l hl => ?_, fun l q hl => ?_, fun l q hl => ?_, fun l q x hl => ?_⟩
        · have e : l ≠ k := by rintro rfl; rw [ha] at hl; cases hl
          rw [hne l e]; exact I.none l hl
        · have e : l ≠ k := by rintro rfl; rw [ha] at hl; cases hl
          rw [hne l e]; exact I.get l q hl
        · by_cases e : l = k
          · subst e
            rw [ha] at hl; cases hl
            rw [hk, hck]; exact h2
          · rw [hne l e, hc l e]; exact I.rem l q hl
        · have e : l ≠ k := by rintro rfl; rw [ha] at hl; cases hl
          rw [hne l e, hc l e]; exact I.set l q x hl
      have r := I.rem k p ha
      generalize hg : W.gs k = G at r
      cases r with
      | idle f hn hn' hpc =>
        refine ⟨S', g, .inl rfl, stay (by rw [hg]; rfl) ?_⟩
        rw [hg]
        have e : (Gor.step t.root.id gap W.mem ⟨v, [.remove p], .idle, [], f⟩).2 =
          ⟨v, [], .asks (.remove p) (.enter (v.full p) t.root.id Option.none []), [], f⟩ := rfl
        rw [e, ← hpc]
        exact .asks f (by omega) (by omega) (by rw [hpc]; rfl)
      | done f hpc => exact ⟨S', g, .inl rfl, stay (by rw [hg]; rfl) (by rw [hg]; exact .done f hpc)⟩
      | asks f hn hB hs =>
        obtain ⟨r1, r2⟩ := hR k p ha S'
        by_cases hgone : ((Prune.start v t (calls as)).run v.delim (calls as) S').pcs k = .gone true
        · refine ⟨S', g, .inl rfl, stay (by rw [hg, hgone]; rfl) ?_⟩
          rw [hg, hgone]
          exact .done f rfl
        · have hlt : S'.count k < B k := by
            rcases Nat.lt_or_ge (S'.count k) (B k) with h1 | h1
            · exact h1
            · exact absurd (r2 h1) hgone
          have up := stages_up h hp hm ht S' k
          have hstep : (W.gs k).step t.root.id gap W.mem =
              (over g ((Prune.start v t (calls as)).run v.delim (calls as) (S' ++ [k])).mem,
                ⟨v, [], .asks (.remove p) (((Prune.start v t (calls as)).run v.delim (calls as) (S' ++ [k])).pcs k), [], f⟩) := by
            have e1 := step_over (p := p) (d := v.delim) g (M := ((Prune.start v t (calls as)).run v.delim (calls as) S').mem) hs
            rw [hg, I.mem, Prune.run_append]
            generalize (Prune.start v t (calls as)).run v.delim (calls as) S' = W' at r1 hgone hs e1
            have e2 : ∀ pc, safe pc = true → pc ≠ .gone true → pc ≠ .gone false →
                Gor.step t.root.id gap (over g W'.mem) ⟨v, [], .asks (.remove p) pc, [], f⟩ =
                  ((Prune.step (.remove p) v.delim (over g W'.mem) pc).1,
                    ⟨v, [], .asks (.remove p) (Prune.step (.remove p) v.delim (over g W'.mem) pc).2, [], f⟩) := by
              intro pc h1 h2 h3
              cases pc with
              | gone b => cases b <;> contradiction
              | done a => cases h1
              | _ => rfl
            rw [e2 _ hs hgone r1, e1]
            simp only [Prune.World.run, Prune.World.tick, get_calls ha, Option.getD_some, if_true]
          have hpcs : ∀ l, l ≠ k → ((Prune.start v t (calls as)).run v.delim (calls as) (S' ++ [k])).pcs l =
              ((Prune.start v t (calls as)).run v.delim (calls as) S').pcs l := by
            intro l e
            rw [Prune.run_append]
            exact if_neg e
          have hc' : ∀ l, l ≠ k → (S' ++ [k]).count l = S'.count l := fun l e => by simp [List.count_append, List.count_cons, Ne.symm e]
          refine ⟨S' ++ [k], g, .inr rfl, hmm.trans (by rw [hstep]), I.frame, fun l hl => ?_, fun l q hl => ?_, fun l q hl => ?_, fun l q x hl => ?_⟩
          · have e : l ≠ k := by rintro rfl; rw [ha] at hl; cases hl
            rw [hne l e]; exact I.none l hl
          · have e : l ≠ k := by rintro rfl; rw [ha] at hl; cases hl
            rw [hne l e]; exact I.get l q hl
          · by_cases e : l = k
            · subst e
              rw [ha] at hl; cases hl
              rw [hk, hck, hstep]
              refine .asks f ?_ ?_ ?_
              · rw [hn]; simp [List.count_append]
              · simp [List.count_append]; omega
              · rw [Prune.run_append]
                simp only [Prune.World.run, Prune.World.tick, get_calls ha, Option.getD_some, if_true]
                exact safe_step hs
            · rw [hne l e, hc l e, hc' l e, hpcs l e]; exact I.rem l q hl
          · have e : l ≠ k := by rintro rfl; rw [ha] at hl; cases hl
            rw [hne l e, hc l e]
            exact (I.set l q x hl).up up
    | set p x =>
      -- a step that changes the value at most
      have move : ∀ fg : Core α → Core α, ((W.gs k).step t.root.id gap W.mem).1 =
            over (fun j c => if j = idAt t (View.dash (v.full p)) then fg (g (idAt t (View.dash (v.full p))) c) else g j c)
              ((Prune.start v t (calls as)).run v.delim (calls as) S').mem →
          SetSt v p (jobOf v t k p x) (Prune.mems (Prune.start v t (calls as)).mem (Prune.planOf v t (calls as)))
            (idAt t (View.dash (v.full p))) (B k) (S.count k + 1)
            (Prune.stages (Prune.planOf v t (calls as)) ((Prune.start v t (calls as)).run v.delim (calls as) S').pcs)
            (fun c => fg (g (idAt t (View.dash (v.full p))) c)) ((W.gs k).step t.root.id gap W.mem).2 →
          ∃ S'' g', (S'' = S' ∨ S'' = S' ++ [k]) ∧ Mixed v t as B (S ++ [k]) S'' g' (W.tick t.root.id gap k) := by
        intro fg h1 h2
        refine ⟨S', fun j c => if j = idAt t (View.dash (v.full p)) then fg (g (idAt t (View.dash (v.full p))) c) else g j c,
          .inl rfl, hmm.trans h1, fun i hi => ?_, fun l hl => ?_, fun l q hl => ?_, fun l q hl => ?_, fun l q y hl => ?_⟩
        · have := hi p x (List.mem_of_getElem? ha)
          funext c
          show (if i = _ then _ else _) = _
          rw [if_neg (Ne.symm this), I.frame i hi]
        · have e : l ≠ k := by rintro rfl; rw [ha] at hl; cases hl
          rw [hne l e]; exact I.none l hl
        · have e : l ≠ k := by rintro rfl; rw [ha] at hl; cases hl
          rw [hne l e]; exact I.get l q hl
        · have e : l ≠ k := by rintro rfl; rw [ha] at hl; cases hl
          rw [hne l e, hc l e]; exact I.rem l q hl
        · by_cases e : l = k
          · subst e
            rw [ha] at hl; cases hl
            rw [hk, hck]
            simpa only [if_true] using h2
          · rw [hne l e, hc l e]
            have : idAt t (View.dash (v.full q)) ≠ idAt t (View.dash (v.full p)) := fun e' => e (hinj l k q y p x hl ha e')
            simp only [if_neg this]
            exact I.set l q y hl
      have hov : ∀ M : Mem α, over (fun j c => if j = idAt t (View.dash (v.full p)) then (fun c => c) (g (idAt t (View.dash (v.full p))) c) else g j c) M =
          over g M := by
        intro M
        congr 1
        funext j c
        by_cases e : j = idAt t (View.dash (v.full p))
        · rw [if_pos e, e]
        · rw [if_neg e]
      have r := I.set k p x ha
      generalize hg : W.gs k = G at r
      cases r with
      | idle hn hgi =>
        refine move (fun c => c) (by rw [hov, hg]; exact I.mem) ?_
        rw [hg]
        exact .finds _ (B k) _ (hS k p x ha _) (by omega) hgi
      | finds f b pc hf hn hgi =>
        by_cases hpc : pc = .mark (idAt t (View.dash (v.full p)))
        · subst hpc
          refine move (fun c => { c with hasData := true }) ?_ ?_
          · refine Eq.trans ?_ (over_mark g _ _ fun c => { c with hasData := true }).symm
            rw [hg, ← I.mem]; rfl
          · rw [hg]
            exact .store f (by omega) (by rw [hgi])
        · cases b with
          | zero => exact absurd hf hpc
          | succ b =>
            rcases hf with hf | hf
            · exact absurd hf hpc
            obtain ⟨f1, f2⟩ := hf _ g (fun _ => Nat.le_refl _)
            rw [← hmem S', ← I.mem] at f1 f2
            have e2 : Gor.step t.root.id gap W.mem ⟨v, [], .sets (jobOf v t k p x) pc, [], f⟩ =
                ((insStep (jobOf v t k p x) W.mem pc).1, ⟨v, [], .sets (jobOf v t k p x) (insStep (jobOf v t k p x) W.mem pc).2, [], f⟩) := by
              cases pc with
              | done => exact absurd f2 finds_done
              | _ => rfl
            refine move (fun c => c) (by rw [hov, hg, e2, ← I.mem]; exact f1) ?_
            rw [hg, e2]
            exact .finds f b _ f2 (by omega) hgi
      | store f hn hgi =>
        refine move (fun c => { c with data := x }) ?_ ?_
        · refine Eq.trans ?_ (over_mark g _ _ fun c => { c with data := x }).symm
          rw [hg, ← I.mem]; rfl
        · rw [hg]
          exact .fin f (by omega) (by rw [hgi]; rfl)
      | fin f hn hgi =>
        refine move (fun c => c) (by rw [hov, hg]; exact I.mem) ?_
        rw [hg]
        exact .done f hgi
      | done f hgi =>
        refine move (fun c => c) (by rw [hov, hg]; exact I.mem) ?_
        rw [hg]
        exact .done f hgi
end

theorem finds_crash {J : Job α} {ms : (Nat → Nat) → Mem α} {i : Nat} : ∀ {n : Nat} {s : Nat → Nat}, ¬ Finds J ms i n s .crash
  | 0, _, h => by cases h
  | n + 1, s, h => by
    rcases h with h | h
    · cases h
    · exact finds_crash (h s (fun _ c => c) (fun _ => Nat.le_refl _)).2

section
variable {v : View} {t : Tree α} {as : List (Act α)}

omit [Inhabited α] in
theorem stored_node (h : t.OK) {q : Str} (hs : t.contents q ≠ none) : ∃ m, (q, m) ∈ t.root.nodes [] := by
  rw [Tree.contents_eq h] at hs
  cases e : t.nodeAt q with
  | none => rw [e] at hs; exact absurd rfl hs
  | some m => exact ⟨m, (Tree.nodeAt_some h).mp e⟩

theorem mems_len {base : Mem α} {plan : Nat → Option Task} (hl : Prune.Lays base t) {u : Str} {m : Node α}
    (hm : (u, m) ∈ t.root.nodes []) (s : Nat → Nat) :
    (Prune.mems base plan s m.id).len ≤ (Prune.mems base plan s m.id).arr.length := by
  rcases Prune.mems_cell (plan := plan) hl hm with h | ⟨k, T, _, _, h⟩
  · rw [h]; simp [Prune.cellOf]
  · rw [h, Prune.slid_len]
    simp only [Prune.slid, Prune.slide_length, Prune.cellOf, List.length_map]
    split <;> omega

theorem set_inj (h : t.OK) (hs : Spared v t as) (j k : Nat) (p : Str) (x : α) (p' : Str) (x' : α) (hj : as[j]? = some (.set p x))
    (hk : as[k]? = some (.set p' x')) (e : idAt t (View.dash (v.full p)) = idAt t (View.dash (v.full p'))) : j = k := by
  obtain ⟨m, hm⟩ := stored_node h (hs.stored p x (List.mem_of_getElem? hj))
  obtain ⟨m', hm'⟩ := stored_node h (hs.stored p' x' (List.mem_of_getElem? hk))
  rw [idAt_mem h hm, idAt_mem h hm'] at e
  exact hs.apart j k p x p' x' hj hk (Prod.mk.inj (h.id_inj hm hm' e)).1
end

end Parts
end Verif

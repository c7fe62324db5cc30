import Verif.Lemmas.RaceRead
import Verif.Lemmas.RaceWorld
import Verif.Spec.RaceRead
/-
Goroutines that replace values: no path and no list of children changes.
-/
namespace Verif
namespace Race
variable {α : Type}

open Node (commonPrefixLen)

/-- Two memories that differ in the values only. -/
def Shape (M M' : Mem α) : Prop := ∀ x, (M x).path = (M' x).path ∧ (M x).kids = (M' x).kids

theorem nodes_shape {M M' : Mem α} (hs : Shape M M') (n : Node α) : ∀ {n' : Node α} {u q : Str} {m : Node α}, Holds M n →
    Holds M' n' → n.id = n'.id → (q, m) ∈ Node.nodes u n → ∃ m', (q, m') ∈ Node.nodes u n' ∧ m'.id = m.id := by
  induction n using Node.ind with
  | h i p c k ih =>
    intro n' u q m hM hM' he hm
    have h1 := hM.cell
    have h2 := hM'.cell
    rw [← he] at h2
    have hp := (hs (Node.mk i p c k).id).1
    have hk := (hs (Node.mk i p c k).id).2
    rw [h1, h2] at hp hk
    rw [Node.mem_nodes] at hm
    rcases hm with hm | ⟨e, hem, hm⟩
    · refine ⟨n', ?_, ?_⟩
      · rw [Node.mem_nodes]
        left
        rw [(Prod.mk.inj hm).1]
        exact congrArg (fun x => (u ++ x, n')) hp
      · rw [(Prod.mk.inj hm).2]; exact he.symm
    · have : e.id ∈ n'.kids.map Node.id := by
        rw [← show ((Node.mk i p c k).kids).map Node.id = n'.kids.map Node.id from hk]; exact List.mem_map.mpr ⟨e, hem, rfl⟩
      obtain ⟨e', he', hid⟩ := List.mem_map.mp this
      obtain ⟨m', h3, h4⟩ := ih e hem (hM.kid hem) (hM'.kid he') hid.symm hm
      refine ⟨m', ?_, h4⟩
      rw [Node.mem_nodes]
      refine .inr ⟨e', he', ?_⟩
      rw [← show p = n'.path from hp]
      exact h3

/-- The insertion of a stored path. -/
theorem goes_stored {t : Tree α} (h : t.OK) {q : Str} {m : Node α} (hm : (q, m) ∈ t.root.nodes []) :
    Goes t.root q m m.path ∧ Stop m.path m := by
  obtain ⟨m', w', h1, h2⟩ := target t.root q
  have h3 := h1.hits h2 h.wf (u := []) hm
  subst h3
  obtain ⟨u', h4, h5⟩ := h1.path []
  have : m' = m := by
    rw [List.nil_append] at h5
    rw [← h5] at h4
    have := (Tree.nodeAt_some h).mpr h4
    rw [(Tree.nodeAt_some h).mpr hm] at this
    exact (Option.some.inj this).symm
  subst this
  exact ⟨h1, h2⟩

variable [Inhabited α]

/-- While values are replaced: `L` are the goroutines that have returned. -/
structure InvA (t : Tree α) (kvs : List (Str × α)) (L : List Nat) (W : World α) : Prop where
  shape : Shape (start t kvs).mem W.mem
  flags : ∀ q m, (q, m) ∈ t.root.nodes [] → (W.mem m.id).core.leaf = m.core.leaf ∧ (W.mem m.id).core.hasData = m.core.hasData
  holds : Holds W.mem (after t (pick kvs L)).root
  idle : ∀ k, kvs.length ≤ k → W.pcs k = .done
  pcs : ∀ k kv, kvs[k]? = some kv → ∀ m, (kv.1, m) ∈ t.root.nodes [] →
    At (jobs t kvs k) (start t kvs).mem t.root kv.1 m m.path (start t kvs).mem (W.pcs k) ∨ W.pcs k = .store m.id ∨
      W.pcs k = .done

theorem InvA.init {t : Tree α} (h : t.OK) (kvs : List (Str × α)) : InvA t kvs [] (start t kvs) where
  shape := fun _ => ⟨rfl, rfl⟩
  flags := by
    intro q m hm
    obtain ⟨g, _⟩ := goes_stored h hm
    rw [(g.holds (start_holds h)).cell]
    exact ⟨rfl, rfl⟩
  holds := start_holds h
  idle := fun k hk => by simp only [Race.start]; simp [hk]
  pcs := by
    intro k kv hk m hm
    left
    simp only [Race.start, hk]
    exact .enter (.here _ _)

/-- A step that only reads depends on the shape only. -/
theorem step_shape {J : Job α} {M M' : Mem α} (hs : Shape M M') (pc : Pc)
    (hpc : (∃ w i, pc = .enter w i) ∨ (∃ w i, pc = .look w i) ∨ ∃ w i js, pc = .scan w i js) :
    step J M' pc = (M', (step J M pc).2) ∧ (step J M pc).1 = M ∧ (step J M pc).2 ≠ .done := by
  rcases hpc with ⟨w, i, rfl⟩ | ⟨w, i, rfl⟩ | ⟨w, i, js, rfl⟩
  · simp only [step, (hs i).1, (hs i).2]
    split
    · exact ⟨rfl, rfl, nofun⟩
    · split
      · exact ⟨rfl, rfl, nofun⟩
      · split <;> exact ⟨rfl, rfl, nofun⟩
  · simp only [step, (hs i).2]
    exact ⟨trivial, trivial, nofun⟩
  · cases js with
    | nil => exact ⟨rfl, rfl, nofun⟩
    | cons j js =>
      simp only [step, (hs j).1]
      split <;> exact ⟨rfl, rfl, nofun⟩

/-- Where a goroutine that replaces a value can stand. -/
theorem At.kinds {J : Job α} {M0 : Mem α} {n : Node α} {w : Str} {m : Node α} {w' : Str} {M : Mem α} {pc : Pc}
    (ha : At J M0 n w m w' M pc) (hw : w' = (M0 m.id).path) :
    (M = M0 ∧ ((∃ w i, pc = .enter w i) ∨ (∃ w i, pc = .look w i) ∨ ∃ w i js, pc = .scan w i js)) ∨ pc = .mark m.id ∨
      pc = .store m.id ∨ pc = .done := by
  have hc : commonPrefixLen w' (M0 m.id).path = w'.length := by rw [← hw]; exact cpl_prefix (List.prefix_refl _)
  cases ha with
  | enter h => exact .inl ⟨rfl, .inl ⟨_, _, rfl⟩⟩
  | look h hp => exact .inl ⟨rfl, .inr (.inl ⟨_, _, rfl⟩)⟩
  | scan h hp k pre post hk hpre => exact .inl ⟨rfl, .inr (.inr ⟨_, _, _, rfl⟩)⟩
  | tail ht =>
    cases ht with
    | halve h => rw [hc, ← hw] at h; omega
    | cut k hk h => rw [hc, ← hw] at h; omega
    | look h => omega
    | scan h js hj => omega
    | leaf h => omega
    | link h => omega
    | mark h => exact .inr (.inl rfl)
    | store h => exact .inr (.inr (.inl rfl))
    | done => exact .inr (.inr (.inr rfl))

/-- The memory when a value has been replaced. -/
theorem final_replace {M : Mem α} {n : Node α} (hM : Holds M n) {w : Str} {m : Node α} (hg : Goes n w m m.path)
    (kv : Str × α) (f : Nat) (hd : (M m.id).core.hasData = true) :
    final ⟨kv.1, kv.2, f⟩ M m.id m.path = M.set m.id { M m.id with core := { (M m.id).core with data := kv.2 } } := by
  have hc := (hg.holds hM).cell
  have h1 : commonPrefixLen m.path (M m.id).path = m.path.length := by
    rw [hc]; exact cpl_prefix (List.prefix_refl _)
  have h2 : base ⟨kv.1, kv.2, f⟩ M m.id m.path = M := by
    rw [base]
    simp only [h1]
    rw [if_neg (by rw [hc]; simp)]
  rw [final]
  simp only [h1, h2, Nat.lt_irrefl, if_false]
  congr 1
  generalize M m.id = x at hd ⊢
  obtain ⟨a, ⟨⟩, c⟩ := x
  simp only at hd
  subst hd
  rfl

theorem set_holds {t : Tree α} (h : t.OK) {M : Mem α} (hM : Holds M t.root) (J : Job α) (hf : J.fresh = t.next)
    {m : Node α} {w' : Str} (hg : Goes t.root J.key m w') (hs : Stop w' m) :
    Holds (final J M m.id w') (View.insertAt t J.key J.val).1.root := by
  have S := setup h hM J (by omega) hg hs
  have hm := final_holds J M (hg.holds hM) (hg.nodup h.nodup) (fun hx => S.f1 (hg.ids hx))
    (fun hx => S.f2 (hg.ids hx)) w'
  have := insert_holds J hg hs hM h.nodup
    (fun x h1 h2 => final_out J M m.id w' h1 (S.ne1 h2) (S.ne2 h2)) hm
    (fuel := J.key.length + 2) ⟨h.wf, .inl ⟨h.nil, by omega⟩⟩
  rw [hf] at this
  exact this

theorem InvA.tick {t : Tree α} (h : t.OK) {kvs : List (Str × α)} (hr : Replaces t kvs) {L : List Nat} {W : World α}
    (I : InvA t kvs L W) (k : Nat) :
    InvA t kvs (L ++ if W.pcs k ≠ .done ∧ (W.tick (jobs t kvs) k).pcs k = .done then [k] else []) (W.tick (jobs t kvs) k) := by
  -- a goroutine that only moves on
  have move : ∀ pc', step (jobs t kvs k) W.mem (W.pcs k) = (W.mem, pc') → (W.pcs k ≠ .done → pc' ≠ .done) →
      (∀ kv, kvs[k]? = some kv → ∀ m, (kv.1, m) ∈ t.root.nodes [] →
        At (jobs t kvs k) (start t kvs).mem t.root kv.1 m m.path (start t kvs).mem pc' ∨ pc' = .store m.id ∨ pc' = .done) →
      (kvs.length ≤ k → pc' = .done) →
      InvA t kvs (L ++ if W.pcs k ≠ .done ∧ (W.tick (jobs t kvs) k).pcs k = .done then [k] else []) (W.tick (jobs t kvs) k) := by
    intro pc' he hd hp hi
    have ht : W.tick (jobs t kvs) k = { mem := W.mem, pcs := fun l => if l = k then pc' else W.pcs l } := by
      rw [World.tick]
      simp only [he]
    rw [ht]
    simp only [if_true]
    rw [if_neg (fun hh => hd hh.1 hh.2), List.append_nil]
    refine ⟨I.shape, I.flags, I.holds, fun l hl => ?_, fun l kv hl m hm => ?_⟩
    · dsimp only
      split
      · rename_i e; exact hi (e ▸ hl)
      · exact I.idle l hl
    · dsimp only
      split
      · rename_i e; subst e; exact hp kv hl m hm
      · exact I.pcs l kv hl m hm
  by_cases hk : k < kvs.length
  · obtain ⟨kv, hkv⟩ : ∃ kv, kvs[k]? = some kv := ⟨kvs[k], List.getElem?_eq_getElem hk⟩
    obtain ⟨c, hc, hd⟩ := hr kv (List.mem_of_getElem? hkv)
    obtain ⟨m, hm, rfl⟩ := (Tree.contents_node h).mp hc
    have huniq : ∀ m', (kv.1, m') ∈ t.root.nodes [] → m' = m := by
      intro m' hm'
      have := (Tree.nodeAt_some h).mpr hm'
      rw [(Tree.nodeAt_some h).mpr hm] at this
      exact (Option.some.inj this).symm
    obtain ⟨hg, hst⟩ := goes_stored h hm
    have S := setup h (start_holds (kvs := kvs) h) (jobs t kvs k) (by simp [jobs]) hg hst
    have hp : ∀ {pc'}, (At (jobs t kvs k) (start t kvs).mem t.root kv.1 m m.path (start t kvs).mem pc' ∨ pc' = .store m.id ∨ pc' = .done) →
        ∀ kv', kvs[k]? = some kv' → ∀ m', (kv'.1, m') ∈ t.root.nodes [] →
        At (jobs t kvs k) (start t kvs).mem t.root kv'.1 m' m'.path (start t kvs).mem pc' ∨ pc' = .store m'.id ∨ pc' = .done := by
      intro pc' h1 kv' hkv' m' hm'
      rw [hkv] at hkv'
      obtain rfl := Option.some.inj hkv'
      rw [huniq m' hm']; exact h1
    have hcpl : commonPrefixLen m.path ((start t kvs).mem m.id).path = m.path.length := by
      rw [S.cell]; exact cpl_prefix (List.prefix_refl _)
    have hcell : ((start t kvs).mem m.id).path = m.path := by rw [S.cell]
    have hM : (W.mem m.id).core.hasData = true := by rw [(I.flags _ _ hm).2]; exact hd
    -- the first write changes nothing
    have hmark : W.pcs k = .mark m.id → InvA t kvs
        (L ++ if W.pcs k ≠ .done ∧ (W.tick (jobs t kvs) k).pcs k = .done then [k] else []) (W.tick (jobs t kvs) k) := by
      intro e
      refine move (.store m.id) ?_ (fun _ => nofun) (hp (.inr (.inl rfl))) (fun h => by omega)
      rw [e, step]
      have : ({ W.mem m.id with core := { (W.mem m.id).core with hasData := true } } : Cell α) = W.mem m.id := by
        generalize W.mem m.id = x at hM ⊢
        obtain ⟨a, ⟨⟩, c⟩ := x
        simp only at hM
        subst hM
        rfl
      rw [this, set_same]
    -- the second replaces the value
    have hstore : W.pcs k = .store m.id → InvA t kvs
        (L ++ if W.pcs k ≠ .done ∧ (W.tick (jobs t kvs) k).pcs k = .done then [k] else []) (W.tick (jobs t kvs) k) := by
      intro e
      have ht : W.tick (jobs t kvs) k =
          { mem := W.mem.set m.id { W.mem m.id with core := { (W.mem m.id).core with data := kv.2 } },
            pcs := fun l => if l = k then .done else W.pcs l } := by
        rw [World.tick, e]
        simp only [step, jobs_key hkv]
      rw [ht]
      simp only [if_true, e]
      rw [if_pos ⟨nofun, trivial⟩]
      have hok := after_ok h (pick kvs L)
      obtain ⟨m', hm', hid⟩ := nodes_shape I.shape t.root (start_holds h) I.holds (after_id h _).symm hm
      refine ⟨fun x => ?_, fun q n hn => ?_, ?_, fun l hl => ?_, fun l kv' hl n hn => ?_⟩ <;> dsimp only
      · rw [(I.shape x).1, (I.shape x).2]
        by_cases hx : x = m.id
        · subst hx; rw [set_eq]; exact ⟨rfl, rfl⟩
        · rw [set_ne _ _ hx]; exact ⟨rfl, rfl⟩
      · have := I.flags q n hn
        by_cases hx : n.id = m.id
        · rw [hx] at this ⊢; rw [set_eq]; exact this
        · rw [set_ne _ _ hx]; exact this
      · have he : after t (pick kvs (L ++ [k])) = (View.insertAt (after t (pick kvs L)) kv.1 kv.2).1 := by
          rw [pick, List.map_append, List.map_cons, List.map_nil, after_snoc, hkv]; rfl
        rw [he]
        obtain ⟨g', s'⟩ := goes_stored hok hm'
        have hf := final_replace I.holds g' kv (after t (pick kvs L)).next (by rw [hid]; exact hM)
        rw [hid] at hf
        rw [← hf, ← hid]
        exact set_holds hok I.holds _ rfl g' s'
      · split
        · rfl
        · exact I.idle l hl
      · split
        · exact .inr (.inr rfl)
        · exact I.pcs l kv' hl n hn
    rcases I.pcs k kv hkv m hm with ha | he | he
    · rcases ha.kinds hcell.symm with ⟨_, hpc⟩ | he | he | he
      · have hnext := ha.step S
        obtain ⟨h1, h2, h3⟩ := step_shape (J := jobs t kvs k) I.shape _ hpc
        rw [h2] at hnext
        exact move _ h1 (fun _ => h3) (hp (.inl hnext)) (fun h => by omega)
      · exact hmark he
      · exact hstore he
      · exact move .done (by rw [he]; rfl) (fun h => absurd he h) (hp (.inr (.inr rfl))) (fun _ => rfl)
    · exact hstore he
    · exact move .done (by rw [he]; rfl) (fun h => absurd he h) (hp (.inr (.inr rfl))) (fun _ => rfl)
  · exact move .done (by rw [I.idle k (by omega)]; rfl) (fun h => absurd (I.idle k (by omega)) h)
      (fun kv hkv => by rw [List.getElem?_eq_none (by omega)] at hkv; cases hkv) (fun _ => rfl)

theorem InvA.run {t : Tree α} (h : t.OK) {kvs : List (Str × α)} (hr : Replaces t kvs) (S : List Nat) : ∀ {L : List Nat}
    {W : World α}, InvA t kvs L W → InvA t kvs (L ++ finishes (jobs t kvs) W S) (W.run (jobs t kvs) S) := by
  induction S with
  | nil => intro L W I; rw [finishes, List.append_nil]; exact I
  | cons k S ih =>
    intro L W I
    have := ih (I.tick h hr k)
    rw [List.append_assoc] at this
    exact this

/-- The goroutines stand where they would stand alone. -/
def Alone (t : Tree α) (kvs : List (Str × α)) (c : Nat → Nat) (W : World α) : Prop :=
  ∀ k, k < kvs.length →
    W.pcs k = (alone (jobs t kvs k) (c k) ((start t kvs).mem, .enter (jobs t kvs k).key t.root.id)).2

theorem InvA.own {t : Tree α} (h : t.OK) {kvs : List (Str × α)} (hr : Replaces t kvs) {L : List Nat} {W : World α}
    (I : InvA t kvs L W) {c : Nat → Nat} (ho : Alone t kvs c W) (k : Nat) :
    Alone t kvs (fun l => if l = k then c l + 1 else c l) (W.tick (jobs t kvs) k) := by
  intro l hl
  by_cases hlk : l = k
  · subst hlk
    simp only [World.tick, if_true]
    rw [alone_succ, ← ho l hl]
    obtain ⟨kv, hkv⟩ : ∃ kv, kvs[l]? = some kv := ⟨kvs[l], List.getElem?_eq_getElem hl⟩
    obtain ⟨c0, hc, hd⟩ := hr kv (List.mem_of_getElem? hkv)
    obtain ⟨m, hm, rfl⟩ := (Tree.contents_node h).mp hc
    obtain ⟨hg, hst⟩ := goes_stored h hm
    have hkey : (jobs t kvs l).key = kv.1 := by rw [jobs_key hkv]
    have S := setup h (start_holds (kvs := kvs) h) (jobs t kvs l) (by simp [jobs]) hg hst
    have ha := alone_at S (c l) (.enter (.here _ _))
    rw [← hkey, ← ho l hl] at ha
    rcases ha.kinds (by rw [S.cell]) with ⟨e, hpc⟩ | e | e | e
    · rw [e, (step_shape I.shape _ hpc).1]
    · rw [e]; rfl
    · rw [e]; rfl
    · rw [e]; rfl
  · simp only [World.tick, hlk, if_false]
    exact ho l hl

theorem InvA.run_own {t : Tree α} (h : t.OK) {kvs : List (Str × α)} (hr : Replaces t kvs) (S : List Nat) : ∀ {L : List Nat}
    {W : World α} {c : Nat → Nat}, InvA t kvs L W → Alone t kvs c W →
    Alone t kvs (fun l => c l + S.count l) (W.run (jobs t kvs) S) := by
  induction S with
  | nil => intro L W c _ ho; exact ho
  | cons k S ih =>
    intro L W c I ho
    have := ih (I.tick h hr k) (I.own h hr ho k)
    refine cast ?_ this
    congr 1
    funext l
    rw [List.count_cons]
    by_cases hl : l = k
    · subst hl; simp; omega
    · have : (k == l) = false := by simp [Ne.symm hl]
      simp [hl, this]

theorem own_start (t : Tree α) (kvs : List (Str × α)) : Alone t kvs (fun _ => 0) (start t kvs) := by
  intro k hk
  simp only [alone, Race.start, jobs]
  simp [hk]

/-- The entries while values are replaced. -/
theorem InvA.contents {t : Tree α} (h : t.OK) {kvs : List (Str × α)} {L : List Nat} {W : World α} (I : InvA t kvs L W)
    (q : Str) : (after t (pick kvs L)).contents q = (t.nodeAt q).map fun m => (W.mem m.id).core := by
  have hok := after_ok h (pick kvs L)
  rw [Tree.contents_eq hok]
  cases hn : t.nodeAt q with
  | none =>
    rw [Tree.nodeAt_none.mpr]
    · rfl
    · intro m hm
      obtain ⟨m', h1, _⟩ := nodes_shape (M := W.mem) (M' := (start t kvs).mem)
        (fun x => ⟨(I.shape x).1.symm, (I.shape x).2.symm⟩) _ I.holds (start_holds h) (after_id h _) hm
      exact Tree.nodeAt_none.mp hn m' h1
  | some m =>
    have hm := (Tree.nodeAt_some h).mp hn
    obtain ⟨m', h1, h2⟩ := nodes_shape I.shape t.root (start_holds h) I.holds (after_id h _).symm hm
    rw [(Tree.nodeAt_some hok).mpr h1, Option.map_some, Option.map_some, ← h2,
      ((goes_stored hok h1).1.holds I.holds).cell]

theorem InvA.query {t : Tree α} (h : t.OK) {kvs : List (Str × α)} {L : List Nat} {W : World α} (I : InvA t kvs L W)
    {v : View} (hm : v.mode ≠ .up) (p : Str) (hp : t.ClearAt v.delim (v.full p)) :
    v.query (after t (pick kvs L)) p = .ok (match resolve v.delim t.nodeAt (v.full p) with
      | some (q, m) => ansOf v.delim q (W.mem m.id).core
      | none => ansNone) := by
  rw [query_at (after_ok h _) hm p]
  · rw [funext (I.contents h), resolve_map]
    cases resolve v.delim t.nodeAt (v.full p) <;> rfl
  · intro q c hc
    rw [I.contents h] at hc
    obtain ⟨m, h1, _⟩ := Option.map_eq_some_iff.mp hc
    exact hp q m.core (by rw [Tree.contents_eq h, h1]; rfl)

/-- What the lookup needs of the memory. -/
theorem InvA.calm {t : Tree α} (h : t.OK) {kvs : List (Str × α)} {L : List Nat} {W : World α} (I : InvA t kvs L W)
    (d : Char) (w : Str) : Calm d W.mem t.root w := by
  intro m w' hg
  have hh := hg.holds (start_holds (kvs := kvs) h)
  have hc := hh.cell
  refine ⟨.inl ?_, fun _ _ => ⟨?_, fun c hcm => ?_⟩⟩
  · rw [← (I.shape _).1, hc]
  · rw [← (I.shape _).2, hc]
  · rw [← (I.shape _).1, (hh.kid hcm).cell]

theorem watch_world (d : Char) (Js : Nat → Job α) (S : List (Option Nat)) : ∀ (W : World α) (r : Rd α),
    (watch d Js (W, r) S).1 = W.run Js (writers S) := by
  induction S with
  | nil => intro W r; rfl
  | cons a S ih => intro W r; cases a <;> exact ih _ _

theorem nodeAt_flags {t : Tree α} (h : t.OK) {kvs : List (Str × α)} {L : List Nat} {W : World α} (I : InvA t kvs L W)
    {q : Str} {m : Node α} (hm : t.nodeAt q = some m) : (W.mem m.id).path = m.path ∧
      (W.mem m.id).core.leaf = m.core.leaf ∧ (W.mem m.id).core.hasData = m.core.hasData := by
  have hm' := (Tree.nodeAt_some h).mp hm
  refine ⟨?_, I.flags q m hm'⟩
  rw [← (I.shape _).1, ((goes_stored h hm').1.holds (start_holds (kvs := kvs) h)).cell]

/-- What a lookup is proved from: what the memories that it may find have in common with the tree, and what the
answer is that goes with each of them. `A` says which goroutines may make steps meanwhile. -/
theorem watch_reads_of {t : Tree α} (h : t.OK) {d : Char} {w : Str} (hp : t.ClearAt d w) (Js : Nat → Job α) {W0 : World α}
    {K : World α → Prop} (A : Nat → Prop) (hK : ∀ S, (∀ l ∈ S, A l) → K (W0.run Js S))
    (calm : ∀ W, K W → Calm d W.mem t.root w)
    (hit : ∀ W, K W → ∀ q m, resolve d t.nodeAt w = some (q, m) → (W.mem m.id).path = m.path ∧
      (W.mem m.id).core.leaf = m.core.leaf ∧ (W.mem m.id).core.hasData = m.core.hasData) :
    ∃ N, ∀ S : List (Option Nat), (∀ l ∈ writers S, A l) →
      let r := (watch d Js (W0, .enter w t.root.id []) S).2
      r ≠ .crash ∧ (N ≤ S.count none → ∃ a, r = .done a) ∧
      ∀ a, r = .done a → ∃ S1 S2, S = S1 ++ S2 ∧ a = match resolve d t.nodeAt w with
        | some (q, m) => ansOf d q ((W0.run Js (writers S1)).mem m.id).core
        | none => ansNone := by
  obtain ⟨N, hN⟩ := leads_query (G := fun M => ∃ W, K W ∧ M = W.mem) (P := fun _ => True) h hp
    (by rintro M ⟨W, hW, rfl⟩; exact calm W hW)
    (by rintro q m hr M ⟨W, hW, rfl⟩; obtain ⟨h1, h2, h3⟩ := hit W hW q m hr; exact ⟨h1, h2, h3, trivial⟩)
    (fun _ _ _ => trivial)
  refine ⟨N, fun S hA => ?_⟩
  have hpre : ∀ S1 S2, S = S1 ++ S2 → ∀ l ∈ writers S1, A l := by
    rintro S1 S2 rfl l hl
    exact hA l (by rw [writers, List.filterMap_append]; exact List.mem_append_left _ hl)
  have hmem : ∀ S1 S2, S = S1 ++ S2 → K (watch d Js (W0, .enter w t.root.id []) S1).1 := by
    intro S1 S2 e; rw [watch_world]; exact hK _ (hpre S1 S2 e)
  have h2 := watch_leads Js S (W := W0) (fun S1 S2 e => ⟨_, hmem S1 S2 e, rfl⟩) hN
  have hK0 : ∃ W, K W ∧ W0.mem = W.mem := ⟨W0, hK [] nofun, rfl⟩
  refine ⟨fun e => ?_, fun hS => ?_, fun a e => ?_⟩
  · rw [e] at h2; exact leads_crash (M := W0.mem) hK0 h2
  · rw [Nat.sub_eq_zero_of_le hS] at h2
    obtain ⟨a, ha, _⟩ := h2
    exact ⟨a, ha⟩
  · obtain ⟨N', hN'⟩ := leads_query (G := fun M => ∃ S1 S2, S = S1 ++ S2 ∧ M = (W0.run Js (writers S1)).mem)
      (P := fun a => ∃ S1 S2, S = S1 ++ S2 ∧ a = match resolve d t.nodeAt w with
        | some (q, m) => ansOf d q ((W0.run Js (writers S1)).mem m.id).core
        | none => ansNone) h hp
      (by rintro M ⟨S1, S2, e', rfl⟩; exact calm _ (hK _ (hpre S1 S2 e')))
      (by
        rintro q m hr M ⟨S1, S2, hS, rfl⟩
        obtain ⟨h1, h2, h3⟩ := hit _ (hK (writers S1) (hpre S1 S2 hS)) q m hr
        exact ⟨h1, h2, h3, S1, S2, hS, by rw [hr]⟩)
      (by rintro hr M ⟨S1, S2, hS, rfl⟩; exact ⟨S1, S2, hS, by rw [hr]⟩)
    have h4 := watch_leads Js S (W := W0) (fun S1 S2 hS => ⟨S1, S2, hS, by rw [watch_world]⟩) hN'
    rw [e] at h4
    exact leads_done (M := W0.mem) ⟨[], S, rfl, rfl⟩ h4

theorem watch_reads {t : Tree α} (h : t.OK) {d : Char} {w : Str} (hp : t.ClearAt d w) (Js : Nat → Job α) {W0 : World α}
    {K : World α → Prop} (hK : ∀ S, K (W0.run Js S)) (calm : ∀ W, K W → Calm d W.mem t.root w)
    (hit : ∀ W, K W → ∀ q m, resolve d t.nodeAt w = some (q, m) → (W.mem m.id).path = m.path ∧
      (W.mem m.id).core.leaf = m.core.leaf ∧ (W.mem m.id).core.hasData = m.core.hasData) :
    ∃ N, ∀ S : List (Option Nat),
      let r := (watch d Js (W0, .enter w t.root.id []) S).2
      r ≠ .crash ∧ (N ≤ S.count none → ∃ a, r = .done a) ∧
      ∀ a, r = .done a → ∃ S1 S2, S = S1 ++ S2 ∧ a = match resolve d t.nodeAt w with
        | some (q, m) => ansOf d q ((W0.run Js (writers S1)).mem m.id).core
        | none => ansNone := by
  obtain ⟨N, hN⟩ := watch_reads_of h hp Js (fun _ => True) (fun S _ => hK S) calm hit
  exact ⟨N, fun S => hN S fun _ _ => trivial⟩

end Race
end Verif

import Verif.Lemmas.RaceReplace
import Verif.Lemmas.History
/-
A lookup beside goroutines that do not get in its way.
-/
namespace Verif
namespace Race
variable {α : Type}

open Node (commonPrefixLen)

/-! ### The tree with more keys in it -/

theorem prefix_lcp {z a b : Str} (h1 : z <+: a) (h2 : z <+: b) : z <+: lcp a b := by
  obtain ⟨x, rfl⟩ := h1
  obtain ⟨y, rfl⟩ := h2
  rw [lcp_append_left]
  exact List.prefix_append _ _

section
variable [Inhabited α]

theorem Free.mono {t : Tree α} (h : t.OK) {w l : Str} (hf : Free t w l) (key : Str) (x : α) :
    Free (View.insertAt t key x).1 w l := by
  have hs := View.insertAt_spec h key x
  have keep : ∀ s, (t.contents s).isSome → ((View.insertAt t key x).1.contents s).isSome := by
    intro s hs'
    by_cases e : s = key
    · obtain ⟨c, hc, _⟩ := hs.atKey
      rw [e, hc]; rfl
    · obtain ⟨c, hc⟩ := Option.isSome_iff_exists.mp hs'
      rw [hs.keep s c e hc]; rfl
  rcases hf with ⟨h1, h2⟩ | ⟨s, z, h1, h2⟩
  · exact .inl ⟨keep _ h1, h2⟩
  · exact .inr ⟨s, z, keep _ h1, h2⟩

/-- No entry appears at a path that the new key does not get in the way of. -/
theorem Free.none {t : Tree α} (h : t.OK) {w l : Str} (hf : Free t w l) (x : α) (hn : t.contents w = none) :
    (View.insertAt t l x).1.contents w = none := by
  have hs := View.insertAt_spec h l x
  have hwl : w ≠ l := by
    rintro rfl
    rcases hf with ⟨_, h2⟩ | ⟨s, z, _, _, h3, h4⟩
    · exact h2 rfl
    · exact h4 h3
  cases hc : (View.insertAt t l x).1.contents w with
  | none => rfl
  | some c =>
    exfalso
    obtain ⟨k0, c0, h1, h2, h3, _⟩ := hs.new w c hwl hn hc
    have closed : ∀ s c1, t.contents s = some c1 → w ≠ lcp k0 s := by
      intro s c1 h4 e
      obtain ⟨c', h5⟩ := Tree.lcp_closed h h1 h4
      rw [← e, hn] at h5; cases h5
    rcases hf with ⟨h4, _⟩ | ⟨s, z, h4, h5, h6, h7⟩
    · obtain ⟨c1, h4⟩ := Option.isSome_iff_exists.mp h4
      exact closed l c1 h4 h2
    · obtain ⟨c1, h4⟩ := Option.isSome_iff_exists.mp h4
      have hne : lcp z k0 ≠ z := by
        intro e
        have : z <+: k0 := by rw [← e]; exact lcp_prefix_right _ _
        exact h7 (h2 ▸ prefix_lcp this h6)
      refine closed s c1 h4 ?_
      rw [h2, lcp_comm k0 l, lcp_comm k0 s, lcp_extend hne h6, lcp_extend hne h5]

theorem resolve_of {β : Type} {d : Char} {f : Str → Option β} {w q : Str} {c : β} (hq : f q = some c)
    (h : q = w ∨ (q = w ++ [d] ∧ f w = none ∧ w ≠ [])) : resolve d f w = some (q, c) := by
  rcases h with rfl | ⟨rfl, h1, h2⟩
  · simp [resolve, hq]
  · simp [resolve, h1, h2, hq]

theorem resolve_keep {t : Tree α} (h : t.OK) {d : Char} {w q : Str} {c : Core α} (hr : resolve d t.contents w = some (q, c))
    {l : Str} (hl : l ≠ q) (hf : Free t w l) (x : α) : resolve d (View.insertAt t l x).1.contents w = some (q, c) := by
  obtain ⟨h1, h2⟩ := resolve_cases hr
  refine resolve_of ((View.insertAt_spec h l x).keep q c (Ne.symm hl) h1) ?_
  rcases h2 with h2 | ⟨h2, h3, h4⟩
  · exact .inl h2
  · exact .inr ⟨h2, hf.none h x h3, h4⟩

theorem resolve_put {t : Tree α} (h : t.OK) {d : Char} {w q : Str} {c : Core α} (hr : resolve d t.contents w = some (q, c))
    (x : α) : resolve d (View.insertAt t q x).1.contents w = some (q, { c with hasData := true, data := x }) := by
  obtain ⟨h1, h2⟩ := resolve_cases hr
  obtain ⟨c', h3, h4⟩ := (View.insertAt_spec h q x).atKey
  rw [putCore, h1] at h4
  simp only at h4
  subst h4
  refine resolve_of h3 ?_
  rcases h2 with h2 | ⟨h2, h3, h4⟩
  · exact .inl h2
  · refine .inr ⟨h2, Free.none h (.inl ⟨by rw [h1]; rfl, ?_⟩) x h3, h4⟩
    rw [h2]; simp

theorem after_resolve (rs : List (Str × α)) : ∀ {t : Tree α}, t.OK → ∀ {d : Char} {w q : Str} {c : Core α},
    resolve d t.contents w = some (q, c) → (rs.map (·.1)).Nodup → (∀ kv ∈ rs, kv.1 = q ∨ Free t w kv.1) →
    (∀ x, (q, x) ∈ rs → resolve d (after t rs).contents w = some (q, { c with hasData := true, data := x })) ∧
    (q ∉ rs.map (·.1) → resolve d (after t rs).contents w = some (q, c)) := by
  induction rs with
  | nil => intro t h d w q c hr _ _; exact ⟨fun x hx => (by cases hx), fun _ => hr⟩
  | cons kv rs ih =>
    intro t h d w q c hr hn hf
    rw [List.map_cons, List.nodup_cons] at hn
    have hf' : ∀ kv' ∈ rs, kv'.1 = q ∨ Free (View.insertAt t kv.1 kv.2).1 w kv'.1 := fun kv' hkv' =>
      (hf kv' (by simp [hkv'])).imp (fun e => e) fun hf => hf.mono h _ _
    have hok := View.insertAt_ok h kv.1 kv.2
    by_cases e : kv.1 = q
    · have h1 := resolve_put h hr kv.2
      rw [← e] at h1
      have h2 := (ih hok (d := d) (w := w) (q := q) (by rw [e] at h1 ⊢; exact h1) hn.2 hf').2 (e ▸ hn.1)
      refine ⟨fun x hx => ?_, fun hq => absurd (by simp [e]) hq⟩
      rcases List.mem_cons.mp hx with hx | hx
      · subst hx; exact h2
      · exact absurd (List.mem_map.mpr ⟨_, hx, rfl⟩) (e ▸ hn.1)
    · have hfr := (hf kv (by simp)).resolve_left e
      obtain ⟨h1, h2⟩ := ih hok (resolve_keep h hr e hfr kv.2) hn.2 hf'
      refine ⟨fun x hx => ?_, fun hq => ?_⟩
      · rcases List.mem_cons.mp hx with hx | hx
        · rw [← hx] at e; exact absurd rfl e
        · exact h1 x hx
      · exact h2 fun hx => hq (by simp [hx])
end

/-! ### The memory -/

theorem Goes.append {n : Node α} {w : Str} {m : Node α} {w' : Str} (h : Goes n w m w') (x : Str) :
    Goes n (w ++ x) m (w' ++ x) := by
  induction h with
  | here n w => exact .here _ _
  | @down n w c m w' hp hg ih =>
    obtain ⟨h1, h2, pre, post, h3, h4, h5⟩ := hp
    have hd : (w ++ x).drop n.path.length = w.drop n.path.length ++ x := by
      rw [List.drop_append_of_le_length (by omega)]
    have hh : ((w ++ x).drop n.path.length).head? = (w.drop n.path.length).head? := by
      rw [hd]
      cases hw : w.drop n.path.length with
      | nil => have := congrArg List.length hw; simp at this; omega
      | cons => rfl
    refine .down ⟨h1.trans (List.prefix_append _ _), by simp; omega, pre, post, h3, ?_, ?_⟩ ?_
    · rw [hh]; exact h4
    · rw [hh]; exact h5
    · rw [hd]; exact ih

theorem kid_nodes (n : Node α) : ∀ {u q : Str} {m c : Node α}, (q, m) ∈ Node.nodes u n → c ∈ m.kids →
    (q ++ c.path, c) ∈ Node.nodes u n := by
  induction n using Node.ind with
  | h i p co k ih =>
    intro u q m c hm hc
    rw [Node.mem_nodes] at hm
    rcases hm with hm | ⟨e, he, hm⟩
    · obtain ⟨rfl, rfl⟩ := Prod.mk.inj hm
      rw [Node.mem_nodes]
      exact .inr ⟨c, hc, by rw [Node.mem_nodes]; exact .inl rfl⟩
    · rw [Node.mem_nodes]
      exact .inr ⟨e, he, ih e he hm hc⟩

section
variable [Inhabited α]

/-- A goroutine that passes over the whole path of a node leaves it as it is, but for the children. -/
theorem Tail.over {J : Job α} {M0 : Mem α} {i : Nat} {w : Str} {M : Mem α} {pc : Pc} (h : Tail J M0 i w M pc)
    (hw : (M0 i).path <+: w) (hl : (M0 i).path.length < w.length) (hf : i ≠ J.fresh + 1) :
    (M i).path = (M0 i).path ∧ (M i).core = (M0 i).core := by
  have hc : commonPrefixLen w (M0 i).path = (M0 i).path.length := cpl_prefix hw
  have hb : base J M0 i w = M0 := by
    rw [base]; simp only [hc, Nat.lt_irrefl, if_false]
  cases h with
  | halve h => omega
  | cut k hk h => omega
  | look h => rw [hb]; exact ⟨rfl, rfl⟩
  | scan h js hj => rw [hb]; exact ⟨rfl, rfl⟩
  | leaf h => rw [hb]; exact ⟨rfl, rfl⟩
  | link h => rw [hb, set_ne _ _ hf]; exact ⟨rfl, rfl⟩
  | mark h => omega
  | store h => omega
  | done =>
    rw [final]
    simp only [hc, hl, if_true, hb, set_eq]
    exact ⟨trivial, trivial⟩

/-- A goroutine that replaces a value: it is there when it has returned, not earlier. -/
theorem Tail.value {J : Job α} {M0 : Mem α} {i : Nat} {w : Str} {M : Mem α} {pc : Pc} (h : Tail J M0 i w M pc)
    (hw : w = (M0 i).path) (hd : (M0 i).core.hasData = true) :
    (pc ≠ .done ∧ (M i).core = (M0 i).core) ∨
      (pc = .done ∧ (M i).core = { (M0 i).core with hasData := true, data := J.val }) := by
  have hc : commonPrefixLen w (M0 i).path = w.length := by rw [← hw]; exact cpl_prefix (List.prefix_refl _)
  have hb : base J M0 i w = M0 := by
    rw [base, if_neg]
    rw [hc, hw]; omega
  cases h with
  | halve h => exact .inl ⟨nofun, rfl⟩
  | cut k hk h => rw [hc, ← hw] at h; omega
  | look h => omega
  | scan h js hj => omega
  | leaf h => omega
  | link h => omega
  | mark h => rw [hb]; exact .inl ⟨nofun, rfl⟩
  | store h =>
    rw [hb, set_eq]
    refine .inl ⟨nofun, ?_⟩
    generalize M0 i = x at hd
    obtain ⟨a, ⟨⟩, c⟩ := x
    simp only at hd
    subst hd
    rfl
  | done =>
    rw [final]
    simp only [hc, Nat.lt_irrefl, if_false, hb, set_eq]
    exact .inr ⟨trivial, trivial⟩

theorem At.over {J : Job α} {M0 : Mem α} {n : Node α} {w : Str} {m : Node α} {w' : Str} (S : Setup J M0 n w m w')
    {M : Mem α} {pc : Pc} (h : At J M0 n w m w' M pc) (hw : m.path <+: w') (hl : m.path.length < w'.length) :
    (M m.id).path = (M0 m.id).path ∧ (M m.id).core = (M0 m.id).core := by
  cases h with
  | enter h => exact ⟨rfl, rfl⟩
  | look h hp => exact ⟨rfl, rfl⟩
  | scan h hp k pre post hk hpre => exact ⟨rfl, rfl⟩
  | tail h => exact h.over (by rw [S.cell]; exact hw) (by rw [S.cell]; exact hl) (S.ne2 S.mid)

theorem At.value {J : Job α} {M0 : Mem α} {n : Node α} {w : Str} {m : Node α} {w' : Str} (S : Setup J M0 n w m w')
    {M : Mem α} {pc : Pc} (h : At J M0 n w m w' M pc) (hw : w' = m.path) (hd : m.core.hasData = true) :
    (pc ≠ .done ∧ (M m.id).core = (M0 m.id).core) ∨
      (pc = .done ∧ (M m.id).core = { (M0 m.id).core with hasData := true, data := J.val }) := by
  cases h with
  | enter h => exact .inl ⟨nofun, rfl⟩
  | look h hp => exact .inl ⟨nofun, rfl⟩
  | scan h hp k pre post hk hpre => exact .inl ⟨nofun, rfl⟩
  | tail h => exact h.value (by rw [S.cell]; exact hw) (by rw [S.cell]; exact hd)

variable {t : Tree α} {kvs : List (Str × α)} {tgt : Nat → Node α} {rem : Nat → Str}

/-- Whose node it is. -/
theorem Inv.owner (T : Targets t kvs tgt rem) (h : t.OK) {c : Nat → Nat} {W : World α} (I : Inv t kvs tgt c W)
    {q : Str} {m : Node α} (hm : (q, m) ∈ t.root.nodes []) :
    W.mem m.id = ⟨m.path, m.core, m.kids.map Node.id⟩ ∨ ∃ k, k < kvs.length ∧ tgt k = m ∧
      W.mem m.id = (alone (jobs t kvs k) (c k) ((Race.start t kvs).mem, .enter (jobs t kvs k).key t.root.id)).1 m.id := by
  have hg := (goes_stored h hm).1
  have hlt := ok_lt h (hg.ids (id_ids m))
  by_cases hex : ∃ l, l < kvs.length ∧ Own (jobs t kvs l) (tgt l).id m.id
  · obtain ⟨l, hl, ho⟩ := hex
    have he : m.id = (tgt l).id := by simp only [Own, jobs] at ho; omega
    obtain ⟨u, h1, _⟩ := (T.goes l).path []
    exact .inr ⟨l, hl, (same_node h hm h1 he).2.symm, I.own l hl _ ho⟩
  · left
    rw [I.rest m.id fun l hl ho => hex ⟨l, hl, ho⟩, (hg.holds (start_holds h)).cell]

omit [Inhabited α] in
/-- A goroutine at a node that the lookup comes across replaces the value there, or passes over it where the
lookup ends. -/
theorem meets (h : t.OK) {d : Char} {w q : Str} {mq : Node α} (hr : resolve d t.nodeAt w = some (q, mq))
    {l : Str} (hl : l = q ∨ Free t w l) {m : Node α} {w' r : Str} (hg : Goes t.root w m w')
    (hgl : Goes t.root l m r) (hsl : Stop r m) :
    (r = m.path ∧ (l, m) ∈ t.root.nodes []) ∨ (¬ m.path <+: w' ∧ m.path <+: r ∧ m.path.length < r.length) := by
  have hit : ∀ x, (l, x) ∈ t.root.nodes [] → r = m.path ∧ (l, m) ∈ t.root.nodes [] := by
    intro x hx
    obtain ⟨h1, h2⟩ := goes_stored h hx
    obtain ⟨e1, e2⟩ := hgl.unique hsl h1 h2
    rw [e2, e1]
    exact ⟨rfl, hx⟩
  have hmq := (Tree.nodeAt_some h).mp (resolve_some hr)
  rcases hl with rfl | ⟨hl, _⟩ | ⟨s, z, h1, h2, h3, h4⟩
  · exact .inl (hit mq hmq)
  · obtain ⟨c, hc⟩ := Option.isSome_iff_exists.mp hl
    obtain ⟨x, hx, _⟩ := (Tree.contents_node h).mp hc
    exact .inl (hit x hx)
  · obtain ⟨c, hc⟩ := Option.isSome_iff_exists.mp h1
    obtain ⟨x, hx, _⟩ := (Tree.contents_node h).mp hc
    obtain ⟨u, p1, e1⟩ := hgl.path []
    obtain ⟨u2, p2, e2⟩ := hg.path []
    rw [List.nil_append] at e1 e2
    have hu : u2 = u := by
      have := (same_node h p2 p1 rfl).1
      exact List.append_cancel_right this
    subst hu
    have hz := hgl.longest hsl h.wf p1 (by rw [List.nil_append]; exact e1) h.nodup hx h2 (by rw [List.nil_append]; exact h3)
    have hno : ¬ m.path <+: w' := by
      intro hp
      refine h4 (hz.trans ?_)
      rw [e2, List.prefix_append_right_inj]
      exact hp
    -- the lookup ends here
    have hst : Stop w' m := fun c hp => hno hp.1
    have hend : m.path = w' ++ [d] := by
      obtain ⟨g1, s1⟩ := goes_stored h hmq
      rcases (resolve_cases hr).2 with e | ⟨e, _, _⟩
      · rw [e] at g1
        obtain ⟨e3, e4⟩ := hg.unique hst g1 s1
        rw [e3, e4] at hno
        exact absurd (List.prefix_refl _) hno
      · rw [e] at g1
        have hst' : Stop (w' ++ [d]) m := by
          intro c hp
          refine hno ?_
          have := hp.2.1
          exact List.prefix_of_prefix_length_le hp.1 (List.prefix_append _ _) (by simp at this; omega)
        obtain ⟨e3, e4⟩ := (hg.append [d]).unique hst' g1 s1
        rw [e3, e4]
    have hzw : ¬ z.length ≤ (u2 ++ w').length := by
      intro hle
      refine h4 ?_
      rw [e2]
      refine List.prefix_of_prefix_length_le hz ?_ hle
      rw [hend, ← List.append_assoc]
      exact List.prefix_append _ _
    have hze : z = u2 ++ m.path := by
      refine hz.eq_of_length ?_
      have := hz.length_le
      rw [hend] at this ⊢
      simp at this hzw ⊢
      omega
    rw [hze, e1, List.prefix_append_right_inj] at h3
    by_cases hlt : m.path.length < r.length
    · exact .inr ⟨hno, h3, hlt⟩
    · left
      have : m.path = r := h3.eq_of_length (Nat.le_antisymm h3.length_le (by omega))
      refine ⟨this.symm, ?_⟩
      rw [e1, ← this]
      exact p1

omit [Inhabited α] in
/-- The lookup comes across the node that it finds. -/
theorem comes (h : t.OK) {d : Char} {w q : Str} {mq : Node α} (hr : resolve d t.nodeAt w = some (q, mq)) :
    ∃ w', Goes t.root w mq w' := by
  have hmq := (Tree.nodeAt_some h).mp (resolve_some hr)
  obtain ⟨g1, s1⟩ := goes_stored h hmq
  rcases (resolve_cases hr).2 with e | ⟨e, hnone, _⟩
  · rw [e] at g1; exact ⟨_, g1⟩
  · rw [e] at g1
    obtain ⟨m, w', hg, hs⟩ := target t.root w
    have hst : Stop (w' ++ [d]) m := by
      intro c hp
      have hlen := hp.2.1
      have hpre : m.path <+: w' :=
        List.prefix_of_prefix_length_le hp.1 (List.prefix_append _ _) (by simp at hlen; omega)
      by_cases hlt : m.path.length < w'.length
      · obtain ⟨_, _, pre, post, h3, h4, h5⟩ := hp
        have hh : ((w' ++ [d]).drop m.path.length).head? = (w'.drop m.path.length).head? := by
          rw [List.drop_append_of_le_length (by omega)]
          cases hw : w'.drop m.path.length with
          | nil => have := congrArg List.length hw; simp at this; omega
          | cons => rfl
        rw [hh] at h4 h5
        exact hs c ⟨hpre, hlt, pre, post, h3, h4, h5⟩
      · have he : m.path = w' := hpre.eq_of_length (Nat.le_antisymm hpre.length_le (by omega))
        obtain ⟨u, h1, h2⟩ := hg.path []
        rw [he, ← h2] at h1
        exact Tree.nodeAt_none.mp hnone m h1
    rw [← ((hg.append [d]).unique hst g1 s1).1]
    exact ⟨w', hg⟩

/-- What the lookup needs of the memory. -/
theorem Inv.calm (T : Targets t kvs tgt rem) (h : t.OK) {c : Nat → Nat} {W : World α} (I : Inv t kvs tgt c W)
    {d : Char} {w q : Str} {mq : Node α} (hr : resolve d t.nodeAt w = some (q, mq)) (hb : Beside t kvs w q mq.core) :
    Calm d W.mem t.root w := by
  intro m w' hg
  obtain ⟨u, hm, _⟩ := hg.path []
  have heads : ∀ c ∈ m.kids, (W.mem c.id).path.head? = c.path.head? := by
    intro e he
    have hme : (u ++ m.path ++ e.path, e) ∈ t.root.nodes [] := kid_nodes _ hm he
    rcases I.owner T h hme with h1 | ⟨k, hk, rfl, h1⟩
    · rw [h1]
    · rw [h1, (T.at h k (c k)).head (T.setup h k) h.nil, (T.setup h k).cell]
  rcases I.owner T h hm with h1 | ⟨k, hk, rfl, h1⟩
  · rw [h1]
    exact ⟨.inl rfl, fun _ _ => ⟨rfl, heads⟩⟩
  · have S := T.setup h k
    have hkv : kvs[k] ∈ kvs := List.getElem_mem hk
    have hkey : (jobs t kvs k).key = kvs[k].1 := by rw [jobs_key (List.getElem?_eq_getElem hk)]
    have hl : (jobs t kvs k).key = q ∨ Free t w (jobs t kvs k).key := by
      rw [hkey]; exact (hb _ hkv).imp (·.1) (·.2)
    rcases meets h hr hl hg (T.goes k) (T.stop k) with ⟨h2, _⟩ | ⟨h2, h3, h4⟩
    · have := (T.at h k (c k)).soft S h2
      rw [h1, this.1, this.2, S.cell]
      exact ⟨.inl rfl, fun _ _ => ⟨rfl, heads⟩⟩
    · refine ⟨.inl ?_, fun h5 => absurd h5 h2⟩
      rw [h1]
      exact (At.over S (T.at h k (c k)) h3 h4).1.trans (by rw [S.cell])

/-! ### A key that is not there -/

omit [Inhabited α] in
/-- Keys that do not get in the way of `w` followed by the delimiter do not get in the way of `w`. -/
theorem Free.shorter {d : Char} {w l : Str} (hn : t.contents w = .none) (hf : Free t (w ++ [d]) l) : Free t w l := by
  rcases hf with ⟨h1, _⟩ | ⟨s, z, h1, h2, h3, h4⟩
  · refine .inl ⟨h1, ?_⟩
    rintro rfl
    rw [hn] at h1
    cases h1
  · exact .inr ⟨s, z, h1, h2, h3, fun h => h4 (h.trans (List.prefix_append _ _))⟩

theorem after_absent {d : Char} {w : Str} (rs : List (Str × α)) : ∀ {t : Tree α}, t.OK → resolve d t.contents w = none →
    (∀ kv ∈ rs, Free t (w ++ [d]) kv.1) → resolve d (after t rs).contents w = none := by
  induction rs with
  | nil => exact fun _ hr _ => hr
  | cons kv rs ih =>
    intro t h hr hf
    refine ih (View.insertAt_ok h kv.1 kv.2) ?_ fun kv' hkv' => (hf kv' (by simp [hkv'])).mono h _ _
    obtain ⟨h1, h2⟩ := resolve_none.mp hr
    exact resolve_none.mpr ⟨((hf kv (by simp)).shorter h1).none h kv.2 h1, fun hw => (hf kv (by simp)).none h kv.2 (h2 hw)⟩

omit [Inhabited α] in
theorem prefix_take_cpl {z w p : Str} (h1 : z <+: w) (h2 : z <+: p) : z <+: p.take (commonPrefixLen w p) := by
  obtain ⟨x, rfl⟩ := h1
  obtain ⟨y, rfl⟩ := h2
  have : z.length ≤ commonPrefixLen (z ++ x) (z ++ y) := by
    induction z with
    | nil => simp
    | cons a z ih => simpa [commonPrefixLen] using ih
  rw [List.take_append, List.take_of_length_le this]
  exact List.prefix_append _ _

/-- What is there of the path of the node: all of it, or what it has in common with the word. -/
theorem Tail.path {J : Job α} {M0 : Mem α} {i : Nat} {w : Str} {M : Mem α} {pc : Pc} (h : Tail J M0 i w M pc)
    (hi : i ≠ J.fresh + 1) :
    (M i).path = (M0 i).path ∨ (M i).path = (M0 i).path.take (commonPrefixLen w (M0 i).path) := by
  have hcut : ∀ {f pos e : Nat} {s : Cell α} (k : Nat), (cutTo f pos e k s).path = s.path ∨ (cutTo f pos e k s).path = s.path.take pos := by
    intro f pos e s k
    induction k with
    | zero => exact .inl rfl
    | succ k ih =>
      rw [cutTo]
      match k, ih with
      | 0, ih => exact .inr rfl
      | 1, ih => exact ih
      | 2, ih => exact ih
      | 3, ih => exact ih
      | 4, ih => exact ih
      | 5, ih => exact ih
      | 6, ih => exact ih
      | _ + 7, ih => exact ih
  have hbase : (base J M0 i w i).path = (M0 i).path ∨
      (base J M0 i w i).path = (M0 i).path.take (commonPrefixLen w (M0 i).path) := by
    rw [base]
    by_cases hc : commonPrefixLen w (M0 i).path < (M0 i).path.length
    · simp only [hc, if_true, set_eq]; exact hcut 8
    · simp only [hc, if_false]; exact .inl trivial
  cases h with
  | halve hc => exact .inl rfl
  | cut k hk hc => rw [set_eq]; exact hcut k
  | look hw => exact hbase
  | scan hw js hj => exact hbase
  | leaf hw => exact hbase
  | link hw => rw [set_ne _ _ hi]; exact hbase
  | mark hw => exact hbase
  | store hw => rw [set_eq]; exact hbase
  | done =>
    rw [final]
    split
    · rw [set_eq]; exact hbase
    · rw [set_eq]; exact hbase

theorem At.path {J : Job α} {M0 : Mem α} {n : Node α} {w : Str} {m : Node α} {w' : Str} (S : Setup J M0 n w m w')
    {M : Mem α} {pc : Pc} (h : At J M0 n w m w' M pc) :
    (M m.id).path = (M0 m.id).path ∨ (M m.id).path = (M0 m.id).path.take (commonPrefixLen w' (M0 m.id).path) := by
  cases h with
  | enter h => exact .inl rfl
  | look h hp => exact .inl rfl
  | scan h hp k pre post hk hpre => exact .inl rfl
  | tail h => exact h.path (S.ne2 S.mid)

omit [Inhabited α] in
/-- A goroutine at a node that the lookup comes across replaces the value there, or cuts it where the lookup has
left it before. -/
theorem meets_absent (h : t.OK) {d : Char} {w l : Str} (hl : Free t (w ++ [d]) l) {m : Node α} {w' r : Str}
    (hg : Goes t.root w m w') (hgl : Goes t.root l m r) (hsl : Stop r m) :
    r = m.path ∨ ∃ z, z <+: m.path ∧ z <+: r ∧ ¬ z <+: w' ++ [d] := by
  rcases hl with ⟨hl, _⟩ | ⟨s, z, h1, h2, h3, h4⟩
  · left
    obtain ⟨c, hc⟩ := Option.isSome_iff_exists.mp hl
    obtain ⟨x, hx, _⟩ := (Tree.contents_node h).mp hc
    obtain ⟨h1, h2⟩ := goes_stored h hx
    obtain ⟨e1, e2⟩ := hgl.unique hsl h1 h2
    rw [e2, e1]
  · right
    obtain ⟨c, hc⟩ := Option.isSome_iff_exists.mp h1
    obtain ⟨x, hx, _⟩ := (Tree.contents_node h).mp hc
    obtain ⟨u, p1, e1⟩ := hgl.path []
    obtain ⟨u2, p2, e2⟩ := hg.path []
    rw [List.nil_append] at e1 e2
    have hu : u2 = u := by
      have := (same_node h p2 p1 rfl).1
      exact List.append_cancel_right this
    subst hu
    have hz := hgl.longest hsl h.wf p1 (by rw [List.nil_append]; exact e1) h.nodup hx h2 (by rw [List.nil_append]; exact h3)
    have huz : u2 <+: z := by
      refine List.prefix_of_prefix_length_le (List.prefix_append _ _) hz ?_
      by_cases hle : u2.length ≤ z.length
      · exact hle
      · refine absurd ?_ h4
        have : z <+: u2 := List.prefix_of_prefix_length_le hz (List.prefix_append _ _) (by omega)
        rw [e2, List.append_assoc]
        exact this.trans (List.prefix_append _ _)
    obtain ⟨z', rfl⟩ := huz
    rw [List.prefix_append_right_inj] at hz
    rw [e1, List.prefix_append_right_inj] at h3
    rw [e2, List.append_assoc, List.prefix_append_right_inj] at h4
    exact ⟨z', hz, h3, h4⟩

/-- What the lookup needs of the memory. -/
theorem Inv.calm_absent (T : Targets t kvs tgt rem) (h : t.OK) {c : Nat → Nat} {W : World α} (I : Inv t kvs tgt c W)
    {d : Char} {w : Str} (hf : ∀ k kv, kvs[k]? = some kv → c k = 0 ∨ Free t (w ++ [d]) kv.1) : Calm d W.mem t.root w := by
  intro m w' hg
  obtain ⟨u, hm, _⟩ := hg.path []
  have heads : ∀ c ∈ m.kids, (W.mem c.id).path.head? = c.path.head? := by
    intro e he
    have hme : (u ++ m.path ++ e.path, e) ∈ t.root.nodes [] := kid_nodes _ hm he
    rcases I.owner T h hme with h1 | ⟨k, hk, rfl, h1⟩
    · rw [h1]
    · rw [h1, (T.at h k (c k)).head (T.setup h k) h.nil, (T.setup h k).cell]
  rcases I.owner T h hm with h1 | ⟨k, hk, rfl, h1⟩
  · rw [h1]
    exact ⟨.inl rfl, fun _ _ => ⟨rfl, heads⟩⟩
  · have S := T.setup h k
    rcases hf k kvs[k] (List.getElem?_eq_getElem hk) with h0 | hl
    · rw [h1, h0]
      rw [show (alone (jobs t kvs k) 0 ((Race.start t kvs).mem, .enter (jobs t kvs k).key t.root.id)).1 = (Race.start t kvs).mem
        from rfl, S.cell]
      exact ⟨.inl rfl, fun _ _ => ⟨rfl, heads⟩⟩
    replace hl : Free t (w ++ [d]) (jobs t kvs k).key := by
      rw [jobs_key (List.getElem?_eq_getElem hk)]; exact hl
    rcases meets_absent h hl hg (T.goes k) (T.stop k) with h2 | ⟨z, h2, h3, h4⟩
    · have := (T.at h k (c k)).soft S h2
      rw [h1, this.1, this.2, S.cell]
      exact ⟨.inl rfl, fun _ _ => ⟨rfl, heads⟩⟩
    · refine ⟨?_, fun h5 => absurd ((h2.trans h5).trans (List.prefix_append _ _)) h4⟩
      have hp := (T.at h k (c k)).path S
      rw [h1]
      rw [S.cell] at hp
      refine hp.imp (fun e => e) fun e => ?_
      rw [e]
      refine ⟨List.take_prefix _ _, fun h5 => h4 (List.IsPrefix.trans ?_ h5)⟩
      exact prefix_take_cpl h3 h2

omit [Inhabited α] in
theorem mem_returned {W : World α} {kv : Str × α} : kv ∈ returned kvs W ↔ ∃ k, kvs[k]? = some kv ∧ W.pcs k = .done := by
  simp only [returned, List.mem_map, List.mem_filter, beq_iff_eq]
  constructor
  · rintro ⟨⟨kv', k⟩, ⟨h1, h2⟩, rfl⟩
    exact ⟨k, List.mem_zipIdx_iff_getElem?.mp h1, h2⟩
  · rintro ⟨k, h1, h2⟩
    exact ⟨(kv, k), ⟨List.mem_zipIdx_iff_getElem?.mpr h1, h2⟩, rfl⟩

omit [Inhabited α] in
theorem returned_nodup {W : World α} (hn : (kvs.map (·.1)).Nodup) : ((returned kvs W).map (·.1)).Nodup := by
  have h1 : (returned kvs W).Sublist kvs := by
    have := (List.filter_sublist (p := fun e : (Str × α) × Nat => W.pcs e.2 == .done) (l := kvs.zipIdx)).map (·.1)
    rw [List.zipIdx_map_fst] at this
    exact this
  exact hn.sublist (h1.map _)

/-- What the lookup finds at the node it comes to. -/
theorem Inv.answer (T : Targets t kvs tgt rem) (h : t.OK) {c : Nat → Nat} {W : World α} (I : Inv t kvs tgt c W)
    (hn : (kvs.map (·.1)).Nodup)
    {d : Char} {w q : Str} {mq : Node α} (hr : resolve d t.nodeAt w = some (q, mq)) (hb : Beside t kvs w q mq.core) :
    (W.mem mq.id).path = mq.path ∧ (W.mem mq.id).core.leaf = mq.core.leaf ∧
      (W.mem mq.id).core.hasData = mq.core.hasData ∧
      resolve d (after t (returned kvs W)).contents w = some (q, (W.mem mq.id).core) := by
  have hm := (Tree.nodeAt_some h).mp (resolve_some hr)
  have hrc : resolve d t.contents w = some (q, mq.core) := by rw [resolve_contents h, hr]; rfl
  have hsub : ∀ kv ∈ returned kvs W, kv ∈ kvs := by
    intro kv hkv
    obtain ⟨k, hk, _⟩ := mem_returned.mp hkv
    exact List.mem_of_getElem? hk
  obtain ⟨a1, a2⟩ := after_resolve (returned kvs W) h hrc (returned_nodup hn) fun kv hkv =>
    (hb kv (hsub kv hkv)).imp (·.1) (·.2)
  -- the keys differ
  have huniq : ∀ (k l : Nat) (kv kv' : Str × α), kvs[k]? = some kv → kvs[l]? = some kv' → kv.1 = kv'.1 → k = l := by
    intro k l kv kv' hk hl e
    have h1 : (kvs.map (·.1))[k]? = (kvs.map (·.1))[l]? := by
      rw [List.getElem?_map, List.getElem?_map, hk, hl]; simp [e]
    have hlt : k < (kvs.map (·.1)).length := by
      rw [List.length_map]; exact (List.getElem?_eq_some_iff.mp hk).1
    exact (List.getElem?_inj hlt hn).mp h1
  obtain ⟨g1, s1⟩ := goes_stored h hm
  -- a goroutine with the key `q` stops at `mq`
  have hq : ∀ k, k < kvs.length → (jobs t kvs k).key = q → tgt k = mq := by
    intro k hk e
    have := T.goes k
    rw [e] at this
    exact (this.unique (T.stop k) g1 s1).1
  by_cases hex : ∃ k, k < kvs.length ∧ (jobs t kvs k).key = q
  · obtain ⟨k, hk, hkq⟩ := hex
    have hkv := List.getElem?_eq_getElem hk
    have hkey : (jobs t kvs k).key = kvs[k].1 := by rw [jobs_key hkv]
    have hval : (jobs t kvs k).val = kvs[k].2 := by rw [jobs_key hkv]
    have hd : mq.core.hasData = true := by
      rcases hb kvs[k] (List.getElem_mem hk) with h1 | h1
      · exact h1.2
      · exact absurd (hkey.symm.trans hkq) h1.1
    have ht := hq k hk hkq
    have S := T.setup h k
    have A := T.at h k (c k)
    have hrem : rem k = (tgt k).path := by
      have := T.goes k
      rw [hkq] at this
      rw [(this.unique (T.stop k) g1 s1).2, ht]
    have hmem : W.mem mq.id = (alone (jobs t kvs k) (c k) ((Race.start t kvs).mem, .enter (jobs t kvs k).key t.root.id)).1 mq.id :=
      I.own k hk _ (.inl (by rw [ht]))
    have hcell := S.cell
    have hsoft := A.soft S hrem
    have hvalue := A.value S hrem (by rw [ht]; exact hd)
    rw [ht] at hcell hsoft hvalue
    rw [← I.pc k hk] at hvalue
    rw [← hmem] at hsoft hvalue
    refine ⟨by rw [hsoft.1, hcell], ?_⟩
    rcases hvalue with ⟨h1, h2⟩ | ⟨h1, h2⟩
    · rw [h2, hcell]
      refine ⟨rfl, rfl, a2 ?_⟩
      intro hx
      obtain ⟨kv, hkv', e⟩ := List.mem_map.mp hx
      obtain ⟨l, hl, hdone⟩ := mem_returned.mp hkv'
      have := huniq k l _ _ hkv hl (by rw [e, ← hkey, hkq])
      exact h1 (this ▸ hdone)
    · rw [h2, hcell]
      refine ⟨rfl, hd.symm, ?_⟩
      rw [hval]
      refine a1 _ (mem_returned.mpr ⟨k, ?_, h1⟩)
      rw [hkv, ← hkq, hkey]
  · have hno : q ∉ (returned kvs W).map (·.1) := by
      intro hx
      obtain ⟨kv, hkv', e⟩ := List.mem_map.mp hx
      obtain ⟨l, hl, _⟩ := mem_returned.mp hkv'
      exact hex ⟨l, (List.getElem?_eq_some_iff.mp hl).1, by rw [jobs_key hl]; exact e⟩
    rcases I.owner T h hm with h1 | ⟨k, hk, ht, h1⟩
    · rw [h1]
      exact ⟨rfl, rfl, rfl, a2 hno⟩
    · have S := T.setup h k
      have hl : (jobs t kvs k).key = q ∨ Free t w (jobs t kvs k).key := by
        rw [jobs_key (List.getElem?_eq_getElem hk)]
        exact (hb _ (List.getElem_mem hk)).imp (·.1) (·.2)
      obtain ⟨w', hg⟩ := comes h hr
      have hgk := T.goes k
      have hsk := T.stop k
      rw [ht] at hgk hsk
      have key : mq.path <+: rem k ∧ mq.path.length < (rem k).length := by
        rcases meets h hr hl hg hgk hsk with ⟨_, h2⟩ | ⟨_, h2, h3⟩
        · exact absurd ⟨k, hk, (same_node h h2 hm rfl).1⟩ hex
        · exact ⟨h2, h3⟩
      have := At.over S (T.at h k (c k)) (by rw [ht]; exact key.1) (by rw [ht]; exact key.2)
      rw [ht] at this
      have hcell := S.cell
      rw [ht] at hcell
      rw [h1, this.1, this.2, hcell]
      exact ⟨rfl, rfl, rfl, a2 hno⟩
end

end Race
end Verif
